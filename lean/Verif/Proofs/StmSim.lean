import Verif.Proofs.StmCoarse

/-! When one process does what another one does, in fewer and larger steps. -/

set_option linter.unusedSectionVars false

namespace GB

variable {α β : Type}

/-- The process makes some steps while nobody else makes any. -/
inductive Alone : Proc α → DB → DB → Proc α → Prop
  | refl {p : Proc α} {db : DB} : Alone p db db p
  | step {u : DB → DB} {n : DB → Proc α} {db db' : DB} {q : Proc α} : Alone (n db) (u db) db' q → Alone (.tx u n) db db' q

theorem Alone.one {u : DB → DB} {n : DB → Proc α} {db : DB} : Alone (.tx u n) db (u db) (n db) := .step .refl

theorem Alone.trans {p q r : Proc α} {a b c : DB} (h1 : Alone p a b q) (h2 : Alone q b c r) : Alone p a c r := by
  induction h1 with
  | refl => exact h2
  | step _ ih => exact .step (ih h2)

theorem Alone.bind {p q : Proc α} {a b : DB} (h : Alone p a b q) (f : α → Proc β) : Alone (p.bind f) a b (q.bind f) := by
  induction h with
  | refl => exact .refl
  | step _ ih => exact .step ih

/-- Alone from these contents, the process raises. -/
def Fails (p : Proc α) (db : DB) : Prop := ∃ db' e, Alone p db db' (.ret (.error e))

theorem Fails.trans {p q : Proc α} {a b : DB} (h1 : Alone p a b q) (h2 : Fails q b) : Fails p a := by
  obtain ⟨db', e, h⟩ := h2
  exact ⟨db', e, h1.trans h⟩

theorem Fails.bind {p : Proc α} {a : DB} (h : Fails p a) (f : α → Proc β) : Fails (p.bind f) a := by
  obtain ⟨db', e, h⟩ := h
  exact ⟨db', e, h.bind f⟩

/-- What `p` does, `q` can do by several steps at once, or else it raises. -/
def Mimic : Proc α → Proc α → Prop
  | .ret r, q => ∀ db, Alone q db db (.ret r)
  | .tx u n, q => ∀ db, (∃ q', Alone q db (u db) q' ∧ Mimic (n db) q') ∨ Fails q db

theorem Mimic.refl (p : Proc α) : Mimic p p := by
  induction p with
  | ret r => exact fun db => .refl
  | tx u n ih => exact fun db => .inl ⟨_, .one, ih db⟩

theorem Mimic.pre {p q q' : Proc α} (h : ∀ db, Alone q db db q') (hs : Mimic p q') : Mimic p q := by
  cases p with
  | ret r => exact fun db => (h db).trans (hs db)
  | tx u n =>
    intro db
    rcases hs db with ⟨q'', h1, h2⟩ | h1
    · exact .inl ⟨q'', (h db).trans h1, h2⟩
    · exact .inr (h1.trans (h db))

theorem Mimic.bind {p q : Proc α} {f g : α → Proc β} (hp : Mimic p q) (hf : ∀ a, Mimic (f a) (g a)) :
    Mimic (p.bind f) (q.bind g) := by
  induction p generalizing q with
  | ret r =>
    cases r with
    | ok a => exact Mimic.pre (fun db => (hp db).bind g) (hf a)
    | error e => exact fun db => (hp db).bind g
  | tx u n ih =>
    intro db
    rcases hp db with ⟨q', h1, h2⟩ | h1
    · exact .inl ⟨_, h1.bind g, ih db h2⟩
    · exact .inr (h1.bind g)

theorem Mimic.each {f g : α → Proc Unit} {xs : List α} (h : ∀ x ∈ xs, Mimic (f x) (g x)) :
    Mimic (Proc.each f xs) (Proc.each g xs) := by
  induction xs with
  | nil => exact Mimic.refl _
  | cons x xs ih => exact (h x (by simp)).bind fun _ => ih fun y hy => h y (by simp [hy])

/-! ### systems -/

theorem alone_reach {p q : Proc Unit} {a b : DB} (h : Alone p a b q) : ∀ {procs : List (Proc Unit)} {i : Nat},
    procs[i]? = some p → (Sys.mk a procs).Reach ⟨b, procs.set i q⟩ := by
  induction h with
  | refl =>
    intro procs i hi
    obtain ⟨hl, rfl⟩ := List.getElem?_eq_some_iff.1 hi
    rw [List.set_getElem_self]
    exact .refl
  | @step u n db db' q _ ih =>
    intro procs i hi
    obtain ⟨hl, _⟩ := List.getElem?_eq_some_iff.1 hi
    have h1 := ih (procs := procs.set i (n db)) (i := i) (by simp [hl])
    rw [List.set_set] at h1
    exact reach_step (.tx i hi) h1

/-- No process of the system ever raises. -/
def NoFail (σ : Sys) : Prop := ∀ τ, σ.Reach τ → ∀ e, (Proc.ret (.error e)) ∉ τ.procs

/-- Every process of `τ` does what the one of `σ` does. -/
def MimicSys (σ τ : Sys) : Prop :=
  τ.db = σ.db ∧ ∀ (i : Nat) (p : Proc Unit), σ.procs[i]? = some p → ∃ q, τ.procs[i]? = some q ∧ Mimic p q

theorem MimicSys.set {σ τ : Sys} (h : MimicSys σ τ) {i : Nat} {p q : Proc Unit} {db : DB} (hs : Mimic p q)
    (hl : i < τ.procs.length) : MimicSys ⟨db, σ.procs.set i p⟩ ⟨db, τ.procs.set i q⟩ := by
  refine ⟨rfl, ?_⟩
  intro j p' hj
  rcases getElem?_set_cases hj with ⟨rfl, rfl, _⟩ | ⟨hne, hj⟩
  · exact ⟨q, by simp [hl], hs⟩
  · obtain ⟨q', h1, h2⟩ := h.2 j p' hj
    exact ⟨q', by simpa [List.getElem?_set, Ne.symm hne] using h1, h2⟩

theorem mem_set_self {l : List α} {i : Nat} {a : α} (h : i < l.length) : a ∈ l.set i a := by
  exact List.mem_of_getElem? (i := i) (by simp [h])

theorem sim_reach {σ τ σ' : Sys} (hn : NoFail τ) (h : MimicSys σ τ) (hr : σ.Reach σ') :
    ∃ τ', τ.Reach τ' ∧ MimicSys σ' τ' := by
  induction hr with
  | refl => exact ⟨τ, .refl, h⟩
  | step _ hs ih =>
    obtain ⟨τ', h1, h2⟩ := ih
    cases hs with
    | @tx db procs i u n hp =>
      obtain ⟨db', procs'⟩ := τ'
      have hd : db' = db := h2.1
      subst hd
      obtain ⟨q, hq, hsim⟩ := h2.2 i _ hp
      have hl : i < procs'.length := (List.getElem?_eq_some_iff.1 hq).1
      rcases hsim db' with ⟨q', h3, h4⟩ | ⟨db2, e, h3⟩
      · exact ⟨_, reach_trans h1 (alone_reach h3 hq), MimicSys.set h2 h4 hl⟩
      · exact absurd (mem_set_self hl) (hn _ (reach_trans h1 (alone_reach h3 hq)) e)

/-- The processes that returned on one side can return on the other. -/
theorem sim_done {σ τ : Sys} (h : MimicSys σ τ) : ∃ τ', τ.Reach τ' ∧ τ'.db = σ.db ∧
    ∀ (i : Nat) r, σ.procs[i]? = some (.ret r) → τ'.procs[i]? = some (.ret r) := by
  have key : ∀ n, ∃ τ', τ.Reach τ' ∧ MimicSys σ τ' ∧
      ∀ (i : Nat) r, i < n → σ.procs[i]? = some (.ret r) → τ'.procs[i]? = some (.ret r) := by
    intro n
    induction n with
    | zero => exact ⟨τ, .refl, h, fun i r hi => absurd hi (by omega)⟩
    | succ n ih =>
      obtain ⟨⟨db, procs⟩, h1, h2, h3⟩ := ih
      by_cases hn : ∃ r, σ.procs[n]? = some (.ret r)
      · obtain ⟨r, hr⟩ := hn
        obtain ⟨q, hq, hs⟩ := h2.2 n _ hr
        have hl : n < procs.length := (List.getElem?_eq_some_iff.1 hq).1
        have hd : db = σ.db := h2.1
        subst hd
        have hs' : Mimic (.ret r) (.ret r) := Mimic.refl _
        have h4 := MimicSys.set h2 (db := σ.db) hs' hl
        have h5 : σ.procs.set n (.ret r) = σ.procs := by
          obtain ⟨hl', he⟩ := List.getElem?_eq_some_iff.1 hr
          rw [← he, List.set_getElem_self]
        rw [h5] at h4
        refine ⟨_, reach_trans h1 (alone_reach (hs σ.db) hq), h4, ?_⟩
        intro i r' hi hir
        by_cases hin : i = n
        · subst hin
          rw [hr] at hir
          cases hir
          simp [hl]
        · have := h3 i r' (by omega) hir
          simpa [List.getElem?_set, Ne.symm hin] using this
      · refine ⟨_, h1, h2, fun i r hi hir => ?_⟩
        by_cases hin : i = n
        · subst hin; exact absurd ⟨r, hir⟩ hn
        · exact h3 i r (by omega) hir
  obtain ⟨τ', h1, h2, h3⟩ := key σ.procs.length
  exact ⟨τ', h1, h2.1, fun i r hi => h3 i r (List.getElem?_eq_some_iff.1 hi).1 hi⟩

theorem sim_noFail {σ τ : Sys} (hn : NoFail τ) (h : MimicSys σ τ) : NoFail σ := by
  intro σ' hr e he
  obtain ⟨τ', h1, h2⟩ := sim_reach hn h hr
  obtain ⟨τ'', h3, _, h4⟩ := sim_done h2
  obtain ⟨i, hi⟩ := List.getElem?_of_mem he
  exact hn τ'' (reach_trans h1 h3) e (List.mem_of_getElem? (h4 i _ hi))

/-! ### statements -/

/-- However the database answers, the statements end as `Q` says; the flag tells whether a transaction is open. -/
def Stm.Ends (Q : Bool → β → Prop) : Stm β → Bool → Prop
  | .ret b, t => Q t b
  | .read k, t => ∀ db, (k db).Ends Q t
  | .write _ k e, _ => (∀ db, (k db).Ends Q true) ∧ e.Ends Q true
  | .commit k, _ => k.Ends Q false

theorem Stm.Ends.bind {γ : Type} {Q : Bool → β → Prop} {R : Bool → γ → Prop} {p : Stm β} {f : β → Stm γ} {t : Bool}
    (hp : p.Ends Q t) (hf : ∀ t b, Q t b → (f b).Ends R t) : (p.bind f).Ends R t := by
  induction p generalizing t with
  | ret b => exact hf t b hp
  | read k ih => exact fun db => ih db (hp db)
  | write u k e ih1 ih2 => exact ⟨fun db => ih1 db (hp.1 db), ih2 hp.2⟩
  | commit k ih => exact ih hp

theorem Stm.Ends.mono {Q R : Bool → β → Prop} {p : Stm β} {t : Bool} (hp : p.Ends Q t) (h : ∀ t b, Q t b → R t b) :
    p.Ends R t := by
  induction p generalizing t with
  | ret b => exact h t b hp
  | read k ih => exact fun db => ih db (hp db)
  | write u k e ih1 ih2 => exact ⟨fun db => ih1 db (hp.1 db), ih2 hp.2⟩
  | commit k ih => exact ih hp

/-- It raised, or no transaction and no shared cursor is open. -/
def Tidy (t : Bool) (b : Except PyErr α × Option Bool) : Prop := (∃ e, b.1 = .error e) ∨ (t = false ∧ b.2 = none)

/-- The method starts and ends without a transaction and without a shared cursor. -/
def Conn.Closed (x : Conn α) : Prop := (x none).Ends Tidy false

theorem Conn.Closed.pure (a : α) : Conn.Closed (Pure.pure a : Conn α) := .inr ⟨rfl, rfl⟩

theorem Conn.Closed.lift (x : Except PyErr α) : Conn.Closed (cLift x) := .inr ⟨rfl, rfl⟩

theorem Conn.Closed.bind {x : Conn α} {f : α → Conn β} (hx : x.Closed) (hf : ∀ a, (f a).Closed) :
    Conn.Closed (x >>= f) := by
  refine Stm.Ends.bind (f := Conn.next f) hx ?_
  rintro t ⟨r, c⟩ h
  cases r with
  | error e => exact .inl ⟨e, rfl⟩
  | ok a =>
    rcases h with ⟨e, he⟩ | ⟨h1, h2⟩
    · cases he
    · simp only at h2
      subst h1 h2
      exact hf a

theorem Conn.Closed.each {f : α → Conn Unit} {xs : List α} (h : ∀ x ∈ xs, (f x).Closed) : (cEach f xs).Closed := by
  induction xs with
  | nil => exact Conn.Closed.pure ()
  | cons x xs ih => exact (h x (by simp)).bind fun _ => ih fun y hy => h y (by simp [hy])

theorem co_bind (p : Stm (Except PyErr α × Option Bool)) (f : α → Conn β) :
    (p.Ends Tidy false → (p.bind (Conn.next f)).out = p.out.bind fun a => (f a none).out) ∧
    (p.Ends Tidy true → ∀ d w, (p.bind (Conn.next f)).ins d w =
      ((p.ins d w).1, (p.ins d w).2.bind fun a => (f a none).out)) := by
  induction p with
  | ret b =>
    obtain ⟨r, c⟩ := b
    constructor
    · intro h
      cases r with
      | error e => rfl
      | ok a =>
        rcases h with ⟨e, he⟩ | ⟨_, h2⟩
        · cases he
        · simp only at h2
          subst h2
          rfl
    · intro h d w
      cases r with
      | error e => rfl
      | ok a =>
        rcases h with ⟨e, he⟩ | ⟨h1, _⟩
        · cases he
        · cases h1
  | read k ih =>
    constructor
    · intro h
      show Proc.tx id (fun db => ((k db).bind (Conn.next f)).out) = Proc.tx id (fun db => (k db).out.bind fun a => (f a none).out)
      congr 1
      funext db
      exact (ih db).1 (h db)
    · intro h d w
      exact (ih w).2 (h w) d w
  | write u k e ih1 ih2 =>
    have key : (∀ db, (k db).Ends Tidy true) ∧ e.Ends Tidy true → ∀ d w,
        (match u w with
          | none => (e.bind (Conn.next f)).ins d w
          | some w' => ((k w).bind (Conn.next f)).ins d w') =
        ((match u w with | none => e.ins d w | some w' => (k w).ins d w').1,
          (match u w with | none => e.ins d w | some w' => (k w).ins d w').2.bind fun a => (f a none).out) := by
      intro h d w
      cases u w with
      | none => exact ih2.2 h.2 d w
      | some w' => exact (ih1 w).2 (h.1 w) d w'
    constructor
    · intro h
      have h1 := fun db => congrArg Prod.fst (key h db db)
      have h2 := fun db => congrArg Prod.snd (key h db db)
      show Proc.tx (fun db => (match u db with
          | none => (e.bind (Conn.next f)).ins db db
          | some w' => ((k db).bind (Conn.next f)).ins db w').1)
        (fun db => (match u db with
          | none => (e.bind (Conn.next f)).ins db db
          | some w' => ((k db).bind (Conn.next f)).ins db w').2) =
        Proc.tx (fun db => (match u db with | none => e.ins db db | some w' => (k db).ins db w').1)
          (fun db => (match u db with | none => e.ins db db | some w' => (k db).ins db w').2.bind fun a => (f a none).out)
      congr 1
      · funext db; exact h1 db
      · funext db; exact h2 db
    · intro h d w
      exact key h d w
  | commit k ih =>
    constructor
    · exact fun h => ih.1 h
    · intro h d w
      show (w, (k.bind (Conn.next f)).out) = _
      rw [ih.1 h]
      rfl

/-- Sequencing of methods is sequencing of their transactions. -/
theorem out_bind {x : Conn α} (hx : x.Closed) (f : α → Conn β) :
    ((x >>= f) none).out = (x none).out.bind fun a => (f a none).out := (co_bind (x none) f).1 hx

theorem out_each {f : α → Conn Unit} {xs : List α} (h : ∀ x ∈ xs, (f x).Closed) :
    (cEach f xs none).out = Proc.each (fun x => (f x none).out) xs := by
  induction xs with
  | nil => rfl
  | cons x xs ih =>
    show ((f x >>= fun _ => cEach f xs) none).out = _
    rw [out_bind (h x (by simp)), ih fun y hy => h y (by simp [hy])]
    rfl

end GB
