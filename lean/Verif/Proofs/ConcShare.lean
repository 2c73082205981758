import Verif.Proofs.ConcAct

/-! Edges that several processes add and none removes. -/

set_option linter.unusedSectionVars false

namespace GB

variable {F : Type} [PyFloat F] [DecidableEq F] {V : Val F → Prop}

namespace Proc

variable {α β : Type}

/-- Whatever the other processes do, before it ends the process makes `X` true. -/
def Will (I X : DB → Prop) : Proc α → Prop
  | .ret _ => False
  | .tx u k => ∀ db, I db → X (u db) ∨ Will I X (k db)

/-- As long as `N` holds before its steps it stays, or the process brings about or will bring about all `X n`;
at the end, if `N` still holds, `Q`. -/
def Neut (I N : DB → Prop) (X : Nat → DB → Prop) (m : Nat) : Proc α → (α → Prop) → Prop
  | .ret r, Q => ∃ a, r = .ok a ∧ Q a
  | .tx u k, Q => ∀ db, I db → N db →
      (N (u db) ∧ Neut I N X m (k db) Q) ∨ ∀ n, n < m → X n (u db) ∨ Will I (X n) (k db)

variable {I N : DB → Prop} {G : DB → DB → Prop} {X : Nat → DB → Prop} {m : Nat}

theorem Will.bind {Y : DB → Prop} {p : Proc α} {f : α → Proc β} (h : p.Will I Y) : (p.bind f).Will I Y := by
  induction p with
  | ret r => exact absurd h id
  | tx u k ih => exact fun db hI => (h db hI).imp id (ih db)

theorem Safe.will {Y : DB → Prop} {p : Proc α} {f : α → Proc β} (hp : p.Safe I G) (h : ∀ a, (f a).Will I Y) :
    (p.bind f).Will I Y := by
  induction p with
  | ret r =>
    obtain ⟨a, rfl⟩ := hp
    exact h a
  | tx u k ih => exact fun db hI => .inr (ih db (hp db hI).2.2)

theorem Will.each {Y : DB → Prop} {f : α → Proc Unit} {xs : List α} (hs : ∀ x ∈ xs, (f x).Safe I G) {x : α} (hx : x ∈ xs)
    (h : (f x).Will I Y) : (Proc.each f xs).Will I Y := by
  induction xs with
  | nil => simp at hx
  | cons y ys ih =>
    rcases List.mem_cons.1 hx with rfl | hx
    · exact h.bind
    · exact (hs y (by simp)).will fun _ => ih (fun z hz => hs z (by simp [hz])) hx

theorem Neut.mono {p : Proc α} {Q Q' : α → Prop} (h : p.Neut I N X m Q) (hQ : ∀ a, Q a → Q' a) : p.Neut I N X m Q' := by
  induction p with
  | ret r =>
    obtain ⟨a, h1, h2⟩ := h
    exact ⟨a, h1, hQ a h2⟩
  | tx u k ih => exact fun db hI hN => (h db hI hN).imp (fun h => ⟨h.1, ih db h.2⟩) id

theorem Neut.bind {p : Proc α} {f : α → Proc β} {Q : β → Prop} (h : p.Neut I N X m fun a => (f a).Neut I N X m Q) :
    (p.bind f).Neut I N X m Q := by
  induction p with
  | ret r =>
    obtain ⟨a, rfl, h⟩ := h
    exact h
  | tx u k ih => exact fun db hI hN => (h db hI hN).imp (fun h => ⟨h.1, ih db h.2⟩) fun h n hn => (h n hn).imp id Will.bind

theorem Neut.of_will {p : Proc α} {Q : α → Prop} (hm : 0 < m) (h : ∀ n, n < m → p.Will I (X n)) : p.Neut I N X m Q := by
  cases p with
  | ret r => exact absurd (h 0 hm) id
  | tx u k => exact fun db hI _ => .inr fun n hn => h n hn db hI

theorem Neut.of_safe {p : Proc α} (hp : p.Safe I G) (hG : ∀ a b, G a b → N a → N b) : p.Neut I N X m fun _ => True := by
  induction p with
  | ret r =>
    obtain ⟨a, rfl⟩ := hp
    exact ⟨a, rfl, trivial⟩
  | tx u k ih => exact fun db hI hN => .inl ⟨hG _ _ (hp db hI).2.1 hN, ih db (hp db hI).2.2⟩

end Proc

variable {W : Option (Val F)}

/-- No row of `x`. -/
def NoRows (x : Val F) (db : DB) : Prop := ∀ n, ¬ HasRow db.perms x n

/-- Row `n` of `x`. -/
def Row (x : Val F) (n : Nat) (db : DB) : Prop := HasRow db.perms x n

theorem NoRows.not_seen {x : Val F} {db : DB} (h : NoRows x db) : ¬ Visible x db := fun ⟨n, hn, _⟩ => h n hn

theorem share_add (hV : Vocab V) {x : Val F} (hx : EdgeOver V x) (ts : Int) :
    (addP x ts).Neut (CInv V W) (NoRows x) (Row x) (factorial x.elems.length) fun _ => False := by
  have hex : (Proc.atom (existsM x)).Neut (CInv V W) (NoRows x) (Row x) (factorial x.elems.length) fun b => b = false := by
    intro db hI hN
    obtain ⟨b, h1, h2, h3⟩ := here_exists hV hI.1 hx
    refine .inl ⟨by simp only [h2]; exact hN, b, h1, ?_⟩
    cases b with
    | false => rfl
    | true => exact absurd (h3.1 rfl) hN.not_seen
  refine Proc.Neut.bind (hex.mono ?_)
  rintro _ rfl
  simp only [Bool.not_false, if_true, iter_edge hx]
  refine Proc.Neut.of_will (factorial_pos _) fun n hn => ?_
  have hsafe : ∀ k, k < factorial x.elems.length →
      (Proc.atom (writeEdgePermutation (F := F) (rowOf x.elems k))).Safe (CInv V W) (Only V (fun _ => True) (fun _ => True)) :=
    fun k hk => safe_write hV hx hk trivial
  show Proc.Will _ _ ((Proc.each (addVertP ts) x.elems).bind fun _ => (Proc.atom (addStr (edge2str x) 0 ts)).bind fun _ =>
    permsP x.elems (writeEdgePermutation (F := F)))
  refine Proc.Safe.will (G := Only V (fun _ => True) (fun _ => True)) (Proc.Safe.each fun y _ => safe_addVert ts y)
    fun _ => Proc.Safe.will (G := Only V (fun _ => True) (fun _ => True)) (safe_addStr _ _ _) fun _ => ?_
  refine Proc.Will.each (G := Only V (fun _ => True) (fun _ => True)) (x := n) ?_ (List.mem_range.2 hn) ?_
  · intro k hk
    rw [List.mem_range] at hk
    rw [permStr_eq hx.elems_ne hk]
    exact hsafe k hk
  · rw [permStr_eq hx.elems_ne hn]
    intro db hI
    left
    show Row x n ((writeEdgePermutation (F := F) (rowOf x.elems n)) (reopen db false)).2.disk
    rw [(here_write (F := F) db _).2]
    exact (hasRow_upsert hV hx hx hn db n).2 (.inr ⟨rfl, rfl⟩)

theorem chain_share (hV : Vocab V) {x : Val F} (hx : EdgeOver V x) {es : List (Val F)} (hes : ∀ y ∈ es, EdgeOver V y)
    {db db' : DB} (h : Chain RawEff es db db') :
    ((∀ n, n < factorial x.elems.length → HasRow db.perms x n) → ∀ n, n < factorial x.elems.length → HasRow db'.perms x n) ∧
    (NoRows x db → x ∈ es → ∀ n, n < factorial x.elems.length → HasRow db'.perms x n) := by
  induction es generalizing db with
  | nil => cases h; exact ⟨fun h => h, fun _ h => by simp at h⟩
  | cons e es ih =>
    obtain ⟨b, h1, h2⟩ := h
    have he := hes e (by simp)
    obtain ⟨i1, i2⟩ := ih (fun y hy => hes y (by simp [hy])) h2
    have hgrow : ∀ n, HasRow db.perms x n → HasRow b.perms x n := by
      rcases h1 with ⟨_, rfl⟩ | ⟨_, h1⟩
      · exact fun _ h => h
      · exact fun n h => (h1.hasRow hV he hx n).2 (.inl h)
    refine ⟨fun h => i1 fun n hn => hgrow n (h n hn), fun hN hm => ?_⟩
    by_cases hxe : x = e
    · subst hxe
      rcases h1 with ⟨hs, _⟩ | ⟨_, h1⟩
      · exact absurd hs hN.not_seen
      · exact i1 fun n hn => (h1.hasRow hV he hx n).2 (.inr ⟨rfl, hn⟩)
    · have hm' : x ∈ es := (List.mem_cons.1 hm).resolve_left hxe
      refine i2 ?_ hm'
      rcases h1 with ⟨_, rfl⟩ | ⟨_, h1⟩
      · exact hN
      · intro n hn
        rcases (h1.hasRow hV he hx n).1 hn with h | h
        · exact hN n h
        · exact hxe h.1

theorem share_addMany (hV : Vocab V) {x : Val F} (hx : EdgeOver V x) (ts : Int) {es : List (Val F)}
    (hes : ∀ y ∈ es, EdgeOver V y) (hm : x ∈ es) :
    (addManyP ts es).Neut (CInv V W) (NoRows x) (Row x) (factorial x.elems.length) fun _ => False := by
  induction es with
  | nil => simp at hm
  | cons e es ih =>
    have he := hes e (by simp)
    have hes' : ∀ y ∈ es, EdgeOver V y := fun y hy => hes y (by simp [hy])
    have hex : (Proc.atom (existsM e)).Neut (CInv V W) (NoRows x) (Row x) (factorial x.elems.length)
        fun b => x = e → b = false := by
      intro db hI hN
      obtain ⟨b, h1, h2, h3⟩ := here_exists hV hI.1 he
      refine .inl ⟨by simp only [h2]; exact hN, b, h1, ?_⟩
      rintro rfl
      cases b with
      | false => rfl
      | true => exact absurd (h3.1 rfl) hN.not_seen
    refine Proc.Neut.bind (hex.mono ?_)
    intro b hb
    cases b with
    | true =>
      have hne : x ≠ e := fun h => by simpa using hb h
      simp only [Bool.not_true, Bool.false_eq_true, if_false]
      exact ih hes' ((List.mem_cons.1 hm).resolve_left hne)
    | false =>
      simp only [Bool.not_false, if_true]
      intro db hI hN
      right
      intro n hn
      left
      obtain ⟨s', db1, db2, e1, d1, _, _, r1, r2, a1, c1⟩ := bulk_run hV he hes' ts db hI.1
      obtain ⟨k1, k2⟩ := chain_share hV hx hes' c1
      simp only [e1, d1]
      by_cases hxe : x = e
      · subst hxe
        exact k1 (fun n hn => (a1.hasRow hV he hx n).2 (.inr ⟨rfl, hn⟩)) n hn
      · refine k2 ?_ ((List.mem_cons.1 hm).resolve_left hxe) n hn
        intro n hn
        rcases (a1.hasRow hV he hx n).1 hn with h | h
        · exact hN n h
        · exact hxe h.1

theorem share_act (hV : Vocab V) (hW : WOk W) {x : Val F} (hx : EdgeOver V x) {a : PAct F} (ha : a.op.Over V)
    (hr : ¬ a.Removes x) :
    a.proc.Neut (CInv V W) (NoRows x) (Row x) (factorial x.elems.length) fun _ => ¬ a.Touches x := by
  by_cases ht : a.Touches x
  · refine Proc.Neut.mono (Q := fun _ => False) ?_ (fun _ h => absurd h id)
    cases a with
    | add e ts =>
      cases ht
      show Proc.Neut _ _ _ _ (addAnyP x ts) _
      rw [addAny_edge hx]
      exact share_add hV hx ts
    | addMany es ts =>
      show Proc.Neut _ _ _ _ (addAnyP (.seq true es) ts) _
      rw [addAny_many ha.1 ha.2]
      exact share_addMany hV hx ts ha.2 ht
    | addBelief src e ts =>
      rw [proc_addBelief ha]
      exact share_addMany hV hx ts (by simpa using ⟨BeliefOver.edge ha, support_over ha⟩)
        (by simpa [PAct.Touches] using ht)
    | addBeliefs src es ts =>
      rw [proc_addBeliefs ha.1 ha.2]
      exact share_addMany hV hx ts (belief_pairs ha.2) (mem_pairs.2 ht)
    | remove e => exact absurd ht hr
    | removeMany es => exact absurd ht hr
    | removeByPattern ps => exact absurd ht hr
    | removeBelief src e => exact absurd ht hr
  · refine (Proc.Neut.of_safe (safe_act (T := fun y => a.Touches y) (R := fun _ => True) hV hW ha (fun _ h => h) (fun _ _ => trivial))
      ?_).mono fun _ _ => ht
    intro db db' h hN n hn
    exact hN n (((h x hx).1 ht n).1 hn)

theorem share_program (hV : Vocab V) (hW : WOk W) {x : Val F} (hx : EdgeOver V x) {prog : List (PAct F)}
    (ha : ∀ a ∈ prog, a.op.Over V) (hr : ∀ a ∈ prog, ¬ a.Removes x) :
    (programP prog).Neut (CInv V W) (NoRows x) (Row x) (factorial x.elems.length) fun _ => ∀ a ∈ prog, ¬ a.Touches x := by
  induction prog with
  | nil => exact ⟨(), rfl, by simp⟩
  | cons a prog ih =>
    refine Proc.Neut.bind ((share_act hV hW hx (ha a (by simp)) (hr a (by simp))).mono fun _ h => ?_)
    refine (ih (fun b hb => ha b (by simp [hb])) fun b hb => hr b (by simp [hb])).mono fun _ h' => ?_
    intro b hb
    rcases List.mem_cons.1 hb with rfl | hb
    · exact h
    · exact h' b hb

/-- Once some process has decided to write `x`, all rows are there or will be. -/
theorem Sys.Reach.share {I : DB → Prop} {G : Nat → DB → DB → Prop} {x : Val F} {m : Nat} {Q B : Nat → Prop} {σ τ : Sys}
    (h : σ.Reach τ) (hI : I σ.db)
    (hs : ∀ (i : Nat) (p : Proc Unit), σ.procs[i]? = some p → p.Safe I (G i))
    (hG : ∀ i, i < σ.procs.length → ∀ a b, G i a b → ∀ n, Row x n a → Row x n b)
    (hB : ∀ i, i < σ.procs.length → ¬ B i → ∀ a b, G i a b → NoRows x a → NoRows x b)
    (hn : ∀ (i : Nat) (p : Proc Unit), σ.procs[i]? = some p → B i → p.Neut I (NoRows x) (Row x) m fun _ => Q i)
    (h0 : NoRows x σ.db ∨ ∀ n, n < m → Row x n σ.db) :
    (NoRows x τ.db ∧
      ∀ (i : Nat) (p : Proc Unit), τ.procs[i]? = some p → B i → p.Neut I (NoRows x) (Row x) m fun _ => Q i) ∨
      ∀ n, n < m → Row x n τ.db ∨ ∃ (i : Nat) (p : Proc Unit), B i ∧ τ.procs[i]? = some p ∧ p.Will I (Row x n) := by
  induction h with
  | refl => exact h0.imp (fun h => ⟨h, hn⟩) fun h n hn => .inl (h n hn)
  | step hr hst ih =>
    obtain ⟨h1, h2⟩ := hr.safe hI hs
    have hlen := hr.length
    cases hst with
    | @tx db procs i u k hp =>
      obtain ⟨k1, k2, k3⟩ := h2 i _ hp _ h1
      have hi : i < procs.length := (List.getElem?_eq_some_iff.1 hp).1
      have hset : (procs.set i (k db))[i]? = some (k db) := by simp [hi]
      rcases ih with ⟨hN, hq⟩ | hall
      · by_cases hb : B i
        · rcases hq i _ hp hb db h1 hN with ⟨n1, n2⟩ | hw
          · left
            refine ⟨n1, ?_⟩
            intro j p hj hbj
            rcases getElem?_set_cases hj with ⟨rfl, rfl, _⟩ | ⟨_, hj⟩
            · exact n2
            · exact hq j p hj hbj
          · right
            intro n hn
            rcases hw n hn with h | h
            · exact .inl h
            · exact .inr ⟨i, k db, hb, hset, h⟩
        · left
          refine ⟨hB i (by rw [← hlen]; exact hi) hb _ _ k2 hN, ?_⟩
          intro j p hj hbj
          rcases getElem?_set_cases hj with ⟨rfl, rfl, _⟩ | ⟨_, hj⟩
          · exact absurd hbj hb
          · exact hq j p hj hbj
      · right
        intro n hn
        have hgr := hG i (by rw [← hlen]; exact hi) _ _ k2 n
        rcases hall n hn with h | ⟨j, p, hbj, hj, hw⟩
        · exact .inl (hgr h)
        · by_cases hji : j = i
          · subst hji
            rw [hp] at hj
            cases hj
            rcases hw db h1 with h | h
            · exact .inl h
            · exact .inr ⟨j, k db, hbj, hset, h⟩
          · refine .inr ⟨j, p, hbj, ?_, hw⟩
            rw [List.getElem?_set_ne (fun h => hji h.symm)]
            exact hj

end GB
