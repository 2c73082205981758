import Verif.Proofs.StmEnds
import Verif.Proofs.ConcKilled

/-! Calls that are one transaction: at every moment all or nothing of them has happened. -/

set_option linter.unusedSectionVars false

namespace GB

variable {F : Type} [PyFloat F] [DecidableEq F] {V : Val F → Prop} {α β σ : Type}

/-! ### larger steps -/

theorem safe_alone {I : DB → Prop} {G : DB → DB → Prop} (hr : ∀ a, G a a) (ht : ∀ a b c, G a b → G b c → G a c)
    {p q : Proc α} {a b : DB} (h : Alone p a b q) (hp : p.Safe I G) (hI : I a) : I b ∧ G a b ∧ q.Safe I G := by
  induction h with
  | refl => exact ⟨hI, hr _, hp⟩
  | step _ ih =>
    obtain ⟨h1, h2, h3⟩ := hp _ hI
    obtain ⟨h4, h5, h6⟩ := ih h3 h1
    exact ⟨h4, ht _ _ _ h2 h5, h6⟩

theorem safe_mimic {I : DB → Prop} {G : DB → DB → Prop} (hr : ∀ a, G a a) (ht : ∀ a b c, G a b → G b c → G a c)
    (hI : ∃ db, I db) {p q : Proc α} (h : Mimic p q) (hq : q.Safe I G) : p.Safe I G := by
  induction p generalizing q with
  | ret r =>
    obtain ⟨db, hdb⟩ := hI
    exact (safe_alone hr ht (h db) hq hdb).2.2
  | tx u n ih =>
    intro db hdb
    rcases h db with ⟨q', h1, h2⟩ | ⟨db', e, h1⟩
    · obtain ⟨h3, h4, h5⟩ := safe_alone hr ht h1 hq hdb
      exact ⟨h3, h4, ih db h2 h5⟩
    · obtain ⟨a, ha⟩ := (safe_alone hr ht h1 hq hdb).2.2
      cases ha

theorem track_alone {I : DB → Prop} {st : DB → σ} {cnt : DB → Int} {Q : α → σ → Int → Prop} {p q : Proc α} {a b : DB}
    (h : Alone p a b q) {c : Int} (hp : p.Track I st cnt (st a) c Q) (hI : I a) :
    I b ∧ q.Track I st cnt (st b) (c + (cnt b - cnt a)) Q := by
  induction h generalizing c with
  | refl =>
    refine ⟨hI, ?_⟩
    rw [show c + (cnt _ - cnt _) = c by omega]
    exact hp
  | step _ ih =>
    obtain ⟨h1, h2⟩ := hp _ hI rfl
    obtain ⟨h3, h4⟩ := ih h2 h1
    refine ⟨h3, ?_⟩
    rename_i u n db db' q _
    rw [show c + (cnt db' - cnt db) = c + (cnt (u db) - cnt db) + (cnt db' - cnt (u db)) by omega]
    exact h4

theorem track_mimic {I : DB → Prop} {st : DB → σ} {cnt : DB → Int} {Q : α → σ → Int → Prop} {p q : Proc α}
    (h : Mimic p q) {S : σ} {c : Int} (hS : ∃ db, I db ∧ st db = S) (hq : q.Track I st cnt S c Q) :
    p.Track I st cnt S c Q := by
  induction p generalizing q S c with
  | ret r =>
    obtain ⟨db, hdb, rfl⟩ := hS
    have := (track_alone (h db) hq hdb).2
    rw [show c + (cnt db - cnt db) = c by omega] at this
    exact this
  | tx u n ih =>
    intro db hdb hst
    subst hst
    rcases h db with ⟨q', h1, h2⟩ | ⟨db', e, h1⟩
    · obtain ⟨h3, h4⟩ := track_alone h1 hq hdb
      exact ⟨h3, ih db h2 ⟨_, h3, rfl⟩ h4⟩
    · obtain ⟨a, ha, _⟩ := (track_alone h1 hq hdb).2
      cases ha

/-! ### what holds at every moment -/

/-- If others never change `st`, then `J` holds of it all along, and `Q` at the end. -/
def Proc.Along (I : DB → Prop) (st : DB → σ) (J : σ → Prop) (Q : σ → Prop) : Proc α → σ → Prop
  | .ret r, S => (∃ a, r = .ok a) ∧ J S ∧ Q S
  | .tx u n, S => J S ∧ ∀ db, I db → st db = S → I (u db) ∧ Along I st J Q (n db) (st (u db))

theorem Proc.Along.now {I : DB → Prop} {st : DB → σ} {J Q : σ → Prop} {p : Proc α} {S : σ} (h : p.Along I st J Q S) : J S := by
  cases p with
  | ret r => exact h.2.1
  | tx u n => exact h.1

theorem Proc.Along.mono {I : DB → Prop} {st : DB → σ} {J J' Q Q' : σ → Prop} {p : Proc α} {S : σ} (h : p.Along I st J Q S)
    (hJ : ∀ S, J S → J' S) (hQ : ∀ S, Q S → Q' S) : p.Along I st J' Q' S := by
  induction p generalizing S with
  | ret r => exact ⟨h.1, hJ _ h.2.1, hQ _ h.2.2⟩
  | tx u n ih => exact ⟨hJ _ h.1, fun db h1 h2 => ⟨(h.2 db h1 h2).1, ih db (h.2 db h1 h2).2⟩⟩

theorem Proc.Along.bind {I : DB → Prop} {st : DB → σ} {J Q R : σ → Prop} {p : Proc α} {f : α → Proc β} {S : σ}
    (hp : p.Along I st J Q S) (hf : ∀ a S, Q S → (f a).Along I st J R S) : (p.bind f).Along I st J R S := by
  induction p generalizing S with
  | ret r =>
    obtain ⟨⟨a, rfl⟩, _, h⟩ := hp
    exact hf a S h
  | tx u n ih => exact ⟨hp.1, fun db h1 h2 => ⟨(hp.2 db h1 h2).1, ih db (hp.2 db h1 h2).2⟩⟩

theorem Sys.Reach.along {I : DB → Prop} {G : Nat → DB → DB → Prop} {st : DB → σ} {J Q : σ → Prop} {σ₀ τ : Sys} {i : Nat}
    (h : σ₀.Reach τ) (hI : I σ₀.db) (hs : ∀ (j : Nat) (p : Proc Unit), σ₀.procs[j]? = some p → p.Safe I (G j))
    (hG : ∀ j, j < σ₀.procs.length → j ≠ i → ∀ a b, G j a b → st b = st a)
    (ht : ∀ p, σ₀.procs[i]? = some p → p.Along I st J Q (st σ₀.db)) :
    ∀ p, τ.procs[i]? = some p → p.Along I st J Q (st τ.db) := by
  induction h with
  | refl => exact ht
  | step hr hst ih =>
    obtain ⟨h1, h2⟩ := hr.safe hI hs
    have hlen := hr.length
    cases hst with
    | @tx db procs j u n hp =>
      intro p hpi
      rcases getElem?_set_cases hpi with ⟨rfl, rfl, _⟩ | ⟨hne, hpi⟩
      · exact ((ih _ hp).2 db h1 rfl).2
      · have hj : j < σ₀.procs.length := by rw [← hlen]; exact (List.getElem?_eq_some_iff.1 hp).1
        have := hG j hj (fun h => hne h.symm) _ _ (h2 j _ hp _ h1).2.1
        show p.Along I st J Q (st (u db))
        rw [this]
        exact ih p hpi

/-! ### one transaction -/

/-- Reading, then at most one transaction, then the end. -/
def Proc.OneShot : Proc α → Prop
  | .ret _ => True
  | .tx u n => (u = id ∧ ∀ db, OneShot (n db)) ∨ ∀ db, ∃ r, n db = .ret r

theorem once_ins {p : Stm (Except PyErr α × Option Bool)} (h : p.Once) (d w : DB) : ∃ r, (p.ins d w).2 = .ret r := by
  induction p generalizing w with
  | ret b => exact ⟨_, rfl⟩
  | read k ih => exact ih w (h w) w
  | write u k e ih1 ih2 =>
    show ∃ r, (match u w with | none => e.ins d w | some w' => (k w).ins d w').2 = _
    cases u w with
    | none => exact ih2 h.2 w
    | some w' => exact ih1 w (h.1 w) w'
  | commit k ih =>
    obtain ⟨b, rfl⟩ := h
    exact ⟨_, rfl⟩

theorem once_shot {p : Stm (Except PyErr α × Option Bool)} (h : p.Once) : p.out.OneShot := by
  induction p with
  | ret b => trivial
  | read k ih => exact .inl ⟨rfl, fun db => ih db (h db)⟩
  | write u k e ih1 ih2 =>
    refine .inr fun db => ?_
    show ∃ r, (match u db with | none => e.ins db db | some w => (k db).ins db w).2 = _
    cases u db with
    | none => exact once_ins h.2 db db
    | some w => exact once_ins (h.1 db) db w
  | commit k ih =>
    obtain ⟨b, rfl⟩ := h
    exact trivial

/-- All or nothing, also of the counters. -/
theorem shot_along {ι : Type} {I : DB → Prop} {J : ι → DB → Prop} {st : DB → σ} {cnt₀ : DB → Int} {cnt : ι → DB → Int}
    {p : Proc α} (hp : p.OneShot) {S S' : σ} {d g : ι → Int} {c₀ : Int} {c : ι → Int}
    (hw : ∃ db, (I db ∧ ∀ w, J w db) ∧ st db = S ∧ ∀ w, cnt w db = d w)
    (h0 : p.Track I st cnt₀ S c₀ fun _ T _ => T = S')
    (ht : ∀ w, p.Track (J w) st (cnt w) S (c w) fun _ _ c' => c' = c w + g w) :
    p.Along (fun db => I db ∧ ∀ w, J w db) (fun db => (st db, fun w => cnt w db))
      (fun T => T = (S, d) ∨ T = (S', fun w => d w + g w))
      (fun T => T = (S', fun w => d w + g w) ∧ ∃ db, (I db ∧ ∀ w, J w db) ∧ st db = T.1 ∧ ∀ w, cnt w db = T.2 w) (S, d) := by
  induction p generalizing c₀ c with
  | ret r =>
    obtain ⟨a, rfl, rfl⟩ := h0
    have hg : (fun w => d w + g w) = d := by
      funext w
      obtain ⟨_, _, h⟩ := ht w
      show d w + g w = d w
      omega
    rw [hg]
    exact ⟨⟨a, rfl⟩, .inl rfl, rfl, hw⟩
  | tx u n ih =>
    refine ⟨.inl rfl, fun db hI hS => ?_⟩
    have hS1 : st db = S := congrArg Prod.fst hS
    have hS2 : ∀ w, cnt w db = d w := fun w => congrFun (congrArg Prod.snd hS) w
    obtain ⟨h1, h2⟩ := h0 db hI.1 hS1
    have h3 : ∀ w, J w (u db) := fun w => (ht w db (hI.2 w) hS1).1
    have h4 := fun w => (ht w db (hI.2 w) hS1).2
    refine ⟨⟨h1, h3⟩, ?_⟩
    rcases hp with ⟨rfl, hn⟩ | hn
    · have e1 : st (id db) = S := hS1
      have e2 : (fun w => cnt w (id db)) = d := funext hS2
      show (n db).Along _ _ _ _ (st (id db), fun w => cnt w (id db))
      rw [e1] at h2 h4 ⊢
      rw [e2]
      refine ih db (hn db) h2 fun w => (h4 w).mono ?_
      intro _ _ c' hc'
      have : cnt w (id db) = cnt w db := rfl
      rw [hc', this]
      omega
    · obtain ⟨r, hr⟩ := hn db
      rw [hr] at h2 ⊢
      obtain ⟨a, rfl, h5⟩ := h2
      have e2 : (fun w => cnt w (u db)) = fun w => d w + g w := by
        funext w
        have h6 := h4 w
        rw [hr] at h6
        obtain ⟨_, _, h7⟩ := h6
        have := hS2 w
        omega
      show (Proc.ret (.ok a)).Along _ _ _ _ (st (u db), fun w => cnt w (u db))
      rw [e2, h5]
      exact ⟨⟨a, rfl⟩, .inr rfl, rfl, u db, ⟨h1, h3⟩, h5, fun w => congrFun e2 w⟩

/-! ### the calls -/

theorem add_raw_eq {e : Val F} (he : EdgeOver V e) (ts : Int) : cAdd e ts = cAddRaw e ts := by
  obtain ⟨h0, hh, hseq⟩ := head0_edge he
  unfold cAdd
  rw [hh]
  funext c
  show (if h0.isSeq = true then _ else _ : Conn Unit) c = _
  rw [hseq]
  rfl

theorem once_batch {fs : List (Conn Unit)} (h : ∀ f ∈ fs, f.Silent) : (cBatch fs none).Once :=
  once_silent (Conn.Silent.each h) fun _ => ⟨_, rfl⟩

theorem once_bulk {es : List (Val F)} (hne : es ≠ []) (hes : ∀ e ∈ es, EdgeOver V e) (ts : Int) :
    (cAdd (.seq true es) ts none).Once := by
  obtain ⟨h, hh, hs⟩ := head0_coll (b := true) hne hes
  have : cAdd (.seq true es) ts none = (cEach (fun e => cAddRaw e ts) es (some true)).bind (Conn.next fun _ => cClose false true) := by
    unfold cAdd
    rw [hh]
    show (if h.isSeq = true then _ else _ : Conn Unit) none = _
    rw [hs]
    rfl
  rw [this]
  exact once_silent (Conn.Silent.each fun e _ => silent_addRaw e ts) fun _ => ⟨_, rfl⟩

theorem cEach_one (f : α → Conn Unit) (x : α) : cEach f [x] = f x := by
  show (f x >>= fun _ => (pure () : Conn Unit)) = f x
  funext c
  show (f x c).bind _ = f x c
  have : ∀ p : Stm (Except PyErr Unit × Option Bool), p.bind (Conn.next fun _ => (pure () : Conn Unit)) = p := by
    intro p
    induction p with
    | ret b => obtain ⟨r, c⟩ := b; cases r <;> rfl
    | read k ih => show Stm.read _ = _; congr 1; funext db; exact ih db
    | write u k e ih1 ih2 => show Stm.write _ _ _ = _; congr 1; funext db; exact ih1 db
    | commit k ih => show Stm.commit _ = _; congr 1
  exact this _

theorem call_mimic {c : PCall F} (h : c.Over V) : c.conn.Closed ∧ Mimic (c.conn none).out (cEach PAct.conn c.acts none).out := by
  have := calls_mimic (calls := [c]) (by simpa using h)
  rw [cEach_one] at this
  simpa using this

theorem once_call {c : PCall F} (h : c.Over V) (ha : c.Atomic) : (c.conn none).Once := by
  cases c with
  | batch as =>
    refine once_batch fun f hf => ?_
    obtain ⟨a, hm, rfl⟩ := List.mem_map.1 hf
    obtain ⟨e, ts, rfl⟩ := ha a hm
    show (cAdd e ts).Silent
    rw [add_raw_eq (V := V) (h _ hm).1]
    exact silent_addRaw e ts
  | one a =>
    cases a with
    | addMany es ts => exact once_bulk (V := V) h.1 h.2 ts
    | addBelief src e ts =>
      have h : BeliefOver V src e := h
      show (cAddBelief src e ts none).Once
      have : cAddBelief src e ts none = cAdd (.seq true [e, support e src]) ts none := by
        unfold cAddBelief
        rw [beliefEdges_single h.edge]
        rfl
      rw [this]
      exact once_bulk (V := V) (by simp) (by simpa using ⟨h.edge, support_over h⟩) ts
    | addBeliefs src es ts =>
      show (cAddBelief src (.seq true es) ts none).Once
      have hb : ∀ e ∈ es, BeliefOver V src e := h.2
      have : cAddBelief src (.seq true es) ts none = cAdd (.seq true (es.flatMap fun e => [e, support e src])) ts none := by
        unfold cAddBelief
        rw [beliefEdges_many (V := V) h.1 fun e he => (hb e he).edge]
        rfl
      rw [this]
      refine once_bulk (V := V) ?_ (belief_pairs hb) ts
      obtain ⟨e, he⟩ := List.exists_mem_of_ne_nil _ h.1
      intro h0
      have : e ∈ es.flatMap fun e => [e, support e src] := List.mem_flatMap.2 ⟨e, he, by simp⟩
      rw [h0] at this
      cases this
    | _ => exact ha.elim

/-! ### programs -/

variable {O P K : Val F → Prop}

/-- The rows of the edges in `O`, and the degrees of the symbols in `K`. -/
def part (O K : Val F → Prop) (db : DB) : (Val F → Nat → Prop) × ({v : Val F // K v} → Int) :=
  (ownRows O db, fun w => watched (some w.1) db)

/-- The invariant: rows that can be read, and the symbols in `K` are known. -/
def KInv (V K : Val F → Prop) (db : DB) : Prop := CInv V none db ∧ ∀ w : {v : Val F // K v}, CInv V (some w.1) db

/-- What the part becomes by a program. -/
noncomputable def partAfter (O P : Val F → Prop) {K : Val F → Prop} (d : {v : Val F // K v} → Int) (prog : Program F) :
    (Val F → Nat → Prop) × ({v : Val F // K v} → Int) :=
  (fullRows O (afterAll prog P), fun w => d w + gainAll (some w.1) P prog)

theorem afterAll_over {prog : Program F} (ha : ∀ a ∈ prog, a.op.Over V) (hP : ∀ x, P x → EdgeOver V x) :
    ∀ x, afterAll prog P x → EdgeOver V x := by
  induction prog generalizing P with
  | nil => exact hP
  | cons a prog ih => exact ih (fun b hb => ha b (by simp [hb])) fun x hx => after_over (ha a (by simp)) hP hx

theorem partAfter_append (d : {v : Val F // K v} → Int) (p q : Program F) :
    partAfter O P d (p ++ q) = partAfter O (afterAll p P) (fun w => d w + gainAll (some w.1) P p) q := by
  unfold partAfter
  have : afterAll (p ++ q) P = afterAll q (afterAll p P) := by unfold afterAll; rw [List.foldl_append]
  rw [this]
  congr 1
  funext w
  rw [gainAll_append]
  show _ = d w + gainAll (some w.1) P p + _
  omega

theorem atomic_acts {c : PCall F} (hc : c.Over V) (ha : c.Atomic) : (∀ a ∈ c.acts, a.op.Over V) ∧ ∀ x, ¬ Program.Sees c.acts x := by
  constructor
  · intro a hm
    cases c with
    | one b => simp only [PCall.acts, List.mem_singleton] at hm; subst hm; exact hc
    | batch as => exact (hc a hm).1
  · rintro x ⟨a, hm, hs⟩
    cases c with
    | one b =>
      simp only [PCall.acts, List.mem_singleton] at hm
      subst hm
      cases a <;> first | exact hs.elim | exact ha.elim
    | batch as =>
      obtain ⟨e, ts, rfl⟩ := ha a hm
      exact hs.elim

theorem call_along (hV : Vocab V) (hO : ∀ x, O x → EdgeOver V x) (hK : ∀ v, K v → WfVal v ∧ v.isAtom = true)
    {c : PCall F} (hc : c.Over V) (ha : c.Atomic) (ho : (∃ v, K v) → ∀ x, EdgeOver V x → Program.Touches c.acts x → O x)
    (hP : ∀ x, P x → EdgeOver V x) {d : {v : Val F // K v} → Int} (hw : ∃ db, KInv V K db ∧ part O K db = (fullRows O P, d)) :
    ((c.conn none).out).Along (KInv V K) (part O K)
      (fun T => T = (fullRows O P, d) ∨ T = partAfter O P d c.acts)
      (fun T => T = partAfter O P d c.acts ∧ ∃ db, KInv V K db ∧ part O K db = T) (fullRows O P, d) := by
  obtain ⟨hacts, hsee⟩ := atomic_acts hc ha
  obtain ⟨db, hI, hpart⟩ := hw
  have e1 : ownRows O db = fullRows O P := congrArg Prod.fst hpart
  have e2 : ∀ w : {v : Val F // K v}, watched (some w.1) db = d w := fun w => congrFun (congrArg Prod.snd hpart) w
  have ht : ∀ W : Option (Val F), WOk W → CInv V W db → ((c.conn none).out).Track (CInv V W) (ownRows O) (watched W) (fullRows O P) 0
      fun _ S' c' => S' = fullRows O (afterAll c.acts P) ∧
        ((∀ x, EdgeOver V x → Program.Touches c.acts x → O x) → c' = 0 + gainAll W P c.acts) := by
    intro W hW hCI
    have h1 := own_program hV hW hO hacts hP (fun x _ h => absurd h (hsee x)) 0
    have h2 := track_mimic (Does.each fun a _ => does_act a).mimic ⟨db, hCI, e1⟩ h1
    exact track_mimic (call_mimic hc).2 ⟨db, hCI, e1⟩ h2
  have h0 := ht none (by simp [WOk]) hI.1
  have hv : ∀ w : {v : Val F // K v}, ((c.conn none).out).Track (CInv V (some w.1)) (ownRows O) (watched (some w.1))
      (fullRows O P) 0 fun _ _ c' => c' = 0 + gainAll (some w.1) P c.acts := fun w =>
    (ht (some w.1) (by rintro _ ⟨⟩; exact hK _ w.2) (hI.2 w)).mono fun _ _ _ h => h.2 (ho ⟨w.1, w.2⟩)
  have := shot_along (once_shot (once_call hc ha)) (d := d) ⟨db, hI, e1, e2⟩ (h0.mono fun _ _ _ h => h.1) hv
  refine this.mono (fun T h => h) ?_
  rintro T ⟨h1, db', h2, h3, h4⟩
  exact ⟨h1, db', h2, Prod.ext h3 (funext h4)⟩

/-- At every moment the part is what it is after some of the calls. -/
theorem program_along (hV : Vocab V) (hO : ∀ x, O x → EdgeOver V x) (hK : ∀ v, K v → WfVal v ∧ v.isAtom = true)
    {prog : List (PCall F)} (hc : ∀ c ∈ prog, c.Over V) (ha : ∀ c ∈ prog, c.Atomic)
    (ho : (∃ v, K v) → ∀ x, EdgeOver V x → Program.Touches (prog.flatMap PCall.acts) x → O x)
    (hP : ∀ x, P x → EdgeOver V x) {d : {v : Val F // K v} → Int} (hw : ∃ db, KInv V K db ∧ part O K db = (fullRows O P, d)) :
    ((cEach PCall.conn prog none).out).Along (KInv V K) (part O K)
      (fun T => ∃ k, k ≤ prog.length ∧ T = partAfter O P d ((prog.take k).flatMap PCall.acts))
      (fun T => T = partAfter O P d (prog.flatMap PCall.acts)) (fullRows O P, d) := by
  have h0 : ∀ (P : Val F → Prop) (d : {v : Val F // K v} → Int), (fullRows O P, d) = partAfter O P d [] := by
    intro P d
    unfold partAfter
    simp [afterAll, gainAll]
  induction prog generalizing P d with
  | nil => exact ⟨⟨(), rfl⟩, ⟨0, Nat.le_refl _, h0 P d⟩, h0 P d⟩
  | cons c prog ih =>
    have hcl := call_mimic (hc c (by simp))
    have hrest : ∀ T, (T = partAfter O P d c.acts ∧ ∃ db, KInv V K db ∧ part O K db = T) →
        ((cEach PCall.conn prog none).out).Along (KInv V K) (part O K)
          (fun T => ∃ k, k ≤ (c :: prog).length ∧ T = partAfter O P d (((c :: prog).take k).flatMap PCall.acts))
          (fun T => T = partAfter O P d ((c :: prog).flatMap PCall.acts)) T := by
      rintro T ⟨rfl, hw'⟩
      have hPa : ∀ x, afterAll c.acts P x → EdgeOver V x := afterAll_over (atomic_acts (hc c (by simp)) (ha c (by simp))).1 hP
      refine (ih (fun x hx => hc x (by simp [hx])) (fun x hx => ha x (by simp [hx]))
        (fun hk x hx ⟨a, hm, h⟩ => ho hk x hx ⟨a, by simp only [List.flatMap_cons, List.mem_append]; exact .inr hm, h⟩) hPa
        (d := fun w => d w + gainAll (some w.1) P c.acts) hw').mono ?_ ?_
      · rintro T ⟨k, hk, rfl⟩
        refine ⟨k + 1, by simpa using hk, ?_⟩
        rw [List.take_succ_cons, List.flatMap_cons, partAfter_append]
      · rintro T rfl
        rw [List.flatMap_cons, partAfter_append]
    show ((c.conn >>= fun _ => cEach PCall.conn prog) none).out.Along _ _ _ _ _
    rw [out_bind hcl.1]
    refine Proc.Along.bind ((call_along hV hO hK (hc c (by simp)) (ha c (by simp))
      (fun hk x hx ⟨a, hm, h⟩ => ho hk x hx ⟨a, by simp only [List.flatMap_cons, List.mem_append]; exact .inl hm, h⟩) hP hw).mono
      ?_ fun T h => h) fun _ T hT => hrest T hT
    rintro T (rfl | rfl)
    · exact ⟨0, Nat.zero_le _, h0 P d⟩
    · exact ⟨1, by simp, by simp⟩

/-! ### the system -/

theorem safe_all {ι : Type} {I : DB → Prop} {J : ι → DB → Prop} {G : DB → DB → Prop} {H : ι → DB → DB → Prop} {p : Proc α}
    (h0 : p.Safe I G) (h : ∀ w, p.Safe (J w) (H w)) :
    p.Safe (fun db => I db ∧ ∀ w, J w db) (fun a b => G a b ∧ ∀ w, H w a b) := by
  induction p with
  | ret r => exact h0
  | tx u n ih =>
    intro db hI
    obtain ⟨h1, h2, h3⟩ := h0 db hI.1
    exact ⟨⟨h1, fun w => (h w db (hI.2 w)).1⟩, ⟨h2, fun w => (h w db (hI.2 w)).2.1⟩, ih db h3 fun w => (h w db (hI.2 w)).2.2⟩

/-- What process `j` may change: edges that its calls touch, and, if it is not number `i`, no degree of a symbol in `K`. -/
def mayChange (V K : Val F → Prop) (progs : List (List (PCall F))) (i j : Nat) (a b : DB) : Prop :=
  Only V (fun x => ∃ p, progs[j]? = some p ∧ Program.Touches (p.flatMap PCall.acts) x)
    (fun x => ∃ p, progs[j]? = some p ∧ Program.Removes (p.flatMap PCall.acts) x) a b ∧
  ∀ w : {v : Val F // K v}, j ≠ i → degRow w.1 b = degRow w.1 a

theorem mayChange_refl {progs : List (List (PCall F))} {i j : Nat} (a : DB) : mayChange V K progs i j a a :=
  ⟨Only.of_perms rfl, fun _ _ => rfl⟩

theorem mayChange_trans {progs : List (List (PCall F))} {i j : Nat} (a b c : DB) (h1 : mayChange V K progs i j a b)
    (h2 : mayChange V K progs i j b c) : mayChange V K progs i j a c :=
  ⟨h1.1.trans h2.1, fun w h => (h2.2 w h).trans (h1.2 w h)⟩

theorem acts_over {p : List (PCall F)} (hp : ∀ c ∈ p, c.Over V) : ∀ a ∈ p.flatMap PCall.acts, a.op.Over V := by
  intro a ha
  obtain ⟨c, hc, ha⟩ := List.mem_flatMap.1 ha
  have := hp c hc
  cases c with
  | one b => simp only [PCall.acts, List.mem_singleton] at ha; subst ha; exact this
  | batch as => exact (this a ha).1

theorem outs_safe (hV : Vocab V) (hK : ∀ v, K v → WfVal v ∧ v.isAtom = true) {db : DB} (hI : KInv V K db)
    {progs : List (List (PCall F))} (hp : ∀ p ∈ progs, ∀ c ∈ p, c.Over V) {i : Nat}
    (hne : ∀ (j : Nat) p, progs[j]? = some p → j ≠ i → ∀ x, EdgeOver V x → Program.Touches (p.flatMap PCall.acts) x →
      ∀ v, K v → v ∉ x.elems) :
    ∀ (j : Nat) (q : Proc Unit), (progs.map fun p => (cEach PCall.conn p none).out)[j]? = some q →
      q.Safe (KInv V K) (mayChange V K progs i j) := by
  intro j q hj
  rw [List.getElem?_map, Option.map_eq_some_iff] at hj
  obtain ⟨p, hpj, rfl⟩ := hj
  have hpm := List.mem_of_getElem? hpj
  have hov := acts_over (hp p hpm)
  have h1 : (programP (p.flatMap PCall.acts)).Safe (KInv V K) (mayChange V K progs i j) := by
    refine safe_all ?_ fun w => ?_
    · refine (safe_program hV (W := none) (by simp [WOk]) hov).mono fun a b h x hx => ⟨fun ht => (h x hx).1 fun h' => ht ⟨p, hpj, h'⟩,
        fun hr => (h x hx).2 fun h' => hr ⟨p, hpj, h'⟩⟩
    · by_cases hji : j = i
      · exact (safe_program hV (W := some w.1) (by rintro _ ⟨⟩; exact hK _ w.2) hov).mono fun a b _ h => absurd hji h
      · exact (keep_program hV (hK _ w.2).1 (hK _ w.2).2 hov fun x hx ht => hne j p hpj hji x hx ht w.1 w.2).mono fun a b h _ => h
  have h2 := safe_mimic mayChange_refl mayChange_trans ⟨db, hI⟩ (Does.each fun a _ => does_act a).mimic h1
  exact safe_mimic mayChange_refl mayChange_trans ⟨db, hI⟩ (calls_mimic (hp p hpm)).2 h2

/-- Whatever happens, the part of process `i` is what it is after some of its calls; after all of them if it returned. -/
theorem box_part (hV : Vocab V) (hK : ∀ v, K v → WfVal v ∧ v.isAtom = true) {db : DB} (hI : IndexOf V P db)
    (hP : ∀ x, P x → EdgeOver V x) (hkn : ∀ v, K v → KnownRow v db)
    {progs : List (List (PCall F))} (hp : ∀ p ∈ progs, ∀ c ∈ p, c.Over V) {i : Nat} {prog : List (PCall F)}
    (hi : progs[i]? = some prog) (hat : ∀ c ∈ prog, c.Atomic)
    (hO : ∀ x, O x ↔ EdgeOver V x ∧ ∀ (j : Nat) p, progs[j]? = some p → j ≠ i → ¬ Program.Touches (p.flatMap PCall.acts) x)
    (hne : ∀ (j : Nat) p, progs[j]? = some p → j ≠ i → ∀ x, EdgeOver V x → Program.Touches (p.flatMap PCall.acts) x →
      ∀ v, K v → v ∉ x.elems)
    (hown : (∃ v, K v) → ∀ x, EdgeOver V x → Program.Touches (prog.flatMap PCall.acts) x → O x)
    {b : Box} (h : (Box.start db progs).Reach b) :
    RowsOk V b.disk.perms ∧ ∃ k, k ≤ prog.length ∧
      part O K b.disk = partAfter O P (fun w => watched (some w.1) db) ((prog.take k).flatMap PCall.acts) ∧
      ∀ r, b.clients[i]? = some (.live (.ret r)) → k = prog.length := by
  obtain ⟨σ1, h1, h2⟩ := mirror_reach (mirror_start db progs) h
  obtain ⟨τ, h3, h4, h5⟩ := h2.done
  have hr := reach_trans h1 h3
  have hKI : KInv V K db := ⟨⟨hI.1, by simp⟩, fun w => ⟨hI.1, by rintro _ ⟨⟩; exact hkn _ w.2⟩⟩
  have hsafe := outs_safe hV hK hKI hp hne
  have h0 : part O K db = (fullRows O P, fun w => watched (some w.1) db) := by
    unfold part
    congr 1
    funext x n
    unfold ownRows fullRows
    exact propext (and_congr_right fun hx => hI.2 _ ((hO x).1 hx).1 n)
  have hal := hr.along (i := i) (st := part O K)
    (J := fun T => ∃ k, k ≤ prog.length ∧ T = partAfter O P (fun w => watched (some w.1) db) ((prog.take k).flatMap PCall.acts))
    (Q := fun T => T = partAfter O P (fun w => watched (some w.1) db) (prog.flatMap PCall.acts)) hKI hsafe (by
      intro j hj hji a b hab
      unfold part
      congr 1
      · refine only_own (V := V) (fun x hx => ⟨((hO x).1 hx).1, ?_⟩) hab.1
        rintro ⟨p, hpj, ht⟩
        exact ((hO x).1 hx).2 j p hpj hji ht
      · funext w
        exact hab.2 w hji) (by
      intro p hpi
      simp only [List.getElem?_map, hi, Option.map_some, Option.some.injEq] at hpi
      subst hpi
      show Proc.Along _ _ _ _ _ (part O K db)
      rw [h0]
      exact program_along hV (fun x hx => ((hO x).1 hx).1) hK (hp prog (List.mem_of_getElem? hi)) hat hown hP ⟨db, hKI, h0⟩)
  have hinv := (hr.safe hKI hsafe).1
  refine ⟨by rw [← h4]; exact hinv.1.1, ?_⟩
  have hl : i < τ.procs.length := by
    rw [hr.length]
    simpa using (List.getElem?_eq_some_iff.1 hi).1
  have hpi := hal _ (List.getElem?_eq_getElem hl)
  rw [← h4]
  by_cases hret : ∃ r, b.clients[i]? = some (.live (.ret r))
  · obtain ⟨r, hr'⟩ := hret
    have h6 := hal _ (h5 i r hr')
    exact ⟨prog.length, Nat.le_refl _, by rw [List.take_length]; exact h6.2.2, fun _ _ => rfl⟩
  · obtain ⟨k, hk, hJ⟩ := hpi.now
    exact ⟨k, hk, hJ, fun r hr' => absurd ⟨r, hr'⟩ hret⟩

end GB
