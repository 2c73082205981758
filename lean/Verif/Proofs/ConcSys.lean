import Verif.Proofs.ConcShare

/-! Several programs together. -/

set_option linter.unusedSectionVars false

namespace GB

variable {F : Type} [PyFloat F] [DecidableEq F] {V : Val F → Prop}

theorem sameEdges_rows (hV : Vocab V) {s s' : St} (hc : s.cur = none) (hc' : s'.cur = none)
    (hR : RowsOk V s.work.perms) (hR' : RowsOk V s'.work.perms) (h : SameRows V s.work.perms s'.work.perms) :
    SameEdges V s s' := by
  have hu := St.usable_of_none hc
  have hu' := St.usable_of_none hc'
  have hrow : ∀ r, r ∈ s.work.perms ↔ r ∈ s'.work.perms := by
    intro r
    constructor
    · intro hr
      obtain ⟨e, n, he, hn, rfl⟩ := hR r hr
      exact ((h e he n).1 ⟨hn, hr⟩).2
    · intro hr
      obtain ⟨e, n, he, hn, rfl⟩ := hR' r hr
      exact ((h e he n).2 ⟨hn, hr⟩).2
  have hH : ∀ (x : Val F) n, HasRow s'.work.perms x n ↔ HasRow s.work.perms x n := by
    intro x n
    unfold HasRow
    rw [hrow]
  constructor
  · intro x hx
    exact exists_same hV hc hc' hR hR' hx (h x hx)
  · intro ps hp
    refine SameSet.of (pattern_rows hV hp hu hR) ?_
    have := pattern_rows hV (b := false) hp hu' hR'
    simp only [hH] at this
    exact this
  · intro c hcV ha
    refine SameSet.of (star_rows hV hcV ha hu hR) ?_
    have := star_rows hV hcV ha hu' hR'
    simp only [hH] at this
    exact this
  · intro r hr
    refine SameSet.of (symbols_rows hV hr.1 hr.2 hu hR) ?_
    have := symbols_rows hV hr.1 hr.2 hu' hR'
    simp only [← hrow] at this
    exact this
  · intro e h1 h2
    refine SameSet.of (sources_rows hV h1 h2 hu hR) ?_
    simpa only [hH] using sources_rows hV h1 h2 hu' hR'

theorem sameOutside_rows (hV : Vocab V) {T : Val F → Prop} {s s' : St} (hc : s.cur = none) (hc' : s'.cur = none)
    (hR : RowsOk V s.work.perms) (hR' : RowsOk V s'.work.perms)
    (hrow : ∀ x, EdgeOver V x → ¬ T x → ∀ n, HasRow s.work.perms x n ↔ HasRow s'.work.perms x n) :
    SameOutside V T s s' := by
  have hu := St.usable_of_none hc
  have hu' := St.usable_of_none hc'
  constructor
  · intro e he
    obtain ⟨b, hb, _⟩ := exists_rows hV he hu hR
    exact ⟨b, by unfold hgExists; rw [hb]⟩
  · intro x hx hne
    exact exists_same hV hc hc' hR hR' hx (fun n => hrow x hx hne n)
  · intro ps hp
    obtain ⟨r, e1, e2, e3⟩ := pattern_rows hV (b := false) hp hu hR
    obtain ⟨r', e1', e2', e3'⟩ := pattern_rows hV (b := false) hp hu' hR'
    refine ⟨r, r', ?_, ?_, e2, e2', ?_⟩
    · unfold hgPattern2edges; rw [show (Val.tup ps : Val F) = .seq false ps from rfl, e1]
    · unfold hgPattern2edges; rw [show (Val.tup ps : Val F) = .seq false ps from rfl, e1']
    · intro x hne
      rw [e3, e3']
      refine and_congr_right fun hx => and_congr_right fun _ => exists_congr fun n => ?_
      rw [hrow x hx hne n]
  · intro c hcV ha
    obtain ⟨r, e1, e2, e3⟩ := star_rows hV hcV ha hu hR
    obtain ⟨r', e1', e2', e3'⟩ := star_rows hV hcV ha hu' hR'
    refine ⟨r, r', ?_, ?_, e2, e2', ?_⟩
    · unfold hgStar; rw [e1]
    · unfold hgStar; rw [e1']
    · intro x hne
      rw [e3, e3']
      refine and_congr_right fun hx => exists_congr fun n => ?_
      rw [hrow x hx hne n]

/-! ### presence -/

theorem act_agree {a : PAct F} {O P P' : Val F → Prop} (hs : ∀ y, a.Sees y → O y) (h : ∀ y, O y → (P y ↔ P' y)) :
    ∀ y, O y → (a.after P y ↔ a.after P' y) := by
  intro y hy
  cases a with
  | removeBelief src e =>
    have : (∃ src', P (support e src') ∧ support e src' ≠ support e src) ↔
        ∃ src', P' (support e src') ∧ support e src' ≠ support e src :=
      exists_congr fun src' => and_congr_left fun _ => h _ (hs _ ⟨src', rfl⟩)
    simp only [PAct.after, h y hy, this]
  | _ => simp only [PAct.after, h y hy]

theorem act_untouched {a : PAct F} {P : Val F → Prop} {x : Val F} (h : ¬ a.Touches x) : a.after P x ↔ P x := by
  cases a with
  | add e ts => exact ⟨fun h' => h'.resolve_right h, .inl⟩
  | addMany es ts => exact ⟨fun h' => h'.resolve_right h, .inl⟩
  | addBelief src e ts => exact ⟨fun h' => h'.resolve_right (by simpa [PAct.Touches] using h), .inl⟩
  | addBeliefs src es ts => exact ⟨fun h' => h'.resolve_right fun h' => h (mem_pairs.1 h'), .inl⟩
  | remove e => exact ⟨fun h' => h'.1, fun h' => ⟨h', h⟩⟩
  | removeMany es => exact ⟨fun h' => h'.1, fun h' => ⟨h', h⟩⟩
  | removeByPattern ps => exact ⟨fun h' => h'.1, fun h' => ⟨h', h⟩⟩
  | removeBelief src e =>
    exact ⟨fun h' => h'.1.1, fun h' => ⟨⟨h', fun k => h (.inr k)⟩, fun k => h (.inl k.1)⟩⟩

theorem all_agree {prog : Program F} {O P P' : Val F → Prop} (hs : ∀ y, prog.Sees y → O y) (h : ∀ y, O y → (P y ↔ P' y)) :
    ∀ y, O y → (afterAll prog P y ↔ afterAll prog P' y) := by
  induction prog generalizing P P' with
  | nil => exact h
  | cons a prog ih =>
    exact ih (fun y ⟨b, hb, hy⟩ => hs y ⟨b, by simp [hb], hy⟩) (act_agree (fun y hy => hs y ⟨a, by simp, hy⟩) h)

theorem act_removes {a : PAct F} {x : Val F} (h : a.Removes x) : a.Touches x := by
  cases a <;> first | exact h | exact h.elim

theorem program_removes {p : Program F} {x : Val F} : p.Removes x → p.Touches x :=
  fun ⟨a, ha, h⟩ => ⟨a, ha, act_removes h⟩

theorem all_over {prog : Program F} (ha : ∀ a ∈ prog, a.op.Over V) {P : Val F → Prop} (hP : ∀ x, P x → EdgeOver V x) :
    ∀ x, afterAll prog P x → EdgeOver V x := by
  induction prog generalizing P with
  | nil => exact hP
  | cons a prog ih =>
    exact ih (fun b hb => ha b (by simp [hb])) fun x hx => after_over (ha a (by simp)) hP hx

theorem all_untouched {prog : Program F} {P : Val F → Prop} {x : Val F} (h : ¬ prog.Touches x) :
    afterAll prog P x ↔ P x := by
  induction prog generalizing P with
  | nil => exact Iff.rfl
  | cons a prog ih =>
    have h1 : ¬ a.Touches x := fun h' => h ⟨a, by simp, h'⟩
    have h2 : ¬ Program.Touches prog x := fun ⟨b, hb, h'⟩ => h ⟨b, by simp [hb], h'⟩
    exact (ih h2).trans (act_untouched h1)

theorem all_append (p q : Program F) (P : Val F → Prop) : afterAll (p ++ q) P = afterAll q (afterAll p P) := by
  unfold afterAll; rw [List.foldl_append]

theorem act_kept {a : PAct F} {P : Val F → Prop} {x : Val F} (hr : ¬ a.Removes x) (h : P x ∨ a.Touches x) :
    a.after P x := by
  cases a with
  | add e ts => exact h
  | addMany es ts => exact h
  | addBelief src e ts => exact h.imp id fun h => by simpa [PAct.Touches] using h
  | addBeliefs src es ts => exact h.imp id mem_pairs.2
  | removeBelief src e =>
    exact h.elim (fun h => ⟨⟨h, fun k => hr (.inr k)⟩, fun k => hr (.inl k.1)⟩) fun h => absurd h hr
  | _ => exact h.elim (fun h => ⟨h, hr⟩) fun h => absurd h hr

theorem all_kept {prog : Program F} {P : Val F → Prop} {x : Val F} (hr : ¬ prog.Removes x)
    (h : P x ∨ prog.Touches x) : afterAll prog P x := by
  induction prog generalizing P with
  | nil => exact h.elim id fun ⟨a, ha, _⟩ => by simp at ha
  | cons a prog ih =>
    have h1 : ¬ a.Removes x := fun h' => hr ⟨a, by simp, h'⟩
    have h2 : ¬ Program.Removes prog x := fun ⟨b, hb, h'⟩ => hr ⟨b, by simp [hb], h'⟩
    refine ih h2 ?_
    by_cases ha : P x ∨ a.Touches x
    · exact .inl (act_kept h1 ha)
    · right
      rcases h with h | ⟨b, hb, h⟩
      · exact absurd (.inl h) ha
      · rcases List.mem_cons.1 hb with rfl | hb
        · exact absurd (.inr h) ha
        · exact ⟨b, hb, h⟩

theorem touches_append {p q : Program F} {x : Val F} : Program.Touches (p ++ q) x ↔ p.Touches x ∨ q.Touches x := by
  unfold Program.Touches
  constructor
  · rintro ⟨a, ha, h⟩
    exact (List.mem_append.1 ha).imp (fun ha => ⟨a, ha, h⟩) fun ha => ⟨a, ha, h⟩
  · rintro (⟨a, ha, h⟩ | ⟨a, ha, h⟩)
    · exact ⟨a, by simp [ha], h⟩
    · exact ⟨a, by simp [ha], h⟩

theorem touches_flatten {progs : List (Program F)} {x : Val F} :
    Program.Touches progs.flatten x ↔ ∃ p ∈ progs, p.Touches x := by
  unfold Program.Touches
  constructor
  · rintro ⟨a, ha, h⟩
    obtain ⟨p, hp, ha⟩ := List.mem_flatten.1 ha
    exact ⟨p, hp, a, ha, h⟩
  · rintro ⟨p, hp, a, ha, h⟩
    exact ⟨a, List.mem_flatten.2 ⟨p, hp, ha⟩, h⟩

theorem all_flatten {progs : List (Program F)} {i : Nat} {p : Program F} (hp : progs[i]? = some p) {x : Val F}
    (h : ∀ (j : Nat) (q : Program F), progs[j]? = some q → j ≠ i → ¬ q.Touches x)
    (hs : ∀ (j : Nat) (q : Program F), progs[j]? = some q → j ≠ i → ∀ y, p.Sees y → ¬ q.Touches y) (P : Val F → Prop) :
    afterAll progs.flatten P x ↔ afterAll p P x := by
  induction progs generalizing i P with
  | nil => simp at hp
  | cons q qs ih =>
    rw [List.flatten_cons, all_append]
    cases i with
    | zero =>
      simp at hp
      subst hp
      refine all_untouched ?_
      rw [touches_flatten]
      rintro ⟨r, hr, ht⟩
      obtain ⟨j, hj⟩ := List.getElem?_of_mem hr
      exact h (j + 1) r (by simpa using hj) (by omega) ht
    | succ i =>
      rw [ih (by simpa using hp) (fun j r hj hji => h (j + 1) r (by simpa using hj) (by omega))
        (fun j r hj hji => hs (j + 1) r (by simpa using hj) (by omega))]
      exact all_agree (O := fun y => ¬ q.Touches y) (hs 0 q rfl (by omega)) (fun y hy => all_untouched hy) x
        (h 0 q rfl (by omega))

/-! ### the rows at the end -/

/-- The index is exactly that of the edges satisfying `P`. -/
def IndexOf (V P : Val F → Prop) (db : DB) : Prop :=
  RowsOk V db.perms ∧ ∀ x, EdgeOver V x → ∀ n, HasRow db.perms x n ↔ P x ∧ n < factorial x.elems.length

variable {W : Option (Val F)} {P : Val F → Prop}

theorem start_proc {db : DB} {progs : List (Program F)} {i : Nat} {p : Proc Unit}
    (h : (Sys.start db progs).procs[i]? = some p) : ∃ prog, progs[i]? = some prog ∧ p = programP prog := by
  unfold Sys.start at h
  rw [List.getElem?_map] at h
  cases hp : progs[i]? with
  | none => rw [hp] at h; cases h
  | some prog => rw [hp] at h; cases h; exact ⟨prog, rfl, rfl⟩

/-- What process `i` may do. -/
def allowed (V : Val F → Prop) (progs : List (Program F)) (i : Nat) : DB → DB → Prop :=
  Only V (fun x => ∃ p, progs[i]? = some p ∧ p.Touches x) (fun x => ∃ p, progs[i]? = some p ∧ p.Removes x)

theorem start_safe (hV : Vocab V) (hW : WOk W) {db : DB} {progs : List (Program F)}
    (hp : ∀ p ∈ progs, ∀ a ∈ p, a.op.Over V) :
    ∀ (i : Nat) (p : Proc Unit), (Sys.start db progs).procs[i]? = some p → p.Safe (CInv V W) (allowed V progs i) := by
  intro i p h
  obtain ⟨prog, h1, rfl⟩ := start_proc h
  refine (safe_program hV hW (hp prog (List.mem_of_getElem? h1))).mono ?_
  intro a b h x hx
  obtain ⟨k1, k2⟩ := h x hx
  exact ⟨fun ht => k1 fun h => ht ⟨prog, h1, h⟩, fun hr => k2 fun h => hr ⟨prog, h1, h⟩⟩

theorem reach_inv (hV : Vocab V) (hW : WOk W) {db : DB} (hI : CInv V W db) {progs : List (Program F)}
    (hp : ∀ p ∈ progs, ∀ a ∈ p, a.op.Over V) {τ : Sys} (h : (Sys.start db progs).Reach τ) :
    CInv V W τ.db ∧ ∀ (i : Nat) (p : Proc Unit), τ.procs[i]? = some p → p.Safe (CInv V W) (allowed V progs i) :=
  h.safe hI (start_safe hV hW hp)

theorem rows_untouched (hV : Vocab V) {db : DB} (hI : RowsOk V db.perms) {progs : List (Program F)}
    (hp : ∀ p ∈ progs, ∀ a ∈ p, a.op.Over V) {τ : Sys} (h : (Sys.start db progs).Reach τ) {x : Val F}
    (hx : EdgeOver V x) (hun : ∀ p ∈ progs, ¬ p.Touches x) (n : Nat) :
    HasRow τ.db.perms x n ↔ HasRow db.perms x n := by
  have := h.same (I := CInv V none) (st := fun db => HasRow db.perms x n) ⟨hI, by simp⟩
    (start_safe hV (by simp [WOk]) hp) (by
      intro i p hi a b hab
      refine propext (((hab x hx).1 ?_) n)
      rintro ⟨prog, h1, h2⟩
      exact hun prog (List.mem_of_getElem? h1) h2)
  exact iff_of_eq this

theorem rows_owned (hV : Vocab V) {db : DB} (hI : IndexOf V P db) (hP : ∀ x, P x → EdgeOver V x) {progs : List (Program F)}
    (hp : ∀ p ∈ progs, ∀ a ∈ p, a.op.Over V) {τ : Sys} (h : (Sys.start db progs).Reach τ) {x : Val F}
    (hx : EdgeOver V x) {i : Nat} {prog : Program F} (hi : progs[i]? = some prog)
    (hf : ∀ p, τ.procs[i]? = some p → ∃ r, p = .ret r)
    (hun : ∀ (j : Nat) (q : Program F), progs[j]? = some q → j ≠ i → ¬ q.Touches x)
    (hsee : ∀ (j : Nat) (q : Program F), progs[j]? = some q → j ≠ i → ∀ y, prog.Sees y → ¬ q.Touches y) (n : Nat) :
    HasRow τ.db.perms x n ↔ afterAll prog P x ∧ n < factorial x.elems.length := by
  let O : Val F → Prop := fun y => EdgeOver V y ∧
    ∀ (j : Nat) (q : Program F), progs[j]? = some q → j ≠ i → ¬ q.Touches y
  have hO : ∀ y, O y → EdgeOver V y := fun y hy => hy.1
  have hox : O x := ⟨hx, hun⟩
  have hW : WOk (none : Option (Val F)) := by simp [WOk]
  have h0 : ownRows O db = fullRows O P := by
    funext y k
    unfold ownRows fullRows
    exact propext (and_congr_right fun hy => hI.2 _ hy.1 k)
  obtain ⟨cs, hl, _, hq, _⟩ := h.track (I := CInv V none) (G := allowed V progs)
    (st := fun j db => if j = i then ownRows O db else fun _ _ => False) (cnt := watched none)
    (Q := fun j S _ => j = i → S = fullRows O (afterAll prog P)) ⟨hI.1, by simp⟩
    (start_safe hV hW hp) (by
      intro j k hj hk hjk a b hab
      by_cases hji : j = i
      · simp only [hji, if_true]
        subst hji
        refine only_own (V := V) (fun y hy => ⟨hO y hy, ?_⟩) hab
        rintro ⟨q, h1, h2⟩
        exact hy.2 k q h1 (fun h => hjk h.symm) h2
      · simp only [hji, if_false]) (by
      intro j p hj
      obtain ⟨q, h1, rfl⟩ := start_proc hj
      by_cases hji : j = i
      · subst hji
        rw [hi] at h1
        cases h1
        simp only [if_true, Sys.start]
        rw [h0]
        refine (own_program hV hW hO (hp prog (List.mem_of_getElem? hi)) hP
          (fun y hy hyv => ⟨hy, fun j q hj hji => hsee j q hj hji y hyv⟩) 0).mono ?_
        rintro _ S c ⟨rfl, _⟩ _
        rfl
      · simp only [hji, if_false]
        refine (Proc.Safe.track (fun _ _ _ => rfl) (start_safe (db := db) hV hW hp j _ hj)).mono ?_
        intro _ S c _ h
        exact h.elim)
  have hlen := h.length
  have hil : i < τ.procs.length := by
    rw [hlen]
    simp only [Sys.start, List.length_map]
    exact (List.getElem?_eq_some_iff.1 hi).1
  have hpi := List.getElem?_eq_getElem hil
  have hci := List.getElem?_eq_getElem (hl ▸ hil : i < cs.length)
  obtain ⟨r, hr⟩ := hf _ hpi
  have := hq i _ _ hpi hci
  rw [hr] at this
  obtain ⟨_, _, hS⟩ := this
  have hS := hS rfl
  simp only [if_true] at hS
  have := congrFun (congrFun hS x) n
  simpa [ownRows, fullRows, hox] using this

theorem rows_shared (hV : Vocab V) {db : DB} (hI : IndexOf V P db) {progs : List (Program F)}
    (hp : ∀ p ∈ progs, ∀ a ∈ p, a.op.Over V) {τ : Sys} (h : (Sys.start db progs).Reach τ) {x : Val F}
    (hf : ∀ (i : Nat) (p : Program F), progs[i]? = some p → p.Touches x → ∀ q, τ.procs[i]? = some q → ∃ r, q = .ret r)
    (hx : EdgeOver V x) (hr : ∀ p ∈ progs, ¬ p.Removes x) (ht : ∃ p ∈ progs, p.Touches x) (n : Nat)
    (hn : n < factorial x.elems.length) : HasRow τ.db.perms x n := by
  have hW : WOk (none : Option (Val F)) := by simp [WOk]
  have h0 : NoRows x db ∨ ∀ n, n < factorial x.elems.length → Row x n db := by
    by_cases hP : P x
    · exact .inr fun n hn => (hI.2 x hx n).2 ⟨hP, hn⟩
    · exact .inl fun n hn => hP ((hI.2 x hx n).1 hn).1
  have := h.share (I := CInv V none) (G := allowed V progs) (x := x) (m := factorial x.elems.length)
    (Q := fun i => ∀ p, progs[i]? = some p → ¬ p.Touches x)
    (B := fun i => ∃ p, progs[i]? = some p ∧ p.Touches x) ⟨hI.1, by simp⟩ (start_safe hV hW hp) (by
      intro i hi a b hab n hn
      refine (hab x hx).2 ?_ n hn
      rintro ⟨p, h1, h2⟩
      exact hr p (List.mem_of_getElem? h1) h2) (by
      intro i hi hb a b hab hN n hn
      exact hN n (((hab x hx).1 hb n).1 hn)) (by
      intro i p hi _
      obtain ⟨prog, h1, rfl⟩ := start_proc hi
      refine (share_program hV hW hx (hp prog (List.mem_of_getElem? h1)) ?_).mono ?_
      · exact fun a ha h => hr prog (List.mem_of_getElem? h1) ⟨a, ha, h⟩
      · rintro _ h p hp ⟨a, ha, h2⟩
        rw [h1] at hp
        cases hp
        exact h a ha h2) h0
  rcases this with ⟨_, hq⟩ | hall
  · exfalso
    obtain ⟨p, hpm, hpt⟩ := ht
    obtain ⟨i, hi⟩ := List.getElem?_of_mem hpm
    have hil : i < τ.procs.length := by
      rw [h.length]
      simp only [Sys.start, List.length_map]
      exact (List.getElem?_eq_some_iff.1 hi).1
    have := hq i _ (List.getElem?_eq_getElem hil) ⟨p, hi, hpt⟩
    obtain ⟨r, hr⟩ := hf i p hi hpt _ (List.getElem?_eq_getElem hil)
    rw [hr] at this
    obtain ⟨_, _, hQ⟩ := this
    exact hQ p hi hpt
  · rcases hall n hn with h | ⟨i, p, ⟨prog, h1, h2⟩, hi, hw⟩
    · exact h
    · obtain ⟨r, rfl⟩ := hf i prog h1 h2 p hi
      exact absurd hw id

theorem rows_end (hV : Vocab V) {db : DB} (hI : IndexOf V P db) (hP : ∀ x, P x → EdgeOver V x) {progs : List (Program F)}
    (hp : ∀ p ∈ progs, ∀ a ∈ p, a.op.Over V) (hind : Independent progs) {τ : Sys} (h : (Sys.start db progs).Reach τ)
    (hf : τ.Finished) : IndexOf V (afterAll progs.flatten P) τ.db := by
  refine ⟨(reach_inv hV (W := none) (by simp [WOk]) ⟨hI.1, by simp⟩ hp h).1.1, ?_⟩
  intro x hx n
  by_cases ht : ∃ p ∈ progs, Program.Touches p x
  · obtain ⟨p, hpm, hpt⟩ := ht
    obtain ⟨i, hi⟩ := List.getElem?_of_mem hpm
    by_cases hun : ∀ (j : Nat) (q : Program F), progs[j]? = some q → j ≠ i → ¬ q.Touches x
    · have hsee : ∀ (j : Nat) (q : Program F), progs[j]? = some q → j ≠ i → ∀ y, p.Sees y → ¬ q.Touches y :=
        fun j q hj hji y hy hq => (hind j i q p hj hi hji y hq).2 hy
      rw [rows_owned hV hI hP hp h hx hi (fun p hq => hf p (List.mem_of_getElem? hq)) hun hsee, all_flatten hi hun hsee]
    · have hr : ∀ p ∈ progs, ¬ p.Removes x := by
        intro r hrm hrr
        obtain ⟨k, hk⟩ := List.getElem?_of_mem hrm
        by_cases hki : i = k
        · subst hki
          apply hun
          intro j q hj hji hq
          exact (hind j i q r hj hk hji x hq).1 hrr
        · exact (hind i k p r hi hk hki x hpt).1 hrr
      have hall : afterAll progs.flatten P x := by
        refine all_kept ?_ (.inr (touches_flatten.2 ⟨p, hpm, hpt⟩))
        rintro ⟨a, ha, h⟩
        obtain ⟨q, hq, ha⟩ := List.mem_flatten.1 ha
        exact hr q hq ⟨a, ha, h⟩
      exact ⟨fun h' => ⟨hall, h'.1⟩, fun h' => rows_shared hV hI hp h (fun i _ _ _ q hq => hf q (List.mem_of_getElem? hq)) hx hr ⟨p, hpm, hpt⟩ n h'.2⟩
  · have hun : ∀ p ∈ progs, ¬ Program.Touches p x := fun p hp h => ht ⟨p, hp, h⟩
    rw [rows_untouched hV hI.1 hp h hx hun, hI.2 x hx, all_untouched]
    rw [touches_flatten]
    exact ht

theorem indexOf_conc (hV : Vocab V) {A : Abs F} (hA : AbsOk V A) : IndexOf V (fun x => x ∈ A.edges) A.conc :=
  ⟨rowsOk_conc hA, fun _ hx _ => hasRow_conc hV hA hx⟩

theorem indexOf_shows (hV : Vocab V) {s : St} {S : Spec F} (h : Shows V s S) : IndexOf V S.Present s.work := by
  obtain ⟨A, hA, hR, hw⟩ := h.ex
  rw [hw]
  refine ⟨rowsOk_conc hA, fun x hx n => ?_⟩
  rw [hasRow_conc hV hA hx]
  exact and_congr_left fun _ => (hR.present x).symm

theorem shows_over (hV : Vocab V) {s : St} {S : Spec F} (h : Shows V s S) : ∀ x, S.Present x → EdgeOver V x := by
  obtain ⟨A, hA, hR, _⟩ := h.ex
  exact fun x hx => hA.over x ((hR.present x).1 hx)

theorem op_present (S : Spec F) (a : PAct F) (x : Val F) : (S.op a.op).Present x ↔ a.after S.Present x := by
  cases a with
  | add e ts =>
    rw [show S.op (PAct.add e ts).op = S.add e ts from rfl, Spec.add_present, PAct.after]
    exact Or.comm
  | addMany es ts =>
    rw [show S.op (PAct.addMany es ts).op = es.foldl (fun S e => S.add e ts) S from rfl,
      Spec.foldAdd_present _ (fun e x => x = e) (fun S e x => Spec.add_present S e x ts), PAct.after]
    simp [or_comm]
  | remove e =>
    rw [show S.op (PAct.remove e).op = S.remove e from rfl, Spec.remove_present, PAct.after]
    exact And.comm
  | removeMany es =>
    rw [show S.op (PAct.removeMany es).op = es.foldl Spec.remove S from rfl, Spec.foldRemove_present, PAct.after]
    exact And.comm
  | removeByPattern ps =>
    rw [show S.op (PAct.removeByPattern ps).op = S.removeWhere fun x => Matches ps x.elems from rfl,
      Spec.removeWhere_present, PAct.after]
    exact And.comm
  | addBelief src e ts =>
    rw [show S.op (PAct.addBelief src e ts).op = S.addBelief src e ts from rfl, Spec.addBelief_present, PAct.after]
    simp only [List.mem_cons, List.not_mem_nil, or_false]
    exact Or.comm
  | addBeliefs src es ts =>
    rw [show S.op (PAct.addBeliefs src es ts).op = es.foldl (fun S e => S.addBelief src e ts) S from rfl,
      Spec.foldAdd_present _ (fun e x => x = e ∨ x = support e src) (fun S e x => Spec.addBelief_present S src e x ts),
      PAct.after]
    show _ ↔ S.Present x ∨ x ∈ es.flatMap fun e => [e, support e src]
    rw [mem_pairs]
    exact Or.comm
  | removeBelief src e =>
    show (S.removeBelief src e).Present x ↔ _
    unfold Spec.removeBelief
    have hc : (∃ s', (S.remove (support e src)).Present (support e s')) ↔
        ∃ src', S.Present (support e src') ∧ support e src' ≠ support e src :=
      exists_congr fun s' => by rw [Spec.remove_present]; exact And.comm
    simp only [hc, PAct.after]
    split
    · next h =>
      rw [Spec.remove_present]
      exact ⟨fun k => ⟨⟨k.2, k.1⟩, fun k' => k'.2 (hc.1 h)⟩, fun k => ⟨k.1.2, k.1.1⟩⟩
    · next h =>
      rw [Spec.remove_present, Spec.remove_present]
      exact ⟨fun k => ⟨⟨k.2.2, k.2.1⟩, fun k' => k.1 k'.1⟩, fun k => ⟨fun k' => k.2 ⟨k', fun h' => h (hc.2 h')⟩, k.1.2, k.1.1⟩⟩

theorem ops_present (prog : Program F) (S : Spec F) (x : Val F) :
    ((prog.map PAct.op).foldl Spec.op S).Present x ↔ afterAll prog S.Present x := by
  induction prog generalizing S with
  | nil => exact Iff.rfl
  | cons a prog ih =>
    rw [List.map_cons, List.foldl_cons, ih]
    have : (S.op a.op).Present = a.after S.Present := funext fun y => propext (op_present S a y)
    rw [this]
    rfl

/-! ### degrees -/

theorem known_of_lookV {vs : List (VEnt F)} (hk : KeysOk vs) {v : Val F} (hv : WfVal v) {r : VEnt F}
    (h : lookV v vs = some r) (ps : List Str) : KnownRow v ⟨vs.map VEnt.row, ps⟩ := by
  have hmem : r ∈ vs ∧ r.v = v := by
    unfold lookV at h
    exact ⟨List.mem_of_find?_eq_some h, by simpa using List.find?_some h⟩
  unfold KnownRow DB.selectVertex
  refine ⟨r.row, ?_⟩
  have hfil : (vs.map VEnt.row).filter (fun r => decide (r.id = edge2str v)) = (vs.filter fun r => decide (r.v = v)).map VEnt.row := by
    rw [List.filter_map]
    congr 1
    apply List.filter_congr
    intro x hx
    simp only [Function.comp_apply]
    have : (x.row.id = edge2str v) ↔ x.v = v := text_eq_iff (hk.2 x hx) hv
    simp [this]
  simp only [hfil]
  have : vs.filter (fun r => decide (r.v = v)) = [r] := by
    have hnd : ((vs.filter (fun r => decide (r.v = v))).map VEnt.v).Nodup :=
      (List.filter_sublist.map _).nodup hk.1
    cases hf : vs.filter (fun r => decide (r.v = v)) with
    | nil =>
      have : r ∈ vs.filter (fun r => decide (r.v = v)) := List.mem_filter.2 ⟨hmem.1, by simpa using hmem.2⟩
      rw [hf] at this
      simp at this
    | cons a l =>
      have hall : ∀ y ∈ a :: l, y.v = v := by
        intro y hy
        rw [← hf] at hy
        simpa using (List.mem_filter.1 hy).2
      cases l with
      | nil =>
        have : r ∈ [a] := by rw [← hf]; exact List.mem_filter.2 ⟨hmem.1, by simpa using hmem.2⟩
        simp at this
        rw [this]
      | cons b l =>
        exfalso
        rw [hf] at hnd
        simp [hall a (by simp), hall b (by simp)] at hnd
  rw [this]
  rfl

theorem degree_here (v : Val F) (db : DB) (auto : Bool) : (hgDegree v (reopen db auto)).1 = .ok (degRow v db) := by
  unfold hgDegree sqlDegree
  have hu : (reopen db auto).usable := by simp [St.usable, reopen]
  rw [bind_run _ _ _ (openCursor_local _), bind_run _ _ _ (execRead_local hu _ _)]
  unfold degRow
  have hw : (reopen db auto).work = db := rfl
  rw [hw]
  cases db.selectVertex (edge2str v) with
  | nil => rfl
  | cons r _ => rfl

end GB
