import Verif.Proofs.View
import Verif.Spec.WitnessHist
import Verif.Props.Symbol

/-!
Properties C13-C17, C19, C21, C22, C24-C34: what a HyperGraph with an SQL backend shows after any history
of operations.

Everywhere `V` is a vocabulary (`Spec/Vocab.lean`), `ops` an arbitrary history over it
(`Spec/History.lean`), run on a new graph, with or without autocommit, ending in state `s`.
`Spec.after ops` is what the user should observe.
-/

set_option linter.unusedSectionVars false
set_option linter.unusedVariables false

namespace GB

variable {F : Type} [PyFloat F] [DecidableEq F] {V : Val F → Prop}

/-! ### C13 -/

/-- C13: after any history, `exists(e)` says whether `e` is present, and changes nothing. -/
theorem C13_exists (hV : Vocab V) (ops : List (Op F)) (hops : ∀ op ∈ ops, op.Over V) (auto : Bool) (s : St)
    (hs : runOps ops (St.new auto) = (.ok (), s)) (e : Val F) (he : EdgeOver V e) :
    hgExists e s = (.ok ((Spec.after ops).created e).isSome, s) :=
  (shows_of hV hops hs).exists_ hV he

/-- C13, read literally: in any history without `remove_belief` and batches (see C32, C34 for these),
`exists(e)` is true exactly when some operation added `e` and no later operation erased it. -/
theorem C13_literal (hV : Vocab V) (ops : List (Op F)) (hops : ∀ op ∈ ops, op.Over V) (hl : ∀ op ∈ ops, op.Literal)
    (auto : Bool) (s : St) (hs : runOps ops (St.new auto) = (.ok (), s)) (e : Val F) (he : EdgeOver V e) :
    (hgExists e s).1 = .ok true ↔
      ∃ pre op post, ops = pre ++ op :: post ∧ op.Adds e ∧ ∀ o ∈ post, o.Adds e ∨ ¬ o.Erases e := by
  rw [C13_exists hV ops hops auto s hs e he, ← Spec.after_present_iff ops hl e]
  simp [Spec.Present]

/-- The hypotheses can be met: the example history is one, and it runs (C29 shows that all do). -/
example : (∀ op ∈ exOps, op.Over PlainVocab) ∧ ∃ s, runOps exOps (St.new false) = (.ok (), s) := by
  refine ⟨exOps_over, ?_⟩
  obtain ⟨s, A, h⟩ := after_exists plainVocab exOps exOps_over false
  exact ⟨s, h.run⟩

/-- What the model answers at the end of the example history. -/
example : ((runOps exOps >>= fun _ => hgExists exE3) (St.new false)).1 = .ok true ∧
    ((runOps exOps >>= fun _ => hgExists exE4) (St.new false)).1 = .ok false := by decide +kernel

/-! ### C14 -/

/-- C14: adding an edge that is present changes nothing at all. -/
theorem C14_add_present (hV : Vocab V) (ops : List (Op F)) (hops : ∀ op ∈ ops, op.Over V) (auto : Bool) (s : St)
    (hs : runOps ops (St.new auto) = (.ok (), s)) (e : Val F) (he : EdgeOver V e)
    (hp : hgExists e s = (.ok true, s)) (ts : Int) : hgAdd e ts s = (.ok e, s) := by
  obtain ⟨h, hh, hsq⟩ := head0_edge he
  unfold hgAdd sqlAdd
  rw [bind_run _ _ _ (liftE_ok hh s)]
  simp only [hsq, Bool.false_eq_true, if_false]
  have : addRaw e ts s = (.ok e, s) := by
    unfold addRaw
    rw [bind_run _ _ _ (show existsM e s = _ from hp)]
    rfl
  rw [bind_run _ _ _ this]
  rfl

/-- C14: adding twice is adding once. -/
theorem C14_add_twice (hV : Vocab V) (ops : List (Op F)) (hops : ∀ op ∈ ops, op.Over V) (auto : Bool) (s : St)
    (hs : runOps ops (St.new auto) = (.ok (), s)) (e : Val F) (he : EdgeOver V e) (ts ts' : Int) :
    ∃ s', hgAdd e ts s = (.ok e, s') ∧ hgAdd e ts' s' = (.ok e, s') := by
  obtain ⟨A, hA⟩ := after_of hV hops hs
  obtain ⟨s', e1, st⟩ := add_run (q := false) (T := TT) hV hA.ok he ts hA.usable hA.work (fun _ _ _ => trivial)
  refine ⟨s', e1, ?_⟩
  have hops' : ∀ op ∈ ops ++ [Op.prim (.add e ts)], op.Over V := by
    intro op ho
    rcases List.mem_append.1 ho with h | h
    · exact hops op h
    · simp only [List.mem_singleton] at h; subst h; exact he
  have hs' : runOps (ops ++ [Op.prim (.add e ts)]) (St.new auto) = (.ok (), s') := by
    rw [runOps_append hs]
    show ((do let _ ← hgAdd e ts) >>= fun _ => forEach Op.run []) s = _
    have : ((do let _ ← hgAdd e ts) : M Unit) s = (.ok (), s') := by
      rw [bind_run _ _ _ (show hgAdd e ts s = _ from e1)]; rfl
    rw [bind_run _ _ _ this]
    rfl
  have hex := C13_exists hV _ hops' auto s' hs' e he
  have hpres : ((Spec.after (ops ++ [Op.prim (.add e ts)])).created e).isSome = true := by
    rw [Spec.after_append]
    exact (Spec.add_present _ e e ts).2 (.inl rfl)
  rw [hpres] at hex
  exact C14_add_present hV _ hops' auto s' hs' e he hex ts'

example : ((runOps exOps >>= fun _ => hgExists exE1) (St.new false)).1 = .ok true ∧ EdgeOver PlainVocab exE1 :=
  ⟨by decide +kernel, edge_of (by decide +kernel)⟩

/-! ### C15 -/

/-- C15: removing an edge makes it absent and keeps every other one; queries lose exactly this edge. -/
theorem C15_remove (hV : Vocab V) (ops : List (Op F)) (hops : ∀ op ∈ ops, op.Over V) (auto : Bool) (s : St)
    (hs : runOps ops (St.new auto) = (.ok (), s)) (e : Val F) (he : EdgeOver V e) :
    ∃ s', hgRemove e s = (.ok (), s') ∧ hgExists e s' = (.ok false, s') ∧
      (∀ x, EdgeOver V x → x ≠ e → (hgExists x s').1 = (hgExists x s).1) ∧
      (∀ ps, PatternOver V ps → ∃ r r', hgPattern2edges (.tup ps) s = (.ok r, s) ∧
        hgPattern2edges (.tup ps) s' = (.ok r', s') ∧ ∀ x, x ∈ r' ↔ x ∈ r ∧ x ≠ e) ∧
      (∀ c, V c → c.isAtom = true → ∃ r r', hgStar c s = (.ok r, s) ∧
        hgStar c s' = (.ok r', s') ∧ ∀ x, x ∈ r' ↔ x ∈ r ∧ x ≠ e) := by
  have h := shows_of hV hops hs
  obtain ⟨s', e1, h'⟩ := h.op hV (op := .prim (.remove e)) he
  have hp : ∀ x, ((Spec.after ops).op (.prim (.remove e))).Present x ↔ x ≠ e ∧ (Spec.after ops).Present x :=
    fun x => Spec.remove_present _ e x
  refine ⟨s', e1, ?_, ?_, ?_, ?_⟩
  · rw [h'.exists_ hV he]
    have : ¬ ((Spec.after ops).op (.prim (.remove e))).Present e := by rw [hp]; simp
    unfold Spec.Present at this
    simp only [Bool.not_eq_true] at this
    rw [this]
  · intro x hx hne
    rw [h'.exists_ hV hx, h.exists_ hV hx]
    show Except.ok _ = Except.ok _
    congr 1
    rw [Bool.eq_iff_iff]
    exact (hp x).trans (by simp [hne, Spec.Present])
  · intro ps hps
    obtain ⟨r, hr, _, hm⟩ := h.pattern hV hps
    obtain ⟨r', hr', _, hm'⟩ := h'.pattern hV hps
    refine ⟨r, r', hr, hr', fun x => ?_⟩
    rw [hm, hm', hp]
    constructor
    · rintro ⟨⟨a, b⟩, c⟩; exact ⟨⟨b, c⟩, a⟩
    · rintro ⟨⟨b, c⟩, a⟩; exact ⟨⟨a, b⟩, c⟩
  · intro c hc ha
    obtain ⟨r, hr, _, hm⟩ := h.star hV hc ha
    obtain ⟨r', hr', _, hm'⟩ := h'.star hV hc ha
    refine ⟨r, r', hr, hr', fun x => ?_⟩
    rw [hm, hm', hp]
    constructor
    · rintro ⟨⟨a, b⟩, c⟩; exact ⟨⟨b, c⟩, a⟩
    · rintro ⟨⟨b, c⟩, a⟩; exact ⟨⟨a, b⟩, c⟩

/-- C15: removing an absent edge changes nothing at all. -/
theorem C15_remove_absent (hV : Vocab V) (ops : List (Op F)) (hops : ∀ op ∈ ops, op.Over V) (auto : Bool) (s : St)
    (hs : runOps ops (St.new auto) = (.ok (), s)) (e : Val F) (he : EdgeOver V e)
    (hp : hgExists e s = (.ok false, s)) : hgRemove e s = (.ok (), s) := by
  obtain ⟨h, hh, hsq⟩ := head0_edge he
  unfold hgRemove sqlRemove
  rw [bind_run _ _ _ (liftE_ok hh s)]
  simp only [hsq, Bool.false_eq_true, if_false]
  unfold removeRaw
  rw [bind_run _ _ _ (show existsM e s = _ from hp)]
  rfl

example : ((runOps exOps >>= fun _ => hgExists exE4) (St.new false)).1 = .ok false ∧ EdgeOver PlainVocab exE4 :=
  ⟨by decide +kernel, edge_of (by decide +kernel)⟩

/-! ### C16 -/

/-- C16: adding an absent edge and removing it again leaves every query and every symbol's degree as
they were. -/
theorem C16_add_remove (hV : Vocab V) (ops : List (Op F)) (hops : ∀ op ∈ ops, op.Over V) (auto : Bool) (s : St)
    (hs : runOps ops (St.new auto) = (.ok (), s)) (e : Val F) (he : EdgeOver V e)
    (ha : hgExists e s = (.ok false, s)) (ts : Int) :
    ∃ s1 s2, hgAdd e ts s = (.ok e, s1) ∧ hgRemove e s1 = (.ok (), s2) ∧ SameView V s s2 := by
  have h := shows_of hV hops hs
  have hnp : ¬ (Spec.after ops).Present e := by
    rw [h.exists_ hV he] at ha
    simpa [Spec.Present] using ha
  obtain ⟨A, hA, hR, hw⟩ := h.ex
  obtain ⟨s1, e1, st1⟩ := add_run (q := false) (T := TT) hV hA he ts h.usable hw (fun _ _ _ => trivial)
  have h1 : Shows V s1 ((Spec.after ops).add e ts) :=
    ⟨⟨_, hA.add hV he ts, hR.add he ts, st1.work⟩, st1.cur.trans h.idle, st1.durable (.inl h.idle) h.disk⟩
  obtain ⟨s2, e2, h2⟩ := h1.op hV (op := .prim (.remove e)) he
  refine ⟨s1, s2, e1, e2, sameView_of hV h h2 ?_⟩
  intro x
  show _ ↔ (((Spec.after ops).add e ts).remove e).Present x
  rw [Spec.remove_present, Spec.add_present]
  by_cases hx : x = e
  · subst hx; simp [hnp]
  · simp [hx]

example : ((runOps exOps >>= fun _ => hgExists exE4) (St.new false)).1 = .ok false ∧ EdgeOver PlainVocab exE4 ∧
    ((runOps exOps >>= fun _ => hgDegree (sy "mary")) (St.new false)).1 = .ok 1 :=
  ⟨by decide +kernel, edge_of (by decide +kernel), by decide +kernel⟩

/-! ### C17 -/

/-- C17: a pattern query returns exactly the present edges matching the pattern, each once, and changes
nothing. -/
theorem C17_pattern (hV : Vocab V) (ops : List (Op F)) (hops : ∀ op ∈ ops, op.Over V) (auto : Bool) (s : St)
    (hs : runOps ops (St.new auto) = (.ok (), s)) (ps : List (Val F)) (hp : PatternOver V ps) :
    ∃ res, hgPattern2edges (.tup ps) s = (.ok res, s) ∧ res.Nodup ∧
      ∀ e, e ∈ res ↔ (Spec.after ops).Present e ∧ Matches ps e.elems :=
  (shows_of hV hops hs).pattern hV hp

/-- C17 in terms of `exists`. -/
theorem C17_pattern_exists (hV : Vocab V) (ops : List (Op F)) (hops : ∀ op ∈ ops, op.Over V) (auto : Bool) (s : St)
    (hs : runOps ops (St.new auto) = (.ok (), s)) (ps : List (Val F)) (hp : PatternOver V ps)
    (e : Val F) (he : EdgeOver V e) :
    ∃ res, hgPattern2edges (.tup ps) s = (.ok res, s) ∧
      (e ∈ res ↔ (hgExists e s).1 = .ok true ∧ Matches ps e.elems) := by
  obtain ⟨res, h1, _, h3⟩ := C17_pattern hV ops hops auto s hs ps hp
  refine ⟨res, h1, ?_⟩
  rw [h3, C13_exists hV ops hops auto s hs e he]
  simp [Spec.Present]

example : PatternOver PlainVocab [sy "is/1", .none, sy "blue/1"] ∧
    PatternOver PlainVocab [.none, sy "sky/1", .none] ∧ Matches [sy "is/1", .none, sy "blue/1"] exE1.elems :=
  ⟨pattern_of (by decide +kernel), pattern_of (by decide +kernel), by simp [Matches, exE1, Val.elems]⟩

example : ((runOps exOps >>= fun _ => hgPattern2edges (.tup [.none, sy "sky/1", .none])) (St.new false)).1 =
    .ok [exE1, exE3] := by decide +kernel

/-! ### C19 -/

/-- C19: `star(c)` of a symbol or number returns exactly the present edges with `c` as an element. -/
theorem C19_star (hV : Vocab V) (ops : List (Op F)) (hops : ∀ op ∈ ops, op.Over V) (auto : Bool) (s : St)
    (hs : runOps ops (St.new auto) = (.ok (), s)) (c : Val F) (hc : V c) (ha : c.isAtom = true) :
    ∃ res, hgStar c s = (.ok res, s) ∧ res.Nodup ∧
      ∀ e, e ∈ res ↔ (Spec.after ops).Present e ∧ c ∈ e.elems :=
  (shows_of hV hops hs).star hV hc ha

example : PlainVocab (sy "sky/1") ∧ (sy "sky/1").isAtom = true := ⟨plain_of (by decide +kernel), rfl⟩
example : ((runOps exOps >>= fun _ => hgStar (sy "sky/1")) (St.new false)).1 =
    .ok [exE1, exE3] := by decide +kernel

/-! ### C21 -/

/-- C21: `symbols_with_root(r)` returns exactly the strings starting with `r/` that are elements of
present edges. -/
theorem C21_symbols (hV : Vocab V) (ops : List (Op F)) (hops : ∀ op ∈ ops, op.Over V) (auto : Bool) (s : St)
    (hs : runOps ops (St.new auto) = (.ok (), s)) (r : Str) (h1 : ∀ c ∈ r, isSpace c = false)
    (h2 : r.head? ≠ some '(') :
    ∃ res, hgSymbolsWithRoot r s = (.ok res, s) ∧ res.Nodup ∧
      ∀ t, t ∈ res ↔ (r ++ lit "/") <+: t ∧ ∃ e, (Spec.after ops).Present e ∧ Val.str t ∈ e.elems :=
  (shows_of hV hops hs).symbols hV h1 h2

theorem prefix_iff_root {r t : Str} (hr : '/' ∉ r) (ht : IsConcept t) :
    (r ++ lit "/") <+: t ↔ symRoot (.str t : Val F) = .ok (.str r) ∧ symIsRoot (.str t : Val F) = .ok false := by
  rw [C07_is_root t ht]
  unfold symRoot
  rw [symParts_concept ht]
  constructor
  · rintro ⟨u, rfl⟩
    have hj : splitOnChar '/' (r ++ lit "/" ++ u) = r :: splitOnChar '/' u := by
      have h1 : r ++ lit "/" ++ u = symBuild (r :: splitOnChar '/' u) := by
        unfold symBuild
        cases hu : splitOnChar '/' u with
        | nil => exact absurd hu (splitOnChar_ne _ _)
        | cons p ps =>
          have := join_splitOnChar '/' u
          rw [hu] at this
          rw [pyJoin]
          exact congrArg (fun z => r ++ lit "/" ++ z) this.symm
      rw [h1]
      exact splitOnChar_join (by simp) (by
        intro p hp
        rcases List.mem_cons.1 hp with rfl | hp
        · exact hr
        · exact splitOnChar_mem_free u [] (by simp) p hp)
    rw [hj]
    refine ⟨rfl, ?_⟩
    have : '/' ∈ r ++ lit "/" ++ u := by simp [lit]
    simp only [this, not_true_eq_false, decide_false]
  · rintro ⟨h1, h2⟩
    have hj := join_splitOnChar '/' t
    cases hs : splitOnChar '/' t with
    | nil => exact absurd hs (splitOnChar_ne _ _)
    | cons p ps =>
      rw [hs] at h1 hj
      have : p = r := by simpa using h1
      subst this
      cases ps with
      | nil =>
        have : t = p := by simpa [pyJoin] using hj.symm
        subst this
        simp [hr] at h2
      | cons q qs =>
        rw [pyJoin] at hj
        exact ⟨_, hj⟩

/-- C21: for a root `r`, the concepts among the result are exactly the symbols with root `r` other than
roots themselves. -/
theorem C21_symbols_root (hV : Vocab V) (ops : List (Op F)) (hops : ∀ op ∈ ops, op.Over V) (auto : Bool) (s : St)
    (hs : runOps ops (St.new auto) = (.ok (), s)) (r : Str) (h1 : ∀ c ∈ r, isSpace c = false)
    (h2 : r.head? ≠ some '(') (hr : '/' ∉ r) :
    ∃ res, hgSymbolsWithRoot r s = (.ok res, s) ∧ res.Nodup ∧
      ∀ t, IsConcept t → (t ∈ res ↔ symRoot (.str t : Val F) = .ok (.str r) ∧
        symIsRoot (.str t : Val F) = .ok false ∧ ∃ e, (Spec.after ops).Present e ∧ Val.str t ∈ e.elems) := by
  obtain ⟨res, e1, e2, e3⟩ := C21_symbols hV ops hops auto s hs r h1 h2
  refine ⟨res, e1, e2, fun t ht => ?_⟩
  rw [e3, prefix_iff_root (F := F) hr ht, and_assoc]

example : (∀ c ∈ lit "sky", isSpace c = false) ∧ (lit "sky").head? ≠ some '(' ∧ '/' ∉ lit "sky" ∧
    ((runOps exOps >>= fun _ => hgSymbolsWithRoot (lit "sky")) (St.new false)).1 = .ok [lit "sky/1"] := by
  decide +kernel

/-! ### C22 -/

/-- C22: the degree of a symbol or number is the number of its occurrences in the present edges. -/
theorem C22_degree (hV : Vocab V) (ops : List (Op F)) (hops : ∀ op ∈ ops, op.Over V) (auto : Bool) (s : St)
    (hs : runOps ops (St.new auto) = (.ok (), s)) (v : Val F) (hv : WfVal v) (ha : v.isAtom = true)
    (l : List (Val F)) (hl : Lists (Spec.after ops) l) : hgDegree v s = (.ok (occurrences v l : Nat), s) :=
  (shows_of hV hops hs).degree hv ha hl

/-- C22: the present edges can indeed be listed. -/
theorem C22_finite (hV : Vocab V) (ops : List (Op F)) (hops : ∀ op ∈ ops, op.Over V) :
    ∃ l, Lists (Spec.after ops) l := by
  obtain ⟨s, A, h⟩ := after_exists hV ops hops false
  exact h.shows.lists

/-- C22: the degree of a symbol is never negative, and at least the number of edges of its star. -/
theorem C22_degree_star (hV : Vocab V) (ops : List (Op F)) (hops : ∀ op ∈ ops, op.Over V) (auto : Bool) (s : St)
    (hs : runOps ops (St.new auto) = (.ok (), s)) (v : Val F) (hv : V v) (ha : v.isAtom = true) :
    ∃ d res, hgDegree v s = (.ok d, s) ∧ hgStar v s = (.ok res, s) ∧ (res.length : Int) ≤ d ∧ 0 ≤ d := by
  obtain ⟨l, hl⟩ := C22_finite hV ops hops
  obtain ⟨res, h1, h2, h3⟩ := C19_star hV ops hops auto s hs v hv ha
  refine ⟨_, res, C22_degree hV ops hops auto s hs v (hV.wf v hv) ha l hl, h1, ?_, by omega⟩
  have hp : (l.filter fun e => v ∈ e.elems).Perm res := by
    apply (List.perm_ext_iff_of_nodup (hl.1.filter _) h2).2
    intro x
    rw [h3, List.mem_filter, hl.2]
    simp
  rw [← hp.length_eq]
  have key : ∀ l : List (Val F), (l.filter fun e => v ∈ e.elems).length ≤ occurrences v l := by
    intro l
    induction l with
    | nil => simp [occurrences]
    | cons x l ih =>
      have : occurrences v (x :: l) = x.elems.count v + occurrences v l := by simp [occurrences]
      rw [this]
      by_cases hx : v ∈ x.elems
      · have := List.count_pos_iff.2 hx
        rw [List.filter_cons_of_pos (by simpa using hx)]
        simp only [List.length_cons]; omega
      · rw [List.filter_cons_of_neg (by simpa using hx)]; omega
  have := key l
  omega

example : WfVal (sy "mary") ∧ (sy "mary").isAtom = true ∧
    ((runOps exOps >>= fun _ => hgDegree (sy "sky/1")) (St.new false)).1 = .ok 2 :=
  ⟨(plain_of (by decide +kernel)).1, rfl, by decide +kernel⟩

/-! ### C24 -/

/-- C24: timestamps of all vertices; -1 for unknown ones. -/
theorem C24_timestamp (hV : Vocab V) (ops : List (Op F)) (hops : ∀ op ∈ ops, op.Over V) (auto : Bool) (s : St)
    (hs : runOps ops (St.new auto) = (.ok (), s)) (v : Val F) (hv : WfVal v) :
    hgTimestamp v s = (.ok (((Spec.after ops).known v).getD (-1)), s) :=
  (shows_of hV hops hs).timestamp hv

/-- C24: the timestamp of a present edge is the one it was created with. -/
theorem C24_edge (hV : Vocab V) (ops : List (Op F)) (hops : ∀ op ∈ ops, op.Over V) (auto : Bool) (s : St)
    (hs : runOps ops (St.new auto) = (.ok (), s)) (e : Val F) (ts : Int)
    (hc : (Spec.after ops).created e = some ts) : hgTimestamp e s = (.ok ts, s) := by
  obtain ⟨A, hA⟩ := after_of hV hops hs
  have hm : e ∈ A.edges := (hA.rel.present e).1 (by rw [hc]; rfl)
  have hw : WfVal e := (hA.ok.over e hm).wf hV
  rw [C24_timestamp hV ops hops auto s hs e hw, hA.rel.created e hm, hc]
  rfl

end GB
