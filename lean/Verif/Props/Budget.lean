import Verif.Props.Bounds

/-!
Property C79: degrees while several processes add edges to one SQLite file and remove edges from it.  (C78 is about processes
that only add.)
-/

set_option linter.unusedSectionVars false
set_option linter.unusedVariables false

namespace GB

variable {F : Type} [PyFloat F] [DecidableEq F] {V : Val F → Prop}

theorem budget_box (hV : Vocab V) {ops : List (Op F)} (hops : ∀ op ∈ ops, op.Over V) {s : St}
    (hs : runOps ops (St.new false) = (.ok (), s)) {progs : List (List (PCall F))}
    (hp : ∀ p ∈ progs, ∀ c ∈ p, c.Over V) {U : List (Val F)} (hU1 : ∀ x, (Spec.after ops).Present x → x ∈ U)
    (hU2 : ∀ x ∈ addsOf (progs.map calls), x ∈ U)
    {b : Box} (h : (Box.start s.disk progs).Reach b) {v : Val F} (hv : WfVal v) (ha : v.isAtom = true) (k : Bool)
    (hk : k = true → KnownRow v s.disk) :
    degRow v b.disk ≤ degRow v s.disk + (occurrences v (addsOf (progs.map calls)) : Nat) ∧
      -(occurrences v (dropsOf U (progs.map calls)) : Nat) ≤ degRow v b.disk ∧
      (k = true → degRow v s.disk - (occurrences v (dropsOf U (progs.map calls)) : Nat) ≤ degRow v b.disk) := by
  obtain ⟨τ, h1, h2, _⟩ := C72_refines hV ops hops s hs hp h
  obtain ⟨_, k1, k2, _⟩ := bounds_start hV hops hs hv ha
  have hS := shows_of hV hops hs
  have hI := indexOf_shows hV hS
  rw [← h2]
  refine reach_budget hV hv ha k2 ⟨k1, fun x hx n hn => ?_, hk⟩ (over_calls hp) hU2 h1
  rw [hS.disk] at hn
  exact hU1 x ((hI.2 x hx n).1 hn).1

theorem known_start (hV : Vocab V) {ops : List (Op F)} (hops : ∀ op ∈ ops, op.Over V) {auto : Bool} {s : St}
    (hs : runOps ops (St.new auto) = (.ok (), s)) {v : Val F} (hv : WfVal v) (hk : (Spec.after ops).known v ≠ none) :
    KnownRow v s.disk := by
  have hS := shows_of hV hops hs
  obtain ⟨A, hA, hR, hw'⟩ := hS.ex
  rw [hS.disk, hw']
  rw [hR.known v] at hk
  cases hl : lookV v A.verts with
  | none => exact absurd (by unfold tsOf; rw [hl]; rfl) hk
  | some r => exact known_of_lookV ⟨hA.keys, hA.wf⟩ hv hl _

/-- C79: several processes add edges and remove edges (no matter which: also the same ones), one by one, several at once, by a
pattern, as beliefs or in batches.  At every moment, whatever statement each of them is at, and whichever of them are gone in
the middle, the degree of a symbol is at most what it was, plus its occurrences in the edges they are asked to add (as often as
they are asked to): what they remove does not count. -/
theorem C79_upper (hV : Vocab V) (ops : List (Op F)) (hops : ∀ op ∈ ops, op.Over V) (s : St)
    (hs : runOps ops (St.new false) = (.ok (), s)) {progs : List (List (PCall F))}
    (hp : ∀ p ∈ progs, ∀ c ∈ p, c.Over V)
    {b : Box} (h : (Box.start s.disk progs).Reach b) (v : Val F) (hv : WfVal v) (ha : v.isAtom = true) :
    ∃ d0 d : Int, (hgDegree v s).1 = .ok d0 ∧ (hgDegree v (reopen b.disk false)).1 = .ok d ∧
      d ≤ d0 + (occurrences v (addsOf (progs.map calls)) : Nat) := by
  obtain ⟨l, hl⟩ := C22_finite hV ops hops
  obtain ⟨h1, _⟩ := budget_box hV hops hs hp (U := l ++ addsOf (progs.map calls))
    (fun x hx => List.mem_append.2 (.inl ((hl.2 x).2 hx))) (fun x hx => List.mem_append.2 (.inr hx)) h hv ha false (by simp)
  exact ⟨_, _, ((bounds_start hV hops hs hv ha).1 _).2 rfl, degree_here v b.disk false, h1⟩

/-- C79: then also, no degree is below zero by more than the occurrences of the symbol in the edges that the processes are asked to
remove (as often as they are asked to; a pattern asks for every edge that it matches among those present at the start and
those that are added). -/
theorem C79_lower (hV : Vocab V) (ops : List (Op F)) (hops : ∀ op ∈ ops, op.Over V) (s : St)
    (hs : runOps ops (St.new false) = (.ok (), s)) {progs : List (List (PCall F))}
    (hp : ∀ p ∈ progs, ∀ c ∈ p, c.Over V) {U : List (Val F)} (hU1 : ∀ x, (Spec.after ops).Present x → x ∈ U)
    (hU2 : ∀ x ∈ addsOf (progs.map calls), x ∈ U)
    {b : Box} (h : (Box.start s.disk progs).Reach b) (v : Val F) (hv : WfVal v) (ha : v.isAtom = true) :
    ∃ d : Int, (hgDegree v (reopen b.disk false)).1 = .ok d ∧ -(occurrences v (dropsOf U (progs.map calls)) : Nat) ≤ d :=
  ⟨_, degree_here v b.disk false, (budget_box hV hops hs hp hU1 hU2 h hv ha false (by simp)).2.1⟩

/-- C79: and the degree of a symbol that the graph knew when the processes started is at least what it was, less those
occurrences. -/
theorem C79_lower_known (hV : Vocab V) (ops : List (Op F)) (hops : ∀ op ∈ ops, op.Over V) (s : St)
    (hs : runOps ops (St.new false) = (.ok (), s)) {progs : List (List (PCall F))}
    (hp : ∀ p ∈ progs, ∀ c ∈ p, c.Over V) {U : List (Val F)} (hU1 : ∀ x, (Spec.after ops).Present x → x ∈ U)
    (hU2 : ∀ x ∈ addsOf (progs.map calls), x ∈ U)
    {b : Box} (h : (Box.start s.disk progs).Reach b) (v : Val F) (hv : WfVal v) (ha : v.isAtom = true)
    (hk : (Spec.after ops).known v ≠ none) :
    ∃ d0 d : Int, (hgDegree v s).1 = .ok d0 ∧ (hgDegree v (reopen b.disk false)).1 = .ok d ∧
      d0 - (occurrences v (dropsOf U (progs.map calls)) : Nat) ≤ d :=
  ⟨_, _, ((bounds_start hV hops hs hv ha).1 _).2 rfl, degree_here v b.disk false,
    (budget_box hV hops hs hp hU1 hU2 h hv ha true fun _ => known_start hV hops hs hv hk).2.2 rfl⟩

/-- C79: so the degree of a symbol that is in no edge that the processes add or remove does not change. -/
theorem C79_untouched (hV : Vocab V) (ops : List (Op F)) (hops : ∀ op ∈ ops, op.Over V) (s : St)
    (hs : runOps ops (St.new false) = (.ok (), s)) {progs : List (List (PCall F))}
    (hp : ∀ p ∈ progs, ∀ c ∈ p, c.Over V) {U : List (Val F)} (hU1 : ∀ x, (Spec.after ops).Present x → x ∈ U)
    (hU2 : ∀ x ∈ addsOf (progs.map calls), x ∈ U)
    {b : Box} (h : (Box.start s.disk progs).Reach b) (v : Val F) (hv : WfVal v) (ha : v.isAtom = true)
    (h1 : ∀ e ∈ addsOf (progs.map calls), v ∉ e.elems) (h2 : ∀ e ∈ dropsOf U (progs.map calls), v ∉ e.elems) :
    ∃ d : Int, (hgDegree v s).1 = .ok d ∧ (hgDegree v (reopen b.disk false)).1 = .ok d := by
  have z : ∀ l : List (Val F), (∀ e ∈ l, v ∉ e.elems) → occurrences v l = 0 := by
    intro l hl
    induction l with
    | nil => rfl
    | cons e l ih =>
      rw [occurrences_cons, ih fun x hx => hl x (by simp [hx]), List.count_eq_zero.2 (hl e (by simp))]
  have z1 := z _ h1
  have z2 := z _ h2
  obtain ⟨j1, j2, _, _⟩ := bounds_start hV hops hs hv ha
  have hdisk : KnownRow v s.disk ∨ degRow v s.disk = 0 := by
    have hS := shows_of hV hops hs
    obtain ⟨A, hA, hR, hw'⟩ := hS.ex
    rw [hS.disk, hw']
    cases hl : lookV v A.verts with
    | some r => exact .inl (known_of_lookV ⟨hA.keys, hA.wf⟩ hv hl _)
    | none =>
      right
      have := selectVertex_row hA.wf hv (A.conc).perms
      rw [hl] at this
      unfold degRow
      cases hsel : (A.conc).selectVertex (edge2str v) with
      | nil => rfl
      | cons r l =>
        have h2 : (DB.selectVertex ⟨A.verts.map VEnt.row, A.conc.perms⟩ (edge2str v)).head? = some r := by
          show ((A.conc).selectVertex (edge2str v)).head? = _
          rw [hsel]; rfl
        rw [h2] at this
        cases this
  rcases hdisk with hk | h0
  · obtain ⟨k1, _, k3⟩ := budget_box hV hops hs hp hU1 hU2 h hv ha true fun _ => hk
    have k3 := k3 rfl
    rw [z1] at k1
    rw [z2] at k3
    have : degRow v s.disk = degRow v b.disk := by omega
    exact ⟨_, (j1 _).2 rfl, by rw [this]; exact degree_here v b.disk false⟩
  · obtain ⟨k1, k2, _⟩ := budget_box hV hops hs hp hU1 hU2 h hv ha false (by simp)
    rw [z1] at k1
    rw [z2] at k2
    have : degRow v s.disk = degRow v b.disk := by omega
    exact ⟨_, (j1 _).2 rfl, by rw [this]; exact degree_here v b.disk false⟩

/-! ### the bounds are attained -/

/-- Two processes remove the same edge, one of them by a pattern. -/
def exTwiceCalls : List (List (PCall Half)) := [[.one (.remove exShareA)], [.one (.removeByPattern [.none, sy "a"])]]

theorem exTwiceCalls_over : ∀ p ∈ exTwiceCalls, ∀ c ∈ p, c.Over PlainVocab := by
  have h2 : EdgeOver PlainVocab exShareA := edge_of (by decide +kernel)
  have h4 : PatternOver PlainVocab [.none, sy "a"] := pattern_of (by decide +kernel)
  intro p hp c hc
  simp only [exTwiceCalls, List.mem_cons, List.not_mem_nil, or_false] at hp
  rcases hp with rfl | rfl <;> simp only [List.mem_cons, List.not_mem_nil, or_false] at hc <;> subst hc
  · exact h2
  · exact h4

/-- C79: the lower bound cannot be improved, and a degree can become negative: two processes remove the same edge, both see that
it exists, and both count its symbols down. -/
theorem C79_tight :
    ∃ s, runOps exShareOps (St.new false) = (.ok (), s) ∧ (hgDegree (sy "is") s).1 = .ok 1 ∧
      occurrences (sy "is") (dropsOf [exShareA] (exTwiceCalls.map calls)) = 2 ∧
      ∃ b, (Box.start s.disk exTwiceCalls).Reach b ∧ b.Finished ∧
        (hgDegree (sy "is") (reopen b.disk false)).1 = .ok (-1) ∧
        (hgStar (sy "is") (reopen b.disk false)).1 = .ok [] := by
  have hV : Vocab (PlainVocab (F := Half)) := plainVocab
  obtain ⟨s, A, hA⟩ := after_exists hV exShareOps exShareOps_over false
  have hs : s = (runOps exShareOps (St.new false)).2 := by rw [hA.run]
  have hd : s.disk = exShareDB := by rw [hs]; decide +kernel
  have h0 : (hgDegree (sy "is") s).1 = .ok 1 := by rw [hs]; decide +kernel
  clear hs
  obtain ⟨b, hb1, hb2, hb3⟩ := Box.turns_finished (b := Box.start exShareDB exTwiceCalls)
    ([0, 1, 1] ++ List.replicate 40 0 ++ List.replicate 40 1)
    (db := ⟨[⟨lit "is", -1, 1⟩, ⟨lit "a", -1, 1⟩], []⟩) (by decide +kernel) (by decide +kernel)
  refine ⟨s, hA.run, h0, by decide +kernel, b, by rw [hd]; exact hb1, hb2, ?_, ?_⟩
  · rw [hb3]; decide +kernel
  · rw [hb3]; decide +kernel

/-- Another process adds an edge meanwhile. -/
def exMixedCalls : List (List (PCall Half)) := exTwiceCalls ++ [[.one (.add exShareB 3)]]

/-- The hypotheses of the theorems are met by these programs, with the first process killed after it counted one symbol down: the degree
of the common symbol is between -1 and 2 then, that of a symbol of another edge is what it was. -/
example : ∃ s, runOps exCallOps (St.new false) = (.ok (), s) ∧ ∃ b, (Box.start s.disk exMixedCalls).Reach b ∧
    (hgExists exShareA (reopen b.disk false)).1 = .ok true ∧
    (∃ d : Int, (hgDegree (sy "is") (reopen b.disk false)).1 = .ok d ∧ -1 ≤ d ∧ d ≤ 2) ∧
    (∃ d : Int, (hgDegree (sy "b") (reopen b.disk false)).1 = .ok d ∧ 0 ≤ d ∧ d ≤ 1) ∧
    (hgDegree (sy "mary") (reopen b.disk false)).1 = .ok 2 := by
  have hV : Vocab (PlainVocab (F := Half)) := plainVocab
  have hp : ∀ p ∈ exMixedCalls, ∀ c ∈ p, c.Over PlainVocab := by
    have h3 : EdgeOver PlainVocab exShareB := edge_of (by decide +kernel)
    intro p hp c hc
    rcases List.mem_append.1 hp with hp | hp
    · exact exTwiceCalls_over p hp c hc
    · simp only [List.mem_cons, List.not_mem_nil, or_false] at hp
      subst hp
      simp only [List.mem_cons, List.not_mem_nil, or_false] at hc
      subst hc
      exact h3
  obtain ⟨s, A, hA⟩ := after_exists hV exCallOps exCallOps_over false
  have hs : s = (runOps exCallOps (St.new false)).2 := by rw [hA.run]
  have hd : s.disk = ⟨[⟨lit "is", 1, 1⟩, ⟨lit "a", 1, 1⟩, ⟨lit "(is a)", 0, 1⟩, ⟨lit "loves", 1, 2⟩, ⟨lit "mary", 2, 2⟩,
      ⟨lit "(loves mary mary)", 0, 2⟩],
    [lit "is a 0", lit "a is 1", lit "loves mary mary 0", lit "loves mary mary 1", lit "mary loves mary 2",
      lit "mary mary loves 3", lit "mary loves mary 4", lit "mary mary loves 5"]⟩ := by rw [hs]; decide +kernel
  have h0 : (hgDegree (sy "is") s).1 = .ok 1 := by rw [hs]; decide +kernel
  have h00 : (hgDegree (sy "b") s).1 = .ok 0 := by rw [hs]; decide +kernel
  have h000 : (hgDegree (sy "mary") s).1 = .ok 2 := by rw [hs]; decide +kernel
  obtain ⟨b, hr, hbd⟩ := Box.turns_killed (b := Box.start s.disk exMixedCalls) [0, 0, 0, 0] 0
    (db := ⟨[⟨lit "is", 0, 1⟩, ⟨lit "a", 1, 1⟩, ⟨lit "(is a)", 0, 1⟩, ⟨lit "loves", 1, 2⟩, ⟨lit "mary", 2, 2⟩,
      ⟨lit "(loves mary mary)", 0, 2⟩],
    [lit "is a 0", lit "a is 1", lit "loves mary mary 0", lit "loves mary mary 1", lit "mary loves mary 2",
      lit "mary mary loves 3", lit "mary loves mary 4", lit "mary mary loves 5"]⟩) (by rw [hd]; decide +kernel)
  have hex : (hgExists exShareA (reopen b.disk false)).1 = .ok true := by rw [hbd]; decide +kernel
  clear hbd hd hs
  have hU1 : ∀ x, (Spec.after exCallOps).Present x → x ∈ [exShareA, exE4, exShareB] := by
    intro x hx
    have : (Spec.after exCallOps).created x = (((Spec.empty : Spec Half).add exShareA 1).add exE4 2).created x := rfl
    unfold Spec.Present at hx
    rw [this] at hx
    by_cases h1 : x = exShareA
    · simp [h1]
    · by_cases h2 : x = exE4
      · simp [h2]
      · have h3 : ¬ exE4 = exShareA := by decide +kernel
        simp [Spec.add, Spec.empty, h1, h2, h3] at hx
  have hU2 : ∀ x ∈ addsOf (exMixedCalls.map calls), x ∈ [exShareA, exE4, exShareB] := by decide +kernel
  have hw : ∀ w, plainB (sy w) = true → WfVal (sy w) := fun w h => (plain_of h).1
  refine ⟨s, hA.run, b, hr, hex, ?_, ?_, ?_⟩
  · obtain ⟨e0, d, e1, e2, e3⟩ := C79_lower_known hV exCallOps exCallOps_over s hA.run hp hU1 hU2 hr (sy "is")
      (hw "is" (by decide +kernel)) rfl (by decide +kernel)
    obtain ⟨e0', d', e1', e2', e3'⟩ := C79_upper hV exCallOps exCallOps_over s hA.run hp hr (sy "is")
      (hw "is" (by decide +kernel)) rfl
    rw [e2] at e2'
    injection e2' with e2'
    rw [h0] at e1 e1'
    injection e1 with e1
    injection e1' with e1'
    have o1 : occurrences (sy "is") (dropsOf [exShareA, exE4, exShareB] (exMixedCalls.map calls)) = 2 := by decide +kernel
    have o2 : occurrences (sy "is") (addsOf (exMixedCalls.map calls)) = 1 := by decide +kernel
    rw [o1] at e3
    rw [o2] at e3'
    exact ⟨d, e2, by omega, by omega⟩
  · obtain ⟨d, e2, e3⟩ := C79_lower hV exCallOps exCallOps_over s hA.run hp hU1 hU2 hr (sy "b")
      (hw "b" (by decide +kernel)) rfl
    obtain ⟨e0', d', e1', e2', e3'⟩ := C79_upper hV exCallOps exCallOps_over s hA.run hp hr (sy "b")
      (hw "b" (by decide +kernel)) rfl
    rw [e2] at e2'
    injection e2' with e2'
    rw [h00] at e1'
    injection e1' with e1'
    have o1 : occurrences (sy "b") (dropsOf [exShareA, exE4, exShareB] (exMixedCalls.map calls)) = 0 := by decide +kernel
    have o2 : occurrences (sy "b") (addsOf (exMixedCalls.map calls)) = 1 := by decide +kernel
    rw [o1] at e3
    rw [o2] at e3'
    exact ⟨d, e2, by omega, by omega⟩
  · obtain ⟨d, e1, e2⟩ := C79_untouched hV exCallOps exCallOps_over s hA.run hp hU1 hU2 hr (sy "mary")
      (hw "mary" (by decide +kernel)) rfl (by decide +kernel) (by decide +kernel)
    rw [h000] at e1
    injection e1 with e1
    rw [e1]
    exact e2

end GB
