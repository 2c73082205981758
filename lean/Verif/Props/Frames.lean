import Verif.Proofs.FrOr
import Verif.Proofs.View
import Verif.Spec.WitnessHist

/-
Property C86: nesting and Python's recursion limit.
-/

set_option linter.unusedSectionVars false

namespace GB

variable {F : Type} [PyFloat F] [DecidableEq F] {V : Val F → Prop}

/-! ### printing and parsing -/

/-- C86: printing a well-formed edge takes exactly two frames per level of nesting, and one more (but at least two). -/
theorem C86_print (v : Val F) (h : WfVal v) (k : Nat) :
    edge2strR k v = if 2 ≤ k ∧ 2 * v.depth + 1 ≤ k then .ok (edge2str v) else .error .recursionError := by
  split
  · next hk => exact edge2strR_enough k v hk.1 hk.2
  · next hk => exact edge2strR_few k v h (by omega)

/-- C86: parsing it takes exactly three frames per level, and one more. -/
theorem C86_parse (v : Val F) (h : WfVal v) (k : Nat) :
    str2edgeR k (edge2str v) = if 3 * max v.depth 1 + 1 ≤ k then .ok v else .error .recursionError :=
  str2edgeR_edge2str h k

/-! ### enough frames -/

/-- C86: if the elements of the edges are nested at most `d` levels and every call starts with at least `3 * d + 14`
frames left, then a history does what it does without a limit. -/
theorem C86_history (hV : Vocab V) {d k : Nat} (hk : 3 * d + 14 ≤ k) (ops : List (Op F))
    (hops : ∀ op ∈ ops, op.Over (NestedWithin V d)) (hq : ∀ op ∈ ops, op.AsksWithin d) (auto : Bool) :
    runOpsR k ops (St.new auto) = runOps ops (St.new auto) :=
  (runOpsR_same (within_vocab hV d) hk ops hops hq AbsOk.empty Rel.empty (fun v hv => by simp [Spec.empty] at hv) rfl rfl).1

/-- C86: and every reading call then returns what it returns without a limit. -/
theorem C86_reads (hV : Vocab V) {d k : Nat} (hk : 3 * d + 14 ≤ k) (ops : List (Op F))
    (hops : ∀ op ∈ ops, op.Over (NestedWithin V d)) (hq : ∀ op ∈ ops, op.AsksWithin d) (auto : Bool) (s : St)
    (hs : runOpsR k ops (St.new auto) = (.ok (), s)) :
    (∀ e, EdgeOver (NestedWithin V d) e → hgExistsR k e s = hgExists e s) ∧
    (∀ ps, PatternOver (NestedWithin V d) ps → hgPattern2edgesR k (.tup ps) s = hgPattern2edges (.tup ps) s) ∧
    (∀ c, V c → c.isAtom = true → hgStarR k c s = hgStar c s) ∧
    (∀ root, hgSymbolsWithRootR k root s = hgSymbolsWithRoot root s) ∧
    (∀ e, V (.str (lit "src/1")) → NestedWithin V d e → hgSourcesR k e s = hgSources e s) ∧
    (∀ v : Val F, v.depth ≤ d + 1 → hgDegreeR k v s = hgDegree v s ∧ hgTimestampR k v s = hgTimestamp v s) ∧
    (∀ {β : Type} (f : Val F → Int → β), hgFAllR k f s = hgFAll f s) := by
  have hW := within_vocab hV d
  obtain ⟨h1, A, hA, hR, hS, s', e', hc, hw⟩ := runOpsR_same hW hk ops hops hq AbsOk.empty Rel.empty
    (S := Spec.empty) (s := St.new auto) (fun v hv => by simp [Spec.empty] at hv) rfl rfl
  obtain rfl : s' = s := by
    have := e'.symm.trans (h1.symm.trans hs)
    simpa using this
  have hu := St.usable_of_none hc
  match k, hk with
  | k + 3, hk =>
    refine ⟨fun e he => existsR_in hW hA hu hw he (j := k + 2) (by omega),
      fun ps hp => patternR_in hW hA hu hw (b := false) hp (j := k + 2) (by omega),
      fun c hcV hca => ?_, fun root => ?_, fun e hsrc he => ?_, fun v hv => ⟨?_, ?_⟩, fun f => ?_⟩
    · refine starR_enough hW hA ⟨hcV, by rw [depth_atom hca]; omega⟩ hca hu hw (by omega) ?_
      intro e he _
      have := within_depth (hA.over e he)
      omega
    · show symbolsWithRootR (k + 2) root s' = symbolsWithRoot root s'
      rw [symbolsR_eq (by omega)]
    · exact sourcesR_in hW hA hu hw ⟨hsrc, by simp [Val.depth]⟩ he (by omega)
    · show sqlDegreeR (k + 2) v s' = sqlDegree v s'
      rw [degreeR_eq (by omega) (by omega)]
    · show sqlTimestampR (k + 2) v s' = sqlTimestamp v s'
      rw [timestampR_eq (by omega) (by omega)]
    · have h2 := hS.abs hR
      show sqlFAllR (k + 3) f s' = sqlFAll f s'
      rw [fAllR_run hA.wf _ hu hw (by omega) fun r hr => by have := h2 r hr; omega]
      exact (fAll_run hA.wf _ hu hw).symm

/-! ### too few frames -/

/-- C86: whatever the nesting and whatever the number of frames left (unless it is 7), adding or removing an edge, or a
reading call, either does what it does without a limit, or raises `RecursionError` and changes nothing. -/
theorem C86_all_or_nothing (hV : Vocab V) (ops : List (Op F)) (hops : ∀ op ∈ ops, op.Over V) (auto : Bool) (s : St)
    (hs : runOps ops (St.new auto) = (.ok (), s)) (p : Prim F) (hp : p.Over V) (h1 : p.OneEdge) (k : Nat) (hk : k ≠ 7) :
    p.runR k s = p.run s ∨ p.runR k s = (.error .recursionError, s) := by
  obtain ⟨A, h⟩ := after_of hV hops hs
  exact Prim.frOr hV h.ok h.usable h.work hp h1 hk

/-- C86: a program that catches the `RecursionError`s of such calls has a graph that some of its calls, the ones that did
not raise, make without a limit. -/
theorem C86_caught (hV : Vocab V) (ps : List (Prim F)) (hps : ∀ p ∈ ps, p.Over V) (h1 : ∀ p ∈ ps, p.OneEdge) (k : Nat)
    (hk : k ≠ 7) (auto : Bool) : ∃ done : List (Prim F), done.Sublist ps ∧
    forEach (Prim.tryR k) ps (St.new auto) = forEach Prim.run done (St.new auto) :=
  tryR_all hV hk ps hps h1 (S := Spec.empty) AbsOk.empty Rel.empty (St.usable_of_none rfl) rfl

theorem pattern_hits (hV : Vocab V) {A : Abs F} {e : Val F} (he : EdgeOver V e) (hm : e ∈ A.edges) {ps : List (Val F)}
    (hp : PatternOver V ps) (h : Matches ps e.elems) : Hits A (patText ps) e := by
  obtain ⟨rest, hperm⟩ := h.perm (fun x hx => V_ne_none hV (he.mem x hx))
  obtain ⟨n, hn, hpn⟩ := exists_permN hperm
  refine ⟨hm, n, hn, ?_⟩
  rw [patText, rowOf, hpn, List.append_assoc]
  exact nodes2str_prefix (pattern_wf hV hp).2 (by simp)

/-- C86: an edge that is nested so deeply that its text can be made (two frames per level) but not read (three) is stored
without an exception; but then it cannot be asked for or removed, nor added again, and `star` of each of its symbols and
every pattern that it matches raises `RecursionError`.  Its degree and time stamp can be asked for, and so can the rest of
the graph, as far as it does not come up. -/
theorem C86_stuck (hV : Vocab V) {d k : Nat} (hk : 3 * d + 10 ≤ k) (ops : List (Op F))
    (hops : ∀ op ∈ ops, op.Over (NestedWithin V d)) (auto : Bool) (s : St) (hs : runOps ops (St.new auto) = (.ok (), s))
    (e : Val F) (he : EdgeOver V e) (hlo : 2 * e.depth + 5 ≤ k) (hhi : k < 3 * e.depth + 4) (ts : Int) :
    ∃ s1, hgAddR k e ts s = (.ok e, s1) ∧ hgAdd e ts s = (.ok e, s1) ∧
    hgExistsR k e s1 = (.error .recursionError, s1) ∧
    (∀ c ∈ e.elems, c.isAtom = true → hgStarR k c s1 = (.error .recursionError, s1)) ∧
    (∀ ps, PatternOver V ps → Matches ps e.elems → hgPattern2edgesR k (.tup ps) s1 = (.error .recursionError, s1) ∧
      hgRemoveByPatternR k (.tup ps) s1 = (.error .recursionError, s1)) ∧
    hgRemoveR k e s1 = (.error .recursionError, s1) ∧
    (∀ ts', hgAddR k e ts' s1 = (.error .recursionError, s1)) ∧
    (∀ v : Val F, v.depth ≤ e.depth → hgDegreeR k v s1 = hgDegree v s1 ∧ hgTimestampR k v s1 = hgTimestamp v s1) ∧
    (∀ c, V c → c.isAtom = true → c ∉ e.elems → hgStarR k c s1 = hgStar c s1) := by
  have hW := within_vocab hV d
  obtain ⟨A0, h0⟩ := after_of hW hops hs
  have mono : ∀ x, EdgeOver (NestedWithin V d) x → EdgeOver V x := by
    rintro x ⟨a, t, rfl, ht, ha, hx⟩
    exact ⟨a, t, rfl, ht, ha, fun y hy => (hx y hy).1⟩
  have hA : AbsOk V A0 := ⟨h0.ok.nodup, fun x hx => mono x (h0.ok.over x hx), h0.ok.keys, h0.ok.wf⟩
  have hdep := depth_edge he
  have hsmall : ∀ x ∈ A0.edges, 3 * x.depth + 7 ≤ k := fun x hx => by
    have := within_depth (h0.ok.over x hx); omega
  have hnew : e ∉ A0.edges := fun hm => by have := hsmall e hm; omega
  obtain ⟨h, hh, hsq⟩ := head0_edge he
  match k, hk with
  | k + 5, hk =>
    have hex : existsR (k + 2) e s = existsM e s :=
      existsR_enough hV hA he h0.usable h0.work (by omega) fun x hx => by have := hsmall x hx.1; omega
    have hadd : hgAddR (k + 5) e ts s = hgAdd e ts s := by
      rw [hgAddR_single hh hsq, hgAdd_single hh hsq]
      exact bind_same (addRawR_of he ts hex (by omega) (by omega)) fun _ _ _ => rfl
    obtain ⟨s1, e1, st1⟩ := add_run (q := false) (T := TT) hV hA he ts h0.usable h0.work (fun _ _ _ => trivial)
    have e1' : hgAdd e ts s = (.ok e, s1) := e1
    have hA1 := hA.add hV he ts
    have hu1 : s1.usable := st1.usable h0.usable
    have hw1 := st1.work
    have hm1 : ∀ x, x ∈ (A0.add e ts).edges ↔ x ∈ A0.edges ∨ x = e := by
      intro x
      simp [Abs.add, hnew]
    have hme : e ∈ (A0.add e ts).edges := (hm1 e).2 (.inr rfl)
    have hself := hits_self hV he hme
    have hex1 : ∀ j, j + 2 ≤ k + 4 → 2 * e.depth ≤ j → existsR (j + 2) e s1 = (.error .recursionError, s1) := fun j hj hd =>
      existsR_few hV hA1 he hu1 hw1 hd ⟨e, hself, by omega⟩
    refine ⟨s1, hadd.trans e1', e1', ?_, ?_, ?_, ?_, ?_, ?_, ?_⟩
    · exact hex1 (k + 2) (by omega) (by omega)
    · intro c hc hca
      exact starR_few hV hA1 (he.mem c hc) hca hu1 hw1 (by omega) ⟨e, hme, hc, by omega⟩
    · intro ps hp hmt
      have hhit := pattern_hits hV he hme hp hmt
      have hfew : ∀ j, j ≤ k + 4 → pattern2edgesR j (.tup ps) s1 = (.error .recursionError, s1) := by
        intro j hj
        rcases patternR_or hV hA1 hu1 hw1 (b := false) hp j with ⟨_, _, h3⟩ | ⟨h1, _⟩
        · have := h3 e hhit; omega
        · exact h1
      refine ⟨hfew (k + 4) (by omega), ?_⟩
      unfold hgRemoveByPatternR
      simp only [enterM]
      rw [bind_err _ _ _ (show hgPattern2edgesR (k + 4) (.tup ps) s1 = _ from hfew (k + 3) (by omega))]
    · rw [hgRemoveR_single hh hsq]
      unfold removeRawR
      simp only [enterM]
      rw [bind_err _ _ _ (hex1 k (by omega) (by omega))]
    · intro ts'
      rw [hgAddR_single hh hsq]
      unfold addRawR
      simp only [enterM]
      rw [bind_err _ _ _ (bind_err _ _ _ (hex1 k (by omega) (by omega)))]
    · intro v hv
      constructor
      · show sqlDegreeR (k + 4) v s1 = sqlDegree v s1
        rw [degreeR_eq (by omega) (by omega)]
      · show sqlTimestampR (k + 4) v s1 = sqlTimestamp v s1
        rw [timestampR_eq (by omega) (by omega)]
    · intro c hc hca hne
      refine starR_enough hV hA1 hc hca hu1 hw1 (by omega) ?_
      intro x hx hcx
      rcases (hm1 x).1 hx with hx | rfl
      · have := hsmall x hx; omega
      · exact absurd hcx hne

/-! ### examples -/

theorem edgeOver_within {d : Nat} {e : Val F} (he : EdgeOver V e) (hd : e.depth ≤ d + 1) : EdgeOver (NestedWithin V d) e := by
  have hdep := depth_edge he
  obtain ⟨a, t, rfl, ht, ha, hx⟩ := he
  refine ⟨a, t, rfl, ht, ha, fun y hy => ⟨hx y hy, ?_⟩⟩
  have := depth_le_depths (show y ∈ (Val.tup (a :: t)).elems from hy)
  omega

/-- `(not (not (… (not x))))`, `n + 1` times. -/
def exDeep : Nat → HVal
  | 0 => .tup [sy "not", sy "x"]
  | n + 1 => .tup [sy "not", exDeep n]

/-- Two edges, one of them nested, an addition of both, and a removal. -/
def exFrOps : List (Op Half) := [.prim (.add exE1 1), .prim (.add exE2 2), .addMany [exE1, exE4] 3, .prim (.remove exE1), .degree exE2]

theorem exFrOps_within : (∀ op ∈ exFrOps, op.Over (NestedWithin PlainVocab 1)) ∧ ∀ op ∈ exFrOps, op.AsksWithin 1 := by
  have h1 : EdgeOver (NestedWithin PlainVocab 1) exE1 := edgeOver_within (edge_of (by decide +kernel)) (by decide +kernel)
  have h2 : EdgeOver (NestedWithin PlainVocab 1) exE2 := edgeOver_within (edge_of (by decide +kernel)) (by decide +kernel)
  have h4 : EdgeOver (NestedWithin PlainVocab 1) exE4 := edgeOver_within (edge_of (by decide +kernel)) (by decide +kernel)
  constructor
  · intro op hop
    simp only [exFrOps, List.mem_cons, List.not_mem_nil, or_false] at hop
    rcases hop with rfl | rfl | rfl | rfl | rfl
    · exact h1
    · exact h2
    · refine ⟨by simp, ?_⟩
      intro e he
      simp only [List.mem_cons, List.not_mem_nil, or_false] at he
      rcases he with rfl | rfl
      · exact h1
      · exact h4
    · exact h1
    · exact wfVal_half (by decide +kernel)
  · intro op hop
    simp only [exFrOps, List.mem_cons, List.not_mem_nil, or_false] at hop
    rcases hop with rfl | rfl | rfl | rfl | rfl
    · trivial
    · trivial
    · trivial
    · trivial
    · show exE2.depth ≤ 2
      decide +kernel

/-- C86: 17 frames are enough for it, and 9 are not. -/
example : runOpsR 17 exFrOps (St.new false) = runOps exFrOps (St.new false) :=
  C86_history plainVocab (by omega) exFrOps exFrOps_within.1 exFrOps_within.2 false
example : (runOpsR 9 exFrOps (St.new false)).1 = .error .recursionError ∧ (runOps exFrOps (St.new false)).1 = .ok () := by
  decide +kernel

/-- C86: 25 frames are enough to store `exDeep 8`, which is nested 9 levels, but not to read it. -/
example (s : St) (hs : runOps exFrOps (St.new false) = (.ok (), s)) :
    ∃ s1, hgAddR 25 (exDeep 8) 5 s = (.ok (exDeep 8), s1) ∧ hgRemoveR 25 (exDeep 8) s1 = (.error .recursionError, s1) ∧
      hgStarR 25 (sy "not") s1 = (.error .recursionError, s1) ∧ hgStarR 25 (sy "mary") s1 = hgStar (sy "mary") s1 := by
  have hd : (exDeep 8).depth = 9 := by decide +kernel
  obtain ⟨s1, h1, _, _, h3, _, h5, _, _, h8⟩ := C86_stuck plainVocab (d := 1) (k := 25) (by omega) exFrOps exFrOps_within.1 false
    s hs (exDeep 8) (edge_of (by decide +kernel)) (by omega) (by omega) 5
  exact ⟨s1, h1, h5, h3 _ (by decide +kernel) rfl, h8 _ (plain_of (by decide +kernel)) rfl (by decide +kernel)⟩

/-- C86, why 7 frames are excluded: with exactly 7 frames left, an addition fails after its vertices have been counted. -/
theorem C86_seven_counterexample :
    (hgAddR 7 exE1 1 (St.new true)).1 = .error .recursionError ∧
    (hgAddR 7 exE1 1 (St.new true)).2.disk.vertices.length = 4 ∧ (hgAddR 7 exE1 1 (St.new true)).2.disk.perms = [] ∧
    (hgAddR 6 exE1 1 (St.new true)).1 = .error .recursionError ∧ (hgAddR 6 exE1 1 (St.new true)).2.disk.vertices = [] ∧
    (hgAddR 8 exE1 1 (St.new true)).1 = .ok exE1 := by
  decide +kernel

end GB
