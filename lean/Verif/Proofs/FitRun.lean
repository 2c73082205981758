import Verif.Proofs.EpsilonRun
import Verif.Spec.Fit

/-
The fit of a candidate, read from the heap.
-/

namespace GB

theorem tok_eq (a b : TokInfo) : a.eq b = decide (a.word = b.word ∧ a.pos = b.pos ∧ a.dep = b.dep) := by
  simp [TokInfo.eq, Bool.decide_and, Bool.and_assoc]

mutual
theorem flat_reads {h : SemTree} : (t : STree) → {n r k : Nat} → Reads h t (n : Int) → h.table[n]? = some r → t.depth ≤ k →
    flatLeafs k r h = .ok (t.leaves, h)
  | .leaf ns tok, n, r, k, hr, ht, hk => by
    have ho := reads_leaf hr ht
    obtain ⟨k, rfl⟩ := fuel_pos hk
    simp only [flatLeafs, tm_bind, deref_run ho, tm_pure, STree.leaves]
  | .node ns c ts, n, r, k, hr, ht, hk => by
    obtain ⟨l, lids, lid, ids, ho, hl, hs⟩ := reads_node hr ht
    obtain ⟨k, rfl⟩ := fuel_pos hk
    obtain ⟨rs, hrs, hrefs⟩ := children_reads ho rfl hl hs
    obtain ⟨ps, hps, hfl⟩ := flatL_reads ts hrefs (fuel_node hk)
    simp only [flatLeafs, tm_bind, deref_run ho, hrs, hps, tm_pure, STree.leaves, hfl]
theorem flatL_reads {h : SemTree} : (ts : List STree) → {rs : List Nat} → {k : Nat} → RefsR h ts rs → depthL ts ≤ k →
    ∃ ps, TM.mapM (flatLeafs k) rs h = .ok (ps, h) ∧ ps.flatten = leavesL ts
  | [], rs, k, hr, hk => by
    cases (show rs = [] from hr)
    exact ⟨[], rfl, rfl⟩
  | t :: ts, rs, k, hr, hk => by
    obtain ⟨r, rs', n, rfl, ht, ha, hb⟩ := hr
    simp only [depthL] at hk
    obtain ⟨ps, h1, h2⟩ := flatL_reads ts hb (k := k) (by omega)
    refine ⟨t.leaves :: ps, ?_, by simp [leavesL, h2]⟩
    simp only [TM.mapM, tm_bind, flat_reads t ha ht (show t.depth ≤ k by omega), h1, tm_pure]
end

theorem RefsR.length {h : SemTree} : {ts : List STree} → {rs : List Nat} → RefsR h ts rs → rs.length = ts.length
  | [], rs, hr => by cases (show rs = [] from hr); rfl
  | t :: ts, rs, hr => by
    obtain ⟨r, rs', n, rfl, _, _, hb⟩ := hr
    simp [hb.length]

theorem alikeL_length : {ts us : List STree} → ts.length ≠ us.length → alikeL ts us = false
  | [], [], h => absurd rfl h
  | [], _ :: _, _ => by simp [alikeL]
  | _ :: _, [], _ => by simp [alikeL]
  | t :: ts, u :: us, h => by simp [alikeL, alikeL_length (ts := ts) (us := us) (by simpa using h)]

mutual
theorem alike_reads {h : SemTree} : (t u : STree) → {n m r q k : Nat} → Reads h t (n : Int) → h.table[n]? = some r →
    Reads h u (m : Int) → h.table[m]? = some q → t.depth ≤ k → elemEq k r q h = .ok (t.alike u, h)
  | .leaf ns tok, .leaf ns' tok', n, m, r, q, k, hr, ht, hr', ht', hk => by
    have ho := reads_leaf hr ht
    have ho' := reads_leaf hr' ht'
    obtain ⟨k, rfl⟩ := fuel_pos hk
    simp only [elemEq, tm_bind, deref_run ho, deref_run ho', tm_pure, STree.alike, tok_eq]
  | .leaf ns tok, .node ns' c' us, n, m, r, q, k, hr, ht, hr', ht', hk => by
    have ho := reads_leaf hr ht
    obtain ⟨l', lids', lid', ids', ho', hl', hs'⟩ := reads_node hr' ht'
    obtain ⟨k, rfl⟩ := fuel_pos hk
    simp only [elemEq, tm_bind, deref_run ho, deref_run ho', tm_pure, STree.alike]
  | .node ns c ts, .leaf ns' tok', n, m, r, q, k, hr, ht, hr', ht', hk => by
    have ho' := reads_leaf hr' ht'
    obtain ⟨l, lids, lid, ids, ho, hl, hs⟩ := reads_node hr ht
    obtain ⟨k, rfl⟩ := fuel_pos hk
    simp only [elemEq, tm_bind, deref_run ho, deref_run ho', tm_pure, STree.alike]
  | .node ns c ts, .node ns' c' us, n, m, r, q, k, hr, ht, hr', ht', hk => by
    obtain ⟨l, lids, lid, ids, ho, hl, hs⟩ := reads_node hr ht
    obtain ⟨l', lids', lid', ids', ho', hl', hs'⟩ := reads_node hr' ht'
    obtain ⟨k, rfl⟩ := fuel_pos hk
    obtain ⟨rs, hrs, hrefs⟩ := children_reads ho rfl hl hs
    obtain ⟨qs, hqs, hrefs'⟩ := children_reads ho' rfl hl' hs'
    simp only [elemEq, tm_bind, deref_run ho, deref_run ho', hrs, hqs, STree.alike, hrefs.length, hrefs'.length]
    split
    · rename_i hlen
      rw [alikeL_length hlen, tm_pure]
    · rename_i hlen
      exact alikeL_reads ts us hrefs hrefs' (fuel_node hk) (by simpa using hlen)
theorem alikeL_reads {h : SemTree} : (ts us : List STree) → {rs qs : List Nat} → {k : Nat} → RefsR h ts rs → RefsR h us qs →
    depthL ts ≤ k → ts.length = us.length → TM.allM (fun p : Nat × Nat => elemEq k p.1 p.2) (rs.zip qs) h = .ok (alikeL ts us, h)
  | [], [], rs, qs, k, hr, hq, hk, hl => by
    cases (show rs = [] from hr)
    rfl
  | t :: ts, u :: us, rs, qs, k, hr, hq, hk, hl => by
    obtain ⟨r, rs', n, rfl, ht, ha, hb⟩ := hr
    obtain ⟨q, qs', m, rfl, ht', ha', hb'⟩ := hq
    simp only [depthL] at hk
    have h1 := alike_reads t u ha ht ha' ht' (show t.depth ≤ k by omega)
    have h2 := alikeL_reads ts us hb hb' (k := k) (by omega) (by simpa using hl)
    simp only [List.zip_cons_cons, TM.allM, tm_bind, h1, alikeL]
    cases t.alike u with
    | true => simpa using h2
    | false => rfl
end

theorem meets_reads {h : SemTree} {t u : STree} {n m r q k : Nat} (hr : Reads h t (n : Int)) (ht : h.table[n]? = some r)
    (hr' : Reads h u (m : Int)) (ht' : h.table[m]? = some q) (hk : t.depth ≤ k) (hk' : u.depth ≤ k) :
    isPartOfRel k r q h = .ok (t.meets u, h) := by
  simp only [isPartOfRel, tm_bind, flat_reads t hr ht hk, flat_reads u hr' ht' hk', tm_pure, STree.meets, tok_eq]

theorem anyAlike_reads {h : SemTree} {u : STree} {m q k : Nat} (hr' : Reads h u (m : Int)) (ht' : h.table[m]? = some q) :
    (ts : List STree) → {ids : List Int} → ReadsL h ts ids → depthL ts ≤ k →
    TM.anyM (fun i => do elemEq k (← treeGet i) q) ids h = .ok (ts.any (fun a => a.alike u), h)
  | [], ids, hr, hk => by
    cases (show ids = [] from hr)
    rfl
  | t :: ts, ids, hr, hk => by
    obtain ⟨i, is, rfl, ha, hb⟩ := hr
    obtain ⟨n, r, rfl, ht, _⟩ := ha.entry
    simp only [depthL] at hk
    have h1 := alike_reads t u ha ht hr' ht' (show t.depth ≤ k by omega)
    have h2 := anyAlike_reads hr' ht' ts hb (show depthL ts ≤ k by omega)
    simp only [TM.anyM, tm_bind, treeGet_run ht, h1, List.any_cons]
    cases t.alike u with
    | true => rfl
    | false => simpa using h2

mutual
theorem puts_reads {h : SemTree} {p c : STree} {np nc rp rc : Nat} (hp : Reads h p (np : Int)) (tp : h.table[np]? = some rp)
    (hc : Reads h c (nc : Int)) (tc : h.table[nc]? = some rc) : (t : STree) → {n r k : Nat} → Reads h t (n : Int) →
    h.table[n]? = some r → t.Full → t.depth + p.depth ≤ k → isDirectlyUnder k r rp rc h = .ok (t.puts p c, h)
  | .leaf ns tok, n, r, k, hr, ht, hf, hk => by
    have ho := reads_leaf hr ht
    obtain ⟨k, rfl⟩ := fuel_pos (show (STree.leaf ns tok).depth ≤ k by omega)
    simp only [isDirectlyUnder, tm_bind, arity_leaf ho rfl, tm_pure, STree.puts]
    rfl
  | .node ns b ts, n, r, k, hr, ht, hf, hk => by
    obtain ⟨l, lids, lid, ids, ho, hl, hs⟩ := reads_node hr ht
    obtain ⟨k, rfl⟩ := fuel_pos (show (STree.node ns b ts).depth ≤ k by omega)
    have hk' : depthL ts + p.depth ≤ k := by simp only [STree.depth] at hk; omega
    cases ts with
    | nil => exact absurd rfl hf.1
    | cons t ts =>
      obtain ⟨i, is, rfl, ha, hb⟩ := hs
      simp only [isDirectlyUnder, tm_bind, arity_node ho rfl hl]
      cases b with
      | true => rfl
      | false =>
        cases ts with
        | nil =>
          cases (show is = [] from hb)
          simp [STree.puts, putsL, tm_pure]
        | cons u us =>
          obtain ⟨nt, rt, rfl, htt, _⟩ := ha.entry
          simp only [depthL] at hk'
          have h1 := meets_reads ha htt hp tp (k := k) (by omega) (by omega)
          have h2 := anyAlike_reads hc tc (u :: us) hb (k := k) (by simp only [depthL]; omega)
          have h3 := putsL_reads hp tp hc tc (u :: us) hb hf.2.2 (k := k) (by simp only [depthL]; omega)
          have hlen : ¬ (((nt : Nat) : Int) :: is).length < 2 := by
            obtain ⟨_, _, rfl, _, _⟩ := hb
            simp
          simp only [Bool.false_eq_true, if_false, hlen, tm_bind, childId_run ho rfl hl (i := 0) (y := (nt : Int)) rfl,
            treeGet_run htt, childrenIds_run ho rfl hl, List.tail_cons, h1, STree.puts]
          cases t.meets p with
          | true =>
            simp only [if_true, h2, Bool.true_and]
            cases (u :: us).any (fun a => a.alike c) with
            | true => simp [tm_pure]
            | false => simpa using h3
          | false => simpa [tm_pure] using h3
theorem putsL_reads {h : SemTree} {p c : STree} {np nc rp rc : Nat} (hp : Reads h p (np : Int)) (tp : h.table[np]? = some rp)
    (hc : Reads h c (nc : Int)) (tc : h.table[nc]? = some rc) : (ts : List STree) → {ids : List Int} → {k : Nat} →
    ReadsL h ts ids → fullL ts → depthL ts + p.depth ≤ k →
    TM.anyM (fun i => do isDirectlyUnder k (← treeGet i) rp rc) ids h = .ok (putsL ts p c, h)
  | [], ids, k, hr, hf, hk => by
    cases (show ids = [] from hr)
    rfl
  | t :: ts, ids, k, hr, hf, hk => by
    obtain ⟨i, is, rfl, ha, hb⟩ := hr
    obtain ⟨n, r, rfl, ht, _⟩ := ha.entry
    simp only [depthL] at hk
    have h1 := puts_reads hp tp hc tc t ha ht hf.1 (k := k) (by omega)
    have h2 := putsL_reads hp tp hc tc ts hb hf.2 (k := k) (by omega)
    simp only [TM.anyM, tm_bind, treeGet_run ht, h1, putsL]
    cases t.puts p c with
    | true => rfl
    | false => simpa using h2
end

/-! ### The fit -/

mutual
theorem isRel_reads {h : SemTree} : (t : STree) → {i : Int} → {k : Nat} → Reads h t i → t.depth ≤ k →
    isRel k i h = .ok (t.relates, h)
  | .leaf ns tok, i, k, hr, hk => by
    obtain ⟨n, r, rfl, ht, _⟩ := hr.entry
    have ho := reads_leaf hr ht
    obtain ⟨k, rfl⟩ := fuel_pos hk
    simp only [isRel, tm_bind, treeGet_run ht, deref_run ho, tm_pure, relates_eq, STree.relates, STree.leaves, List.all_cons,
      List.all_nil, Bool.and_true]
  | .node ns c ts, i, k, hr, hk => by
    obtain ⟨n, r, rfl, ht, _⟩ := hr.entry
    obtain ⟨l, lids, lid, ids, ho, hl, hs⟩ := reads_node hr ht
    obtain ⟨k, rfl⟩ := fuel_pos hk
    have := isRelL_reads ts hs (fuel_node hk)
    simp only [isRel, tm_bind, treeGet_run ht, deref_run ho, readList_run hl, this, STree.relates, STree.leaves]
theorem isRelL_reads {h : SemTree} : (ts : List STree) → {ids : List Int} → {k : Nat} → ReadsL h ts ids → depthL ts ≤ k →
    TM.allM (isRel k) ids h = .ok ((leavesL ts).all TokInfo.relates, h)
  | [], ids, k, hr, hk => by
    cases (show ids = [] from hr)
    rfl
  | t :: ts, ids, k, hr, hk => by
    obtain ⟨i, is, rfl, ha, hb⟩ := hr
    simp only [depthL] at hk
    have h1 := isRel_reads t ha (k := k) (by omega)
    have h2 := isRelL_reads ts hb (k := k) (by omega)
    simp only [TM.allM, tm_bind, h1, leavesL, List.all_append, STree.relates]
    cases (t.leaves.all TokInfo.relates) with
    | true => simpa using h2
    | false => rfl
end

theorem ReadsL.get {h : SemTree} : {ts : List STree} → {ids : List Int} → ReadsL h ts ids → {i : Nat} → {t : STree} →
    ts[i]? = some t → ∃ (n r : Nat), ids[i]? = some (n : Int) ∧ h.table[n]? = some r ∧ Reads h t (n : Int)
  | [], _, _, i, t, ht => by simp at ht
  | t :: ts, ids, hr, i, u, ht => by
    obtain ⟨j, js, rfl, ha, hb⟩ := hr
    cases i with
    | zero =>
      cases ht
      obtain ⟨n, r, rfl, hn, _⟩ := ha.entry
      exact ⟨n, r, rfl, hn, ha⟩
    | succ i => exact hb.get (i := i) ht

theorem getChild_reads {h : SemTree} {r l : Nat} {e : Elem} {ids : List Int} {lids : List Nat} {lid : Int} {c : Bool}
    {ts : List STree} (ho : h.objs[r]? = some e) (hb : e.body = .node l lids lid c) (hl : h.lists[l]? = some ids)
    (hs : ReadsL h ts ids) {i : Nat} {t : STree} (ht : ts[i]? = some t) :
    ∃ (n q : Nat), getChild r i h = .ok (q, h) ∧ h.table[n]? = some q ∧ Reads h t (n : Int) := by
  obtain ⟨n, q, h1, h2, h3⟩ := hs.get ht
  exact ⟨n, q, (tm_bind_ok (childId_run ho hb hl h1)).trans (treeGet_run h2), h2, h3⟩

/-- What the loop over the parts of the relation gives, from part `i` on. -/
def loopPoints (o : STree) (ps as : List STree) : Nat → Nat → Nat
  | _, 0 => 0
  | i, m + 1 => (match ps[i]?, as[i]?, as[i + 1]? with
    | some p, some a, some b => (if i = 0 then points (o.puts p a) else 0) + points (o.puts p b)
    | _, _, _ => 0) + loopPoints o ps as (i + 1) m

theorem nodeFitLoop_reads {h : SemTree} {o : STree} {no ro node rel l l' k : Nat} {e e' : Elem}
    {ids ids' : List Int} {lids lids' : List Nat} {lid lid' : Int} {c c' : Bool} {rt : STree} {ps as : List STree}
    (hro : Reads h o (no : Int)) (hto : h.table[no]? = some ro) (hfo : o.Full)
    (ho : h.objs[node]? = some e) (hb : e.body = .node l lids lid c) (hl : h.lists[l]? = some ids) (hs : ReadsL h (rt :: as) ids)
    (ho' : h.objs[rel]? = some e') (hb' : e'.body = .node l' lids' lid' c') (hl' : h.lists[l']? = some ids')
    (hs' : ReadsL h ps ids') (hk : o.depth + depthL ps ≤ k) : (m i : Nat) → (m ≠ 0 → i + m ≤ ps.length) →
    (m ≠ 0 → i + m + 1 ≤ as.length) → nodeFitLoop k node ro rel i m h = .ok (loopPoints o ps as i m, h)
  | 0, i, _, _ => rfl
  | m + 1, i, h1, h2 => by
    have h1 := h1 (by omega)
    have h2 := h2 (by omega)
    have gp : ps[i]? = some ps[i] := List.getElem?_eq_getElem (by omega)
    have ga : as[i]? = some as[i] := List.getElem?_eq_getElem (by omega)
    have gb : as[i + 1]? = some as[i + 1] := List.getElem?_eq_getElem (by omega)
    obtain ⟨np, rp, p1, p2, p3⟩ := getChild_reads ho' hb' hl' hs' gp
    obtain ⟨na, ra, a1, a2, a3⟩ := getChild_reads ho hb hl hs (i := i + 1) (t := as[i]) (by simpa using ga)
    obtain ⟨nb, rb, b1, b2, b3⟩ := getChild_reads ho hb hl hs (i := i + 2) (t := as[i + 1]) (by simpa using gb)
    have hd : ps[i].depth ≤ depthL ps := depth_mem (by simp)
    have u1 := puts_reads p3 p2 a3 a2 o hro hto hfo (k := k) (by omega)
    have u2 := puts_reads p3 p2 b3 b2 o hro hto hfo (k := k) (by omega)
    have ih := nodeFitLoop_reads hro hto hfo ho hb hl hs ho' hb' hl' hs' hk m (i + 1) (by omega) (by omega)
    simp only [nodeFitLoop, tm_bind, p1, a1, loopPoints, gp, ga, gb]
    by_cases hi : i = 0
    · subst hi
      simp only [if_true, tm_bind, u1, points]
      cases (o.puts ps[0] as[0]) <;> cases hx : (o.puts ps[0] as[0 + 1]) <;>
        simp [tm_bind, tm_pure, b1, u2, hx, ih]
    · simp only [hi, if_false, tm_pure, points, b1, tm_bind, u2]
      cases (o.puts ps[i] as[i + 1]) <;> simp [tm_pure, tm_bind, ih]

theorem loop_parts (o : STree) (ps as : List STree) : (m i : Nat) → i ≠ 0 →
    m = min (ps.length - i) (as.length - (i + 1)) → loopPoints o ps as i m = partPoints o (ps.drop i) (as.drop (i + 1))
  | 0, i, hi, hm => by
    have : ps.length ≤ i ∨ as.length ≤ i + 1 := by omega
    rcases this with h | h
    · rw [List.drop_eq_nil_of_le h]; simp [loopPoints, partPoints]
    · rw [List.drop_eq_nil_of_le h]
      cases ps.drop i <;> simp [loopPoints, partPoints]
  | m + 1, i, hi, hm => by
    have h1 : i < ps.length := by omega
    have h2 : i + 1 < as.length := by omega
    rw [loopPoints, loop_parts o ps as m (i + 1) (by omega) (by omega), List.drop_eq_getElem_cons h1,
      List.drop_eq_getElem_cons h2, partPoints]
    have h3 : i < as.length := by omega
    simp only [List.getElem?_eq_getElem h1, List.getElem?_eq_getElem h2, List.getElem?_eq_getElem h3, if_neg hi, Nat.zero_add]

theorem loop_zero (o : STree) (p : STree) (ps : List STree) (a b : STree) (as : List STree) :
    loopPoints o (p :: ps) (a :: b :: as) 0 (min (ps.length + 1) (as.length + 1)) =
      points (o.puts p a) + partPoints o (p :: ps) (b :: as) := by
  obtain ⟨m, hm⟩ : ∃ m, min (ps.length + 1) (as.length + 1) = m + 1 := ⟨min ps.length as.length, by omega⟩
  rw [hm, loopPoints, loop_parts o _ _ m 1 (by omega) (by simp only [List.length_cons]; omega)]
  simp only [List.getElem?_cons_zero, List.getElem?_cons_succ, if_true, List.drop_succ_cons, List.drop_zero, partPoints]
  simp [Nat.add_assoc]

theorem readsL_length {h : SemTree} : (ts : List STree) → {ids : List Int} → ReadsL h ts ids → ids.length = ts.length
  | [], ids, hr => by cases (show ids = [] from hr); rfl
  | t :: ts, ids, hr => by
    obtain ⟨i, is, rfl, _, hb⟩ := hr
    simp [readsL_length ts hb]

theorem places_reads {h : SemTree} {t : STree} {n r : Nat} (hr : Reads h t (n : Int)) (ht : h.table[n]? = some r) :
    arity r h = .ok (t.places, h) := by
  cases t with
  | leaf ns tok => exact arity_leaf (reads_leaf hr ht) rfl
  | node ns c ts =>
    obtain ⟨l, lids, lid, ids, ho, hl, hs⟩ := reads_node hr ht
    rw [arity_node ho rfl hl, STree.places, readsL_length ts hs]

theorem nodeFit_reads {h : SemTree} {o t : STree} {no ro n r k : Nat} (hro : Reads h o (no : Int)) (hto : h.table[no]? = some ro)
    (hfo : o.Full) (hr : Reads h t (n : Int)) (ht : h.table[n]? = some r) (hf : t.Full) (hk : o.depth + t.depth ≤ k) :
    nodeFit k r ro h = .ok (o.fit t, h) := by
  cases t with
  | leaf ns tok =>
    have ho := reads_leaf hr ht
    simp only [nodeFit, tm_bind, deref_run ho]
    rfl
  | node ns c ts =>
    obtain ⟨l, lids, lid, ids, ho, hl, hs⟩ := reads_node hr ht
    cases ts with
    | nil => exact absurd rfl hf.1
    | cons rt as =>
      have hs0 := hs
      obtain ⟨i, is, rfl, ha, hb⟩ := hs
      obtain ⟨nr, rr, rfl, htr, _⟩ := ha.entry
      have hlen : is.length = as.length := readsL_length as hb
      simp only [STree.depth, depthL] at hk
      have hrel := isRel_reads rt ha (k := k) (by omega)
      have hch := childId_run ho rfl hl (i := 0) (y := (nr : Int)) rfl
      simp only [nodeFit, tm_bind, deref_run ho, Elem.isLeaf, Bool.false_eq_true, if_false, hch, hrel, STree.fit]
      cases hrr : rt.relates with
      | false => simp [tm_pure]
      | true =>
        simp only [Bool.not_true, Bool.false_eq_true, if_false, if_true, tm_bind, hch, treeGet_run htr, places_reads ha htr,
          childrenIds_run ho rfl hl, List.length_cons, hlen]
        have hbase : (if rt.places = 1 ∧ as.length + 1 = 2 then 1000 else
            if (rt.places : Int) = ((as.length + 1 : Nat) : Int) - 2 then 1000 else 0) =
            (if (rt.places = 1 ∧ as.length = 1) ∨ rt.places + 1 = as.length then 1000 else 0 : Nat) := by
          by_cases h1 : rt.places = 1 ∧ as.length = 1
          · rw [if_pos (by omega), if_pos (.inl h1)]
          · rw [if_neg (by omega)]
            by_cases h2 : rt.places + 1 = as.length
            · rw [if_pos (by omega), if_pos (.inr h2)]
            · rw [if_neg (by omega), if_neg (by rintro (h | h); exact h1 h; exact h2 h)]
        rw [hbase]
        cases rt with
        | leaf ns' tok' =>
          have ho' := reads_leaf ha htr
          have hT : (⟨nr, ns', .leaf tok'⟩ : Elem).isTerminal = true := rfl
          simp only [tm_bind, deref_run ho', if_pos hT, tm_pure, Nat.add_zero]
        | node ns' c' ps =>
          obtain ⟨l', lids', lid', ids', ho', hl', hs'⟩ := reads_node ha htr
          cases c' with
          | true =>
            have hT : (⟨nr, ns', .node l' lids' lid' true⟩ : Elem).isTerminal = true := rfl
            simp only [tm_bind, deref_run ho', if_pos hT, tm_pure, Nat.add_zero]
          | false =>
            have hT : ¬ (⟨nr, ns', .node l' lids' lid' false⟩ : Elem).isTerminal = true := by simp [Elem.isTerminal]
            simp only [tm_bind, deref_run ho', if_neg hT, arity_node ho rfl hl]
            simp only [STree.depth] at hk
            have hpsne : ps ≠ [] := hf.2.1.1
            obtain ⟨p, ps, rfl⟩ : ∃ p qs, ps = p :: qs := by
              cases ps with
              | nil => exact absurd rfl hpsne
              | cons p qs => exact ⟨p, qs, rfl⟩
            generalize hm : (min ((STree.node ns' false (p :: ps)).places : Int)
              (((if c = true then 1 else ((nr : Int) :: is).length : Nat) : Int) - 2)).toNat = m
            simp only [STree.places, Bool.false_eq_true, if_false, List.length_cons, hlen] at hm
            have hloop := nodeFitLoop_reads hro hto hfo ho rfl hl hs0 ho' rfl hl' hs' (k := k) (by omega) m 0
              (by simp only [List.length_cons]; omega) (by cases c <;> simp at hm <;> omega)
            rw [hloop]
            simp only [tm_pure]
            congr 2
            congr 1
            cases c with
            | true =>
              have : m = 0 := by simp at hm; omega
              subst this
              rfl
            | false =>
              match as, hm with
              | [], hm =>
                have : m = 0 := by simp at hm; omega
                subst this
                rfl
              | [a], hm =>
                have : m = 0 := by simp at hm; omega
                subst this
                rfl
              | a :: b :: as, hm =>
                have : m = min (ps.length + 1) (as.length + 1) := by simp at hm; omega
                subst this
                exact loop_zero o p ps a b as

end GB
