import Verif.Proofs.AlphaRun

/-
The end of the alpha stage: redundant nesting is removed, and the whole stage.
-/

namespace GB

theorem isLeaf_of_leaf {n : Nat} {ns : Option Str} {tok : TokInfo} : Elem.isLeaf ⟨n, ns, .leaf tok⟩ = true := rfl
theorem isLeaf_of_node {n : Nat} {ns : Option Str} {l : Nat} {a : List Nat} {b : Int} {c : Bool} :
    Elem.isLeaf ⟨n, ns, .node l a b c⟩ = false := rfl

theorem disenclose_run {h : SemTree} {r r' n l c : Nat} {ns : Option Str} {b : Bool} {cs : List Int} {e : Elem}
    (ho : h.objs[r]? = some ⟨n, ns, .node l [] (-1) b⟩) (hl : h.lists[l]? = some ((c : Int) :: cs))
    (ht : h.table[c]? = some r') (ho' : h.objs[r']? = some e) :
    disenclose r h = .ok ((), { h with objs := h.objs.set r' { e with id := n }, table := h.table.set n r' }) := by
  simp only [disenclose, tm_bind, deref_run ho, readList_run hl, elemId_run ho, treeGet_run ht, treeSet, deref_run ho',
    setObj, tableSet]

mutual
theorem rrn_run {h : SemTree} : (t : STree) → {n r : Nat} → {F : List Loc} → {k : Nat} → Rep h t (n : Int) F →
    F.Nodup → h.table[n]? = some r → t.depth ≤ k →
    ∃ h' F', removeRedundantNesting k r h = .ok ((), h') ∧ Rep h' t.slim (n : Int) F' ∧ F'.Nodup ∧ (∀ x ∈ F', x ∈ F) ∧
      Keeps h h' F
  | .leaf ns tok, n, r, F, k, hr, hn, htr, hk => by
    obtain ⟨n', r', hi, ht, ho, rfl⟩ := id hr
    have e1 : n = n' := by omega
    subst e1
    rw [ht] at htr
    cases htr
    obtain ⟨k, rfl⟩ : ∃ k', k = k' + 1 := ⟨k - 1, by simp only [STree.depth] at hk; omega⟩
    refine ⟨h, _, ?_, hr, hn, fun x hx => hx, (Keeps.refl h).mono (by simp)⟩
    simp only [removeRedundantNesting, tm_bind, deref_run ho, isLeaf_of_leaf, reduceIte, tm_pure]
  | .node ns c ts, n, r, F, k, hr, hn, htr, hk => by
    obtain ⟨n', r', l, ids, Fs, hi, ht, ho, hl, hs, rfl⟩ := hr
    have e1 : n = n' := by omega
    subst e1
    rw [ht] at htr
    cases htr
    obtain ⟨k, rfl⟩ : ∃ k', k = k' + 1 := ⟨k - 1, by simp only [STree.depth] at hk; omega⟩
    simp only [STree.depth] at hk
    have hn' := hn
    simp only [List.nodup_cons, List.mem_cons, not_or] at hn
    obtain ⟨hn1, hn2, hn3, hnF⟩ := hn
    obtain ⟨h1, F1, run1, rep1, nd1, sub1, keep1⟩ := rrnL_run ts hs hnF (show depthL ts ≤ k by omega)
    have ht1 : h1.table[n]? = some r := (keep1.agree (.id n) (some_lt ht) (by simp [hn1])).trans ht
    have ho1 : h1.objs[r]? = _ := (keep1.agree (.obj r) (some_lt ho) (by simp [hn2])).trans ho
    have hl1 : h1.lists[l]? = _ := (keep1.agree (.lst l) (some_lt hl) hn3).trans hl
    have keepF : Keeps h h1 (.id n :: .obj r :: .lst l :: Fs) := keep1.mono (by simp +contextual)
    have base : Rep h1 (.node ns c (slimL ts)) (n : Int) (.id n :: .obj r :: .lst l :: F1) :=
      ⟨n, r, l, ids, F1, rfl, ht1, ho1, hl1, rep1, rfl⟩
    have nd : (Loc.id n :: .obj r :: .lst l :: F1).Nodup := by
      simp only [List.nodup_cons, List.mem_cons, not_or]
      exact ⟨⟨hn1.1, hn1.2.1, fun hx => hn1.2.2 (sub1 _ hx)⟩, ⟨hn2.1, fun hx => hn2.2 (sub1 _ hx)⟩,
        fun hx => hn3 (sub1 _ hx), nd1⟩
    have sub : ∀ x ∈ (Loc.id n :: .obj r :: .lst l :: F1), x ∈ (Loc.id n :: .obj r :: .lst l :: Fs) := by
      intro x hx
      simp only [List.mem_cons] at hx ⊢
      rcases hx with rfl | rfl | rfl | hx
      · simp
      · simp
      · simp
      · simp [sub1 _ hx]
    have run : removeRedundantNesting (k + 1) r h = (do
        match (← childrenIds r) with
        | [c] => do
          if (← deref (← treeGet c)).isNode then disenclose r else TM.pure ()
        | _ => TM.pure () : TM Unit) h1 := by
      simp only [removeRedundantNesting, tm_bind, deref_run ho, isLeaf_of_node, Bool.false_eq_true, reduceIte,
        childrenIds_run ho rfl hl, run1]
      rfl
    rw [run]
    by_cases hone : ∃ ns' b' us, slimL ts = [.node ns' b' us]
    · obtain ⟨ns', b', us, hts⟩ := hone
      rw [hts] at rep1
      obtain ⟨i, is, G1, G2, hids, ra, rb, hG⟩ := rep1
      obtain ⟨hisn, hG2⟩ := rb
      subst hids hG hisn hG2
      obtain ⟨m, q, l', ids', Gs, him, htm, hom, hlm, hrs, rfl⟩ := ra
      subst him
      have hslim : (STree.node ns c ts).slim = .node ns' b' us := by simp only [STree.slim, hts]
      rw [hslim]
      refine ⟨{ h1 with objs := h1.objs.set q ⟨n, ns', .node l' [] (-1) b'⟩, table := h1.table.set n q },
        .id n :: .obj q :: .lst l' :: Gs, ?_, ⟨n, q, l', ids', Gs, rfl, ?_, ?_, ?_, ?_, rfl⟩, ?_, ?_, ?_⟩
      · simp only [tm_bind, childrenIds_run ho1 rfl hl1, treeGet_run htm, deref_run hom, Elem.isNode, isLeaf_of_node,
          Bool.not_false, reduceIte]
        exact disenclose_run ho1 hl1 htm hom
      · simp [some_lt ht1]
      · simp [some_lt hom]
      · exact hlm
      · simp only [List.append_nil, List.nodup_cons, List.mem_cons, not_or] at nd nd1
        refine Reps.frame _ hrs (fun x hx => ?_)
        cases x with
        | id m' =>
          have : n ≠ m' := fun e => nd.1.2.2.2.2.2 (e ▸ hx)
          simp [Agree, List.getElem?_set_ne this]
        | obj m' =>
          have : q ≠ m' := fun e => nd1.2.1.2 (e ▸ hx)
          simp [Agree, List.getElem?_set_ne this]
        | lst m' => simp [Agree]
      · simp only [List.append_nil, List.nodup_cons, List.mem_cons, not_or] at nd nd1 ⊢
        exact ⟨⟨nofun, nofun, nd.1.2.2.2.2.2⟩, nd1.2⟩
      · intro x hx
        have : x = .id n ∨ x ∈ (Loc.id m :: .obj q :: .lst l' :: Gs ++ []) := by
          simp only [List.append_nil, List.mem_cons] at hx ⊢
          rcases hx with h | h
          · exact .inl h
          · exact .inr (.inr h)
        rcases this with rfl | hx
        · simp
        · simp [sub1 _ hx]
      · have hq : Loc.obj q ∈ Fs := sub1 _ (by simp)
        refine ⟨fun x hx hnx => agree_trans (keepF.agree x hx hnx) ?_, fun x hx => ?_, keepF.root⟩
        · cases x with
          | id m' =>
            have : n ≠ m' := fun e => hnx (by simp [e])
            simp [Agree, List.getElem?_set_ne this]
          | obj m' =>
            have : q ≠ m' := fun e => hnx (by simp [← e, hq])
            simp [Agree, List.getElem?_set_ne this]
          | lst m' => simp [Agree]
        · have := keepF.grow x hx
          cases x <;> simpa [Loc.valid] using this
    · refine ⟨h1, _, ?_, ?_, nd, sub, keepF⟩
      · simp only [tm_bind, childrenIds_run ho1 rfl hl1]
        match ids, rep1, hone with
        | [], _, _ => rfl
        | a :: b :: ids, _, _ => rfl
        | [a], rep1, hone =>
          match hts : slimL ts, rep1, hone with
          | [], rep1, _ => exact absurd rep1.1 (by simp)
          | t :: [], rep1, hone =>
            obtain ⟨i, is, G1, G2, hids, ra, rb, hG⟩ := rep1
            cases hids
            cases t with
            | node ns' b' us => exact absurd ⟨ns', b', us, rfl⟩ hone
            | leaf ns' tok =>
              obtain ⟨m, q, him, htm, hom, rfl⟩ := ra
              subst him
              simp only [treeGet_run htm, deref_run hom, Elem.isNode, isLeaf_of_leaf, Bool.not_true,
                Bool.false_eq_true, reduceIte, tm_pure, tm_bind]
          | t :: u :: us, rep1, _ =>
            obtain ⟨i, is, G1, G2, hids, ra, rb, hG⟩ := rep1
            obtain ⟨j, js, G1, G2, hids', _⟩ := rb
            simp [hids'] at hids
      · have : (STree.node ns c ts).slim = .node ns c (slimL ts) := by
          simp only [STree.slim]
          split
          · rename_i ns' b' us heq
            exact absurd ⟨ns', b', us, heq⟩ hone
          · rfl
        rw [this]
        exact base
theorem rrnL_run {h : SemTree} : (ts : List STree) → {ids : List Int} → {F : List Loc} → {k : Nat} → Reps h ts ids F →
    F.Nodup → depthL ts ≤ k →
    ∃ h' F', TM.forEach (fun c => do removeRedundantNesting k (← treeGet c)) ids h = .ok ((), h') ∧
      Reps h' (slimL ts) ids F' ∧ F'.Nodup ∧ (∀ x ∈ F', x ∈ F) ∧ Keeps h h' F
  | [], ids, F, k, hr, hn, hk => by
    obtain ⟨rfl, rfl⟩ := hr
    exact ⟨h, [], rfl, ⟨rfl, rfl⟩, hn, fun x hx => hx, Keeps.refl h⟩
  | t :: ts, ids, F, k, hr, hn, hk => by
    obtain ⟨i, is, F1, F2, rfl, ha, hb, rfl⟩ := hr
    simp only [depthL] at hk
    obtain ⟨n, r, rfl, ht, _⟩ := ha.entry
    obtain ⟨hn1, hn2, hd⟩ := nodup_split hn
    obtain ⟨h1, G1, run1, rep1, nd1, sub1, keep1⟩ := rrn_run t ha hn1 ht (show t.depth ≤ k by omega)
    have hb1 : Reps h1 ts is F2 := keep1.reps hb (fun x hx hx' => hd x hx' hx)
    obtain ⟨h2, G2, run2, rep2, nd2, sub2, keep2⟩ := rrnL_run ts hb1 hn2 (show depthL ts ≤ k by omega)
    have rep1' := keep2.rep rep1 (fun x hx hx' => hd x (sub1 x hx) hx')
    refine ⟨h2, G1 ++ G2, ?_, Reps.cons rep1' rep2, ?_, ?_, ?_⟩
    · simp only [TM.forEach, tm_bind, treeGet_run ht, run1]
      exact run2
    · rw [List.nodup_append]
      exact ⟨nd1, nd2, fun a h3 b h4 e => hd a (sub1 a h3) (e ▸ sub2 b h4)⟩
    · intro x hx
      rcases List.mem_append.mp hx with hx | hx
      · exact List.mem_append.mpr (.inl (sub1 x hx))
      · exact List.mem_append.mpr (.inr (sub2 x hx))
    · exact keep1.trans keep2 (by simp +contextual) (fun x hx => .inl (by simp [hx]))
end

/-- The alpha stage of a sentence with a root, on any tree object: with a large enough budget it succeeds and the
tree object stands for `alphaTree`. -/
theorem alphaStage_run {sentence : List Tok} {x : Tok} (hroot : sentenceRoot sentence = some x) :
    ∃ N, ∀ k, N ≤ k → ∀ h, ∃ h', alphaStage k sentence h = .ok ((), h') ∧ Stands h' (alphaTree x) := by
  obtain ⟨N, g⟩ := processToken_run x
  refine ⟨max N (pTok x).depth, fun k hk h => ?_⟩
  obtain ⟨h1, F1, run1, rep1, nd1, keep1⟩ := g k (by omega) h
  have rep2 : Rep { h1 with rootId := some h.table.length } (pTok x) (h.table.length : Int) F1 :=
    rep1.frame _ (fun y _ => by cases y <;> rfl)
  obtain ⟨n, r, hn, ht, _⟩ := rep2.entry
  have : h.table.length = n := by omega
  subst this
  obtain ⟨h2, F2, run2, rep3, nd3, _, keep3⟩ := rrn_run (k := k) _ rep2 nd1 ht (by omega)
  refine ⟨h2, ?_, ⟨_, F2, keep3.root, rep3, nd3⟩⟩
  simp only [alphaStage, hroot, tm_bind, run1, setRoot, treeGet_run ht]
  exact run2

theorem alphaStage_noroot {sentence : List Tok} (hroot : sentenceRoot sentence = none) (k : Nat) (h : SemTree) :
    alphaStage k sentence h = .error .attributeError := by
  simp only [alphaStage, hroot, TM.raise]

end GB
