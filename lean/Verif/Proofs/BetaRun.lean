import Verif.Proofs.StageRead

/-
The marks: the setter of `compound`, the beta stage.
-/

namespace GB

/-- The new tree stands in the same places and nothing else changed. -/
structure Redo (h : SemTree) (i : Int) (F : List Loc) (h' : SemTree) (t : STree) : Prop where
  rep : Rep h' t i F
  keeps : Keeps h h' F

/-- The same for several trees. -/
structure RedoL (h : SemTree) (is : List Int) (F : List Loc) (h' : SemTree) (ts : List STree) : Prop where
  reps : Reps h' ts is F
  keeps : Keeps h h' F

/-- Changing the object of a node and then its children. -/
theorem redo_node {h h' : SemTree} {ns ns' : Option Str} {c c' : Bool} {ts' : List STree} {n r l : Nat} {ids : List Int}
    {Fs : List Loc} (ht : h.table[n]? = some r) (ho : h.objs[r]? = some ⟨n, ns, .node l [] (-1) c⟩)
    (hl : h.lists[l]? = some ids) (hn : (Loc.id n :: .obj r :: .lst l :: Fs).Nodup)
    (hk : RedoL { h with objs := h.objs.set r ⟨n, ns', .node l [] (-1) c'⟩ } ids Fs h' ts') :
    Redo h (n : Int) (.id n :: .obj r :: .lst l :: Fs) h' (.node ns' c' ts') := by
  have key := keeps_setObj h r ⟨n, ns', .node l [] (-1) c'⟩
  simp only [List.nodup_cons, List.mem_cons, not_or] at hn
  obtain ⟨hn1, hn2, hn3, hnF⟩ := hn
  refine ⟨⟨n, r, l, ids, Fs, rfl, ?_, ?_, ?_, hk.reps, rfl⟩, ?_⟩
  · exact (hk.keeps.agree (.id n) (some_lt ht) hn1.2.2).trans ht
  · refine (hk.keeps.agree (.obj r) (by simpa [Loc.valid] using some_lt ho) hn2.2).trans ?_
    simp [some_lt ho]
  · exact (hk.keeps.agree (.lst l) (some_lt hl) hn3).trans hl
  · exact key.trans hk.keeps (by simp) (fun x hx => .inl (by simp [hx]))

theorem reps_after_set {h : SemTree} {ts : List STree} {ids : List Int} {n r l : Nat} {Fs : List Loc} {e : Elem}
    (hn : (Loc.id n :: .obj r :: .lst l :: Fs).Nodup) (hs : Reps h ts ids Fs) :
    Reps { h with objs := h.objs.set r e } ts ids Fs := by
  simp only [List.nodup_cons, List.mem_cons, not_or] at hn
  refine (keeps_setObj h r e).reps hs (fun x hx hm => ?_)
  simp only [List.mem_cons, List.not_mem_nil, or_false] at hm
  subst hm
  exact hn.2.1.2 hx

/-- `forEach` over children references, each of which changes its own tree. -/
theorem forEach_redo {f : Nat → TM Unit} {g : STree → STree} : (ts : List STree) → {ids : List Int} → {F : List Loc} →
    {h : SemTree} → {rs : List Nat} → Reps h ts ids F → F.Nodup → TM.mapM treeGet ids h = .ok (rs, h) →
    (∀ t ∈ ts, ∀ (h : SemTree) (n r : Nat) (G : List Loc), h.table[n]? = some r → Rep h t (n : Int) G → G.Nodup →
      ∃ h', f r h = .ok ((), h') ∧ Redo h (n : Int) G h' (g t) ∧ h'.table = h.table) →
    ∃ h', TM.forEach f rs h = .ok ((), h') ∧ RedoL h ids F h' (ts.map g) ∧ h'.table = h.table
  | [], ids, F, h, rs, hr, hn, hm, hf => by
    obtain ⟨rfl, rfl⟩ := hr
    cases hm
    exact ⟨h, rfl, ⟨⟨rfl, rfl⟩, Keeps.refl h⟩, rfl⟩
  | t :: ts, ids, F, h, rs, hr, hn, hm, hf => by
    obtain ⟨i, is, F1, F2, rfl, ha, hb, rfl⟩ := hr
    obtain ⟨n, r, rfl, ht, _⟩ := ha.entry
    obtain ⟨hn1, hn2, hd⟩ := nodup_split hn
    obtain ⟨rs', hrun, _⟩ := refs_of hb
    simp only [TM.mapM, tm_bind, treeGet_run ht, hrun, tm_pure] at hm
    cases hm
    obtain ⟨h1, run1, re1, tab1⟩ := hf t (by simp) h n r F1 ht ha hn1
    have hb1 : Reps h1 ts is F2 := re1.keeps.reps hb (fun x hx hx' => hd x hx' hx)
    have hrun1 : TM.mapM treeGet is h1 = .ok (rs', h1) := by
      obtain ⟨rs2, e2, _⟩ := refs_of hb1
      have : ∀ (js : List Int) {a b : List Nat}, TM.mapM treeGet js h = .ok (a, h) → TM.mapM treeGet js h1 = .ok (b, h1) → a = b := by
        intro js
        induction js with
        | nil => intro a b h2 h3; cases h2; cases h3; rfl
        | cons j js ih =>
          intro a b h2 h3
          simp only [TM.mapM, tm_bind, treeGet, tab1] at h2 h3
          by_cases hj : j < 0
          · simp [hj] at h2
          · simp only [hj, reduceIte] at h2 h3
            cases hj2 : h.table[j.toNat]? with
            | none => simp [hj2] at h2
            | some q =>
              simp only [hj2] at h2 h3
              cases h4 : TM.mapM treeGet js h with
              | error e => simp [h4] at h2
              | ok p =>
                cases h5 : TM.mapM treeGet js h1 with
                | error e => simp [h5] at h3
                | ok p' =>
                  simp only [h4, h5, tm_pure] at h2 h3
                  cases h2; cases h3
                  rw [ih h4 h5]
      rw [e2, this is hrun e2]
    obtain ⟨h2, run2, re2, tab2⟩ := forEach_redo ts hb1 hn2 hrun1 (fun u hu => hf u (by simp [hu]))
    refine ⟨h2, ?_, ⟨Reps.cons (re2.keeps.rep re1.rep (fun x hx hx' => hd x hx hx')) re2.reps, ?_⟩, tab2.trans tab1⟩
    · simp only [TM.forEach, tm_bind, run1, run2]
    · exact re1.keeps.trans re2.keeps (by simp +contextual) (fun x hx => .inl (by simp [hx]))

theorem markL_map (b : Bool) : (ts : List STree) → markL b ts = ts.map (STree.mark b)
  | [] => rfl
  | t :: ts => by simp [markL, markL_map b ts]

/-- The setter of `compound` marks all nodes. -/
theorem setCompound_run {b : Bool} : (k : Nat) → {h : SemTree} → {ns : Option Str} → {c : Bool} → {ts : List STree} →
    {n r : Nat} → {F : List Loc} → h.table[n]? = some r → Rep h (.node ns c ts) (n : Int) F → F.Nodup →
    (STree.node ns c ts).depth ≤ k →
    ∃ h', setCompound k b r h = .ok ((), h') ∧ Redo h (n : Int) F h' ((STree.node ns c ts).mark b) ∧ h'.table = h.table
  | 0, _, _, _, _, _, _, _, _, _, _, hk => by simp [STree.depth] at hk
  | k + 1, h, ns, c, ts, n, r, F, ht, hr, hn, hk => by
    obtain ⟨l, ids, Fs, ho, hl, hs, rfl⟩ := rep_node hr ht
    have hs1 := reps_after_set (e := ⟨n, ns, .node l [] (-1) b⟩) hn hs
    have hnF : Fs.Nodup := by simp only [List.nodup_cons] at hn; exact hn.2.2.2
    obtain ⟨rs, hm, _⟩ := refs_of hs1
    have ho1 : ({ h with objs := h.objs.set r ⟨n, ns, .node l [] (-1) b⟩ } : SemTree).objs[r]? =
      some ⟨n, ns, .node l [] (-1) b⟩ := by simp [some_lt ho]
    obtain ⟨h', run, re, tab⟩ := forEach_redo (g := STree.mark b)
      (f := fun c => do if (← deref c).isNode then setCompound k b c else TM.pure ()) ts hs1 hnF hm (by
      intro t ht2 h2 m q G htm hrep hG
      cases t with
      | leaf ns2 tok2 =>
        obtain ⟨ho2, _⟩ := rep_leaf hrep htm
        refine ⟨h2, ?_, ⟨hrep, (Keeps.refl h2).mono (by simp)⟩, rfl⟩
        simp only [tm_bind, deref_run ho2, Elem.isNode, isLeaf_of_leaf, Bool.not_true, Bool.false_eq_true, reduceIte, tm_pure]
      | node ns2 c2 ts2 =>
        obtain ⟨h3, run3, re3, tab3⟩ := setCompound_run k htm hrep hG (Nat.le_trans (depth_mem ht2) (fuel_node hk))
        obtain ⟨_, _, _, ho2, _⟩ := rep_node hrep htm
        refine ⟨h3, ?_, re3, tab3⟩
        simp only [tm_bind, deref_run ho2, Elem.isNode, isLeaf_of_node, Bool.not_false, reduceIte, run3])
    refine ⟨h', ?_, ?_, tab⟩
    · simp only [setCompound, tm_bind, deref_run ho, setObj, children, childrenIds_run ho1 rfl hl, hm]
      exact run
    · simp only [STree.mark, markL_map]
      exact redo_node ht ho hl hn re

/-! ### beta -/

mutual
theorem mark_leaves (b : Bool) : (t : STree) → (t.mark b).leaves = t.leaves
  | .leaf _ _ => rfl
  | .node _ _ ts => by simp only [STree.mark, STree.leaves, markL_leaves b ts]
theorem markL_leaves (b : Bool) : (ts : List STree) → leavesL (markL b ts) = leavesL ts
  | [] => rfl
  | t :: ts => by simp only [markL, leavesL, mark_leaves b t, markL_leaves b ts]
end

mutual
theorem mark_depth (b : Bool) : (t : STree) → (t.mark b).depth = t.depth
  | .leaf _ _ => rfl
  | .node _ _ ts => by simp only [STree.mark, STree.depth, markL_depth b ts]
theorem markL_depth (b : Bool) : (ts : List STree) → depthL (markL b ts) = depthL ts
  | [] => rfl
  | t :: ts => by simp only [markL, depthL, mark_depth b t, markL_depth b ts]
end

mutual
theorem mark_branching (b : Bool) : (t : STree) → t.Branching → (t.mark b).Branching
  | .leaf _ _, _ => trivial
  | .node _ _ ts, h => ⟨by rw [markL_map]; simpa using h.1, markL_branching b ts h.2⟩
theorem markL_branching (b : Bool) : (ts : List STree) → branchingL ts → branchingL (markL b ts)
  | [], _ => trivial
  | t :: ts, h => ⟨mark_branching b t h.1, markL_branching b ts h.2⟩
end

theorem hasType_mark (b : Bool) (et : Str) (t : STree) : (t.mark b).hasType et = t.hasType et := by cases t <;> rfl

theorem all_mark (b : Bool) (et : Str) : (ts : List STree) → (markL b ts).all (STree.hasType et) = ts.all (STree.hasType et)
  | [] => rfl
  | t :: ts => by simp [markL, hasType_mark, all_mark b et ts]

theorem compoundB_mark (b : Bool) (ts : List STree) : compoundB (markL b ts) = compoundB ts := by
  have : sameEntityB (markL b ts) = sameEntityB ts := by
    match ts with
    | [] => rfl
    | .node _ _ _ :: ts => rfl
    | .leaf ns t :: ts =>
      simp only [markL, STree.mark, sameEntityB, List.all_cons, all_mark]
  simp only [compoundB, this, markL_leaves]

mutual
theorem beta_mark (b : Bool) : (t : STree) → (t.mark b).beta = t.beta
  | .leaf _ _ => rfl
  | .node _ _ ts => by simp only [STree.mark, STree.beta, compoundB_mark, betaL_mark b ts]
theorem betaL_mark (b : Bool) : (ts : List STree) → betaL (markL b ts) = betaL ts
  | [] => rfl
  | t :: ts => by simp only [markL, betaL, beta_mark b t, betaL_mark b ts]
end

theorem Redo.trans {h h1 h2 : SemTree} {i : Int} {F : List Loc} {t u : STree} (a : Redo h i F h1 t)
    (b : Redo h1 i F h2 u) : Redo h i F h2 u :=
  ⟨b.rep, a.keeps.trans b.keeps (fun _ hx => hx) (fun _ hx => .inl hx)⟩

/-- Changing the children of a node in their places. -/
theorem redo_children {h h' : SemTree} {ns : Option Str} {c : Bool} {ts' : List STree} {n r l : Nat} {ids : List Int}
    {Fs : List Loc} (ht : h.table[n]? = some r) (ho : h.objs[r]? = some ⟨n, ns, .node l [] (-1) c⟩)
    (hl : h.lists[l]? = some ids) (hn : (Loc.id n :: .obj r :: .lst l :: Fs).Nodup) (hk : RedoL h ids Fs h' ts') :
    Redo h (n : Int) (.id n :: .obj r :: .lst l :: Fs) h' (.node ns c ts') := by
  simp only [List.nodup_cons, List.mem_cons, not_or] at hn
  obtain ⟨hn1, hn2, hn3, hnF⟩ := hn
  refine ⟨⟨n, r, l, ids, Fs, rfl, ?_, ?_, ?_, hk.reps, rfl⟩, hk.keeps.mono (by simp +contextual)⟩
  · exact (hk.keeps.agree (.id n) (some_lt ht) hn1.2.2).trans ht
  · exact (hk.keeps.agree (.obj r) (some_lt ho) hn2.2).trans ho
  · exact (hk.keeps.agree (.lst l) (some_lt hl) hn3).trans hl

/-- `forEach` over ids, each of which changes its own tree. -/
theorem forEachIds_redo {f : Int → TM Unit} {g : STree → STree} : (ts : List STree) → {ids : List Int} → {F : List Loc} →
    {h : SemTree} → Reps h ts ids F → F.Nodup →
    (∀ t ∈ ts, ∀ (h : SemTree) (n : Nat) (G : List Loc), Rep h t (n : Int) G → G.Nodup →
      ∃ h', f (n : Int) h = .ok ((), h') ∧ Redo h (n : Int) G h' (g t)) →
    ∃ h', TM.forEach f ids h = .ok ((), h') ∧ RedoL h ids F h' (ts.map g)
  | [], ids, F, h, hr, hn, hf => by
    obtain ⟨rfl, rfl⟩ := hr
    exact ⟨h, rfl, ⟨⟨rfl, rfl⟩, Keeps.refl h⟩⟩
  | t :: ts, ids, F, h, hr, hn, hf => by
    obtain ⟨i, is, F1, F2, rfl, ha, hb, rfl⟩ := hr
    obtain ⟨n, r, rfl, ht, _⟩ := ha.entry
    obtain ⟨hn1, hn2, hd⟩ := nodup_split hn
    obtain ⟨h1, run1, re1⟩ := hf t (by simp) h n F1 ha hn1
    have hb1 : Reps h1 ts is F2 := re1.keeps.reps hb (fun x hx hx' => hd x hx' hx)
    obtain ⟨h2, run2, re2⟩ := forEachIds_redo ts hb1 hn2 (fun u hu => hf u (by simp [hu]))
    refine ⟨h2, ?_, ⟨Reps.cons (re2.keeps.rep re1.rep (fun x hx hx' => hd x hx hx')) re2.reps, ?_⟩⟩
    · simp only [TM.forEach, tm_bind, run1, run2]
    · exact re1.keeps.trans re2.keeps (by simp +contextual) (fun x hx => .inl (by simp [hx]))

theorem betaL_map : (ts : List STree) → betaL ts = ts.map STree.beta
  | [] => rfl
  | t :: ts => by simp [betaL, betaL_map ts]

theorem branching_mem {t : STree} : {ts : List STree} → t ∈ ts → branchingL ts → t.Branching
  | u :: ts, h, hb => by
    rcases List.mem_cons.mp h with rfl | h
    · exact hb.1
    · exact branching_mem h hb.2

theorem betaEntity_run : (k : Nat) → {h : SemTree} → {t : STree} → {n : Nat} → {F : List Loc} →
    Rep h t (n : Int) F → F.Nodup → t.Branching → t.depth + 1 ≤ k →
    ∃ h', betaEntity k (n : Int) h = .ok ((), h') ∧ Redo h (n : Int) F h' t.beta
  | 0, h, t, n, F, hr, hn, hb, hk => by omega
  | k + 1, h, .leaf ns tok, n, F, hr, hn, hb, hk => by
    obtain ⟨n', r, hi, ht, _⟩ := hr.entry
    obtain rfl : n = n' := by omega
    obtain ⟨ho, rfl⟩ := rep_leaf hr ht
    refine ⟨{ h with objs := h.objs.set r ⟨n, some (lit "1"), .leaf tok⟩ }, ?_, ⟨⟨n, r, rfl, ht, by simp [some_lt ho], rfl⟩, ?_⟩⟩
    · simp only [betaEntity, tm_bind, treeGet_run ht, deref_run ho, setObj, Elem.isNode, isLeaf_of_leaf, Bool.not_true,
        Bool.false_eq_true, reduceIte, tm_pure]
    · exact (keeps_setObj h r _).mono (by simp)
  | k + 1, h, .node ns c ts, n, F, hr, hn, hb, hk => by
    obtain ⟨n', r, hi, ht, _⟩ := hr.entry
    obtain rfl : n = n' := by omega
    obtain ⟨l, ids, Fs, ho, hl, hs, rfl⟩ := rep_node hr ht
    have hne : ts ≠ [] := by
      rintro rfl
      have := hb.1
      simp at this
    -- the namespace
    have re1 : Redo h (n : Int) (.id n :: .obj r :: .lst l :: Fs)
        { h with objs := h.objs.set r ⟨n, some (lit "1"), .node l [] (-1) c⟩ } (.node (some (lit "1")) c ts) :=
      redo_node ht ho hl hn ⟨reps_after_set hn hs, (Keeps.refl _).mono (by simp)⟩
    have ht1 : ({ h with objs := h.objs.set r ⟨n, some (lit "1"), .node l [] (-1) c⟩ } : SemTree).table[n]? = some r := ht
    have run0 : betaEntity (k + 1) (n : Int) h = (do
        setCompound k (← isCompound k r) r
        TM.forEach (betaEntity k) (← childrenIds r) : TM Unit)
          { h with objs := h.objs.set r ⟨n, some (lit "1"), .node l [] (-1) c⟩ } := by
      simp only [betaEntity, tm_bind, treeGet_run ht, deref_run ho, setObj, Elem.isNode, isLeaf_of_node, Bool.not_false,
        reduceIte]
    rw [run0]
    clear run0
    generalize ({ h with objs := h.objs.set r ⟨n, some (lit "1"), .node l [] (-1) c⟩ } : SemTree) = h1 at re1 ht1
    -- the mark
    have hd : (STree.node (some (lit "1")) c ts).depth ≤ k := by simp only [STree.depth] at hk ⊢; omega
    obtain ⟨h2, run2, re2, tab2⟩ := setCompound_run (b := compoundB ts) k ht1 re1.rep hn hd
    have ht2 : h2.table[n]? = some r := by rw [tab2]; exact ht1
    have hr2 : Rep h2 (.node (some (lit "1")) (compoundB ts) (markL (compoundB ts) ts)) (n : Int)
      (.id n :: .obj r :: .lst l :: Fs) := re2.rep
    obtain ⟨l2, ids2, Fs2, ho2, hl2, hs2, hF2⟩ := rep_node hr2 ht2
    simp only [List.cons.injEq, true_and, Loc.lst.injEq] at hF2
    obtain ⟨rfl, rfl⟩ := hF2
    -- the children
    have hnF : Fs.Nodup := by simp only [List.nodup_cons] at hn; exact hn.2.2.2
    obtain ⟨h3, run3, re3⟩ := forEachIds_redo (f := betaEntity k) (g := STree.beta) (markL (compoundB ts) ts) hs2 hnF (by
      intro t ht3 h' m G hrep hG
      rw [markL_map] at ht3
      obtain ⟨u, hu, rfl⟩ := List.mem_map.mp ht3
      refine betaEntity_run k hrep hG (mark_branching _ _ (branching_mem hu hb.2)) ?_
      rw [mark_depth]
      have := depth_mem hu
      simp only [STree.depth] at hk
      omega)
    have re4 := redo_children ht2 ho2 hl2 hn re3
    refine ⟨h3, ?_, (re1.trans re2).trans ?_⟩
    · simp only [tm_bind, isCompound_run re1.rep ht1 hd hne, run2, childrenIds_run ho2 rfl hl2, run3]
    · have : (STree.node ns c ts).beta = .node (some (lit "1")) (compoundB ts) ((markL (compoundB ts) ts).map STree.beta) := by
        rw [← betaL_map, betaL_mark]
        rfl
      rw [this]
      exact re4

/-- The beta stage. -/
theorem betaStage_run {h : SemTree} {t : STree} (hs : Stands h t) (hb : t.Branching) :
    ∃ N, ∀ k, N ≤ k → ∃ h', betaStage k h = .ok ((), h') ∧ Stands h' t.beta := by
  obtain ⟨i, F, hroot, hr, hn⟩ := hs
  refine ⟨t.depth + 1, fun k hk => ?_⟩
  obtain ⟨h', run, re⟩ := betaEntity_run k hr hn hb hk
  refine ⟨h', ?_, ⟨i, F, re.keeps.root.trans hroot, re.rep, hn⟩⟩
  simp only [betaStage, tm_bind, rootIdM, hroot, run]

end GB
