import Verif.Proofs.AlphaPure
import Verif.Spec.Stages

/-
Reading trees in the heap: text, tests on words.
-/

namespace GB

theorem compoundB_iff (ts : List STree) : compoundB ts = true ↔ Compound ts := by
  have h1 : sameEntityB ts = true ↔ sameEntity ts := by
    unfold sameEntityB sameEntity
    constructor
    · intro h
      split at h
      · rename_i ns t us
        split at h
        · rename_i et he
          simp only [Bool.and_eq_true, decide_eq_true_eq, List.all_eq_true] at h
          exact ⟨et, h.1, by simp, h.2⟩
        · cases h
      · cases h
    · rintro ⟨et, h1, h2, h3⟩
      match ts, h2 with
      | .leaf ns t :: us, _ =>
        have := h3 (.leaf ns t) (by simp)
        simp only [STree.hasType, decide_eq_true_eq] at this
        simp only [this, Bool.and_eq_true, decide_eq_true_eq, List.all_eq_true]
        exact ⟨h1, h3⟩
      | .node ns b us :: vs, _ =>
        have := h3 (.node ns b us) (by simp)
        simp [STree.hasType] at this
  simp only [compoundB, Compound, Bool.or_eq_true, h1, List.all_eq_true]

/-- Taking a leaf apart. -/
theorem rep_leaf {h : SemTree} {ns : Option Str} {tok : TokInfo} {n r : Nat} {F : List Loc}
    (hr : Rep h (.leaf ns tok) (n : Int) F) (ht : h.table[n]? = some r) :
    h.objs[r]? = some ⟨n, ns, .leaf tok⟩ ∧ F = [.id n, .obj r] := by
  obtain ⟨n', r', hi, ht', ho, hF⟩ := hr
  obtain rfl : n = n' := by omega
  obtain rfl := some_eq ht ht'
  exact ⟨ho, hF⟩

/-- Taking a node apart. -/
theorem rep_node {h : SemTree} {ns : Option Str} {c : Bool} {ts : List STree} {n r : Nat} {F : List Loc}
    (hr : Rep h (.node ns c ts) (n : Int) F) (ht : h.table[n]? = some r) :
    ∃ l ids Fs, h.objs[r]? = some ⟨n, ns, .node l [] (-1) c⟩ ∧ h.lists[l]? = some ids ∧ Reps h ts ids Fs ∧
      F = .id n :: .obj r :: .lst l :: Fs := by
  obtain ⟨n', r', l, ids, Fs, hi, ht', ho, hl, hs, hF⟩ := hr
  obtain rfl : n = n' := by omega
  obtain rfl := some_eq ht ht'
  exact ⟨l, ids, Fs, ho, hl, hs, hF⟩

theorem fuel_pos {t : STree} {k : Nat} (hk : t.depth ≤ k) : ∃ k', k = k' + 1 := by
  refine ⟨k - 1, ?_⟩
  cases t <;> simp only [STree.depth] at hk <;> omega

theorem fuel_node {ns : Option Str} {c : Bool} {ts : List STree} {k : Nat} (hk : (STree.node ns c ts).depth ≤ k + 1) :
    depthL ts ≤ k := by
  simp only [STree.depth] at hk
  omega

/-! ### Text -/

mutual
theorem elemStr_run {h : SemTree} : (t : STree) → {n r k : Nat} → {F : List Loc} → Rep h t (n : Int) F →
    h.table[n]? = some r → t.depth ≤ k → elemStr k r h = .ok (t.text, h)
  | .leaf ns tok, n, r, k, F, hr, ht, hk => by
    obtain ⟨ho, _⟩ := rep_leaf hr ht
    obtain ⟨k, rfl⟩ := fuel_pos hk
    simp only [elemStr, tm_bind, deref_run ho, tm_pure, STree.text]
  | .node ns c ts, n, r, k, F, hr, ht, hk => by
    obtain ⟨l, ids, Fs, ho, hl, hs, _⟩ := rep_node hr ht
    obtain ⟨k, rfl⟩ := fuel_pos hk
    simp only [elemStr, tm_bind, deref_run ho, readList_run hl, elemStrL_run ts hs (fuel_node hk), STree.text]
    cases c <;> rfl
theorem elemStrL_run {h : SemTree} : (ts : List STree) → {ids : List Int} → {k : Nat} → {F : List Loc} → Reps h ts ids F →
    depthL ts ≤ k → TM.mapM (fun i => do elemStr k (← treeGet i)) ids h = .ok (textL ts, h)
  | [], ids, k, F, hr, hk => by
    obtain ⟨rfl, rfl⟩ := hr
    rfl
  | t :: ts, ids, k, F, hr, hk => by
    obtain ⟨i, is, F1, F2, rfl, ha, hb, rfl⟩ := hr
    obtain ⟨n, r, rfl, ht, _⟩ := ha.entry
    simp only [depthL] at hk
    simp only [TM.mapM, tm_bind, treeGet_run ht, elemStr_run t ha ht (show t.depth ≤ k by omega), tm_pure, textL]
    have := elemStrL_run ts hb (k := k) (by omega)
    rw [this]
end

theorem treeStr_run {h : SemTree} {t : STree} (hs : Stands h t) : ∃ N, ∀ k, N ≤ k → treeStr k h = .ok (t.text, h) := by
  obtain ⟨i, F, hroot, hr, _⟩ := hs
  refine ⟨t.depth, fun k hk => ?_⟩
  obtain ⟨n, r, hn, ht, _⟩ := hr.entry
  obtain rfl : i = n := by omega
  simp only [treeStr, hroot, tm_bind, treeGet_run ht, elemStr_run t hr ht hk]

/-! ### Children -/

theorem children_run {h : SemTree} {r l : Nat} {e : Elem} {ids : List Int} {lids : List Nat} {lid : Int} {c : Bool}
    {ts : List STree} {Fs : List Loc} (ho : h.objs[r]? = some e) (hb : e.body = .node l lids lid c)
    (hl : h.lists[l]? = some ids) (hs : Reps h ts ids Fs) : ∃ rs, children r h = .ok (rs, h) ∧ Refs h ts rs := by
  obtain ⟨rs, h1, h2⟩ := refs_of hs
  exact ⟨rs, by simp only [children, tm_bind, childrenIds_run ho hb hl, h1], h2⟩

/-- `allM` over references to trees. -/
theorem allM_refs {h : SemTree} {f : Nat → TM Bool} {p : STree → Bool} : (ts : List STree) → {rs : List Nat} → Refs h ts rs →
    (∀ t ∈ ts, ∀ (n r : Nat) (G : List Loc), h.table[n]? = some r → Rep h t (n : Int) G → f r h = .ok (p t, h)) →
    TM.allM f rs h = .ok (ts.all p, h)
  | [], rs, hr, _ => by cases hr; rfl
  | t :: ts, rs, hr, hf => by
    cases hr with
    | cons h1 h2 =>
      obtain ⟨n, G, ht, hrep⟩ := h1
      simp only [TM.allM, tm_bind, hf t (by simp) n _ G ht hrep, List.all_cons]
      have := allM_refs ts h2 (fun u hu => hf u (by simp [hu]))
      cases p t with
      | true => simpa using this
      | false => simp [tm_pure]

/-- `allM` over ids of trees. -/
theorem allM_ids {h : SemTree} {f : Int → TM Bool} {p : STree → Bool} : (ts : List STree) → {ids : List Int} →
    {F : List Loc} → Reps h ts ids F →
    (∀ t ∈ ts, ∀ (n : Nat) (G : List Loc), Rep h t (n : Int) G → f (n : Int) h = .ok (p t, h)) →
    TM.allM f ids h = .ok (ts.all p, h)
  | [], ids, F, hr, _ => by
    obtain ⟨rfl, rfl⟩ := hr
    rfl
  | t :: ts, ids, F, hr, hf => by
    obtain ⟨i, is, F1, F2, rfl, ha, hb, rfl⟩ := hr
    obtain ⟨n, r, rfl, ht, _⟩ := ha.entry
    simp only [TM.allM, tm_bind, hf t (by simp) n F1 ha, List.all_cons]
    have := allM_ids ts hb (fun u hu => hf u (by simp [hu]))
    cases p t with
    | true => simpa using this
    | false => simp [tm_pure]

theorem leavesL_all (p : TokInfo → Bool) : (ts : List STree) → (leavesL ts).all p = ts.all (fun t => t.leaves.all p)
  | [] => rfl
  | t :: ts => by simp [leavesL, leavesL_all p ts]

theorem depth_mem {t : STree} : {ts : List STree} → t ∈ ts → t.depth ≤ depthL ts
  | u :: ts, h => by
    simp only [depthL]
    rcases List.mem_cons.mp h with rfl | h
    · omega
    · have := depth_mem h
      omega

/-! ### beta -/

theorem inCompound_eq (t : TokInfo) : decide (t.dep ∈ compoundDeps) = t.inCompound := by
  simp [compoundDeps, TokInfo.inCompound, Bool.or_assoc]

theorem byType_run {h : SemTree} {ns : Option Str} {c : Bool} {t : STree} {ts : List STree} {n r : Nat} {F : List Loc}
    (hr : Rep h (.node ns c (t :: ts)) (n : Int) F) (ht : h.table[n]? = some r) :
    isCompoundByEntityType r h = .ok (sameEntityB (t :: ts), h) := by
  obtain ⟨l, ids, Fs, ho, hl, hs, _⟩ := rep_node hr ht
  have hs0 := hs
  obtain ⟨i, is, F1, F2, rfl, ha, hb, rfl⟩ := hs
  obtain ⟨m, q, rfl, htm, _⟩ := ha.entry
  have hgc : getChild r 0 h = .ok (q, h) := by
    simp only [getChild, tm_bind, childId_run ho rfl hl (show ((m : Int) :: is)[0]? = some (m : Int) from rfl), treeGet_run htm]
  cases t with
  | node ns' c' us =>
    obtain ⟨l', ids', Fs', ho', _⟩ := rep_node ha htm
    simp only [isCompoundByEntityType, tm_bind, hgc, deref_run ho', tm_pure, sameEntityB]
  | leaf ns' tok =>
    obtain ⟨ho', _⟩ := rep_leaf ha htm
    simp only [isCompoundByEntityType, tm_bind, hgc, deref_run ho', sameEntityB]
    cases het : tok.entityType with
    | none => rfl
    | some et =>
      dsimp only
      by_cases hz : et = []
      · simp [hz, tm_pure]
      · have hz' : ¬ et.length = 0 := by simpa using hz
        obtain ⟨rs, hc1, hrefs⟩ := children_run ho rfl hl hs0
        simp only [hz', reduceIte, tm_bind, hc1, hz, ne_eq, not_false_eq_true, decide_true, Bool.true_and]
        refine allM_refs (p := STree.hasType et) _ hrefs ?_
        intro u hu m' q' G htm' hrep
        cases u with
        | leaf ns2 tok2 =>
          obtain ⟨ho2, _⟩ := rep_leaf hrep htm'
          simp only [tm_bind, deref_run ho2, tm_pure, STree.hasType]
        | node ns2 c2 us2 =>
          obtain ⟨_, _, _, ho2, _⟩ := rep_node hrep htm'
          simp only [tm_bind, deref_run ho2, tm_pure, STree.hasType]

theorem byDeps_run {h : SemTree} : (k : Nat) → {ns : Option Str} → {c : Bool} → {ts : List STree} → {n r : Nat} →
    {F : List Loc} → Rep h (.node ns c ts) (n : Int) F → h.table[n]? = some r → (STree.node ns c ts).depth ≤ k →
    isCompoundByDeps k r h = .ok ((leavesL ts).all TokInfo.inCompound, h)
  | 0, ns, c, ts, n, r, F, hr, ht, hk => by simp [STree.depth] at hk
  | k + 1, ns, c, ts, n, r, F, hr, ht, hk => by
    obtain ⟨l, ids, Fs, ho, hl, hs, _⟩ := rep_node hr ht
    obtain ⟨rs, hc1, hrefs⟩ := children_run ho rfl hl hs
    simp only [isCompoundByDeps, tm_bind, hc1, leavesL_all]
    refine allM_refs (p := fun t => t.leaves.all TokInfo.inCompound) _ hrefs ?_
    intro u hu m q G htm hrep
    cases u with
    | leaf ns2 tok2 =>
      obtain ⟨ho2, _⟩ := rep_leaf hrep htm
      simp only [tm_bind, deref_run ho2, tm_pure, STree.leaves, List.all_cons, List.all_nil, Bool.and_true, inCompound_eq]
    | node ns2 c2 us2 =>
      obtain ⟨_, _, _, ho2, _⟩ := rep_node hrep htm
      simp only [tm_bind, deref_run ho2, STree.leaves]
      exact byDeps_run k hrep htm (Nat.le_trans (depth_mem hu) (fuel_node hk))

theorem isCompound_run {h : SemTree} {k : Nat} {ns : Option Str} {c : Bool} {ts : List STree} {n r : Nat}
    {F : List Loc} (hr : Rep h (.node ns c ts) (n : Int) F) (ht : h.table[n]? = some r)
    (hk : (STree.node ns c ts).depth ≤ k) (hne : ts ≠ []) : isCompound k r h = .ok (compoundB ts, h) := by
  match ts, hne with
  | t :: ts, _ =>
    simp only [isCompound, tm_bind, byType_run hr ht, compoundB]
    cases sameEntityB (t :: ts) with
    | true => simp [tm_pure]
    | false => simpa using byDeps_run k hr ht hk

/-! ### gamma -/

theorem relates_eq (t : TokInfo) : decide (t.pos ∈ relPos) = t.relates := by
  simp [relPos, TokInfo.relates, Bool.or_assoc]

theorem gammaIsRel_deep {h : SemTree} : (k : Nat) → (d : Nat) → {t : STree} → {n : Nat} → {F : List Loc} →
    Rep h t (n : Int) F → t.depth ≤ k → gammaIsRel k false d (n : Int) h = .ok (t.relates, h)
  | 0, d, t, n, F, hr, hk => by cases t <;> simp [STree.depth] at hk
  | k + 1, d, t, n, F, hr, hk => by
    obtain ⟨n', r, hn, ht, _⟩ := hr.entry
    obtain rfl : n = n' := by omega
    cases t with
    | leaf ns tok =>
      obtain ⟨ho, _⟩ := rep_leaf hr ht
      simp only [gammaIsRel, tm_bind, treeGet_run ht, deref_run ho, tm_pure, STree.relates, STree.leaves, List.all_cons,
        List.all_nil, Bool.and_true, relates_eq]
    | node ns c ts =>
      obtain ⟨l, ids, Fs, ho, hl, hs, _⟩ := rep_node hr ht
      simp only [gammaIsRel, tm_bind, treeGet_run ht, deref_run ho, Bool.false_and, Bool.false_eq_true, reduceIte,
        readList_run hl, STree.relates, STree.leaves, leavesL_all]
      exact allM_ids (p := fun t => t.leaves.all TokInfo.relates) _ hs
        (fun u hu m G hrep => gammaIsRel_deep k (d + 1) hrep (Nat.le_trans (depth_mem hu) (fuel_node hk)))

theorem gammaIsRel_shallow {h : SemTree} {k : Nat} {ns : Option Str} {c : Bool} {ts : List STree} {n : Nat}
    {F : List Loc} (hr : Rep h (.node ns c ts) (n : Int) F) (hk : (STree.node ns c ts).depth ≤ k) :
    gammaIsRel k true 0 (n : Int) h = .ok (ts.all STree.relWord, h) := by
  obtain ⟨n', r, hn, ht, _⟩ := hr.entry
  obtain rfl : n = n' := by omega
  obtain ⟨k, rfl⟩ := fuel_pos hk
  obtain ⟨l, ids, Fs, ho, hl, hs, _⟩ := rep_node hr ht
  simp only [gammaIsRel, tm_bind, treeGet_run ht, deref_run ho, Bool.true_and, gt_iff_lt, Nat.lt_irrefl, decide_false,
    Bool.false_eq_true, reduceIte, readList_run hl]
  refine allM_ids _ hs (fun u hu m G hrep => ?_)
  obtain ⟨m', q, hm, htm, _⟩ := hrep.entry
  obtain rfl : m = m' := by omega
  obtain ⟨k, rfl⟩ : ∃ k', k = k' + 1 := by
    refine fuel_pos (t := u) (Nat.le_trans (depth_mem hu) (fuel_node hk))
  cases u with
  | leaf ns tok =>
    obtain ⟨ho, _⟩ := rep_leaf hrep htm
    simp only [gammaIsRel, tm_bind, treeGet_run htm, deref_run ho, tm_pure, STree.relWord, relates_eq]
  | node ns c ts =>
    obtain ⟨_, _, _, ho, _⟩ := rep_node hrep htm
    simp [gammaIsRel, tm_bind, treeGet_run htm, deref_run ho, tm_pure, STree.relWord]

end GB
