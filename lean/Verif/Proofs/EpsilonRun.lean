import Verif.Proofs.DeltaStage
import Verif.Spec.Epsilon

/-
The epsilon stage, and the text of trees with shared elements.
-/

namespace GB

theorem Reads.entry {h : SemTree} {t : STree} {i : Int} (hr : Reads h t i) :
    ∃ (n r : Nat), i = (n : Int) ∧ h.table[n]? = some r ∧ treeGet i h = .ok (r, h) := by
  cases t with
  | leaf ns tok =>
    obtain ⟨n, r, rfl, ht, _⟩ := hr
    exact ⟨n, r, rfl, ht, treeGet_run ht⟩
  | node ns c ts =>
    obtain ⟨n, r, _, _, _, _, rfl, ht, _⟩ := hr
    exact ⟨n, r, rfl, ht, treeGet_run ht⟩

theorem reads_leaf {h : SemTree} {ns : Option Str} {tok : TokInfo} {n r : Nat} (hr : Reads h (.leaf ns tok) (n : Int))
    (ht : h.table[n]? = some r) : h.objs[r]? = some ⟨n, ns, .leaf tok⟩ := by
  obtain ⟨n', r', hi, ht', ho⟩ := hr
  obtain rfl : n = n' := by omega
  obtain rfl := some_eq ht ht'
  exact ho

theorem reads_node {h : SemTree} {ns : Option Str} {c : Bool} {ts : List STree} {n r : Nat}
    (hr : Reads h (.node ns c ts) (n : Int)) (ht : h.table[n]? = some r) :
    ∃ l lids lid ids, h.objs[r]? = some ⟨n, ns, .node l lids lid c⟩ ∧ h.lists[l]? = some ids ∧ ReadsL h ts ids := by
  obtain ⟨n', r', l, lids, lid, ids, hi, ht', ho, hl, hs⟩ := hr
  obtain rfl : n = n' := by omega
  obtain rfl := some_eq ht ht'
  exact ⟨l, lids, lid, ids, ho, hl, hs⟩

/-! ### Text -/

mutual
theorem elemStr_reads {h : SemTree} : (t : STree) → {n r k : Nat} → Reads h t (n : Int) → h.table[n]? = some r →
    t.depth ≤ k → elemStr k r h = .ok (t.text, h)
  | .leaf ns tok, n, r, k, hr, ht, hk => by
    have ho := reads_leaf hr ht
    obtain ⟨k, rfl⟩ := fuel_pos hk
    simp only [elemStr, tm_bind, deref_run ho, tm_pure, STree.text]
  | .node ns c ts, n, r, k, hr, ht, hk => by
    obtain ⟨l, lids, lid, ids, ho, hl, hs⟩ := reads_node hr ht
    obtain ⟨k, rfl⟩ := fuel_pos hk
    simp only [elemStr, tm_bind, deref_run ho, readList_run hl, elemStrL_reads ts hs (fuel_node hk), STree.text]
    cases c <;> rfl
theorem elemStrL_reads {h : SemTree} : (ts : List STree) → {ids : List Int} → {k : Nat} → ReadsL h ts ids → depthL ts ≤ k →
    TM.mapM (fun i => do elemStr k (← treeGet i)) ids h = .ok (textL ts, h)
  | [], ids, k, hr, hk => by
    cases (show ids = [] from hr)
    rfl
  | t :: ts, ids, k, hr, hk => by
    obtain ⟨i, is, rfl, ha, hb⟩ := hr
    obtain ⟨n, r, rfl, ht, _⟩ := ha.entry
    simp only [depthL] at hk
    simp only [TM.mapM, tm_bind, treeGet_run ht, elemStr_reads t ha ht (show t.depth ≤ k by omega), tm_pure, textL]
    have := elemStrL_reads ts hb (k := k) (by omega)
    rw [this]
end

theorem treeStr_holds {h : SemTree} {t : STree} (hs : Holds h t) : ∀ k, t.depth ≤ k → treeStr k h = .ok (t.text, h) := by
  obtain ⟨i, hroot, hr⟩ := hs
  intro k hk
  obtain ⟨n, r, hn, ht, _⟩ := hr.entry
  obtain rfl : i = n := by omega
  simp only [treeStr, hroot, tm_bind, treeGet_run ht, elemStr_reads t hr ht hk]

/-! ### Edges -/

theorem refsR_of {h : SemTree} : (ts : List STree) → {ids : List Int} → ReadsL h ts ids →
    ∃ rs, TM.mapM treeGet ids h = .ok (rs, h) ∧ RefsR h ts rs
  | [], ids, hr => by
    cases (show ids = [] from hr)
    exact ⟨[], rfl, rfl⟩
  | t :: ts, ids, hr => by
    obtain ⟨i, is, rfl, ha, hb⟩ := hr
    obtain ⟨n, r, rfl, ht, _⟩ := ha.entry
    obtain ⟨rs, h1, h2⟩ := refsR_of ts hb
    exact ⟨r :: rs, by simp only [TM.mapM, tm_bind, treeGet_run ht, h1, tm_pure], r, rs, n, rfl, ht, ha, h2⟩

theorem children_reads {h : SemTree} {r l : Nat} {e : Elem} {ids : List Int} {lids : List Nat} {lid : Int} {c : Bool}
    {ts : List STree} (ho : h.objs[r]? = some e) (hb : e.body = .node l lids lid c)
    (hl : h.lists[l]? = some ids) (hs : ReadsL h ts ids) : ∃ rs, children r h = .ok (rs, h) ∧ RefsR h ts rs := by
  obtain ⟨rs, h1, h2⟩ := refsR_of ts hs
  exact ⟨rs, (tm_bind_ok (childrenIds_run ho hb hl)).trans h1, h2⟩

mutual
theorem leafs_reads {h : SemTree} : (t : STree) → {n r k : Nat} → Reads h t (n : Int) → h.table[n]? = some r → t.depth ≤ k →
    compoundEntityToLeafs k r h = .ok (t.leaves.map TokInfo.word, h)
  | .leaf ns tok, n, r, k, hr, ht, hk => by
    have ho := reads_leaf hr ht
    obtain ⟨k, rfl⟩ := fuel_pos hk
    simp only [compoundEntityToLeafs, tm_bind, deref_run ho, tm_pure, STree.leaves, List.map]
  | .node ns c ts, n, r, k, hr, ht, hk => by
    obtain ⟨l, lids, lid, ids, ho, hl, hs⟩ := reads_node hr ht
    obtain ⟨k, rfl⟩ := fuel_pos hk
    obtain ⟨rs, hrs, hrefs⟩ := children_reads ho rfl hl hs
    obtain ⟨ps, hps, hfl⟩ := leafsL_reads ts hrefs (fuel_node hk)
    simp only [compoundEntityToLeafs, tm_bind, deref_run ho, hrs, hps, tm_pure, STree.leaves, hfl]
theorem leafsL_reads {h : SemTree} : (ts : List STree) → {rs : List Nat} → {k : Nat} → RefsR h ts rs → depthL ts ≤ k →
    ∃ ps, TM.mapM (compoundEntityToLeafs k) rs h = .ok (ps, h) ∧ ps.flatten = (leavesL ts).map TokInfo.word
  | [], rs, k, hr, hk => by
    cases (show rs = [] from hr)
    exact ⟨[], rfl, rfl⟩
  | t :: ts, rs, k, hr, hk => by
    obtain ⟨r, rs', n, rfl, ht, ha, hb⟩ := hr
    simp only [depthL] at hk
    obtain ⟨ps, h1, h2⟩ := leafsL_reads ts hb (k := k) (by omega)
    refine ⟨t.leaves.map TokInfo.word :: ps, ?_, by simp [leavesL, h2]⟩
    simp only [TM.mapM, tm_bind, leafs_reads t ha ht (show t.depth ≤ k by omega), h1, tm_pure]
end

/-- What a call returns that computes `x` without changing the heap. -/
def keeps {α : Type} (x : Except PyErr α) (h : SemTree) : Except PyErr (α × SemTree) := x.map (·, h)

theorem symBuild_word (a b : Str) : symBuild [a, b] = a ++ lit "/" ++ b := by
  simp [symBuild, pyJoin]

theorem symBuild_name (a : Str) : symBuild [a, lit "?"] = a ++ lit "/?" := by
  rw [symBuild_word, List.append_assoc]
  rfl

mutual
theorem build_reads {F : Type} {h : SemTree} : (t : STree) → {n r k : Nat} → Reads h t (n : Int) → h.table[n]? = some r →
    t.depth < k → buildHyperedges (F := F) k r h = keeps t.edge h
  | .leaf ns tok, n, r, k, hr, ht, hk => by
    have ho := reads_leaf hr ht
    obtain ⟨k, rfl⟩ := fuel_pos (Nat.le_of_lt hk)
    cases ns with
    | none =>
      simp only [buildHyperedges, tm_bind, deref_run ho, STree.edge]
      rfl
    | some ns =>
      simp only [buildHyperedges, tm_bind, deref_run ho, STree.edge, tm_pure, symBuild_word]
      rfl
  | .node ns c ts, n, r, k, hr, ht, hk => by
    obtain ⟨l, lids, lid, ids, ho, hl, hs⟩ := reads_node hr ht
    obtain ⟨k, rfl⟩ := fuel_pos (Nat.le_of_lt hk)
    have hk' : (STree.node ns c ts).depth ≤ k := by omega
    cases c with
    | true =>
      have := leafs_reads (.node ns true ts) hr ht hk'
      simp only [buildHyperedges, tm_bind, deref_run ho, if_true, this, tm_pure, STree.edge, STree.leaves, nameSymbol,
        symBuild_name]
      rfl
    | false =>
      obtain ⟨rs, hrs, hrefs⟩ := children_reads ho rfl hl hs
      have := buildL_reads (F := F) ts hrefs (k := k) (by simp only [STree.depth] at hk'; omega)
      simp only [buildHyperedges, tm_bind, deref_run ho, Bool.false_eq_true, if_false, tm_bind, hrs, STree.edge]
      rw [this]
      cases edgeL (F := F) ts <;> rfl
theorem buildL_reads {F : Type} {h : SemTree} : (ts : List STree) → {rs : List Nat} → {k : Nat} → RefsR h ts rs → depthL ts < k →
    TM.mapM (buildHyperedges (F := F) k) rs h = keeps (edgeL ts) h
  | [], rs, k, hr, hk => by
    cases (show rs = [] from hr)
    rfl
  | t :: ts, rs, k, hr, hk => by
    obtain ⟨r, rs', n, rfl, ht, ha, hb⟩ := hr
    simp only [depthL] at hk
    have h1 := build_reads (F := F) t ha ht (show t.depth < k by omega)
    have h2 := buildL_reads (F := F) ts hb (k := k) (by omega)
    simp only [TM.mapM, tm_bind, edgeL, h1]
    cases t.edge (F := F) with
    | error e => rfl
    | ok v =>
      simp only [keeps, Except.map, h2]
      cases edgeL (F := F) ts <;> rfl
end

/-- The epsilon stage computes the edge of the tree and leaves the tree as it is. -/
theorem epsilonStage_holds {F : Type} {h : SemTree} {t : STree} (hs : Holds h t) :
    ∀ k, t.depth < k → epsilonStage (F := F) k h = keeps t.edge h := by
  obtain ⟨i, hroot, hr⟩ := hs
  intro k hk
  obtain ⟨n, r, hn, ht, _⟩ := hr.entry
  obtain rfl : i = n := by omega
  simp only [epsilonStage, hroot, tm_bind, treeGet_run ht, build_reads t hr ht hk]

/-! ### What edges cover -/

mutual
theorem edge_named {F : Type} : (t : STree) → (∀ w ∈ t.words, w.1 ≠ none) → ∃ v, t.edge (F := F) = .ok v
  | .leaf none tok, h => absurd rfl (h (none, tok) (by simp [STree.words]))
  | .leaf (some ns) tok, h => ⟨_, rfl⟩
  | .node ns true ts, h => ⟨_, rfl⟩
  | .node ns false ts, h => by
    obtain ⟨vs, hv⟩ := edgeL_named (F := F) ts (by simpa [STree.words] using h)
    exact ⟨_, by simp only [STree.edge, hv]; rfl⟩
theorem edgeL_named {F : Type} : (ts : List STree) → (∀ w ∈ wordsL ts, w.1 ≠ none) → ∃ vs, edgeL (F := F) ts = .ok vs
  | [], h => ⟨[], rfl⟩
  | t :: ts, h => by
    obtain ⟨v, hv⟩ := edge_named (F := F) t (fun w hw => h w (by simp [wordsL, hw]))
    obtain ⟨vs, hvs⟩ := edgeL_named (F := F) ts (fun w hw => h w (by simp [wordsL, hw]))
    exact ⟨v :: vs, by simp only [edgeL, hv, hvs]⟩
end

mutual
theorem words_ne {t : STree} (hf : t.Full) : t.words ≠ [] := by
  cases t with
  | leaf ns tok => simp [STree.words]
  | node ns c ts => exact wordsL_ne hf.1 hf.2
theorem wordsL_ne : {ts : List STree} → ts ≠ [] → fullL ts → wordsL ts ≠ []
  | [], h, _ => absurd rfl h
  | t :: ts, _, hf => by
    have := words_ne (t := t) hf.1
    simp only [wordsL, ne_eq, List.append_eq_nil_iff, not_and]
    intro h; exact absurd h this
end

mutual
theorem edge_covers {F : Type} : (t : STree) → t.Full → ∀ {v : Val F}, t.edge = .ok v → Covers v t.words
  | .leaf none tok, _, v, h => by cases h
  | .leaf (some ns) tok, _, v, h => by
    cases h
    exact .word ns tok
  | .node ns true ts, hf, v, h => by
    cases h
    have := Covers.name (F := F) (wordsL ts) (wordsL_ne hf.1 hf.2)
    rwa [wordsL_leaves] at this
  | .node ns false ts, hf, v, h => by
    simp only [STree.edge] at h
    cases hv : edgeL (F := F) ts with
    | error e => rw [hv] at h; cases h
    | ok vs =>
      rw [hv] at h
      cases h
      exact edgeL_covers ts hf.2 hv
theorem edgeL_covers {F : Type} : (ts : List STree) → fullL ts → ∀ {vs : List (Val F)}, edgeL ts = .ok vs →
    Covers (.seq false vs) (wordsL ts)
  | [], _, vs, h => by
    cases h
    exact .nil
  | t :: ts, hf, vs, h => by
    simp only [edgeL] at h
    cases hv : t.edge (F := F) with
    | error e => rw [hv] at h; cases h
    | ok v =>
      rw [hv] at h
      cases hvs : edgeL (F := F) ts with
      | error e => rw [hvs] at h; cases h
      | ok us =>
        rw [hvs] at h
        cases h
        exact .cons v _ us _ (edge_covers t hf.1 hv) (edgeL_covers ts hf.2 hvs)
end

mutual
/-- Nodes with at least two children give tuples with at least two elements. -/
theorem edge_paired {F : Type} : (t : STree) → t.Branching → ∀ {v : Val F}, t.edge = .ok v → Paired v
  | .leaf none _, _, v, h => by cases h
  | .leaf (some _) _, _, v, h => by cases h; trivial
  | .node _ true _, _, v, h => by cases h; trivial
  | .node _ false ts, hb, v, h => by
    rw [STree.edge] at h
    cases hx : edgeL (F := F) ts with
    | error e => rw [hx] at h; cases h
    | ok vs =>
      rw [hx] at h
      cases h
      have := edgeL_paired ts hb.2 hx
      exact ⟨this.2 ▸ hb.1, this.1⟩
theorem edgeL_paired {F : Type} : (ts : List STree) → branchingL ts → ∀ {vs : List (Val F)}, edgeL ts = .ok vs →
    pairedL vs ∧ ts.length = vs.length
  | [], _, vs, h => by cases h; exact ⟨trivial, rfl⟩
  | t :: ts, hb, vs, h => by
    rw [edgeL] at h
    cases hx : t.edge (F := F) with
    | error e => rw [hx] at h; cases h
    | ok v =>
      rw [hx] at h
      cases hy : edgeL (F := F) ts with
      | error e => rw [hy] at h; cases h
      | ok us =>
        rw [hy] at h
        cases h
        have := edgeL_paired ts hb.2 hy
        exact ⟨⟨edge_paired t hb.1 hx, this.1⟩, by simp [this.2]⟩
end

end GB
