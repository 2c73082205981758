import Verif.Proofs.AlphaStage
import Verif.Spec.Kept

/-
Facts about the trees of the alpha stage: the words, the shape, the marks.
-/

namespace GB

/-! ### Words -/

/-- How often a token occurs in a tree. -/
def STree.num (a : TokInfo) (t : STree) : Nat := t.leaves.count a

/-- How often a token occurs in trees. -/
def numL (a : TokInfo) (ts : List STree) : Nat := (leavesL ts).count a

/-- How often a token occurs in layers. -/
def numLs (a : TokInfo) : List Layer → Nat
  | [] => 0
  | L :: Ls => L.1.num a + numL a L.2 + numLs a Ls

/-- How often a token is the given one. -/
def numT (a b : TokInfo) : Nat := [b].count a

@[simp] theorem num_leaf (a : TokInfo) (ns : Option Str) (b : TokInfo) : (STree.leaf ns b).num a = numT a b := by
  simp [STree.num, numT, STree.leaves]
@[simp] theorem num_node (a : TokInfo) (ns : Option Str) (b : Bool) (ts : List STree) : (STree.node ns b ts).num a = numL a ts := by
  simp [STree.num, numL, STree.leaves]
@[simp] theorem numL_nil (a : TokInfo) : numL a [] = 0 := by simp [numL, leavesL]
@[simp] theorem numL_cons (a : TokInfo) (t : STree) (ts : List STree) : numL a (t :: ts) = t.num a + numL a ts := by
  simp [numL, STree.num, leavesL]
@[simp] theorem numL_append (a : TokInfo) (ts us : List STree) : numL a (ts ++ us) = numL a ts + numL a us := by
  induction ts with
  | nil => simp
  | cons t ts ih => simp [ih]; omega
@[simp] theorem numLs_append (a : TokInfo) (Ls Ms : List Layer) : numLs a (Ls ++ Ms) = numLs a Ls + numLs a Ms := by
  induction Ls with
  | nil => simp [numLs]
  | cons t ts ih => simp [numLs, ih]; omega
@[simp] theorem numLs_reverse (a : TokInfo) (Ls : List Layer) : numLs a Ls.reverse = numLs a Ls := by
  induction Ls with
  | nil => rfl
  | cons t ts ih => simp [numLs, ih]; omega

@[simp] theorem num_place (a : TokInfo) (pos : Position) (ts : List STree) (c : STree) :
    numL a (place pos ts c) = numL a ts + c.num a := by
  cases pos <;> simp [place] <;> omega

@[simp] theorem num_addChild (a : TokInfo) (t c : STree) : (t.addChild c).num a = t.num a + c.num a := by
  cases t <;> simp [STree.addChild]

@[simp] theorem num_join (a : TokInfo) (t c : STree) (pos : Position) : (t.join c pos).num a = t.num a + c.num a := by
  cases t with
  | leaf ns tok => simp [STree.join]
  | node ns b ts => cases b <;> simp [STree.join]

theorem num_addFirst (a : TokInfo) {t : STree} (h : t.NE) (c : STree) (pos : Position) :
    (t.addFirst c pos).num a = t.num a + c.num a := by
  cases t with
  | leaf ns tok => simp [STree.addFirst]
  | node ns b ts =>
    cases ts with
    | nil => exact absurd rfl (h ns b)
    | cons f ts => simp [STree.addFirst]; omega

@[simp] theorem num_touch (a : TokInfo) (t : STree) : t.touch.num a = t.num a := by
  cases t <;> simp [STree.touch]

@[simp] theorem num_layer (a : TokInfo) (t : STree) : t.layer.1.num a + numL a t.layer.2 = t.num a := by
  cases t with
  | leaf ns tok => simp [STree.layer]
  | node ns b ts => cases ts <;> simp [STree.layer]

@[simp] theorem num_wrap (a : TokInfo) (ts : List STree) : (wrap ts).num a = numL a ts := by
  match ts with
  | [] => simp [wrap]
  | [t] => simp [wrap]
  | t :: u :: ts => simp [wrap]

theorem num_applyL (a : TokInfo) (Ls : List Layer) : ∀ ts, numL a (applyL ts Ls) = numL a ts + numLs a Ls := by
  induction Ls with
  | nil => intro ts; simp [applyL, numLs]
  | cons L Ls ih =>
    intro ts
    have := ih (L.1 :: wrap ts :: L.2)
    simp only [applyL, List.foldl_cons, numLs] at this ⊢
    rw [this]
    simp
    omega

/-- Layers belong to a node. -/
def PHeld (t : STree) (Ls : List Layer) : Prop := Ls = [] ∨ t.isNode = true

theorem num_apply (a : TokInfo) {t : STree} {Ls : List Layer} (h : PHeld t Ls) : (t.apply Ls).num a = t.num a + numLs a Ls := by
  cases t with
  | leaf ns tok =>
    rcases h with rfl | h
    · simp [STree.apply, numLs]
    · cases h
  | node ns b ts => simp [STree.apply, num_applyL]

theorem isNode_addChild (t c : STree) : (t.addChild c).isNode = true := by cases t <;> rfl
theorem isNode_addFirst (t c : STree) (pos : Position) : (t.addFirst c pos).isNode = true := by
  cases t with
  | leaf ns tok => rfl
  | node ns b ts => cases ts <;> rfl
theorem isNode_touch (t : STree) : t.touch.isNode = true := by cases t <;> rfl

theorem held_child {pos : Position} {x : Tok} {t : STree} {Ls : List Layer} (h : PHeld t Ls) :
    PHeld (pChild true pos x t Ls).1 (pChild true pos x t Ls).2 := by
  obtain ⟨info, l, r⟩ := x
  rw [pChild]
  split
  · exact h
  · split
    · exact .inr (isNode_touch t)
    · dsimp only
      split
      · exact .inr (isNode_addFirst _ _ _)
      · exact .inr (isNode_addChild _ _)

theorem held_children {pos : Position} : (xs : List Tok) → {t : STree} → {Ls : List Layer} → PHeld t Ls →
    PHeld (pChildren true pos xs t Ls).1 (pChildren true pos xs t Ls).2
  | [], _, _, h => by rw [pChildren]; exact h
  | x :: xs, _, _, h => by
    rw [pChildren]
    exact held_children xs (held_child h)

mutual
theorem num_child (a : TokInfo) (own : Bool) (pos : Position) : (x : Tok) → (t : STree) → (Ls : List Layer) → t.NE →
    (pChild own pos x t Ls).1.num a + numLs a (pChild own pos x t Ls).2 =
      t.num a + numLs a Ls + (keptL [x]).count a
  | .mk info l r, t, Ls, h => by
    have hT : ∀ L R : List TokInfo, (L ++ info :: R).count a = L.count a + numT a info + R.count a := by
      intro L R
      simp only [numT, List.count_append, List.count_cons, List.count_nil]
      omega
    rw [pChild]
    by_cases hs : info.skip = true
    · simp [hs, keptL]
    · simp only [keptL, hs, Bool.false_eq_true, reduceIte, List.append_nil, hT]
      split
      · have h1 := num_children a false .left l (.leaf none info) Ls (ne_leaf _ _)
        have h2 := num_children a false .right r _ (pChildren false .left l (.leaf none info) Ls).2
          (pChildren_ne (own := false) (pos := .left) (Ls := Ls) l (ne_leaf none info))
        have h3 := num_layer a (pChildren false .right r (pChildren false .left l (.leaf none info) Ls).1
          (pChildren false .left l (.leaf none info) Ls).2).1
        have h4 : (if own = true then t.touch else t).num a = t.num a := by cases own <;> simp
        simp only [numLs_append, numLs, h4]
        simp at h1
        omega
      · have h1 := num_children a true .left l (.leaf none info) [] (ne_leaf _ _)
        have h2 := num_children a true .right r _ (pChildren true .left l (.leaf none info) []).2
          (pChildren_ne (own := true) (pos := .left) (Ls := []) l (ne_leaf none info))
        have h3 := num_apply a (held_children (pos := .right) r (held_children (pos := .left) l
          (.inl rfl : PHeld (.leaf none info) [])))
        simp [numLs] at h1
        split
        · simp only [num_addFirst a h]
          omega
        · simp only [num_addChild]
          omega
theorem num_children (a : TokInfo) (own : Bool) (pos : Position) : (xs : List Tok) → (t : STree) → (Ls : List Layer) →
    t.NE → (pChildren own pos xs t Ls).1.num a + numLs a (pChildren own pos xs t Ls).2 =
      t.num a + numLs a Ls + (keptL xs).count a
  | [], t, Ls, _ => by simp [pChildren, keptL]
  | x :: xs, t, Ls, h => by
    rw [pChildren]
    have h1 := num_child a own pos x t Ls h
    have h2 := num_children a own pos xs _ (pChild own pos x t Ls).2 (pChild_ne (own := own) (pos := pos) (x := x) (Ls := Ls) h)
    have h3 : keptL (x :: xs) = keptL [x] ++ keptL xs := by
      obtain ⟨i, l, r⟩ := x
      simp [keptL]
    rw [h3, List.count_append]
    omega
end

theorem pTok_perm (x : Tok) : (pTok x).leaves.Perm x.kept := by
  rw [List.perm_iff_count]
  intro a
  obtain ⟨info, l, r⟩ := x
  have h1 := num_children a true .left l (.leaf none info) [] (ne_leaf _ _)
  have h2 := num_children a true .right r _ (pChildren true .left l (.leaf none info) []).2
    (pChildren_ne (own := true) (pos := .left) (Ls := []) l (ne_leaf none info))
  have h3 := num_apply a (held_children (pos := .right) r (held_children (pos := .left) l
    (.inl rfl : PHeld (.leaf none info) [])))
  simp [numLs] at h1
  have h4 : (Tok.mk info l r).kept.count a = (keptL l).count a + numT a info + (keptL r).count a := by
    simp only [Tok.kept, numT, List.count_append, List.count_cons, List.count_nil]
    omega
  have h5 : (pTok (.mk info l r)).leaves.count a = (pTok (.mk info l r)).num a := rfl
  rw [h4, h5]
  simp only [pTok, pBody]
  omega

mutual
theorem slim_leaves : (t : STree) → t.slim.leaves = t.leaves
  | .leaf ns tok => rfl
  | .node ns b ts => by
    have h := slimL_leaves ts
    simp only [STree.slim]
    split
    · rename_i ns' b' us heq
      rw [heq] at h
      simp only [leavesL, List.append_nil, STree.leaves] at h ⊢
      exact h
    · simp only [STree.leaves]; exact h
theorem slimL_leaves : (ts : List STree) → leavesL (slimL ts) = leavesL ts
  | [] => rfl
  | t :: ts => by simp only [slimL, leavesL, slim_leaves t, slimL_leaves ts]
end

theorem alphaTree_perm (x : Tok) : (alphaTree x).leaves.Perm x.kept := by
  rw [alphaTree, slim_leaves]
  exact pTok_perm x

/-! ### Shape -/

mutual
/-- Every node has two children or more, or one that is a node. -/
def STree.Ready : STree → Prop
  | .leaf _ _ => True
  | .node _ _ ts => (2 ≤ ts.length ∨ ∃ ns b us, ts = [.node ns b us]) ∧ readyL ts
/-- The same for several trees. -/
def readyL : List STree → Prop
  | [] => True
  | t :: ts => t.Ready ∧ readyL ts
end

theorem readyL_append {ts us : List STree} : readyL (ts ++ us) ↔ readyL ts ∧ readyL us := by
  induction ts with
  | nil => simp [readyL]
  | cons t ts ih => simp [readyL, ih, and_assoc]

/-- The layers are ready. -/
def readyLs (Ls : List Layer) : Prop := ∀ L ∈ Ls, L.1.Ready ∧ readyL L.2

/-- The children are ready and there are some; the element itself may be waiting for layers. -/
def PHalf : STree → List Layer → Prop
  | .leaf _ _, _ => True
  | .node _ _ ts, Ls => ts ≠ [] ∧ readyL ts ∧ (Ls = [] → (2 ≤ ts.length ∨ ∃ ns b us, ts = [.node ns b us]))

theorem half_of_ready {t : STree} (h : t.Ready) (Ls : List Layer) : PHalf t Ls := by
  cases t with
  | leaf ns tok => trivial
  | node ns b ts =>
    obtain ⟨h1, h2⟩ := h
    refine ⟨?_, h2, fun _ => h1⟩
    rintro rfl
    rcases h1 with h1 | ⟨_, _, _, h1⟩
    · simp at h1
    · cases h1

theorem ready_of_half {t : STree} (h : PHalf t []) : t.Ready := by
  cases t with
  | leaf ns tok => trivial
  | node ns b ts => exact ⟨h.2.2 rfl, h.2.1⟩

theorem half_mono {t : STree} {Ls Ms : List Layer} (h : PHalf t Ls) (hl : Ms = [] → Ls = []) : PHalf t Ms := by
  cases t with
  | leaf ns tok => trivial
  | node ns b ts => exact ⟨h.1, h.2.1, fun e => h.2.2 (hl e)⟩

theorem ready_join {t c : STree} (ht : t.Ready) (hc : c.Ready) (pos : Position) :
    (t.join c pos).Ready ∧ ∃ ns b us, t.join c pos = .node ns b us := by
  cases t with
  | leaf ns tok =>
    refine ⟨⟨.inl ?_, ?_⟩, _, _, _, rfl⟩
    · cases pos <;> simp [place]
    · cases pos <;> simp [place, readyL, hc, ht]
  | node ns b ts =>
    have h0 := ht
    obtain ⟨h1, h2⟩ := ht
    have hl : 1 ≤ ts.length := by
      rcases h1 with h1 | ⟨_, _, _, h1⟩
      · omega
      · simp [h1]
    simp only [STree.join]
    split
    · refine ⟨⟨.inl ?_, ?_⟩, _, _, _, rfl⟩
      · cases pos <;> simp [place]
      · cases pos <;> simp [place, readyL, hc, h0]
    · refine ⟨⟨.inl ?_, ?_⟩, _, _, _, rfl⟩
      · cases pos <;> simp [place] <;> omega
      · cases pos <;> simp [place, readyL, hc, h2, readyL_append]

theorem half_addChild {t c : STree} {Ls : List Layer} (ht : PHalf t Ls) (hc : c.Ready) : PHalf (t.addChild c) Ls := by
  cases t with
  | leaf ns tok => exact ⟨by simp, by simp [readyL, hc, STree.Ready], fun _ => .inl (by simp)⟩
  | node ns b ts =>
    obtain ⟨h1, h2, h3⟩ := ht
    refine ⟨by simp, by simp [readyL_append, readyL, h2, hc], fun _ => .inl ?_⟩
    have := List.length_pos_iff.mpr h1
    simp; omega

theorem half_addFirst {t c : STree} {Ls : List Layer} (ht : PHalf t Ls) (hc : c.Ready) (pos : Position) :
    PHalf (t.addFirst c pos) Ls := by
  cases t with
  | leaf ns tok =>
    obtain ⟨h1, ns', b', us, h2⟩ := ready_join (t := .leaf ns tok) trivial hc pos
    exact ⟨by simp, by simp [readyL, h1], fun _ => .inr ⟨ns', b', us, by simp [h2]⟩⟩
  | node ns b ts =>
    cases ts with
    | nil => exact ht
    | cons f ts =>
      obtain ⟨h1, h2, h3⟩ := ht
      obtain ⟨h4, ns', b', us, h5⟩ := ready_join h2.1 hc pos
      refine ⟨by simp, ⟨h4, h2.2⟩, fun e => ?_⟩
      rcases h3 e with h6 | ⟨_, _, _, h6⟩
      · exact .inl (by simpa using h6)
      · simp only [List.cons.injEq] at h6
        exact .inr ⟨ns', b', us, by simp [h6.2, h5]⟩

theorem half_touch {t : STree} {Ls Ms : List Layer} (ht : PHalf t Ls) (hm : Ms ≠ []) : PHalf t.touch Ms := by
  cases t with
  | leaf ns tok => exact ⟨by simp, by simp [readyL, STree.Ready], fun e => absurd e hm⟩
  | node ns b ts => exact half_mono ht (fun e => absurd e hm)

theorem ready_layer {t : STree} (ht : t.Ready) : t.layer.1.Ready ∧ readyL t.layer.2 := by
  cases t with
  | leaf ns tok => exact ⟨trivial, trivial⟩
  | node ns b ts =>
    cases ts with
    | nil => exact ⟨ht, trivial⟩
    | cons t ts => exact ht.2

theorem ready_wrap {ts : List STree} (hn : ts ≠ []) (h : readyL ts) : (wrap ts).Ready := by
  match ts with
  | [] => exact absurd rfl hn
  | [t] => exact h.1
  | t :: u :: ts => exact ⟨.inl (by simp), h⟩

theorem ready_applyL : (Ls : List Layer) → (ts : List STree) → ts ≠ [] → readyL ts → readyLs Ls → readyL (applyL ts Ls) ∧
    (2 ≤ (applyL ts Ls).length ∨ Ls = []) ∧ (Ls = [] → applyL ts Ls = ts)
  | [], ts, h1, h2, _ => ⟨h2, .inr rfl, fun _ => rfl⟩
  | L :: Ls, ts, h1, h2, h3 => by
    have hL := h3 L (by simp)
    obtain ⟨g1, g2, g3⟩ := ready_applyL Ls (L.1 :: wrap ts :: L.2) (by simp) ⟨hL.1, ready_wrap h1 h2, hL.2⟩
      (fun M hM => h3 M (by simp [hM]))
    refine ⟨g1, .inl ?_, fun e => absurd e (by simp)⟩
    rcases g2 with g2 | g2
    · exact g2
    · have := g3 g2
      simp only [applyL, List.foldl_cons] at this ⊢
      rw [this]
      simp

theorem ready_apply {t : STree} {Ls : List Layer} (ht : PHalf t Ls) (hl : readyLs Ls) : (t.apply Ls).Ready := by
  cases t with
  | leaf ns tok => trivial
  | node ns b ts =>
    obtain ⟨h1, h2, h3⟩ := ht
    obtain ⟨g1, g2, g3⟩ := ready_applyL Ls.reverse ts h1 h2 (fun L hL => hl L (by simpa using hL))
    refine ⟨?_, g1⟩
    by_cases e : Ls = []
    · rw [g3 (by simp [e])]
      exact h3 e
    · rcases g2 with g2 | g2
      · exact .inl g2
      · exact absurd (by simpa using g2) e

mutual
theorem ready_child (own : Bool) (pos : Position) : (x : Tok) → (t : STree) → (Ls : List Layer) →
    PHalf t (if own then Ls else []) → readyLs Ls →
    PHalf (pChild own pos x t Ls).1 (if own then (pChild own pos x t Ls).2 else []) ∧ readyLs (pChild own pos x t Ls).2
  | .mk info l r, t, Ls, ht, hl => by
    rw [pChild]
    split
    · exact ⟨ht, hl⟩
    · split
      · have h1 := ready_children false .left l (.leaf none info) Ls trivial hl
        have h2 := ready_children false .right r _ _ h1.1 h1.2
        have h3 := ready_layer (ready_of_half h2.1)
        dsimp only
        refine ⟨?_, ?_⟩
        · cases own with
          | false => simpa using ht
          | true => simpa using half_touch ht (by simp)
        · intro L hL
          rcases List.mem_append.mp hL with h | h
          · exact h2.2 L h
          · simp only [List.mem_cons, List.not_mem_nil, or_false] at h
            rw [h]; exact h3
      · have h1 := ready_children true .left l (.leaf none info) [] trivial (fun L hL => by cases hL)
        have h2 := ready_children true .right r _ _ h1.1 h1.2
        have h3 := ready_apply h2.1 h2.2
        dsimp only
        split
        · exact ⟨half_addFirst ht h3 pos, hl⟩
        · exact ⟨half_addChild ht h3, hl⟩
theorem ready_children (own : Bool) (pos : Position) : (xs : List Tok) → (t : STree) → (Ls : List Layer) →
    PHalf t (if own then Ls else []) → readyLs Ls →
    PHalf (pChildren own pos xs t Ls).1 (if own then (pChildren own pos xs t Ls).2 else []) ∧
      readyLs (pChildren own pos xs t Ls).2
  | [], t, Ls, ht, hl => by rw [pChildren]; exact ⟨ht, hl⟩
  | x :: xs, t, Ls, ht, hl => by
    rw [pChildren]
    have h1 := ready_child own pos x t Ls ht hl
    exact ready_children own pos xs _ _ h1.1 h1.2
end

theorem pTok_ready (x : Tok) : (pTok x).Ready := by
  obtain ⟨info, l, r⟩ := x
  have h1 := ready_children true .left l (.leaf none info) [] trivial (fun L hL => by cases hL)
  have h2 := ready_children true .right r _ _ h1.1 h1.2
  exact ready_apply h2.1 h2.2

theorem slimL_length : (ts : List STree) → (slimL ts).length = ts.length
  | [] => rfl
  | t :: ts => by simp [slimL, slimL_length ts]

theorem slim_isNode (ns : Option Str) (b : Bool) (ts : List STree) : ∃ ns' b' us, (STree.node ns b ts).slim = .node ns' b' us := by
  simp only [STree.slim]
  split
  · exact ⟨_, _, _, rfl⟩
  · exact ⟨_, _, _, rfl⟩

mutual
theorem slim_branching : (t : STree) → t.Ready → t.slim.Branching
  | .leaf ns tok, _ => trivial
  | .node ns b ts, h => by
    have g := slimL_branching ts h.2
    simp only [STree.slim]
    split
    · rename_i ns' b' us heq
      rw [heq] at g
      exact g.1
    · rename_i hne
      refine ⟨?_, g⟩
      rw [slimL_length]
      rcases h.1 with h1 | ⟨ns', b', us, h1⟩
      · exact h1
      · obtain ⟨ns2, b2, us2, e⟩ := slim_isNode ns' b' us
        exact absurd (by rw [h1]; simp [slimL, e]) (hne ns2 b2 us2)
theorem slimL_branching : (ts : List STree) → readyL ts → branchingL (slimL ts)
  | [], _ => trivial
  | t :: ts, h => ⟨slim_branching t h.1, slimL_branching ts h.2⟩
end

theorem alphaTree_branching (x : Tok) : (alphaTree x).Branching := slim_branching _ (pTok_ready x)

/-! ### No marks -/

theorem bareL_append {ts us : List STree} : bareL (ts ++ us) ↔ bareL ts ∧ bareL us := by
  induction ts with
  | nil => simp [bareL]
  | cons t ts ih => simp [bareL, ih, and_assoc]

/-- The layers are bare. -/
def bareLs (Ls : List Layer) : Prop := ∀ L ∈ Ls, L.1.Bare ∧ bareL L.2

theorem bare_place {pos : Position} {ts : List STree} {c : STree} (h : bareL ts) (hc : c.Bare) : bareL (place pos ts c) := by
  cases pos <;> simp [place, bareL, bareL_append, h, hc]

theorem bare_join {t c : STree} (ht : t.Bare) (hc : c.Bare) (pos : Position) : (t.join c pos).Bare := by
  cases t with
  | leaf ns tok => exact ⟨rfl, rfl, bare_place ⟨ht, trivial⟩ hc⟩
  | node ns b ts =>
    obtain ⟨rfl, rfl, h⟩ := ht
    exact ⟨rfl, rfl, bare_place h hc⟩

theorem bare_addChild {t c : STree} (ht : t.Bare) (hc : c.Bare) : (t.addChild c).Bare := by
  cases t with
  | leaf ns tok => exact ⟨rfl, rfl, ht, hc, trivial⟩
  | node ns b ts =>
    obtain ⟨rfl, rfl, h⟩ := ht
    exact ⟨rfl, rfl, bareL_append.mpr ⟨h, hc, trivial⟩⟩

theorem bare_addFirst {t c : STree} (ht : t.Bare) (hc : c.Bare) (pos : Position) : (t.addFirst c pos).Bare := by
  cases t with
  | leaf ns tok => exact ⟨rfl, rfl, bare_join (t := .leaf ns tok) ht hc pos, trivial⟩
  | node ns b ts =>
    cases ts with
    | nil => exact ht
    | cons f ts =>
      obtain ⟨rfl, rfl, h⟩ := ht
      exact ⟨rfl, rfl, bare_join h.1 hc pos, h.2⟩

theorem bare_touch {t : STree} (ht : t.Bare) : t.touch.Bare := by
  cases t with
  | leaf ns tok => exact ⟨rfl, rfl, ht, trivial⟩
  | node ns b ts => exact ht

theorem bare_layer {t : STree} (ht : t.Bare) : t.layer.1.Bare ∧ bareL t.layer.2 := by
  cases t with
  | leaf ns tok => exact ⟨ht, trivial⟩
  | node ns b ts =>
    cases ts with
    | nil => exact ⟨ht, trivial⟩
    | cons t ts => exact ht.2.2

theorem bare_wrap {ts : List STree} (h : bareL ts) : (wrap ts).Bare := by
  match ts with
  | [] => exact ⟨rfl, rfl, h⟩
  | [t] => exact h.1
  | t :: u :: ts => exact ⟨rfl, rfl, h⟩

theorem bare_applyL : (Ls : List Layer) → (ts : List STree) → bareL ts → bareLs Ls → bareL (applyL ts Ls)
  | [], _, h, _ => h
  | L :: Ls, ts, h, hl => by
    have hL := hl L (by simp)
    exact bare_applyL Ls (L.1 :: wrap ts :: L.2) ⟨hL.1, bare_wrap h, hL.2⟩ (fun M hM => hl M (by simp [hM]))

theorem bare_apply {t : STree} {Ls : List Layer} (ht : t.Bare) (hl : bareLs Ls) : (t.apply Ls).Bare := by
  cases t with
  | leaf ns tok => exact ht
  | node ns b ts => exact ⟨ht.1, ht.2.1, bare_applyL _ _ ht.2.2 (fun L hL => hl L (by simpa using hL))⟩

mutual
theorem bare_child (own : Bool) (pos : Position) : (x : Tok) → (t : STree) → (Ls : List Layer) → t.Bare → bareLs Ls →
    (pChild own pos x t Ls).1.Bare ∧ bareLs (pChild own pos x t Ls).2
  | .mk info l r, t, Ls, ht, hl => by
    rw [pChild]
    split
    · exact ⟨ht, hl⟩
    · split
      · have h1 := bare_children false .left l (.leaf none info) Ls rfl hl
        have h2 := bare_children false .right r _ _ h1.1 h1.2
        have h3 := bare_layer h2.1
        dsimp only
        refine ⟨?_, ?_⟩
        · cases own with
          | false => simpa using ht
          | true => simpa using bare_touch ht
        · intro L hL
          rcases List.mem_append.mp hL with h | h
          · exact h2.2 L h
          · simp only [List.mem_cons, List.not_mem_nil, or_false] at h
            rw [h]; exact h3
      · have h1 := bare_children true .left l (.leaf none info) [] rfl (fun L hL => by cases hL)
        have h2 := bare_children true .right r _ _ h1.1 h1.2
        have h3 := bare_apply h2.1 h2.2
        dsimp only
        split
        · exact ⟨bare_addFirst ht h3 pos, hl⟩
        · exact ⟨bare_addChild ht h3, hl⟩
theorem bare_children (own : Bool) (pos : Position) : (xs : List Tok) → (t : STree) → (Ls : List Layer) → t.Bare →
    bareLs Ls → (pChildren own pos xs t Ls).1.Bare ∧ bareLs (pChildren own pos xs t Ls).2
  | [], t, Ls, ht, hl => by rw [pChildren]; exact ⟨ht, hl⟩
  | x :: xs, t, Ls, ht, hl => by
    rw [pChildren]
    have h1 := bare_child own pos x t Ls ht hl
    exact bare_children own pos xs _ _ h1.1 h1.2
end

theorem pTok_bare (x : Tok) : (pTok x).Bare := by
  obtain ⟨info, l, r⟩ := x
  have h1 := bare_children true .left l (.leaf none info) [] rfl (fun L hL => by cases hL)
  have h2 := bare_children true .right r _ _ h1.1 h1.2
  exact bare_apply h2.1 h2.2

mutual
theorem slim_bare : (t : STree) → t.Bare → t.slim.Bare
  | .leaf ns tok, h => h
  | .node ns b ts, h => by
    have g := slimL_bare ts h.2.2
    simp only [STree.slim]
    split
    · rename_i ns' b' us heq
      rw [heq] at g
      exact g.1
    · exact ⟨h.1, h.2.1, g⟩
theorem slimL_bare : (ts : List STree) → bareL ts → bareL (slimL ts)
  | [], _ => trivial
  | t :: ts, h => ⟨slim_bare t h.1, slimL_bare ts h.2⟩
end

theorem alphaTree_bare (x : Tok) : (alphaTree x).Bare := slim_bare _ (pTok_bare x)

end GB
