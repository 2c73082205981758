import Verif.Proofs.AlphaLayers

/-
The alpha stage on the heap computes `pTok`.
-/

namespace GB

/-- Not a node without children. -/
def STree.NE (t : STree) : Prop := ∀ ns b, t ≠ .node ns b []

theorem ne_leaf (ns : Option Str) (tok : TokInfo) : (STree.leaf ns tok).NE := fun _ _ h => by cases h

theorem ne_node {ns : Option Str} {b : Bool} {ts : List STree} (h : ts ≠ []) : (STree.node ns b ts).NE := by
  intro ns' b' e
  cases e
  exact h rfl

theorem ne_touch {t : STree} (h : t.NE) : t.touch.NE := by
  cases t with
  | leaf ns tok => exact ne_node (by simp)
  | node ns b ts => exact h

theorem ne_addChild (t c : STree) : (t.addChild c).NE := by
  cases t with
  | leaf ns tok => exact ne_node (by simp)
  | node ns b ts => exact ne_node (by simp)

theorem ne_addFirst {t : STree} (h : t.NE) (c : STree) (pos : Position) : (t.addFirst c pos).NE := by
  cases t with
  | leaf ns tok => exact ne_node (by simp)
  | node ns b ts =>
    cases ts with
    | nil => exact absurd rfl (h ns b)
    | cons f ts => exact ne_node (by simp)

theorem pChild_ne {own : Bool} {pos : Position} {x : Tok} {t : STree} {Ls : List Layer} (h : t.NE) :
    (pChild own pos x t Ls).1.NE := by
  obtain ⟨info, l, r⟩ := x
  rw [pChild]
  split
  · exact h
  · split
    · dsimp only
      split
      · exact ne_touch h
      · exact h
    · dsimp only
      split
      · exact ne_addFirst h _ _
      · exact ne_addChild _ _

theorem pChildren_ne {own : Bool} {pos : Position} : (xs : List Tok) → {t : STree} → {Ls : List Layer} → t.NE →
    (pChildren own pos xs t Ls).1.NE
  | [], t, Ls, h => by rw [pChildren]; exact h
  | x :: xs, t, Ls, h => by
    rw [pChildren]
    exact pChildren_ne xs (pChild_ne h)

theorem touch_touch (t : STree) : t.touch.touch = t.touch := by cases t <;> rfl

theorem apply_nil (t : STree) : t.apply [] = t := by cases t <;> rfl

/-- A bound on the depths of layers. -/
def layersDepth (Ls : List Layer) : Nat := (Ls.map fun L => L.1.depth + 1).sum

theorem layersDepth_le {Ls : List Layer} {L : Layer} (h : L ∈ Ls) : L.1.depth + 1 ≤ layersDepth Ls := by
  induction Ls with
  | nil => cases h
  | cons M Ls ih =>
    simp only [layersDepth, List.map_cons, List.sum_cons]
    rcases List.mem_cons.mp h with rfl | h
    · omega
    · have := ih h
      simp only [layersDepth] at this
      omega

/-- What running a call with the root as its own element gives. -/
def GoodA (run : Nat → Nat → Nat → TM Unit) (f : STree → List Layer → STree × List Layer) : Prop :=
  ∀ t Ls, t.NE → ∃ N, ∀ k, N ≤ k → ∀ h e F, Own h e t Ls F → F.Nodup →
    ∃ h' F', run k e e h = .ok ((), h') ∧ LStep h e (f t Ls).1 (f t Ls).2 F h' F'

/-- The state after a call with another root. -/
structure StepB (h : SemTree) (e root : Nat) (t : STree) (Ls : List Layer) (rt : STree) (F : List Loc) (h' : SemTree)
    (F' G' : List Loc) : Prop where
  own : Own h' e t [] F'
  base : ∃ rt', (rt' = rt ∨ rt' = rt.touch) ∧ Own h' root rt' Ls G'
  nodup : (F' ++ G').Nodup
  keeps : Keeps h h' F
  within : Within h F (F' ++ G')

theorem ignored_skip (t : TokInfo) : t.ignored = t.skip := by
  simp [TokInfo.ignored, TokInfo.skip]

/-- What running a call with another root gives. -/
def GoodB (run : Nat → Nat → Nat → TM Unit) (f : STree → List Layer → STree × List Layer) : Prop :=
  ∀ t Ls, t.NE → ∃ N, ∀ k, N ≤ k → ∀ h e root rt F G, Own h e t [] F → Own h root rt Ls G → (F ++ G).Nodup →
    ∃ h' F' G', run k e root h = .ok ((), h') ∧ StepB h e root (f t Ls).1 (f t Ls).2 rt (F ++ G) h' F' G'

theorem nests_run {h : SemTree} {info : TokInfo} {t : STree} {Ls : List Layer} {e r k : Nat} {F : List Loc}
    (ho : Own h e t Ls F) (ht : h.table[e]? = some r) (hk : t.depth ≤ k) :
    nests k info r h = .ok (nestsP info t, h) := by
  unfold nests nestsP
  rw [show layerDeps.map lit = nestDeps from rfl]
  by_cases h1 : info.dep ∈ nestDeps
  · simp [h1, tm_pure]
  · by_cases h2 : info.dep = lit "prep"
    · rw [if_neg h1, if_pos h2]
      simp only [tm_bind, hasPos_own ho ht hk, tm_pure]
      rw [decide_eq_false h1, decide_eq_true h2]
      simp
    · simp [h1, h2, tm_pure]

theorem StepB.trans {h h1 h2 : SemTree} {e root : Nat} {t' : STree} {Ls' : List Layer} {rt rt1 : STree}
    {F F1 G1 F2 G2 : List Loc} (a : Keeps h h1 F) (aw : Within h F (F1 ++ G1)) (hrt : rt1 = rt ∨ rt1 = rt.touch)
    (b : StepB h1 e root t' Ls' rt1 (F1 ++ G1) h2 F2 G2) : StepB h e root t' Ls' rt F h2 F2 G2 := by
  refine ⟨b.own, ?_, b.nodup, a.trans b.keeps (fun x hx => hx) aw, aw.trans b.within a.grow⟩
  obtain ⟨rt', h1, h2⟩ := b.base
  refine ⟨rt', ?_, h2⟩
  rcases hrt with rfl | rfl
  · exact h1
  · rw [touch_touch] at h1
    exact .inr (h1.elim id id)

theorem goodA_nil {pos : Position} : GoodA (fun k e root => processChildTokens k e root pos []) (fun t Ls => pChildren true pos [] t Ls) := by
  intro t Ls _
  refine ⟨0, fun k _ h e F ho hn => ⟨h, F, by simp [processChildTokens, tm_pure], ?_⟩⟩
  simp only [pChildren]
  exact ⟨ho, hn, (Keeps.refl h).mono (by simp), fun x hx => .inl hx⟩

theorem goodB_nil {pos : Position} : GoodB (fun k e root => processChildTokens k e root pos []) (fun t Ls => pChildren false pos [] t Ls) := by
  intro t Ls _
  refine ⟨0, fun k _ h e root rt F G ho hr hn => ⟨h, F, G, by simp [processChildTokens, tm_pure], ?_⟩⟩
  simp only [pChildren]
  exact ⟨ho, ⟨rt, .inl rfl, hr⟩, hn, (Keeps.refl h).mono (by simp), fun x hx => .inl hx⟩

theorem goodA_cons {pos : Position} {x : Tok} {xs : List Tok}
    (h1 : GoodA (fun k e root => processChildToken k e root pos x) (fun t Ls => pChild true pos x t Ls))
    (h2 : GoodA (fun k e root => processChildTokens k e root pos xs) (fun t Ls => pChildren true pos xs t Ls)) :
    GoodA (fun k e root => processChildTokens k e root pos (x :: xs)) (fun t Ls => pChildren true pos (x :: xs) t Ls) := by
  intro t Ls hne
  obtain ⟨N1, g1⟩ := h1 t Ls hne
  obtain ⟨N2, g2⟩ := h2 (pChild true pos x t Ls).1 (pChild true pos x t Ls).2 (pChild_ne hne)
  refine ⟨max N1 N2, fun k hk h e F ho hn => ?_⟩
  obtain ⟨h', F', r1, s1⟩ := g1 k (by omega) h e F ho hn
  obtain ⟨h'', F'', r2, s2⟩ := g2 k (by omega) h' e F' s1.own s1.nodup
  refine ⟨h'', F'', ?_, ?_⟩
  · simp only [processChildTokens, tm_bind]
    simp only at r1 r2
    rw [r1]
    exact r2
  · simp only [pChildren]
    have s2' : LStep h' e (pChildren true pos xs (pChild true pos x t Ls).1 (pChild true pos x t Ls).2).1
      (pChildren true pos xs (pChild true pos x t Ls).1 (pChild true pos x t Ls).2).2 (F' ++ []) h'' F'' := by
      simpa using s2
    simpa using s1.trans s2'

theorem goodB_cons {pos : Position} {x : Tok} {xs : List Tok}
    (h1 : GoodB (fun k e root => processChildToken k e root pos x) (fun t Ls => pChild false pos x t Ls))
    (h2 : GoodB (fun k e root => processChildTokens k e root pos xs) (fun t Ls => pChildren false pos xs t Ls)) :
    GoodB (fun k e root => processChildTokens k e root pos (x :: xs)) (fun t Ls => pChildren false pos (x :: xs) t Ls) := by
  intro t Ls hne
  obtain ⟨N1, g1⟩ := h1 t Ls hne
  obtain ⟨N2, g2⟩ := h2 (pChild false pos x t Ls).1 (pChild false pos x t Ls).2 (pChild_ne hne)
  refine ⟨max N1 N2, fun k hk h e root rt F G ho hr hn => ?_⟩
  obtain ⟨h', F', G', r1, s1⟩ := g1 k (by omega) h e root rt F G ho hr hn
  obtain ⟨rt1, hrt, hb⟩ := s1.base
  obtain ⟨h'', F'', G'', r2, s2⟩ := g2 k (by omega) h' e root rt1 F' G' s1.own hb s1.nodup
  refine ⟨h'', F'', G'', ?_, ?_⟩
  · simp only [processChildTokens, tm_bind]
    simp only at r1 r2
    rw [r1]
    exact r2
  · simp only [pChildren]
    exact StepB.trans s1.keeps s1.within hrt s2

/-- The loops over the children of a token. -/
def loops (l r : List Tok) (k e root : Nat) : TM Unit := do
  processChildTokens k e root .left l
  processChildTokens k e root .right r

/-- What the loops build. -/
def pLoops (own : Bool) (l r : List Tok) (t : STree) (Ls : List Layer) : STree × List Layer :=
  let s := pChildren own .left l t Ls
  pChildren own .right r s.1 s.2

theorem pLoops_ne {own : Bool} {l r : List Tok} {t : STree} {Ls : List Layer} (h : t.NE) : (pLoops own l r t Ls).1.NE :=
  pChildren_ne r (pChildren_ne l h)

theorem goodA_loops {l r : List Tok}
    (h1 : GoodA (fun k e root => processChildTokens k e root .left l) (fun t Ls => pChildren true .left l t Ls))
    (h2 : GoodA (fun k e root => processChildTokens k e root .right r) (fun t Ls => pChildren true .right r t Ls)) :
    GoodA (loops l r) (pLoops true l r) := by
  intro t Ls hne
  obtain ⟨N1, g1⟩ := h1 t Ls hne
  obtain ⟨N2, g2⟩ := h2 (pChildren true .left l t Ls).1 (pChildren true .left l t Ls).2 (pChildren_ne l hne)
  refine ⟨max N1 N2, fun k hk h e F ho hn => ?_⟩
  obtain ⟨h', F', r1, s1⟩ := g1 k (by omega) h e F ho hn
  obtain ⟨h'', F'', r2, s2⟩ := g2 k (by omega) h' e F' s1.own s1.nodup
  refine ⟨h'', F'', ?_, ?_⟩
  · simp only [loops, tm_bind]
    simp only at r1 r2
    rw [r1]
    exact r2
  · have s2' : LStep h' e (pLoops true l r t Ls).1 (pLoops true l r t Ls).2 (F' ++ []) h'' F'' := by
      simpa [pLoops] using s2
    simpa using s1.trans s2'

theorem goodB_loops {l r : List Tok}
    (h1 : GoodB (fun k e root => processChildTokens k e root .left l) (fun t Ls => pChildren false .left l t Ls))
    (h2 : GoodB (fun k e root => processChildTokens k e root .right r) (fun t Ls => pChildren false .right r t Ls)) :
    GoodB (loops l r) (pLoops false l r) := by
  intro t Ls hne
  obtain ⟨N1, g1⟩ := h1 t Ls hne
  obtain ⟨N2, g2⟩ := h2 (pChildren false .left l t Ls).1 (pChildren false .left l t Ls).2 (pChildren_ne l hne)
  refine ⟨max N1 N2, fun k hk h e root rt F G ho hr hn => ?_⟩
  obtain ⟨h', F', G', r1, s1⟩ := g1 k (by omega) h e root rt F G ho hr hn
  obtain ⟨rt1, hrt, hb⟩ := s1.base
  obtain ⟨h'', F'', G'', r2, s2⟩ := g2 k (by omega) h' e root rt1 F' G' s1.own hb s1.nodup
  refine ⟨h'', F'', G'', ?_, ?_⟩
  · simp only [loops, tm_bind]
    simp only at r1 r2
    rw [r1]
    exact r2
  · exact StepB.trans s1.keeps s1.within hrt s2

theorem leaf_rep (h : SemTree) (info : TokInfo) :
    Rep (h.addLeaf info) (.leaf none info) (h.table.length : Int) [.id h.table.length, .obj h.objs.length] :=
  ⟨h.table.length, h.objs.length, rfl, by simp [SemTree.addLeaf], by simp [SemTree.addLeaf], rfl⟩

theorem leaf_id (h : SemTree) (info : TokInfo) :
    elemId h.objs.length (h.addLeaf info) = .ok (h.table.length, h.addLeaf info) := by
  have : (h.addLeaf info).objs[h.objs.length]? = some ⟨h.table.length, none, .leaf info⟩ := by simp [SemTree.addLeaf]
  rw [elemId_run this]

/-- A token that is its own root. -/
theorem bodyA {l r : List Tok} (info : TokInfo) (hg : GoodA (loops l r) (pLoops true l r)) :
    ∃ N, ∀ k, N ≤ k → ∀ h, ∃ h' F', processTokenWith k none info (loops l r k) h = .ok (h.table.length, h') ∧
      LStep h h.table.length ((pLoops true l r (.leaf none info) []).1.apply (pLoops true l r (.leaf none info) []).2) []
        [] h' F' := by
  obtain ⟨N, g⟩ := hg (.leaf none info) [] (ne_leaf _ _)
  refine ⟨max N (layersDepth (pLoops true l r (.leaf none info) []).2), fun k hk h => ?_⟩
  have s0 : LStep h h.table.length (.leaf none info) [] [] (h.addLeaf info) [.id h.table.length, .obj h.objs.length] :=
    ⟨⟨rfl, leaf_rep h info⟩, by simp, keeps_addLeaf h info, fun x hx => by
      simp only [List.mem_cons, List.not_mem_nil, or_false] at hx
      rcases hx with rfl | rfl <;> simp [Loc.valid]⟩
  obtain ⟨h1, F1, r1, s1⟩ := g k (by omega) _ _ _ s0.own s0.nodup
  obtain ⟨re, _, hte, _⟩ := s1.own.entry
  obtain ⟨h2, F2, r2, s2⟩ := applyLayers_rep (k := k) s1.own s1.nodup hte
    (fun L hL => by have := layersDepth_le hL; omega)
  refine ⟨h2, F2, ?_, ?_⟩
  · simp only [processTokenWith, tm_bind, createLeaf_run, leaf_id, Option.getD_none, r1, treeGet_run hte, r2, tm_pure]
  · have a : LStep h h.table.length _ _ ([] ++ []) h1 F1 := s0.trans (by simpa using s1)
    exact LStep.trans (G := []) a (by simpa using s2)

/-- A token under another root. -/
theorem bodyB {l r : List Tok} (info : TokInfo) (Ls : List Layer) (hg : GoodB (loops l r) (pLoops false l r)) :
    ∃ N, ∀ k, N ≤ k → ∀ h root rt G, Own h root rt Ls G → G.Nodup →
      ∃ h' F' G', processTokenWith k (some root) info (loops l r k) h = .ok (h.table.length, h') ∧
        StepB h h.table.length root (pLoops false l r (.leaf none info) Ls).1 (pLoops false l r (.leaf none info) Ls).2 rt
          G h' F' G' := by
  obtain ⟨N, g⟩ := hg (.leaf none info) Ls (ne_leaf _ _)
  refine ⟨N, fun k hk h root rt G hr hn => ?_⟩
  have k0 := keeps_addLeaf h info
  have hr0 : Own (h.addLeaf info) root rt Ls G := hr.keeps k0 (fun x _ => by simp)
  have hn0 : ([Loc.id h.table.length, .obj h.objs.length] ++ G).Nodup := by
    refine nodup_of (by simp) hn (fun x hx hg => ?_)
    have hv := hr.valid x hg
    simp only [List.mem_cons, List.not_mem_nil, or_false] at hx
    rcases hx with rfl | rfl <;> simp [Loc.valid] at hv
  obtain ⟨h1, F1, G1, r1, s1⟩ := g k hk (h.addLeaf info) h.table.length root rt _ G
    (⟨rfl, leaf_rep h info⟩ : Own (h.addLeaf info) h.table.length (.leaf none info) [] _) hr0 hn0
  obtain ⟨re, _, hte, _⟩ := s1.own.entry
  obtain ⟨h2, F2, r2, s2⟩ := applyLayers_rep (k := k) s1.own (nodup_split s1.nodup).1 hte (fun L hL => by cases hL)
  rw [apply_nil] at s2
  refine ⟨h2, F2, G1, ?_, ?_⟩
  · simp only [processTokenWith, tm_bind, createLeaf_run, leaf_id, Option.getD_some, r1, treeGet_run hte, r2, tm_pure]
  · obtain ⟨rt1, hrt, hb⟩ := s1.base
    have w1 : Within h G (F1 ++ G1) := by
      intro x hx
      rcases s1.within x hx with h3 | h3
      · simp only [List.cons_append, List.nil_append, List.mem_cons] at h3
        rcases h3 with rfl | rfl | h3
        · right; simp [Loc.valid]
        · right; simp [Loc.valid]
        · exact .inl h3
      · exact .inr (fun hv => h3 (k0.grow x hv))
    have kk : Keeps h h1 G := k0.trans s1.keeps (by simp) (fun x hx => by
      simp only [List.cons_append, List.nil_append, List.mem_cons] at hx
      rcases hx with rfl | rfl | h3
      · right; simp [Loc.valid]
      · right; simp [Loc.valid]
      · exact .inl h3)
    refine ⟨s2.own, ⟨rt1, hrt, s2.otherOwn s1.nodup hb⟩, s2.nodup_append s1.nodup hb.valid, ?_, ?_⟩
    · exact kk.trans s2.keeps (fun x hx => hx) (fun x hx => w1 x (by simp [hx]))
    · intro x hx
      rcases List.mem_append.mp hx with h3 | h3
      · rcases s2.within x h3 with h4 | h4
        · exact w1 x (by simp [h4])
        · exact .inr (fun hv => h4 (kk.grow x hv))
      · exact w1 x (by simp [h3])


theorem pChild_eq (own : Bool) (pos : Position) (info : TokInfo) (l r : List Tok) (t : STree) (Ls : List Layer) :
    pChild own pos (.mk info l r) t Ls =
      if info.ignored then (t, Ls)
      else if nestsP info t then
        (if own then t.touch else t, (pLoops false l r (.leaf none info) Ls).2 ++
          [(pLoops false l r (.leaf none info) Ls).1.layer])
      else
        let c := (pLoops true l r (.leaf none info) []).1.apply (pLoops true l r (.leaf none info) []).2
        if info.dep ∈ addToFirstDeps then (t.addFirst c pos, Ls) else (t.addChild c, Ls) := by
  rw [pChild, ← ignored_skip, show firstDeps.map lit = addToFirstDeps from rfl]
  rfl

/-- The part of `process_child_token` after the test for nesting fails. -/
def attach (k parent : Nat) (pos : Position) (info : TokInfo) (l r : List Tok) : TM Unit := do
  let childId ← processTokenWith k none info (loops l r k)
  if info.dep ∈ addToFirstDeps then addToFirstChild parent (childId : Int) pos
  else addChild parent (childId : Int)

theorem attach_rep {l r : List Tok} (info : TokInfo) (pos : Position) (t : STree) (Ls : List Layer) (hne : t.NE)
    (hg : GoodA (loops l r) (pLoops true l r)) :
    ∃ N, ∀ k, N ≤ k → ∀ h e p F, Own h e t Ls F → F.Nodup → h.table[e]? = some p →
      ∃ h' F', attach k p pos info l r h = .ok ((), h') ∧ LStep h e
        (if info.dep ∈ addToFirstDeps then
          t.addFirst ((pLoops true l r (.leaf none info) []).1.apply (pLoops true l r (.leaf none info) []).2) pos
         else t.addChild ((pLoops true l r (.leaf none info) []).1.apply (pLoops true l r (.leaf none info) []).2))
        Ls F h' F' := by
  obtain ⟨N, g⟩ := bodyA info hg
  refine ⟨N, fun k hk h e p F ho hn ht => ?_⟩
  obtain ⟨h1, F1, r1, s1⟩ := g k hk h
  have ho1 : Own h1 e t Ls F := ho.keeps s1.keeps (fun x _ => by simp)
  have ht1 : h1.table[e]? = some p := by
    have := s1.keeps.agree (.id e) (some_lt ht) (by simp)
    simp only [Agree] at this
    rw [this]; exact ht
  have hn1 : (F ++ F1).Nodup := nodup_of hn s1.nodup (fun x hx hm => by
    rcases s1.within x hm with h3 | h3
    · cases h3
    · exact h3 (ho.valid x hx))
  have hrep := own_nil.mp s1.own
  have fin : ∀ {t' : STree} {h2 : SemTree} {F2 : List Loc}, LStep h1 e t' Ls (F ++ F1) h2 F2 → LStep h e t' Ls F h2 F2 := by
    intro t' h2 F2 s2
    refine ⟨s2.own, s2.nodup, s1.keeps.trans s2.keeps (by simp) ?_, ?_⟩
    · intro x hx
      rcases List.mem_append.mp hx with h3 | h3
      · exact .inl h3
      · rcases s1.within x h3 with h4 | h4
        · cases h4
        · exact .inr h4
    · intro x hx
      rcases s2.within x hx with h3 | h3
      · rcases List.mem_append.mp h3 with h3 | h3
        · exact .inl h3
        · rcases s1.within x h3 with h4 | h4
          · cases h4
          · exact .inr h4
      · exact .inr (fun hv => h3 (s1.keeps.grow x hv))
  by_cases hd : info.dep ∈ addToFirstDeps
  · obtain ⟨h2, F2, r2, s2⟩ := addFirst_rep pos ho1 hrep hn1 ht1 hne
    refine ⟨h2, F2, ?_, ?_⟩
    · simp only [attach, tm_bind, r1, if_pos hd, r2]
    · rw [if_pos hd]; exact fin s2
  · obtain ⟨h2, F2, r2, s2⟩ := addChild_rep ho1 hrep hn1 ht1
    refine ⟨h2, F2, ?_, ?_⟩
    · simp only [attach, tm_bind, r1, if_neg hd, r2]
    · rw [if_neg hd]; exact fin s2

theorem child_eq (k e root : Nat) (pos : Position) (info : TokInfo) (l r : List Tok) :
    processChildToken k e root pos (.mk info l r) = (do
      if info.ignored then TM.pure ()
      else
        let parent ← treeGet (e : Int)
        if (← nests k info parent) then
          let childId ← processTokenWith k (some root) info (loops l r k)
          nest (← treeGet (root : Int)) (childId : Int)
          newLayer (← treeGet (root : Int))
        else attach k parent pos info l r) := by
  rw [processChildToken]
  rfl

/-- The part of `process_child_token` for nesting. -/
theorem nested_rep {l r : List Tok} (info : TokInfo) (Ls : List Layer) (hg : GoodB (loops l r) (pLoops false l r)) :
    ∃ N, ∀ k, N ≤ k → ∀ h root rt G, Own h root rt Ls G → G.Nodup →
      ∃ h' G', (do
          let childId ← processTokenWith k (some root) info (loops l r k)
          nest (← treeGet (root : Int)) (childId : Int)
          newLayer (← treeGet (root : Int)) : TM Unit) h = .ok ((), h') ∧
        LStep h root rt.touch ((pLoops false l r (.leaf none info) Ls).2 ++
          [(pLoops false l r (.leaf none info) Ls).1.layer]) G h' G' := by
  obtain ⟨N, g⟩ := bodyB info Ls hg
  refine ⟨N, fun k hk h root rt G ho hn => ?_⟩
  obtain ⟨h1, F1, G1, r1, s1⟩ := g k hk h root rt G ho hn
  obtain ⟨rt1, hrt, hb⟩ := s1.base
  obtain ⟨h2, G2, r2, s2⟩ := nest_rep hb (own_nil.mp s1.own) (pLoops_ne (ne_leaf _ _)) s1.nodup
  refine ⟨h2, G2, ?_, ?_⟩
  · rw [tm_bind_ok r1]; exact r2
  · have : rt1.touch = rt.touch := by
      rcases hrt with rfl | rfl
      · rfl
      · exact touch_touch _
    rw [this] at s2
    exact ⟨s2.own, s2.nodup, s1.keeps.trans s2.keeps (fun x hx => hx) s1.within, s1.within.trans s2.within s1.keeps.grow⟩

theorem goodA_child {pos : Position} {info : TokInfo} {l r : List Tok} (hA : GoodA (loops l r) (pLoops true l r))
    (hB : GoodB (loops l r) (pLoops false l r)) :
    GoodA (fun k e root => processChildToken k e root pos (.mk info l r)) (fun t Ls => pChild true pos (.mk info l r) t Ls) := by
  intro t Ls hne
  simp only [pChild_eq, child_eq]
  by_cases hi : info.ignored = true
  · refine ⟨0, fun k _ h e F ho hn => ⟨h, F, ?_, ?_⟩⟩
    · simp [hi, tm_pure]
    · rw [if_pos hi]
      exact ⟨ho, hn, (Keeps.refl h).mono (by simp), fun x hx => .inl hx⟩
  · by_cases hnest : nestsP info t = true
    · obtain ⟨N, g⟩ := nested_rep info Ls hB
      refine ⟨max N t.depth, fun k hk h e F ho hn => ?_⟩
      obtain ⟨p, _, ht, _⟩ := ho.entry
      obtain ⟨h', F', r1, s1⟩ := g k (by omega) h e t F ho hn
      refine ⟨h', F', ?_, ?_⟩
      · rw [if_neg hi]
        simp only [tm_bind, treeGet_run ht, nests_run ho ht (show t.depth ≤ k by omega), hnest, if_true]
        simp only [tm_bind] at r1
        exact r1
      · rw [if_neg hi, if_pos hnest, if_pos trivial]
        exact s1
    · obtain ⟨N, g⟩ := attach_rep info pos t Ls hne hA
      refine ⟨max N t.depth, fun k hk h e F ho hn => ?_⟩
      obtain ⟨p, _, ht, _⟩ := ho.entry
      obtain ⟨h', F', r1, s1⟩ := g k (by omega) h e p F ho hn ht
      refine ⟨h', F', ?_, ?_⟩
      · rw [if_neg hi]
        simp only [tm_bind, treeGet_run ht, nests_run ho ht (show t.depth ≤ k by omega), hnest]
        exact r1
      · rw [if_neg hi, if_neg hnest]
        by_cases hd : info.dep ∈ addToFirstDeps
        · rw [if_pos hd] at s1 ⊢; exact s1
        · rw [if_neg hd] at s1 ⊢; exact s1

theorem goodB_child {pos : Position} {info : TokInfo} {l r : List Tok} (hA : GoodA (loops l r) (pLoops true l r))
    (hB : GoodB (loops l r) (pLoops false l r)) :
    GoodB (fun k e root => processChildToken k e root pos (.mk info l r)) (fun t Ls => pChild false pos (.mk info l r) t Ls) := by
  intro t Ls hne
  simp only [pChild_eq, child_eq]
  by_cases hi : info.ignored = true
  · refine ⟨0, fun k _ h e root rt F G ho hr hn => ⟨h, F, G, ?_, ?_⟩⟩
    · simp [hi, tm_pure]
    · rw [if_pos hi]
      exact ⟨ho, ⟨rt, .inl rfl, hr⟩, hn, (Keeps.refl h).mono (by simp), fun x hx => .inl hx⟩
  · by_cases hnest : nestsP info t = true
    · obtain ⟨N, g⟩ := nested_rep info Ls hB
      refine ⟨max N t.depth, fun k hk h e root rt F G ho hr hn => ?_⟩
      obtain ⟨p, _, ht, _⟩ := ho.entry
      obtain ⟨hnF, hnG, hd⟩ := nodup_split hn
      have hn' : (G ++ F).Nodup := (List.Perm.nodup_iff List.perm_append_comm).mp hn
      obtain ⟨h', G', r1, s1⟩ := g k (by omega) h root rt G hr hnG
      refine ⟨h', F, G', ?_, ?_⟩
      · rw [if_neg hi]
        simp only [tm_bind, treeGet_run ht, nests_run ho ht (show t.depth ≤ k by omega), hnest, if_true]
        simp only [tm_bind] at r1
        exact r1
      · rw [if_neg hi, if_pos hnest]
        refine ⟨s1.otherOwn hn' ho, ⟨rt.touch, .inr rfl, s1.own⟩, ?_, s1.keeps.mono (by simp +contextual), ?_⟩
        · exact (List.Perm.nodup_iff List.perm_append_comm).mp (s1.nodup_append hn' ho.valid)
        · intro x hx
          rcases List.mem_append.mp hx with h3 | h3
          · exact .inl (by simp [h3])
          · rcases s1.within x h3 with h4 | h4
            · exact .inl (by simp [h4])
            · exact .inr h4
    · obtain ⟨N, g⟩ := attach_rep info pos t [] hne hA
      refine ⟨max N t.depth, fun k hk h e root rt F G ho hr hn => ?_⟩
      obtain ⟨p, _, ht, _⟩ := ho.entry
      obtain ⟨hnF, hnG, hd⟩ := nodup_split hn
      obtain ⟨h', F', r1, s1⟩ := g k (by omega) h e p F ho hnF ht
      refine ⟨h', F', G, ?_, ?_⟩
      · rw [if_neg hi]
        simp only [tm_bind, treeGet_run ht, nests_run ho ht (show t.depth ≤ k by omega), hnest]
        exact r1
      · rw [if_neg hi, if_neg hnest]
        have fin : ∀ t', LStep h e t' [] F h' F' → StepB h e root t' Ls rt (F ++ G) h' F' G := fun t' s1 =>
          ⟨s1.own, ⟨rt, .inl rfl, s1.otherOwn hn hr⟩, s1.nodup_append hn hr.valid, s1.keeps.mono (by simp +contextual),
            fun x hx => by
              rcases List.mem_append.mp hx with h3 | h3
              · rcases s1.within x h3 with h4 | h4
                · exact .inl (by simp [h4])
                · exact .inr h4
              · exact .inl (by simp [h3])⟩
        by_cases hd : info.dep ∈ addToFirstDeps
        · rw [if_pos hd] at s1 ⊢; exact fin _ s1
        · rw [if_neg hd] at s1 ⊢; exact fin _ s1

mutual
theorem good_child (pos : Position) : (x : Tok) →
    GoodA (fun k e root => processChildToken k e root pos x) (fun t Ls => pChild true pos x t Ls) ∧
    GoodB (fun k e root => processChildToken k e root pos x) (fun t Ls => pChild false pos x t Ls)
  | .mk info l r => by
    have hl := good_children .left l
    have hr := good_children .right r
    have hA := goodA_loops hl.1 hr.1
    have hB := goodB_loops hl.2 hr.2
    exact ⟨goodA_child hA hB, goodB_child hA hB⟩
theorem good_children (pos : Position) : (xs : List Tok) →
    GoodA (fun k e root => processChildTokens k e root pos xs) (fun t Ls => pChildren true pos xs t Ls) ∧
    GoodB (fun k e root => processChildTokens k e root pos xs) (fun t Ls => pChildren false pos xs t Ls)
  | [] => ⟨goodA_nil, goodB_nil⟩
  | x :: xs => ⟨goodA_cons (good_child pos x).1 (good_children pos xs).1, goodB_cons (good_child pos x).2 (good_children pos xs).2⟩
end

/-- `process_token` of a token that is its own root builds `pTok`. -/
theorem processToken_run (x : Tok) : ∃ N, ∀ k, N ≤ k → ∀ h, ∃ h' F', processToken k none x h = .ok (h.table.length, h') ∧
    Rep h' (pTok x) (h.table.length : Int) F' ∧ F'.Nodup ∧ Keeps h h' [] := by
  obtain ⟨info, l, r⟩ := x
  obtain ⟨N, g⟩ := bodyA info (goodA_loops (good_children .left l).1 (good_children .right r).1)
  refine ⟨N, fun k hk h => ?_⟩
  obtain ⟨h', F', r1, s1⟩ := g k hk h
  exact ⟨h', F', r1, own_nil.mp s1.own, s1.nodup, s1.keeps⟩

end GB
