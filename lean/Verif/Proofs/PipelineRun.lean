import Verif.Spec.Pipeline
import Verif.Proofs.Budget
import Verif.Proofs.AlphaStage
import Verif.Proofs.AlphaPure
import Verif.Proofs.GammaRun
import Verif.Proofs.EpsilonRun

/-
The extractor: the stages one after the other.
-/

namespace GB

variable {F : Type}

/-! ### Words after beta and gamma -/

mutual
theorem beta_words : (t : STree) → t.beta.words = t.words.map (fun w => (some (lit "1"), w.2))
  | .leaf _ _ => rfl
  | .node _ _ ts => by simp only [STree.beta, STree.words, betaL_words ts]
theorem betaL_words : (ts : List STree) → wordsL (betaL ts) = (wordsL ts).map (fun w => (some (lit "1"), w.2))
  | [] => rfl
  | t :: ts => by simp only [betaL, wordsL, beta_words t, betaL_words ts, List.map_append]
end

theorem beta_leaves (t : STree) : t.beta.leaves = t.leaves := by
  rw [← words_leaves, ← words_leaves, beta_words, List.map_map]
  rfl

mutual
theorem beta_branching : (t : STree) → t.Branching → t.beta.Branching
  | .leaf _ _, _ => trivial
  | .node _ _ ts, h => ⟨by rw [betaL_map, List.length_map]; exact h.1, betaL_branching ts h.2⟩
theorem betaL_branching : (ts : List STree) → branchingL ts → branchingL (betaL ts)
  | [], _ => trivial
  | t :: ts, h => ⟨beta_branching t h.1, betaL_branching ts h.2⟩
end

mutual
theorem mark_words (b : Bool) : (t : STree) → (t.mark b).words = t.words
  | .leaf _ _ => rfl
  | .node _ _ ts => by simp only [STree.mark, STree.words, markL_words b ts]
theorem markL_words (b : Bool) : (ts : List STree) → wordsL (markL b ts) = wordsL ts
  | [] => rfl
  | t :: ts => by simp only [markL, wordsL, mark_words b t, markL_words b ts]
end

theorem combine_words {f : STree} : (t : STree) → (f.combine t).words.Sublist (f.words ++ t.words)
  | .leaf _ _ => List.sublist_append_right _ _
  | .node _ _ [] => by rw [STree.combine]; exact List.sublist_append_right _ _
  | .node _ _ (.leaf _ _ :: us) => by
    rw [STree.combine]
    simp [STree.words, wordsL, mark_words]
  | .node _ _ (.node ns' true ts :: us) => by
    rw [STree.combine]
    simp [STree.words, wordsL, mark_words, markL_words, STree.mark]
  | .node _ _ (.node ns' false ts :: us) => by
    rw [STree.combine]
    have := combine_words (f := f) (.node ns' false ts)
    simp only [STree.words, wordsL] at this ⊢
    rw [← List.append_assoc]
    exact this.append (List.Sublist.refl _)

theorem gamma1_words (t : STree) : t.gamma1.words.Sublist t.words := by
  cases t with
  | leaf _ _ => exact List.Sublist.refl _
  | node ns b ts =>
    by_cases hall : ts.all STree.relWord = true
    · rw [gamma1_all hall, mark_words]
      exact List.Sublist.refl _
    · by_cases hl : ts.length = 2
      · match ts, hl with
        | [f, s], _ =>
          rw [gamma1_pair hall]
          simp only [STree.words, wordsL, List.append_nil]
          split
          · exact List.sublist_append_right _ _
          · split
            · exact combine_words s
            · simp only [STree.words, wordsL, List.append_nil]
              exact List.Sublist.refl _
      · rw [gamma1_other hall hl]
        exact List.Sublist.refl _

mutual
theorem gamma_words : (t : STree) → t.gamma.words.Sublist t.words
  | .leaf _ _ => List.Sublist.refl _
  | .node ns b ts => by
    rw [STree.gamma]
    exact (gamma1_words _).trans (gammaL_words ts)
theorem gammaL_words : (ts : List STree) → (wordsL (gammaL ts)).Sublist (wordsL ts)
  | [] => List.Sublist.refl _
  | t :: ts => (gamma_words t).append (gammaL_words ts)
end

/-! ### Several stages -/

theorem mid_branching : (ms : List Str) → (t : STree) → t.Branching → (midTree ms t).Branching
  | [], _, h => h
  | n :: ms, t, h => by
    rw [midTree]
    split
    · exact mid_branching ms _ (beta_branching t h)
    · exact mid_branching ms _ (gamma_branching t h)

theorem mid_thinned : (ms : List Str) → (t : STree) → t.Branching → Thinned t.leaves (midTree ms t).leaves
  | [], _, _ => Thinned.refl _
  | n :: ms, t, h => by
    rw [midTree]
    split
    · have := mid_thinned ms _ (beta_branching t h)
      rwa [beta_leaves] at this
    · exact (gamma_leaves t h).trans (mid_thinned ms _ (gamma_branching t h))

/-- All words have the namespace 1. -/
def Ones (t : STree) : Prop := ∀ w ∈ t.words, w.1 = some (lit "1")

theorem mid_ones_of : (ms : List Str) → (t : STree) → Ones t → Ones (midTree ms t)
  | [], _, h => h
  | n :: ms, t, h => by
    rw [midTree]
    refine mid_ones_of ms _ ?_
    split
    · intro w hw
      rw [beta_words, List.mem_map] at hw
      obtain ⟨_, _, rfl⟩ := hw
      rfl
    · exact fun w hw => h w ((gamma_words t).subset hw)

theorem mid_ones : (ms : List Str) → (t : STree) → lit "beta" ∈ ms → Ones (midTree ms t)
  | n :: ms, t, h => by
    rw [midTree]
    by_cases hn : n = lit "beta"
    · rw [if_pos hn]
      refine mid_ones_of ms _ ?_
      intro w hw
      rw [beta_words, List.mem_map] at hw
      obtain ⟨_, _, rfl⟩ := hw
      rfl
    · rw [if_neg hn]
      exact mid_ones ms _ (by
        rcases List.mem_cons.mp h with h | h
        · exact absurd h.symm hn
        · exact h)

theorem stageBeta (k : Nat) (h : SemTree) : runStage (F := F) k (lit "beta") (.tree h) =
    (betaStage k h).map (fun p => .tree p.2) := by
  rw [runStage, if_neg (by decide), if_pos rfl]

theorem stageGamma (k : Nat) (h : SemTree) : runStage (F := F) k (lit "gamma") (.tree h) =
    (gammaStage k h).map (fun p => .tree p.2) := by
  rw [runStage, if_neg (by decide), if_neg (by decide), if_pos rfl]

theorem stageDelta (k : Nat) (h : SemTree) : runStage (F := F) k (lit "delta") (.tree h) =
    (deltaStage k h).map (fun p => .tree p.2) := by
  rw [runStage, if_neg (by decide), if_neg (by decide), if_neg (by decide), if_pos rfl]

theorem stageEpsilon (k : Nat) (h : SemTree) : runStage (F := F) k (lit "epsilon") (.tree h) =
    (epsilonStage k h).map (fun p => .edge p.1) := by
  rw [runStage, if_neg (by decide), if_neg (by decide), if_neg (by decide), if_neg (by decide), if_pos rfl]

/-- A stage that gives a tree. -/
theorem rest_tree {pyStr : Val F → Str} {name : Str} {o : StageOut F} {h' : SemTree} {t : STree}
    (hr : Yields (fun k => runStage k name o) (.ok (.tree h'))) (ht : Holds h' t) :
    ∃ N, ∀ k, N ≤ k → ∀ names os, runRest pyStr k (name :: names) o os = runRest pyStr k names (.tree h') (os ++ [t.text]) := by
  obtain ⟨N, hN⟩ := hr
  refine ⟨max N t.depth, fun k hk names os => ?_⟩
  have h1 := hN k (by omega)
  have h2 := treeStr_holds ht k (by omega)
  simp only at h1
  simp only [runRest, h1, logged, StageOut.str, h2, Except.map]

theorem beta_yields {h : SemTree} {t : STree} (hs : Stands h t) (hb : t.Branching) :
    ∃ h', Yields (fun k => runStage (F := F) k (lit "beta") (.tree h)) (.ok (.tree h')) ∧ Stands h' t.beta := by
  obtain ⟨N, hN⟩ := betaStage_run hs hb
  obtain ⟨h0, run, st⟩ := hN N (Nat.le_refl _)
  obtain ⟨a, h', ⟨M, hM⟩, hq⟩ := settles_of (Q := fun _ h' => Stands h' t.beta) betaStage_more run st
  exact ⟨h', ⟨M, fun k hk => by simp only [stageBeta, hM k hk, Except.map]⟩, hq⟩

theorem gamma_yields {h : SemTree} {t : STree} (hs : Stands h t) (hb : t.Branching) :
    ∃ h', Yields (fun k => runStage (F := F) k (lit "gamma") (.tree h)) (.ok (.tree h')) ∧ Stands h' t.gamma := by
  obtain ⟨N, hN⟩ := gammaStage_run hb
  obtain ⟨h0, run, st⟩ := hN N (Nat.le_refl _) h hs
  obtain ⟨a, h', ⟨M, hM⟩, hq⟩ := settles_of (Q := fun _ h' => Stands h' t.gamma) gammaStage_more run st
  exact ⟨h', ⟨M, fun k hk => by simp only [stageGamma, hM k hk, Except.map]⟩, hq⟩

theorem rest_mid (pyStr : Val F → Str) : (ms : List Str) → (∀ n ∈ ms, n = lit "beta" ∨ n = lit "gamma") → {h : SemTree} →
    {t : STree} → Stands h t → t.Branching → ∃ h', Stands h' (midTree ms t) ∧ ∃ N, ∀ k, N ≤ k → ∀ names os,
      runRest pyStr k (ms ++ names) (.tree h) os = runRest pyStr k names (.tree h') (os ++ midTexts ms t)
  | [], _, h, t, hs, _ => ⟨h, hs, 0, fun _ _ _ _ => by simp [midTexts]⟩
  | n :: ms, hm, h, t, hs, hb => by
    have hms : ∀ n ∈ ms, n = lit "beta" ∨ n = lit "gamma" := fun n hn => hm n (by simp [hn])
    have key : ∀ u : STree, u.Branching → (∃ h', Yields (fun k => runStage (F := F) k n (.tree h)) (.ok (.tree h')) ∧ Stands h' u) →
        ∃ h', Stands h' (midTree ms u) ∧ ∃ N, ∀ k, N ≤ k → ∀ names os,
          runRest pyStr k (n :: ms ++ names) (.tree h) os =
            runRest pyStr k names (.tree h') (os ++ (u.text :: midTexts ms u)) := by
      rintro u hu ⟨h1, hy, hs1⟩
      obtain ⟨N1, g1⟩ := rest_tree (pyStr := pyStr) hy hs1.holds
      obtain ⟨h2, hs2, N2, g2⟩ := rest_mid pyStr ms hms hs1 hu
      refine ⟨h2, hs2, max N1 N2, fun k hk names os => ?_⟩
      rw [List.cons_append, g1 k (by omega), g2 k (by omega), List.append_assoc]
      rfl
    rcases hm n (by simp) with rfl | rfl
    · have := key t.beta (beta_branching t hb) (beta_yields hs hb)
      simpa only [midTree, midTexts, reduceIte] using this
    · have := key t.gamma (gamma_branching t hb) (gamma_yields hs hb)
      have hne : ¬ lit "gamma" = lit "beta" := by decide
      simpa only [midTree, midTexts, if_neg hne] using this

/-- Any number of delta stages. -/
theorem rest_delta (pyStr : Val F → Str) : (d : Nat) → {h : SemTree} → {t : STree} → Holds h t → t.Branching →
    ∃ h' ts t', Holds h' t' ∧ t'.Branching ∧ Reorders t.words t'.words ∧ ts.length = d ∧ (ts = [] → t' = t) ∧
      (∀ l, ts.getLast? = some l → l = t') ∧ (∀ u ∈ ts, u.Branching ∧ Reorders t.words u.words) ∧
      ∃ N, ∀ k, N ≤ k → ∀ names os, runRest pyStr k (List.replicate d (lit "delta") ++ names) (.tree h) os =
        runRest pyStr k names (.tree h') (os ++ ts.map STree.text)
  | 0, h, t, hh, hf => ⟨h, [], t, hh, hf, ⟨List.Perm.refl _, rfl⟩, rfl, fun _ => rfl, by simp, by simp, 0, fun _ _ _ _ => by simp⟩
  | d + 1, h, t, hh, hf => by
    obtain ⟨a, h1, ⟨M, hM⟩, u, hu, huf, hur, _⟩ := deltaStage_settles (two := True) hh ⟨full_of_branching t hf, fun _ => hf⟩
    have huf := huf.2 trivial
    have hy : Yields (fun k => runStage (F := F) k (lit "delta") (.tree h)) (.ok (.tree h1)) :=
      ⟨M, fun k hk => by simp only [stageDelta, hM k hk, Except.map]⟩
    obtain ⟨N1, g1⟩ := rest_tree (pyStr := pyStr) hy hu
    obtain ⟨h2, ts, t', a1, a2, a3, a4, a5, a6, a7, N2, g2⟩ := rest_delta pyStr d hu huf
    have tr : ∀ {x y z : List Word}, Reorders x y → Reorders y z → Reorders x z := fun p q =>
      ⟨p.1.trans q.1, p.2.trans q.2⟩
    refine ⟨h2, u :: ts, t', a1, a2, tr hur a3, by simp [a4], by simp, ?_, ?_, max N1 N2, fun k hk names os => ?_⟩
    · intro l hl
      cases ts with
      | nil => simp only [List.getLast?_singleton, Option.some.injEq] at hl; rw [← hl]; exact (a5 rfl).symm
      | cons x xs => rw [List.getLast?_cons_cons] at hl; exact a6 l hl
    · intro v hv
      rcases List.mem_cons.mp hv with rfl | hv
      · exact ⟨huf, hur⟩
      · exact ⟨(a7 v hv).1, tr hur (a7 v hv).2⟩
    · rw [List.replicate_succ, List.cons_append, g1 k (by omega), g2 k (by omega), List.append_assoc]
      rfl

/-- The epsilon stage at the end. -/
theorem rest_epsilon (pyStr : Val F → Str) {h : SemTree} {t : STree} (hh : Holds h t) : ∃ N, ∀ k, N ≤ k → ∀ os,
    runRest pyStr k [lit "epsilon"] (.tree h) os = match t.edge with
      | .ok v => ⟨.ok (.edge v), os ++ [pyStr v]⟩
      | .error e => ⟨.error e, os⟩ := by
  refine ⟨t.depth + 1, fun k hk os => ?_⟩
  have := epsilonStage_holds (F := F) hh k (by omega)
  simp only [runRest, stageEpsilon, this, keeps]
  cases t.edge (F := F) <;> rfl

theorem alpha_yields {sentence : List Tok} {x : Tok} (hroot : sentenceRoot sentence = some x) :
    ∃ h, Yields (fun k => runFirst (F := F) k (lit "alpha") sentence) (.ok (.tree h)) ∧ Stands h (alphaTree x) := by
  obtain ⟨N, hN⟩ := alphaStage_run hroot
  obtain ⟨h0, run, st⟩ := hN N (Nat.le_refl _) SemTree.new
  obtain ⟨a, h', ⟨M, hM⟩, hq⟩ := settles_of (Q := fun _ h' => Stands h' (alphaTree x))
    (fun k => alphaStage_more k sentence) run st
  exact ⟨h', ⟨M, fun k hk => by simp only [runFirst, reduceIte, hM k hk, Except.map]⟩, hq⟩

theorem read_alpha (pyStr : Val F → Str) {sentence : List Tok} {x : Tok} (hroot : sentenceRoot sentence = some x) :
    ∃ h, Stands h (alphaTree x) ∧ ∃ N, ∀ k, N ≤ k → ∀ names,
      readSentence pyStr k (lit "alpha" :: names) sentence = runRest pyStr k names (.tree h) [(alphaTree x).text] := by
  obtain ⟨h, ⟨N, hN⟩, hs⟩ := alpha_yields (F := F) hroot
  refine ⟨h, hs, max N (alphaTree x).depth, fun k hk names => ?_⟩
  have h1 := hN k (by omega)
  have h2 := treeStr_holds hs.holds k (by omega)
  simp only at h1
  simp only [readSentence, h1, logged, StageOut.str, h2, Except.map, List.nil_append]

end GB
