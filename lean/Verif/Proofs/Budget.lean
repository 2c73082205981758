import Verif.Proofs.Settles
import Verif.Model.Stages

/-
The recursion budget only decides whether a call returns, not what it returns.
-/

namespace GB

/-- Whatever the first call returns, the second returns too. -/
structure NoMore {α : Type} (a b : TM α) : Prop where
  run : ∀ h r, a h = .ok r → b h = .ok r

namespace NoMore
variable {α β : Type}

theorem refl (a : TM α) : NoMore a a := ⟨fun _ _ h => h⟩

theorem trans {a b c : TM α} (h1 : NoMore a b) (h2 : NoMore b c) : NoMore a c := ⟨fun h r hr => h2.run h r (h1.run h r hr)⟩

theorem raise (e : PyErr) (a : TM α) : NoMore (TM.raise e) a := ⟨fun _ _ h => by cases h⟩

theorem bind {a a' : TM α} {g g' : α → TM β} (ha : NoMore a a') (hg : ∀ x, NoMore (g x) (g' x)) :
    NoMore (a >>= g) (a' >>= g') := by
  refine ⟨fun h r hr => ?_⟩
  cases hx : a h with
  | error e => rw [tm_bind, hx] at hr; cases hr
  | ok p =>
    obtain ⟨x, h1⟩ := p
    rw [tm_bind_ok hx] at hr
    rw [tm_bind_ok (ha.run h _ hx)]
    exact (hg x).run h1 r hr

theorem mapM {f g : α → TM β} (hf : ∀ x, NoMore (f x) (g x)) : (xs : List α) → NoMore (TM.mapM f xs) (TM.mapM g xs)
  | [] => refl _
  | x :: xs => by
    unfold TM.mapM
    exact bind (hf x) (fun _ => bind (mapM hf xs) (fun _ => refl _))

theorem forEach {f g : α → TM Unit} (hf : ∀ x, NoMore (f x) (g x)) : (xs : List α) →
    NoMore (TM.forEach f xs) (TM.forEach g xs)
  | [] => refl _
  | x :: xs => by
    unfold TM.forEach
    exact bind (hf x) (fun _ => forEach hf xs)

theorem anyM {f g : α → TM Bool} (hf : ∀ x, NoMore (f x) (g x)) : (xs : List α) → NoMore (TM.anyM f xs) (TM.anyM g xs)
  | [] => refl _
  | x :: xs => by
    unfold TM.anyM
    refine bind (hf x) (fun b => ?_)
    split
    · exact refl _
    · exact anyM hf xs

theorem allM {f g : α → TM Bool} (hf : ∀ x, NoMore (f x) (g x)) : (xs : List α) → NoMore (TM.allM f xs) (TM.allM g xs)
  | [] => refl _
  | x :: xs => by
    unfold TM.allM
    refine bind (hf x) (fun b => ?_)
    split
    · exact allM hf xs
    · exact refl _

end NoMore

/-- Goals `NoMore a b` where `a` and `b` differ in the calls covered by hypotheses. -/
macro "no_more" "[" ts:term,* "]" : tactic => `(tactic| repeat (first
  | with_reducible exact NoMore.refl _
  | with_reducible exact NoMore.raise _ _
  | (first $[| with_reducible apply $ts:term]* | fail)
  | with_reducible apply NoMore.bind
  | with_reducible apply NoMore.mapM
  | with_reducible apply NoMore.forEach
  | with_reducible apply NoMore.anyM
  | with_reducible apply NoMore.allM
  | intro _
  | split))

theorem hasPos_more : (k : Nat) → ∀ p r, NoMore (hasPos k p r) (hasPos (k + 1) p r)
  | 0 => fun _ _ => NoMore.raise _ _
  | k + 1 => by
    have ih := hasPos_more k
    intro p r
    rw [hasPos, hasPos]
    no_more [ih]

mutual
theorem applyLayer_more : (k : Nat) → ∀ a b, NoMore (applyLayer k a b) (applyLayer (k + 1) a b)
  | 0 => fun _ _ => by rw [applyLayer]; exact NoMore.raise _ _
  | k + 1 => by
    intro a b
    rw [applyLayer, applyLayer]
    have ih := fun m => applyLayerLoop_more k m
    no_more [ih]
  termination_by k => (k, 0)
theorem applyLayerLoop_more : (k m : Nat) → ∀ a b i, NoMore (applyLayerLoop k a b i m) (applyLayerLoop (k + 1) a b i m)
  | k, 0 => fun _ _ _ => by rw [applyLayerLoop, applyLayerLoop]; exact NoMore.refl _
  | k, m + 1 => by
    intro a b i
    rw [applyLayerLoop, applyLayerLoop]
    have ih := applyLayerLoop_more k m
    have ih' := applyLayer_more k
    no_more [ih, ih']
  termination_by k m => (k, m + 1)
end

theorem applyLayersLoop_more (k : Nat) : (ids : List Nat) → ∀ p, NoMore (applyLayersLoop k ids p) (applyLayersLoop (k + 1) ids p)
  | [] => fun _ => NoMore.refl _
  | i :: ids => by
    intro p
    rw [applyLayersLoop, applyLayersLoop]
    have ih := applyLayersLoop_more k ids
    have := applyLayer_more k
    no_more [ih, this]

theorem applyLayers_more (k : Nat) (r : Nat) : NoMore (applyLayers k r) (applyLayers (k + 1) r) := by
  unfold applyLayers
  have := applyLayersLoop_more k
  no_more [this]

theorem removeRedundantNesting_more : (k : Nat) → ∀ r, NoMore (removeRedundantNesting k r) (removeRedundantNesting (k + 1) r)
  | 0 => fun _ => NoMore.raise _ _
  | k + 1 => by
    have ih := removeRedundantNesting_more k
    intro r
    rw [removeRedundantNesting, removeRedundantNesting]
    no_more [ih]

theorem setCompound_more : (k : Nat) → ∀ b r, NoMore (setCompound k b r) (setCompound (k + 1) b r)
  | 0 => fun _ _ => NoMore.raise _ _
  | k + 1 => by
    have ih := setCompound_more k
    intro b r
    rw [setCompound, setCompound]
    no_more [ih]

/-! ### alpha -/

theorem nests_more (k : Nat) (t : TokInfo) (p : Nat) : NoMore (nests k t p) (nests (k + 1) t p) := by
  unfold nests
  have := hasPos_more k
  no_more [this]

theorem processTokenWith_more {k : Nat} {root : Option Nat} {info : TokInfo} {f g : Nat → Nat → TM Unit}
    (h : ∀ a b, NoMore (f a b) (g a b)) : NoMore (processTokenWith k root info f) (processTokenWith (k + 1) root info g) := by
  unfold processTokenWith
  have := applyLayers_more k
  no_more [this, h]

mutual
theorem processChildToken_more (k : Nat) (p root : Nat) (pos : Position) : (x : Tok) →
    NoMore (processChildToken k p root pos x) (processChildToken (k + 1) p root pos x)
  | .mk info l r => by
    rw [processChildToken, processChildToken]
    have hl := fun p root pos => processChildTokens_more k p root pos l
    have hr := fun p root pos => processChildTokens_more k p root pos r
    have hn := nests_more k
    have hp := fun root => processTokenWith_more (k := k) (root := root) (info := info)
      (f := fun e root => do
          processChildTokens k e root .left l
          processChildTokens k e root .right r)
      (g := fun e root => do
          processChildTokens (k + 1) e root .left l
          processChildTokens (k + 1) e root .right r) (fun a b => by no_more [hl, hr])
    no_more [hl, hr, hn, hp]
theorem processChildTokens_more (k : Nat) (p root : Nat) (pos : Position) : (xs : List Tok) →
    NoMore (processChildTokens k p root pos xs) (processChildTokens (k + 1) p root pos xs)
  | [] => by rw [processChildTokens, processChildTokens]; exact NoMore.refl _
  | x :: xs => by
    rw [processChildTokens, processChildTokens]
    exact NoMore.bind (processChildToken_more k p root pos x) (fun _ => processChildTokens_more k p root pos xs)
end

theorem alphaStage_more (k : Nat) (s : List Tok) : NoMore (alphaStage k s) (alphaStage (k + 1) s) := by
  unfold alphaStage
  split
  · exact NoMore.refl _
  · rename_i t ht
    obtain ⟨info, l, r⟩ := t
    unfold processToken
    have h1 := processTokenWith_more (k := k) (root := none) (info := info)
      (f := fun e root => do
          processChildTokens k e root .left l
          processChildTokens k e root .right r)
      (g := fun e root => do
          processChildTokens (k + 1) e root .left l
          processChildTokens (k + 1) e root .right r)
      (fun a b => NoMore.bind (processChildTokens_more k a b .left l) (fun _ => processChildTokens_more k a b .right r))
    have h2 := removeRedundantNesting_more k
    no_more [h1, h2]

/-! ### beta -/

theorem isCompoundByDeps_more : (k : Nat) → ∀ r, NoMore (isCompoundByDeps k r) (isCompoundByDeps (k + 1) r)
  | 0 => fun _ => NoMore.raise _ _
  | k + 1 => by
    have ih := isCompoundByDeps_more k
    intro r
    rw [isCompoundByDeps, isCompoundByDeps]
    no_more [ih]

theorem isCompound_more (k : Nat) (r : Nat) : NoMore (isCompound k r) (isCompound (k + 1) r) := by
  unfold isCompound
  have := isCompoundByDeps_more k
  no_more [this]

theorem betaEntity_more : (k : Nat) → ∀ i, NoMore (betaEntity k i) (betaEntity (k + 1) i)
  | 0 => fun _ => NoMore.raise _ _
  | k + 1 => by
    have ih := betaEntity_more k
    have h1 := isCompound_more k
    have h2 := setCompound_more k
    intro i
    rw [betaEntity, betaEntity]
    no_more [ih, h1, h2]

theorem betaStage_more (k : Nat) : NoMore (betaStage k) (betaStage (k + 1)) := by
  unfold betaStage
  have := betaEntity_more k
  no_more [this]

/-! ### gamma -/

theorem gammaIsRel_more : (k : Nat) → ∀ s d i, NoMore (gammaIsRel k s d i) (gammaIsRel (k + 1) s d i)
  | 0 => fun _ _ _ => NoMore.raise _ _
  | k + 1 => by
    have ih := gammaIsRel_more k
    intro s d i
    rw [gammaIsRel, gammaIsRel]
    no_more [ih]

theorem combineRelationships_more : (k : Nat) → ∀ a b, NoMore (combineRelationships k a b) (combineRelationships (k + 1) a b)
  | 0 => fun _ _ => NoMore.raise _ _
  | k + 1 => by
    have ih := combineRelationships_more k
    have h1 := setCompound_more k
    intro a b
    rw [combineRelationships, combineRelationships]
    no_more [ih, h1]

theorem gammaEntity1_more (k : Nat) (i : Int) : NoMore (gammaEntity1 k i) (gammaEntity1 (k + 1) i) := by
  unfold gammaEntity1
  have h1 := setCompound_more k
  have h2 := gammaIsRel_more k
  have h3 := combineRelationships_more k
  dsimp only
  no_more [h1, h2, h3]

theorem gammaChildren_more {f g : Int → TM Int} (h : ∀ x, NoMore (f x) (g x)) (r : Nat) : (m : Nat) → ∀ i,
    NoMore (gammaChildren f r i m) (gammaChildren g r i m)
  | 0 => fun _ => NoMore.refl _
  | m + 1 => by
    have ih := gammaChildren_more h r m
    intro i
    rw [gammaChildren, gammaChildren]
    no_more [ih, h]

theorem gammaEntity_more : (k : Nat) → ∀ i, NoMore (gammaEntity k i) (gammaEntity (k + 1) i)
  | 0 => fun _ => NoMore.raise _ _
  | k + 1 => by
    have ih := gammaChildren_more (gammaEntity_more k)
    have h1 := gammaEntity1_more k
    intro i
    rw [gammaEntity, gammaEntity]
    no_more [ih, h1]

theorem gammaStage_more (k : Nat) : NoMore (gammaStage k) (gammaStage (k + 1)) := by
  unfold gammaStage
  have := gammaEntity_more k
  no_more [this]

/-! ### What is returned with one budget is returned with all larger ones -/

theorem more_le {α : Type} {f : Nat → TM α} (hf : ∀ k, NoMore (f k) (f (k + 1))) {k j : Nat} (h : k ≤ j) : NoMore (f k) (f j) := by
  induction h with
  | refl => exact NoMore.refl _
  | step _ ih => exact ih.trans (hf _)

theorem settles_of {α : Type} {f : Nat → TM α} {h : SemTree} {Q : α → SemTree → Prop} (hf : ∀ k, NoMore (f k) (f (k + 1)))
    {k : Nat} {a : α} {h' : SemTree} (hr : f k h = .ok (a, h')) (hq : Q a h') : Settles f h Q :=
  ⟨a, h', ⟨k, fun _ hj => (more_le hf hj).run h _ hr⟩, hq⟩

end GB
