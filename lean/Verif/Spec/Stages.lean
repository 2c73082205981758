import Verif.Model.Stages
import Verif.Spec.Kept

/-
What the stages beta and gamma compute, on trees as values.
-/

namespace GB

/-- The four relations of compounds: `pobj`, `compound`, `dobj`, `nsubj`. -/
def TokInfo.inCompound (t : TokInfo) : Bool :=
  decide (t.dep = lit "pobj") || decide (t.dep = lit "compound") || decide (t.dep = lit "dobj") || decide (t.dep = lit "nsubj")

/-- Is it a word with this entity type? -/
def STree.hasType (et : Str) : STree → Bool
  | .leaf _ t => decide (t.entityType = some et)
  | .node _ _ _ => false

/-- All are words with the same entity type, which is not empty. -/
def sameEntity (ts : List STree) : Prop := ∃ et, et ≠ [] ∧ ts ≠ [] ∧ ∀ t ∈ ts, t.hasType et = true

/-- Does a node with these children count as one name?  All its children are words with the same entity type, or all
words below it have one of the four relations. -/
def Compound (ts : List STree) : Prop := sameEntity ts ∨ ∀ t ∈ leavesL ts, t.inCompound = true

/-- `sameEntity`, computed. -/
def sameEntityB (ts : List STree) : Bool := match ts with
  | .leaf _ t :: _ => match t.entityType with
    | some et => decide (et ≠ []) && ts.all (STree.hasType et)
    | none => false
  | _ => false

/-- `Compound`, computed. -/
def compoundB (ts : List STree) : Bool := sameEntityB ts || (leavesL ts).all TokInfo.inCompound

mutual
/-- The second stage: the namespace `1` everywhere, and every node is marked by `Compound`. -/
def STree.beta : STree → STree
  | .leaf _ t => .leaf (some (lit "1")) t
  | .node _ _ ts => .node (some (lit "1")) (compoundB ts) (betaL ts)
/-- The same for several trees. -/
def betaL : List STree → List STree
  | [] => []
  | t :: ts => t.beta :: betaL ts
end

/-- Verbs, adverbs, adpositions and particles. -/
def TokInfo.relates (t : TokInfo) : Bool :=
  decide (t.pos = lit "VERB") || decide (t.pos = lit "ADV") || decide (t.pos = lit "ADP") || decide (t.pos = lit "PART")

/-- A word that relates. -/
def STree.relWord : STree → Bool
  | .leaf _ t => t.relates
  | .node _ _ _ => false

/-- All its words relate. -/
def STree.relates (t : STree) : Bool := t.leaves.all TokInfo.relates

/-- The words `the`, `an` and `a`, as determiners. -/
def STree.article : STree → Bool
  | .leaf _ t => decide (t.pos = lit "DET") &&
      (decide (t.lemma = lit "the") || decide (t.lemma = lit "an") || decide (t.lemma = lit "a"))
  | .node _ _ _ => false

/-- Is the token one of the articles that may be dropped? -/
def TokInfo.droppable (t : TokInfo) : Bool := (STree.leaf none t).article

/-- What is left of a list after some articles are taken out. -/
def Thinned (xs ys : List TokInfo) : Prop :=
  ys.Sublist xs ∧ ys.filter (fun t => !t.droppable) = xs.filter (fun t => !t.droppable)

mutual
/-- The mark of all nodes is `b`. -/
def STree.mark (b : Bool) : STree → STree
  | .leaf ns t => .leaf ns t
  | .node ns _ ts => .node ns b (markL b ts)
/-- The same for several trees. -/
def markL (b : Bool) : List STree → List STree
  | [] => []
  | t :: ts => t.mark b :: markL b ts
end

/-- `f` joins the first element of `s`, or of the first element of `s`, ...: the deepest one that is a node without
mark; what it joins becomes one compound. -/
def STree.combine (f : STree) : STree → STree
  | .leaf ns t => .leaf ns t
  | .node ns b [] => .node ns b []
  | .node ns b (.leaf ns' t :: us) => .node ns b (.node none true [f.mark true, .leaf ns' t] :: us)
  | .node ns b (.node ns' true ts :: us) =>
    .node ns b (.node none true [f.mark true, (STree.node ns' true ts).mark true] :: us)
  | .node ns b (.node ns' false ts :: us) => .node ns b (STree.combine f (.node ns' false ts) :: us)

/-- The first element of a node that is not marked. -/
def STree.opensWith (p : STree → Bool) : STree → Bool
  | .node _ false (t :: _) => p t
  | _ => false

/-- One step of the third stage. -/
def STree.gamma1 : STree → STree
  | .leaf ns t => .leaf ns t
  | .node ns b ts =>
    if ts.all STree.relWord then (STree.node ns b ts).mark true
    else match ts with
      | [f, s] =>
        if f.article then s
        else if s.opensWith STree.relates && f.relates then f.combine s
        else .node ns b ts
      | _ => .node ns b ts

mutual
/-- The third stage: below, then one step. -/
def STree.gamma : STree → STree
  | .leaf ns t => .leaf ns t
  | .node ns b ts => (STree.node ns b (gammaL ts)).gamma1
/-- The same for several trees. -/
def gammaL : List STree → List STree
  | [] => []
  | t :: ts => t.gamma :: gammaL ts
end

end GB
