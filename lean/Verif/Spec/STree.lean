import Verif.Model.Token

/-
Trees of words as values: what the linked objects of gb/knowledge/semantic_tree.py stand for.
-/

namespace GB

/-- A tree of words.  Leaves and nodes carry the namespace the stages give them; nodes carry the mark `compound`. -/
inductive STree where
  | leaf (ns : Option Str) (tok : TokInfo)
  | node (ns : Option Str) (compound : Bool) (children : List STree)
  deriving Repr

mutual
/-- The tokens of a tree, from left to right. -/
def STree.leaves : STree → List TokInfo
  | .leaf _ tok => [tok]
  | .node _ _ ts => leavesL ts
/-- The tokens of several trees. -/
def leavesL : List STree → List TokInfo
  | [] => []
  | t :: ts => t.leaves ++ leavesL ts
end

mutual
/-- The height of a tree. -/
def STree.depth : STree → Nat
  | .leaf _ _ => 1
  | .node _ _ ts => depthL ts + 1
/-- The greatest height of several trees. -/
def depthL : List STree → Nat
  | [] => 0
  | t :: ts => max t.depth (depthL ts)
end

/-- Is it a node? -/
def STree.isNode : STree → Bool
  | .leaf _ _ => false
  | .node _ _ _ => true

/-- A leaf or a node marked as compound. -/
def STree.terminal : STree → Bool
  | .leaf _ _ => true
  | .node _ c _ => c

mutual
/-- A tree as text: a word for a leaf; for a node, the texts of its children joined by `_` if it is compound, and
between parentheses otherwise. -/
def STree.text : STree → Str
  | .leaf _ tok => tok.word
  | .node _ c ts => if c then pyJoin (lit "_") (textL ts) else lit "(" ++ pyJoin (lit " ") (textL ts) ++ lit ")"
/-- The texts of several trees. -/
def textL : List STree → List Str
  | [] => []
  | t :: ts => t.text :: textL ts
end

mutual
/-- Every node has at least two children. -/
def STree.Branching : STree → Prop
  | .leaf _ _ => True
  | .node _ _ ts => 2 ≤ ts.length ∧ branchingL ts
/-- Every node of every tree has at least two children. -/
def branchingL : List STree → Prop
  | [] => True
  | t :: ts => t.Branching ∧ branchingL ts
end

end GB
