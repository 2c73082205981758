import Verif.Model.Alpha
import Verif.Spec.Kept

/-
What the first stage computes, on trees as values.
-/

namespace GB

/-- A layer: an element to put around what was built so far, and what follows it. -/
abbrev Layer := STree × List STree

/-- One more child at the end; a word becomes a node first. -/
def STree.addChild (t c : STree) : STree := match t with
  | .leaf ns tok => .node none false [.leaf ns tok, c]
  | .node ns b ts => .node ns b (ts ++ [c])

/-- `c` before or after `ts`. -/
def place (pos : Position) (ts : List STree) (c : STree) : List STree := match pos with
  | .right => ts ++ [c]
  | .left => c :: ts

/-- `c` joins the children of `t`; what is terminal becomes a node first. -/
def STree.join (t c : STree) (pos : Position) : STree := match t with
  | .leaf ns tok => .node none false (place pos [.leaf ns tok] c)
  | .node ns b ts => if b then .node none false (place pos [.node ns b ts] c) else .node ns b (place pos ts c)

/-- `c` joins the first child of `t`. -/
def STree.addFirst (t c : STree) (pos : Position) : STree := match t with
  | .leaf ns tok => .node none false [STree.join (.leaf ns tok) c pos]
  | .node ns b [] => .node ns b []
  | .node ns b (f :: ts) => .node ns b (f.join c pos :: ts)

/-- A word becomes a node. -/
def STree.touch : STree → STree
  | .leaf ns tok => .node none false [.leaf ns tok]
  | .node ns b ts => .node ns b ts

/-- The layer an element makes. -/
def STree.layer : STree → Layer
  | .leaf ns tok => (.leaf ns tok, [])
  | .node ns b [] => (.node ns b [], [])
  | .node _ _ (t :: ts) => (t, ts)

/-- One child, or a new node for several. -/
def wrap : List STree → STree
  | [t] => t
  | ts => .node none false ts

/-- The layers around `ts`, the first one innermost. -/
def applyL (ts : List STree) (ls : List Layer) : List STree :=
  ls.foldl (fun ts l => l.1 :: wrap ts :: l.2) ts

/-- The layers around an element, the last one innermost. -/
def STree.apply (t : STree) (ls : List Layer) : STree := match t with
  | .leaf ns tok => .leaf ns tok
  | .node ns b ts => .node ns b (applyL ts ls.reverse)

/-- Words with these dependency labels are put around what was built so far. -/
def layerDeps : List String := ["aux", "auxpass", "cc", "agent", "det", "advmod", "amod", "poss", "nummod"]

/-- What belongs to words with these dependency labels joins the first child. -/
def firstDeps : List String := ["pcomp", "compound"]

/-- Does the word become a layer? -/
def nestsP (info : TokInfo) (parent : STree) : Bool :=
  decide (info.dep ∈ layerDeps.map lit) ||
    (decide (info.dep = lit "prep") && !parent.leaves.any (fun t => decide (t.pos = lit "VERB")))

mutual
/-- A child word: what is built for its parent, and the layers, before and after.  `own` says whether the layers belong
to the parent itself. -/
def pChild (own : Bool) (pos : Position) : Tok → STree → List Layer → STree × List Layer
  | .mk info l r, t, ls =>
    if info.skip then (t, ls)
    else if nestsP info t then
      let s := pChildren false .left l (.leaf none info) ls
      let s' := pChildren false .right r s.1 s.2
      (if own then t.touch else t, s'.2 ++ [s'.1.layer])
    else
      let s := pChildren true .left l (.leaf none info) []
      let s' := pChildren true .right r s.1 s.2
      let c := s'.1.apply s'.2
      if info.dep ∈ firstDeps.map lit then (t.addFirst c pos, ls) else (t.addChild c, ls)
/-- The child words in order. -/
def pChildren (own : Bool) (pos : Position) : List Tok → STree → List Layer → STree × List Layer
  | [], t, ls => (t, ls)
  | x :: xs, t, ls =>
    let s := pChild own pos x t ls
    pChildren own pos xs s.1 s.2
end

/-- A word with its children, before the layers are applied. -/
def pBody (own : Bool) : Tok → List Layer → STree × List Layer
  | .mk info l r, ls =>
    let s := pChildren own .left l (.leaf none info) ls
    pChildren own .right r s.1 s.2

/-- A word with its children and layers. -/
def pTok (x : Tok) : STree :=
  let s := pBody true x []
  s.1.apply s.2

mutual
/-- Nodes around a single node disappear. -/
def STree.slim : STree → STree
  | .leaf ns tok => .leaf ns tok
  | .node ns b ts => match slimL ts with
    | [.node ns' b' us] => .node ns' b' us
    | us => .node ns b us
/-- The same for several trees. -/
def slimL : List STree → List STree
  | [] => []
  | t :: ts => t.slim :: slimL ts
end

/-- The tree of a sentence with the given root. -/
def alphaTree (x : Tok) : STree := (pTok x).slim

end GB
