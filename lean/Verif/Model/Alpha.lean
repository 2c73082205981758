import Verif.Model.SemTree

/-
Model of gb/knowledge/stages/alpha.py.
-/

namespace GB

/-- gb/knowledge/stages/alpha.py:31 `nest_deps`. -/
def nestDeps : List Str :=
  [lit "aux", lit "auxpass", lit "cc", lit "agent", lit "det", lit "advmod", lit "amod", lit "poss", lit "nummod"]

/-- gb/knowledge/stages/alpha.py:32 `add_to_first_deps`. -/
def addToFirstDeps : List Str := [lit "pcomp", lit "compound"]

/-- gb/knowledge/stages/alpha.py:36: the token is ignored. -/
def TokInfo.ignored (t : TokInfo) : Bool := t.dep.length = 0 || t.dep = lit "punct"

/-- gb/knowledge/stages/alpha.py:42: the condition for nesting. -/
def nests (k : Nat) (t : TokInfo) (parent : Nat) : TM Bool := do
  if t.dep ∈ nestDeps then TM.pure true
  else if t.dep = lit "prep" then do TM.pure (!(← hasPos k (lit "VERB") parent))
  else TM.pure false

/-- gb/knowledge/stages/alpha.py:58-69 `process_token`, with the two loops as an argument: a function of the element's
id and the root's id. -/
def processTokenWith (k : Nat) (rootId : Option Nat) (info : TokInfo) (loops : Nat → Nat → TM Unit) : TM Nat := do
  let elem ← createLeaf info
  let elemId ← elemId elem
  loops elemId (rootId.getD elemId)
  applyLayers k (← treeGet (elemId : Int))
  TM.pure elemId

mutual
/-- gb/knowledge/stages/alpha.py:34-56 `process_child_token`. -/
def processChildToken (k : Nat) (parentId : Nat) (rootId : Nat) (pos : Position) : Tok → TM Unit
  | .mk info l r => do
    if info.ignored then TM.pure ()
    else
      let parent ← treeGet (parentId : Int)
      if (← nests k info parent) then
        let childId ← processTokenWith k (some rootId) info (fun e root => do
          processChildTokens k e root .left l
          processChildTokens k e root .right r)
        nest (← treeGet (rootId : Int)) (childId : Int)
        newLayer (← treeGet (rootId : Int))
      else
        let childId ← processTokenWith k none info (fun e root => do
          processChildTokens k e root .left l
          processChildTokens k e root .right r)
        if info.dep ∈ addToFirstDeps then addToFirstChild parent (childId : Int) pos
        else addChild parent (childId : Int)
/-- gb/knowledge/stages/alpha.py:64-67: the two loops of `process_token`. -/
def processChildTokens (k : Nat) (parentId : Nat) (rootId : Nat) (pos : Position) : List Tok → TM Unit
  | [] => TM.pure ()
  | t :: ts => do
    processChildToken k parentId rootId pos t
    processChildTokens k parentId rootId pos ts
end

/-- gb/knowledge/stages/alpha.py:58-69 `process_token`. -/
def processToken (k : Nat) (rootId : Option Nat) : Tok → TM Nat
  | .mk info l r => processTokenWith k rootId info (fun e root => do
    processChildTokens k e root .left l
    processChildTokens k e root .right r)

/-- `self.tree.root_id = id`. -/
def setRoot (id : Nat) : TM Unit := fun h => .ok ((), { h with rootId := some id })

/-- gb/knowledge/stages/alpha.py:71-74 `process_sentence`, on a new tree.  Without a root, `token.left_children` of
`None` raises `AttributeError`. -/
def alphaStage (k : Nat) (sentence : List Tok) : TM Unit := do
  match sentenceRoot sentence with
  | none => TM.raise .attributeError
  | some t => do
    let id ← processToken k none t
    setRoot id
    removeRedundantNesting k (← treeGet (id : Int))

end GB
