import Verif.Model.Alpha
import Verif.Model.Symbol

/-
Model of gb/knowledge/stages/beta.py, gamma.py, delta.py and epsilon.py.
-/

namespace GB

/-- `tree.root_id`, used as an id; `tree.get(None)` gives `None`, whose attributes do not exist. -/
def rootIdM : TM Nat := fun h =>
  match h.rootId with
  | some i => .ok (i, h)
  | none => .error .attributeError

/-- `tree.root_id = id`. -/
def setRootId (id : Int) : TM Unit := fun h => .ok ((), { h with rootId := some id.toNat })

/-! ### beta -/

/-- gb/knowledge/stages/beta.py:22-34 `is_compound_by_entity_type`. -/
def isCompoundByEntityType (r : Nat) : TM Bool := do
  match (← deref (← getChild r 0)).body with
  | .node _ _ _ _ => TM.pure false
  | .leaf tok =>
    match tok.entityType with
    | none => TM.pure false
    | some et =>
      if et.length = 0 then TM.pure false
      else TM.allM (fun c => do
        match (← deref c).body with
        | .node _ _ _ _ => TM.pure false
        | .leaf t => TM.pure (decide (t.entityType = some et))) (← children r)

/-- gb/knowledge/stages/beta.py:41 `compound_deps`. -/
def compoundDeps : List Str := [lit "pobj", lit "compound", lit "dobj", lit "nsubj"]

/-- gb/knowledge/stages/beta.py:43-51 `is_compound_by_deps`. -/
def isCompoundByDeps : Nat → Nat → TM Bool
  | 0, _ => TM.raise .outOfFuel
  | k + 1, r => do
    TM.allM (fun c => do
      match (← deref c).body with
      | .leaf t => TM.pure (decide (t.dep ∈ compoundDeps))
      | .node _ _ _ _ => isCompoundByDeps k c) (← children r)

/-- gb/knowledge/stages/beta.py:53-54 `is_compound`. -/
def isCompound (k : Nat) (r : Nat) : TM Bool := do
  if (← isCompoundByEntityType r) then TM.pure true else isCompoundByDeps k r

/-- gb/knowledge/stages/beta.py:56-64 `process_entity`. -/
def betaEntity : Nat → Int → TM Unit
  | 0, _ => TM.raise .outOfFuel
  | k + 1, id => do
    let r ← treeGet id
    let e ← deref r
    setObj r { e with nspace := some (lit "1") }
    if e.isNode then
      setCompound k (← isCompound k r) r
      TM.forEach (betaEntity k) (← childrenIds r)
    else TM.pure ()

/-- gb/knowledge/stages/beta.py:66-68 `process`. -/
def betaStage (k : Nat) : TM Unit := do
  betaEntity k ((← rootIdM : Nat) : Int)

/-! ### gamma -/

/-- gb/knowledge/stages/gamma.py:30, delta.py:28 `rel_pos`. -/
def relPos : List Str := [lit "VERB", lit "ADV", lit "ADP", lit "PART"]

/-- gb/knowledge/stages/gamma.py:33-43 `is_relationship`; `deep` is `not shallow or depth = 0`: whether a node is
looked into. -/
def gammaIsRel : Nat → (shallow : Bool) → (depth : Nat) → Int → TM Bool
  | 0, _, _, _ => TM.raise .outOfFuel
  | k + 1, shallow, depth, id => do
    let r ← treeGet id
    match (← deref r).body with
    | .leaf t => TM.pure (decide (t.pos ∈ relPos))
    | .node l _ _ _ =>
      if shallow && decide (depth > 0) then TM.pure false
      else do TM.allM (gammaIsRel k shallow (depth + 1)) (← readList l)

/-- gb/knowledge/stages/gamma.py:45-56 `combine_relationships`. -/
def combineRelationships : Nat → Int → Int → TM Int
  | 0, _, _ => TM.raise .outOfFuel
  | k + 1, firstId, secondId => do
    let first ← treeGet firstId
    let second ← treeGet secondId
    let firstChild ← treeGet (← childId second 0)
    let e ← deref firstChild
    if e.isNode && !e.isTerminal then
      let _ ← combineRelationships k ((← elemId first : Nat) : Int) ((← elemId firstChild : Nat) : Int)
      TM.pure ((← elemId second : Nat) : Int)
    else
      addToFirstChild second ((← elemId first : Nat) : Int) .left
      let firstChild' ← treeGet (← childId second 0)
      setCompound k true firstChild'
      TM.pure ((← elemId second : Nat) : Int)

/-- gb/knowledge/stages/gamma.py:71-72: the articles that are removed. -/
def TokInfo.isArticle (t : TokInfo) : Bool :=
  decide (t.pos = lit "DET") && decide (t.lemma ∈ [lit "the", lit "an", lit "a"])

/-- gb/knowledge/stages/gamma.py:58-79 `process_entity1`. -/
def gammaEntity1 (k : Nat) (id : Int) : TM Int := do
  let r ← treeGet id
  let e ← deref r
  if e.isLeaf then TM.pure id
  else if (← gammaIsRel k true 0 (e.id : Int)) then do
    setCompound k true r
    TM.pure id
  else if (← childrenIds r).length = 2 then do
    let first ← getChild r 0
    let second ← getChild r 1
    let ef ← deref first
    let es ← deref second
    let article := match ef.body with
      | .leaf t => t.isArticle
      | .node _ _ _ _ => false
    if article then TM.pure (es.id : Int)
    else if es.isNode && !es.isTerminal then do
      if (← gammaIsRel k false 0 (ef.id : Int)) then
        if (← gammaIsRel k false 0 (← childId second 0)) then
          combineRelationships k (ef.id : Int) (es.id : Int)
        else TM.pure id
      else TM.pure id
    else TM.pure id
  else TM.pure id

/-- gb/knowledge/stages/gamma.py:159-161: the loop over the children, from index `i`, with `m` to go. -/
def gammaChildren (process : Int → TM Int) (r : Nat) : Nat → Nat → TM Unit
  | _, 0 => TM.pure ()
  | i, m + 1 => do
    let c ← process (← childId r i)
    setChild r i c
    gammaChildren process r (i + 1) m

/-- gb/knowledge/stages/gamma.py:156-168 `process_entity`. -/
def gammaEntity : Nat → Int → TM Int
  | 0, _ => TM.raise .outOfFuel
  | k + 1, id => do
    let r ← treeGet id
    if (← deref r).isNode then
      gammaChildren (gammaEntity k) r 0 (← childrenIds r).length
    gammaEntity1 k id

/-- gb/knowledge/stages/gamma.py:170-172 `process`. -/
def gammaStage (k : Nat) : TM Unit := do
  setRootId (← gammaEntity k ((← rootIdM : Nat) : Int))

/-! ### delta -/

/-- gb/knowledge/stages/delta.py:31-39 `is_relationship`. -/
def isRel : Nat → Int → TM Bool
  | 0, _ => TM.raise .outOfFuel
  | k + 1, id => do
    let r ← treeGet id
    match (← deref r).body with
    | .leaf t => TM.pure (decide (t.pos ∈ relPos))
    | .node l _ _ _ => do TM.allM (isRel k) (← readList l)

/-- gb/knowledge/stages/delta.py:41-50 `is_part_of_rel`. -/
def isPartOfRel (k : Nat) (rel part : Nat) : TM Bool := do
  let rs ← flatLeafs k rel
  let ps ← flatLeafs k part
  TM.pure (rs.any fun r => ps.any fun p => r.eq p)

/-- gb/knowledge/stages/delta.py:52-68 `is_directly_under`. -/
def isDirectlyUnder : Nat → Nat → Nat → Nat → TM Bool
  | 0, _, _, _ => TM.raise .outOfFuel
  | k + 1, node, parent, child => do
    if (← arity node) < 2 then TM.pure false
    else
      let rel ← treeGet (← childId node 0)
      let ids := (← childrenIds node).tail
      let found ← (do
        if (← isPartOfRel k rel parent) then
          TM.anyM (fun i => do elemEq k (← treeGet i) child) ids
        else TM.pure false)
      if found then TM.pure true
      else TM.anyM (fun i => do isDirectlyUnder k (← treeGet i) parent child) ids

/-- gb/knowledge/stages/delta.py:80-89: the loop of `node_fit`, from index `i`, with `m` to go. -/
def nodeFitLoop (k : Nat) (node original rel : Nat) : Nat → Nat → TM Nat
  | _, 0 => TM.pure 0
  | i, m + 1 => do
    let relPart ← getChild rel i
    let param1 ← getChild node (i + 1)
    let f1 ← (do
      if i = 0 then
        if (← isDirectlyUnder k original relPart param1) then TM.pure 100 else TM.pure 0
      else TM.pure 0)
    let param2 ← getChild node (i + 2)
    let f2 ← (do
      if (← isDirectlyUnder k original relPart param2) then TM.pure 100 else TM.pure 0)
    let rest ← nodeFitLoop k node original rel (i + 1) m
    TM.pure (f1 + f2 + rest)

/-- gb/knowledge/stages/delta.py:70-91 `node_fit`.  `range(count)` is empty for a negative `count`. -/
def nodeFit (k : Nat) (node original : Nat) : TM Nat := do
  if (← deref node).isLeaf then TM.pure 0
  else if !(← isRel k (← childId node 0)) then TM.pure 0
  else
    let rel ← treeGet (← childId node 0)
    let ra ← arity rel
    let n := (← childrenIds node).length
    let base := if ra = 1 ∧ n = 2 then 1000 else if (ra : Int) = (n : Int) - 2 then 1000 else 0
    if (← deref rel).isTerminal then TM.pure base
    else
      let count := min (ra : Int) (((← arity node : Nat) : Int) - 2)
      let f ← nodeFitLoop k node original rel 0 count.toNat
      TM.pure (base + f)

/-- `node.children_ids[0] = id`. -/
def setFirst (r : Nat) (id : Int) : TM Unit := setChild r 0 id

/-- `node.children_ids += ids` (in place). -/
def extendChildren (r : Nat) (ids : List Int) : TM Unit := do
  let l ← childrenRef r
  let xs ← readList l
  writeList l (xs ++ ids)

/-- gb/knowledge/stages/delta.py:123-127: the candidate "insert before".  `build rel_id` stands for the call of
`build_candidate`, which is the same in all four cases. -/
def insertBefore (build : Int → TM (List Nat)) (working child : Nat) : TM (List Nat) := do
  if (← childrenIds working).length = 1 then
    let rel ← createNode [← childId child 0, ← childId working 0]
    build ((← elemId rel : Nat) : Int)
  else TM.pure []

/-- gb/knowledge/stages/delta.py:129-141: the candidate "make compound".  The inner test of `rel_left.is_terminal()`
repeats the outer one and is left out. -/
def makeCompound (k : Nat) (build : Int → TM (List Nat)) (relLeft relRight child : Nat) : TM (List Nat) := do
  if (← deref relLeft).isTerminal && (← deref relRight).isTerminal then
    let rel0 ← clone k relLeft
    let rel ← (do
      if (← deref rel0).isTerminal then createNode [((← elemId rel0 : Nat) : Int)] else TM.pure rel0)
    addChild rel (← childId child 0)
    setCompound k true rel
    build ((← elemId rel : Nat) : Int)
  else TM.pure []

/-- gb/knowledge/stages/delta.py:145-150: `rel_left_a` and `rel_left_b`. -/
def splitLeft (relLeft : Nat) : TM (List Int × Int) := do
  let el ← deref relLeft
  if el.isTerminal then TM.pure ([], (el.id : Int))
  else
    let ids ← childrenIds relLeft
    match ids.getLast? with
    | none => TM.raise .indexError
    | some b => TM.pure (ids.dropLast, b)

/-- gb/knowledge/stages/delta.py:151-156: `rel_right_a` and `rel_right_b`. -/
def splitRight (relRight : Nat) : TM (Int × List Int) := do
  let er ← deref relRight
  if er.isTerminal then TM.pure ((er.id : Int), [])
  else
    match (← childrenIds relRight) with
    | [] => TM.raise .indexError
    | a :: b => TM.pure (a, b)

/-- gb/knowledge/stages/delta.py:143-164: the candidate "merge at the center". -/
def mergeCenter (k : Nat) (build : Int → TM (List Nat)) (relLeft relRight : Nat) : TM (List Nat) := do
  if !(← deref relLeft).isTerminal || !(← deref relRight).isTerminal then
    let left ← splitLeft relLeft
    let right ← splitRight relRight
    let center ← createNode [left.2, right.1]
    setCompound k true center
    let rel ← createNode (left.1 ++ [((← elemId center : Nat) : Int)] ++ right.2)
    build ((← elemId rel : Nat) : Int)
  else TM.pure []

/-- gb/knowledge/stages/delta.py:166-178: the candidate "add to first child". -/
def addToFirst (k : Nat) (build : Int → TM (List Nat)) (relRight working child : Nat) : TM (List Nat) := do
  if (← deref relRight).isTerminal then
    let newNode ← clone k working
    let rel0 ← treeGet (← childId working 0)
    let rel ← (do
      let e ← deref rel0
      if !e.isTerminal then clone k rel0 else createNode [(e.id : Int)])
    setFirst newNode ((← elemId rel : Nat) : Int)
    addToFirstChild newNode (← childId child 0) .right
    build (← childId newNode 0)
  else TM.pure []

/-- gb/knowledge/stages/delta.py:116-178: the candidates that merge a candidate of a child. -/
def mergeCandidates (k : Nat) (build : Int → TM (List Nat)) (working child : Nat) : TM (List Nat) := do
  if (← deref child).isLeaf then TM.pure []
  else if !(← isRel k (← childId child 0)) then TM.pure []
  else
    let relLeft ← treeGet (← childId working 0)
    let relRight ← treeGet (← childId child 0)
    let c1 ← insertBefore build working child
    let c2 ← makeCompound k build relLeft relRight child
    let c3 ← mergeCenter k build relLeft relRight
    let c4 ← addToFirst k build relRight working child
    TM.pure (c1 ++ c2 ++ c3 ++ c4)

mutual
/-- gb/knowledge/stages/delta.py:93-101 `find_candidates`; candidates are references. -/
def findCandidates : Nat → Nat → TM (List Nat)
  | 0, _ => TM.raise .outOfFuel
  | k + 1, original => do
    if (← deref original).isLeaf then TM.pure [original]
    else
      let ids ← childrenIds original
      let newNode ← createNode (ids.take 1)
      findCandidatesR k newNode ids.tail
/-- gb/knowledge/stages/delta.py:109-187 `find_candidates_r`; returns the candidates it appends.  The argument
`original_node` is only passed on and is left out. -/
def findCandidatesR : Nat → Nat → List Int → TM (List Nat)
  | 0, _, _ => TM.raise .outOfFuel
  | k + 1, working, [] => do
    flatten k (← getChild working 0)
    TM.pure [working]
  | k + 1, working, childId0 :: toProcess => do
    let childCandidates ← findCandidates k (← treeGet childId0)
    let parts ← TM.mapM (candidatesFor k working childId0 toProcess) childCandidates
    TM.pure parts.flatten
/-- gb/knowledge/stages/delta.py:115-182: the body of the loop over the candidates of a child: merging it, and just
appending the child. -/
def candidatesFor : Nat → Nat → Int → List Int → Nat → TM (List Nat)
  | 0, _, _, _, _ => TM.raise .outOfFuel
  | k + 1, working, childId0, toProcess, child => do
    let merged ← mergeCandidates k (fun relId => buildCandidate k working relId child toProcess) working child
    let newNode ← clone k working
    extendChildren newNode [childId0]
    let c5 ← findCandidatesR k newNode toProcess
    TM.pure (merged ++ c5)
/-- gb/knowledge/stages/delta.py:103-107 `build_candidate`; `toProcess` is `to_process[1:]`. -/
def buildCandidate : Nat → Nat → Int → Nat → List Int → TM (List Nat)
  | 0, _, _, _, _ => TM.raise .outOfFuel
  | k + 1, working, relId, child, toProcess => do
    let newNode ← clone k working
    setFirst newNode relId
    extendChildren newNode (← childrenIds child).tail
    findCandidatesR k newNode toProcess
end

/-- gb/knowledge/stages/delta.py:196-201: the loop choosing the best candidate. -/
def bestCandidate (k : Nat) (entity : Nat) : List Nat → Option Nat → Int → TM (Option Nat)
  | [], best, _ => TM.pure best
  | c :: cs, best, bestFit => do
    let fit ← nodeFit k c entity
    if (fit : Int) > bestFit then bestCandidate k entity cs (some c) (fit : Int)
    else bestCandidate k entity cs best bestFit

/-- gb/knowledge/stages/delta.py:189-204 `process_entity`. -/
def deltaEntity (k : Nat) (id : Int) : TM Int := do
  let entity ← treeGet id
  if (← deref entity).isTerminal then TM.pure id
  else if !(← isRel k (← childId entity 0)) then TM.pure id
  else
    let cands ← findCandidates k entity
    match (← bestCandidate k entity cands none (-1)) with
    | none => TM.raise .attributeError
    | some b => do TM.pure ((← elemId b : Nat) : Int)

/-- gb/knowledge/stages/delta.py:206-208 `process`. -/
def deltaStage (k : Nat) : TM Unit := do
  setRootId (← deltaEntity k ((← rootIdM : Nat) : Int))

/-! ### epsilon -/

/-- gb/knowledge/stages/epsilon.py:38-45 `compound_entity_to_leafs` (each leaf given by its word). -/
def compoundEntityToLeafs : Nat → Nat → TM (List Str)
  | 0, _ => TM.raise .outOfFuel
  | k + 1, r => do
    match (← deref r).body with
    | .leaf t => TM.pure [t.word]
    | .node _ _ _ _ => do
      let parts ← TM.mapM (compoundEntityToLeafs k) (← children r)
      TM.pure parts.flatten

/-- gb/knowledge/stages/epsilon.py:30-59 `build_hyperedges`: the main edge.  `'/'.join` with a namespace `None`
raises `TypeError`. -/
def buildHyperedges {F : Type} : Nat → Nat → TM (Val F)
  | 0, _ => TM.raise .outOfFuel
  | k + 1, r => do
    let e ← deref r
    match e.body with
    | .leaf t =>
      match e.nspace with
      | none => TM.raise .typeError
      | some ns => TM.pure (.str (symBuild [t.word, ns]))
    | .node _ _ _ c =>
      if c then do
        let words ← compoundEntityToLeafs k r
        TM.pure (.str (symBuild [pyJoin (lit "_") words, lit "?"]))
      else do
        let es ← TM.mapM (buildHyperedges k) (← children r)
        TM.pure (.seq false es)

/-- gb/knowledge/stages/epsilon.py:61-62 `process`; `tree.root()` asserts that there is a root. -/
def epsilonStage {F : Type} (k : Nat) : TM (Val F) := fun h =>
  match h.rootId with
  | none => .error .assertionError
  | some i => (do buildHyperedges k (← treeGet (i : Int)) : TM (Val F)) h

end GB
