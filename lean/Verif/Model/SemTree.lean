import Verif.Model.Token

/-
Model of gb/knowledge/semantic_tree.py.  Python objects and lists live in a heap: elements (Leaf, Node) have
references, `children_ids` is a reference to a list object (lists are shared and changed in place), and the table maps
ids to element references.  Functions that recurse over the heap have a recursion budget.
-/

namespace GB

/-- What distinguishes leaves and nodes (gb/knowledge/semantic_tree.py:163-166, 215-224).  `children` is a reference to
a list object. -/
inductive Body where
  | leaf (token : TokInfo)
  | node (children : Nat) (layerIds : List Nat) (layerId : Int) (compound : Bool)
  deriving DecidableEq, Repr

/-- An element (gb/knowledge/semantic_tree.py:91-95). -/
structure Elem where
  id : Nat
  nspace : Option Str
  body : Body
  deriving DecidableEq, Repr

/-- A tree (gb/knowledge/semantic_tree.py:31-34) and the heap.  `table` maps ids to references; `cur_id` is its
length, because ids are only ever added one after the other. -/
structure SemTree where
  rootId : Option Nat
  table : List Nat
  objs : List Elem
  lists : List (List Int)
  deriving DecidableEq, Repr

/-- A new tree. -/
def SemTree.new : SemTree := ⟨none, [], [], []⟩

/-- A call that may change the heap or raise. -/
def TM (α : Type) : Type := SemTree → Except PyErr (α × SemTree)

namespace TM
/-- Return a value. -/
def pure {α : Type} (a : α) : TM α := fun h => .ok (a, h)
/-- Sequencing. -/
def bind {α β : Type} (x : TM α) (f : α → TM β) : TM β := fun h =>
  match x h with
  | .ok (a, h') => f a h'
  | .error e => .error e
end TM

instance : Monad TM where
  pure := TM.pure
  bind := TM.bind

/-- Raise an exception. -/
def TM.raise {α : Type} (e : PyErr) : TM α := fun _ => .error e

/-- `for x in xs: f(x)`. -/
def TM.forEach {α : Type} (f : α → TM Unit) : List α → TM Unit
  | [] => TM.pure ()
  | x :: xs => do
    f x
    TM.forEach f xs

/-- `[f(x) for x in xs]`. -/
def TM.mapM {α β : Type} (f : α → TM β) : List α → TM (List β)
  | [] => TM.pure []
  | x :: xs => do
    let y ← f x
    let ys ← TM.mapM f xs
    TM.pure (y :: ys)

/-- `for x in xs: if f(x): return True` and `return False` after the loop. -/
def TM.anyM {α : Type} (f : α → TM Bool) : List α → TM Bool
  | [] => TM.pure false
  | x :: xs => do
    if (← f x) then TM.pure true else TM.anyM f xs

/-- `for x in xs: if not f(x): return False` and `return True` after the loop. -/
def TM.allM {α : Type} (f : α → TM Bool) : List α → TM Bool
  | [] => TM.pure true
  | x :: xs => do
    if (← f x) then TM.allM f xs else TM.pure false

/-! Heap access -/

/-- The object behind a reference. -/
def deref (r : Nat) : TM Elem := fun h =>
  match h.objs[r]? with
  | some e => .ok (e, h)
  | none => .error .attributeError

/-- Change an object. -/
def setObj (r : Nat) (e : Elem) : TM Unit := fun h => .ok ((), { h with objs := h.objs.set r e })

/-- A new object. -/
def newObj (e : Elem) : TM Nat := fun h => .ok (h.objs.length, { h with objs := h.objs ++ [e] })

/-- A new list object. -/
def newList (xs : List Int) : TM Nat := fun h => .ok (h.lists.length, { h with lists := h.lists ++ [xs] })

/-- The contents of a list object. -/
def readList (l : Nat) : TM (List Int) := fun h =>
  match h.lists[l]? with
  | some xs => .ok (xs, h)
  | none => .error .attributeError

/-- Change a list object in place. -/
def writeList (l : Nat) (xs : List Int) : TM Unit := fun h => .ok ((), { h with lists := h.lists.set l xs })

/-- The list object `node.children_ids`; a leaf has no such attribute. -/
def childrenRef (r : Nat) : TM Nat := do
  match (← deref r).body with
  | .node l _ _ _ => TM.pure l
  | .leaf _ => TM.raise .attributeError

/-- The contents of `node.children_ids`. -/
def childrenIds (r : Nat) : TM (List Int) := do
  let l ← childrenRef r
  readList l

/-- `node.children_ids[i]`. -/
def childId (r : Nat) (i : Nat) : TM Int := do
  match (← childrenIds r)[i]? with
  | some c => TM.pure c
  | none => TM.raise .indexError

/-! class Tree -/

/-- gb/knowledge/semantic_tree.py:36-39 `get`, of a number. -/
def treeGet (id : Int) : TM Nat := fun h =>
  if id < 0 then .error .keyError
  else match h.table[id.toNat]? with
    | some r => .ok (r, h)
    | none => .error .keyError

/-- `self.cur_id`. -/
def curId : TM Nat := fun h => .ok (h.table.length, h)

/-- `self.table[id] = elem`, for an id in use. -/
def tableSet (id : Nat) (r : Nat) : TM Unit := fun h => .ok ((), { h with table := h.table.set id r })

/-- `self.table[self.cur_id] = elem` and `self.cur_id += 1`. -/
def tablePush (r : Nat) : TM Unit := fun h => .ok ((), { h with table := h.table ++ [r] })

/-- gb/knowledge/semantic_tree.py:41-43 `set`, for an id in use. -/
def treeSet (id : Nat) (r : Nat) : TM Unit := do
  let e ← deref r
  setObj r { e with id := id }
  tableSet id r

/-- gb/knowledge/semantic_tree.py:45-47 `add`. -/
def treeAdd (r : Nat) : TM Unit := do
  let e ← deref r
  let cur ← curId
  setObj r { e with id := cur }
  tablePush r

/-- gb/knowledge/semantic_tree.py:53-57 `create_leaf` (the `id` given first is a placeholder for `None`). -/
def createLeaf (tok : TokInfo) : TM Nat := do
  let r ← newObj ⟨0, none, .leaf tok⟩
  treeAdd r
  TM.pure r

/-- gb/knowledge/semantic_tree.py:59-63 `create_node`, with a list object. -/
def createNodeWith (l : Nat) : TM Nat := do
  let r ← newObj ⟨0, none, .node l [] (-1) false⟩
  treeAdd r
  TM.pure r

/-- gb/knowledge/semantic_tree.py:59-63 `create_node`, with a new list. -/
def createNode (ids : List Int) : TM Nat := do
  let l ← newList ids
  createNodeWith l

/-- `elem.id`. -/
def elemId (r : Nat) : TM Nat := do
  TM.pure (← deref r).id

/-- gb/knowledge/semantic_tree.py:65-70 `enclose`. -/
def enclose (r : Nat) : TM Nat := do
  let nodeId ← elemId r
  treeAdd r
  let node ← createNode [((← elemId r : Nat) : Int)]
  treeSet nodeId node
  TM.pure node

/-- gb/knowledge/semantic_tree.py:72-77 `disenclose`; the assertions are those of the code. -/
def disenclose (r : Nat) : TM Unit := do
  match (← deref r).body with
  | .leaf _ => TM.raise .assertionError
  | .node l _ _ _ =>
    match (← readList l) with
    | [] => TM.raise .assertionError
    | c :: _ => do
      let entityId ← elemId r
      let inner ← treeGet c
      treeSet entityId inner

/-! Elements -/

/-- `is_leaf` (gb/knowledge/semantic_tree.py:97-98). -/
def Elem.isLeaf (e : Elem) : Bool := match e.body with
  | .leaf _ => true
  | .node _ _ _ _ => false

/-- `is_node` (gb/knowledge/semantic_tree.py:100-101). -/
def Elem.isNode (e : Elem) : Bool := !e.isLeaf

/-- `is_terminal` (gb/knowledge/semantic_tree.py:106-107, 290-291). -/
def Elem.isTerminal (e : Elem) : Bool := match e.body with
  | .leaf _ => true
  | .node _ _ _ c => c

/-- `get_child(i)` (gb/knowledge/semantic_tree.py:231-232). -/
def getChild (r : Nat) (i : Nat) : TM Nat := do
  treeGet (← childId r i)

/-- `children()` (gb/knowledge/semantic_tree.py:234-235). -/
def children (r : Nat) : TM (List Nat) := do
  TM.mapM treeGet (← childrenIds r)

/-- `set_child(i, id)` (gb/knowledge/semantic_tree.py:237-238); the index is in range where it is called. -/
def setChild (r : Nat) (i : Nat) (id : Int) : TM Unit := do
  let l ← childrenRef r
  let xs ← readList l
  writeList l (xs.set i id)

/-- gb/knowledge/semantic_tree.py:173-175, 294-295 `add_child`. -/
def addChild (r : Nat) (id : Int) : TM Unit := do
  let node ← (do
    if (← deref r).isLeaf then enclose r else TM.pure r)
  let l ← childrenRef node
  let xs ← readList l
  writeList l (xs ++ [id])

/-- gb/knowledge/semantic_tree.py:26-27 `Position`. -/
inductive Position where
  | left
  | right
  deriving DecidableEq, Repr

/-- gb/knowledge/semantic_tree.py:298-308 `add_to_first_child` of a node. -/
def addToFirstChildNode (r : Nat) (id : Int) (pos : Position) : TM Unit := do
  match (← childrenIds r) with
  | [] => TM.raise .indexError
  | _ :: _ => do
    let c ← getChild r 0
    if (← deref c).isTerminal then
      let n ← enclose c
      setChild r 0 ((← elemId n : Nat) : Int)
    let c' ← getChild r 0
    let l ← childrenRef c'
    let xs ← readList l
    if pos = .right then writeList l (xs ++ [id]) else writeList l (id :: xs)

/-- gb/knowledge/semantic_tree.py:178-180, 298-308 `add_to_first_child`. -/
def addToFirstChild (r : Nat) (id : Int) (pos : Position) : TM Unit := do
  let node ← (do
    if (← deref r).isLeaf then enclose r else TM.pure r)
  addToFirstChildNode node id pos

/-- gb/knowledge/semantic_tree.py:183-185, 311-320 `nest`. -/
def nest (r : Nat) (id : Int) : TM Unit := do
  let node ← (do
    if (← deref r).isLeaf then enclose r else TM.pure r)
  let elem ← treeGet id
  let ids ← (do
    if (← deref elem).isLeaf then TM.pure [id, -1]
    else
      match (← childrenIds elem) with
      | [] => TM.raise .indexError
      | rel :: rest => TM.pure (rel :: -1 :: rest))
  let layer ← createNode ids
  let layerId ← elemId layer
  let e ← deref node
  match e.body with
  | .node l lids _ c => setObj node { e with body := .node l lids (layerId : Int) c }
  | .leaf _ => TM.raise .attributeError

/-- gb/knowledge/semantic_tree.py:240-243 `new_layer`. -/
def newLayer (r : Nat) : TM Unit := do
  let e ← deref r
  match e.body with
  | .node l lids lid c =>
    if lid ≥ 0 then setObj r { e with body := .node l (lids ++ [lid.toNat]) (-1) c } else TM.pure ()
  | .leaf _ => TM.raise .attributeError

/-- gb/knowledge/semantic_tree.py:250-252: the id that fills the gap. -/
def gapId (child : Nat) : TM Int := do
  match (← childrenIds child) with
  | [c] => TM.pure c
  | _ => TM.pure ((← elemId child : Nat) : Int)

mutual
/-- gb/knowledge/semantic_tree.py:245-257 `apply_layer`. -/
def applyLayer : Nat → Nat → Nat → TM Bool
  | 0, _, _ => TM.raise .outOfFuel
  | k + 1, entity, layer => do
    if (← deref layer).isLeaf then TM.pure false
    else applyLayerLoop k entity layer 0 (← childrenIds layer).length
/-- The loop of `apply_layer` from index `i`, with `m` iterations to go. -/
def applyLayerLoop : Nat → Nat → Nat → Nat → Nat → TM Bool
  | _, _, _, _, 0 => TM.pure false
  | k, entity, layer, i, m + 1 => do
    if (← childId layer i) < 0 then
      let child ← createNodeWith (← childrenRef entity)
      setChild layer i (← gapId child)
      TM.pure true
    else
      if (← applyLayer k entity (← getChild layer i)) then TM.pure true
      else applyLayerLoop k entity layer (i + 1) m
end

/-- gb/knowledge/semantic_tree.py:262-265: the loop of `apply_layers`; returns the last `prev_layer`. -/
def applyLayersLoop (k : Nat) : List Nat → Nat → TM Nat
  | [], prev => TM.pure prev
  | lid :: lids, prev => do
    let layer ← treeGet (lid : Int)
    let _ ← applyLayer k prev layer
    applyLayersLoop k lids layer

/-- gb/knowledge/semantic_tree.py:112-114, 259-267 `apply_layers`. -/
def applyLayers (k : Nat) (r : Nat) : TM Unit := do
  match (← deref r).body with
  | .leaf _ => TM.pure ()
  | .node _ lids _ _ => do
    let prev ← applyLayersLoop k lids.reverse r
    let l ← childrenRef prev
    let e ← deref r
    match e.body with
    | .node _ _ lid c => setObj r { e with body := .node l [] lid c }
    | .leaf _ => TM.raise .attributeError

/-- gb/knowledge/semantic_tree.py:116-118, 323-328 `remove_redundant_nesting` of an element. -/
def removeRedundantNesting : Nat → Nat → TM Unit
  | 0, _ => TM.raise .outOfFuel
  | k + 1, r => do
    if (← deref r).isLeaf then TM.pure ()
    else do
      TM.forEach (fun c => do removeRedundantNesting k (← treeGet c)) (← childrenIds r)
      match (← childrenIds r) with
      | [c] => do
        if (← deref (← treeGet c)).isNode then disenclose r else TM.pure ()
      | _ => TM.pure ()

/-- gb/knowledge/semantic_tree.py:188-189, 331-336 `has_pos` (never called with `shallow`). -/
def hasPos : Nat → Str → Nat → TM Bool
  | 0, _, _ => TM.raise .outOfFuel
  | k + 1, pos, r => do
    match (← deref r).body with
    | .leaf tok => TM.pure (decide (tok.pos = pos))
    | .node l _ _ _ => do
      TM.anyM (hasPos k pos) (← TM.mapM treeGet (← readList l))

/-- gb/knowledge/semantic_tree.py:282-287: the setter of `compound`, of a node. -/
def setCompound : Nat → Bool → Nat → TM Unit
  | 0, _, _ => TM.raise .outOfFuel
  | k + 1, b, r => do
    let e ← deref r
    match e.body with
    | .leaf _ => TM.raise .attributeError
    | .node l lids lid _ => do
      setObj r { e with body := .node l lids lid b }
      TM.forEach (fun c => do
        if (← deref c).isNode then setCompound k b c else TM.pure ()) (← children r)

/-- gb/knowledge/semantic_tree.py:196-197, 347-351 `arity`. -/
def arity (r : Nat) : TM Nat := do
  match (← deref r).body with
  | .leaf _ => TM.pure 1
  | .node l _ _ c => if c then TM.pure 1 else do TM.pure (← readList l).length

/-- gb/knowledge/semantic_tree.py:82-84, 169-170, 226-229 `clone`. -/
def clone : Nat → Nat → TM Nat
  | 0, _ => TM.raise .outOfFuel
  | k + 1, r => do
    match (← deref r).body with
    | .leaf _ => TM.pure r
    | .node l _ _ _ => do
      let ids ← TM.mapM (fun c => do
        let n ← clone k (← treeGet c)
        TM.pure ((← elemId n : Nat) : Int)) (← readList l)
      let n ← createNode ids
      let compound := match (← deref r).body with
        | .node _ _ _ c => c
        | .leaf _ => false
      let e ← deref n
      match e.body with
      | .node l' lids lid _ => setObj n { e with body := .node l' lids lid compound }
      | .leaf _ => TM.raise .attributeError
      TM.pure n

/-- gb/knowledge/semantic_tree.py:120-122, 354-363 `flatten`. -/
def flatten : Nat → Nat → TM Unit
  | 0, _ => TM.raise .outOfFuel
  | k + 1, r => do
    match (← deref r).body with
    | .leaf _ => TM.pure ()
    | .node l _ _ _ => do
      let parts ← TM.mapM (fun c => do
        let child ← treeGet c
        flatten k child
        let e ← deref child
        if e.isTerminal then TM.pure [(e.id : Int)] else childrenIds child) (← readList l)
      let l' ← newList parts.flatten
      let e ← deref r
      match e.body with
      | .node _ lids lid c => setObj r { e with body := .node l' lids lid c }
      | .leaf _ => TM.raise .attributeError

/-- gb/knowledge/semantic_tree.py:200-201, 366-370 `flat_leafs` (each leaf given by its token). -/
def flatLeafs : Nat → Nat → TM (List TokInfo)
  | 0, _ => TM.raise .outOfFuel
  | k + 1, r => do
    match (← deref r).body with
    | .leaf tok => TM.pure [tok]
    | .node _ _ _ _ => do
      let parts ← TM.mapM (flatLeafs k) (← children r)
      TM.pure parts.flatten

/-- gb/knowledge/semantic_tree.py:203-208, 372-384 `==` of elements; `!=` is its negation. -/
def elemEq : Nat → Nat → Nat → TM Bool
  | 0, _, _ => TM.raise .outOfFuel
  | k + 1, a, b => do
    match (← deref a).body, (← deref b).body with
    | .leaf t, .leaf u => TM.pure (t.eq u)
    | .leaf _, .node _ _ _ _ => TM.pure false
    | .node _ _ _ _, .leaf _ => TM.pure false
    | .node _ _ _ _, .node _ _ _ _ => do
      let c1 ← children a
      let c2 ← children b
      if c1.length ≠ c2.length then TM.pure false
      else
        TM.allM (fun p => elemEq k p.1 p.2) (c1.zip c2)

/-- gb/knowledge/semantic_tree.py:210-211, 386-391 `str(elem)`. -/
def elemStr : Nat → Nat → TM Str
  | 0, _ => TM.raise .outOfFuel
  | k + 1, r => do
    match (← deref r).body with
    | .leaf tok => TM.pure tok.word
    | .node l _ _ c => do
      let strs ← TM.mapM (fun i => do elemStr k (← treeGet i)) (← readList l)
      if c then TM.pure (pyJoin (lit "_") strs)
      else TM.pure (lit "(" ++ pyJoin (lit " ") strs ++ lit ")")

/-- gb/knowledge/semantic_tree.py:86-87 `str(tree)`: `str(None)` without a root. -/
def treeStr (k : Nat) : TM Str := fun h =>
  match h.rootId with
  | none => .ok (lit "None", h)
  | some i => (do elemStr k (← treeGet (i : Int)) : TM Str) h

end GB
