import Verif.Model.HyperGraph

/-
Model of gb/hypergraph/queries.py.  Nodes are hashable values of a type `α` with decidable equality.
-/

namespace GB

/-! ### Walk maps -/

section
variable {α : Type} [DecidableEq α]

/-- A dict from nodes to walk lengths. -/
abbrev WMap (α : Type) := List (α × Nat)

/-- `wmap[step]`, if present. -/
def WMap.get (m : WMap α) (a : α) : Option Nat := (m.find? fun kv => kv.1 = a).map (·.2)

/-- `wmap[step] = n`. -/
def WMap.set (m : WMap α) (a : α) (n : Nat) : WMap α :=
  if m.any fun kv => kv.1 = a then m.map fun kv => if kv.1 = a then (a, n) else kv
  else m ++ [(a, n)]

/-- gb/hypergraph/queries.py:91-93 `walk_step2wmap`. -/
def walkStep2wmap (m : WMap α) (walkLength : Nat) (step : α) : WMap α :=
  match m.get step with
  | none => m.set step walkLength
  | some n => if walkLength < n then m.set step walkLength else m

/-- gb/hypergraph/queries.py:96-99 `walk2wmap`. -/
def walk2wmap (m : WMap α) (walk : List α) : WMap α :=
  walk.foldl (fun m step => walkStep2wmap m walk.length step) m

/-- gb/hypergraph/queries.py:102-106 `walks2wmap`. -/
def walks2wmap (wks : List (List α)) : WMap α := wks.foldl walk2wmap []

/-- gb/hypergraph/queries.py:109-114 `valid_step`. -/
def validStep (m : WMap α) (nodes : List α) (walkLength : Nat) (step : α) : Except PyErr Bool :=
  if step ∈ nodes then .ok true
  else
    match m.get step with
    | none => .error .keyError
    | some n => .ok (decide (walkLength = n))

/-- gb/hypergraph/queries.py:119-122: the loop of `valid_walk`. -/
def validSteps (m : WMap α) (nodes : List α) (walkLength : Nat) : List α → Except PyErr Bool
  | [] => .ok true
  | step :: steps => do
    let b ← validStep m nodes walkLength step
    if !b then .ok false else validSteps m nodes walkLength steps

/-- gb/hypergraph/queries.py:117-122 `valid_walk`. -/
def validWalk (m : WMap α) (nodes walk : List α) : Except PyErr Bool :=
  validSteps m nodes walk.length walk

/-- gb/hypergraph/queries.py:63-67 `interedge`. -/
def interedge (edge interverts : List α) : Bool := edge.tail.all fun v => decide (v ∈ interverts)

/-- gb/hypergraph/queries.py:33-34 `add_neighbours`, as a list of the elements of the set. -/
def addNeighbours (neighbours edge : List α) : List α := (neighbours ++ edge.tail).eraseDups

/-- A vertex map: dict from nodes to edges and neighbours (gb/hypergraph/queries.py:37-42). -/
abbrev VEMap (α : Type) := List (α × List (List α) × List α)

/-- gb/hypergraph/queries.py:38-40: the entry of `vid` is made if there is none, and gets the edge. -/
def VEMap.addEdge (m : VEMap α) (vid : α) (edge : List α) : VEMap α :=
  if m.any fun kv => kv.1 = vid then m.map fun kv => if kv.1 = vid then (kv.1, kv.2.1 ++ [edge], kv.2.2) else kv
  else m ++ [(vid, [edge], [])]

/-- gb/hypergraph/queries.py:37-42 `vemap_assoc_id_edge`, with the map it leaves: line 41 looks up the builtin function
`id`, which is never a key. -/
def vemapAssocIdEdge (m : VEMap α) (vid : α) (edge : List α) : Except PyErr Unit × VEMap α :=
  (.error .keyError, m.addEdge vid edge)

/-- gb/hypergraph/queries.py:45-48 `vemap_plus_edge`, the loop over the vertices `vs` of `edge`. -/
def vemapPlusEdge (m : VEMap α) (edge : List α) : List α → Except PyErr Unit × VEMap α
  | [] => (.ok (), m)
  | vid :: vs =>
    match vemapAssocIdEdge m vid edge with
    | (.ok (), m') => vemapPlusEdge m' edge vs
    | (.error e, m') => (.error e, m')

/-- gb/hypergraph/queries.py:51-54 `edges2vemap`. -/
def edges2vemap (m : VEMap α) : List (List α) → Except PyErr Unit × VEMap α
  | [] => (.ok (), m)
  | edge :: edges =>
    match vemapPlusEdge m edge edge with
    | (.ok (), m') => edges2vemap m' edges
    | (.error e, m') => (.error e, m')

/-- `vemap[k]['neighbours']`. -/
def VEMap.neighbours (m : VEMap α) (a : α) : Except PyErr (List α) :=
  match m.find? fun kv => kv.1 = a with
  | some kv => .ok kv.2.2
  | none => .error .keyError

/-- `walk[-1]`. -/
def lastOf (walk : List α) : Except PyErr α :=
  match walk.getLast? with
  | some a => .ok a
  | none => .error .indexError

/-- gb/hypergraph/queries.py:70-88 `walks`: the walks added to `all_walks`.  A walk is a list, which cannot be put
into a set (line 77: `TypeError`).  `fuel` bounds the recursion depth. -/
def walks (vemap : VEMap α) (nodes : List α) : Nat → List α → Except PyErr (List (List α))
  | 0, _ => .error .outOfFuel
  | fuel + 1, walk =>
    if nodes.all fun n => decide (n ∈ walk) then .error .typeError
    else do
      let last ← lastOf walk
      let neighbours ← vemap.neighbours last
      let nextSteps := neighbours.filter fun n => !decide (n ∈ walk)
      nextSteps.foldlM (fun acc step => do
        let wks ← walks vemap nodes fuel (walk ++ [step])
        .ok (acc ++ wks)) []

end

/-! ### Neighbourhoods -/

variable {F : Type} [PyFloat F]

/-- gb/hypergraph/queries.py:23-25: the loop of `exclude_edge`. -/
def excludeLoop : List (Val F) → M Bool
  | [] => pure false
  | vertex :: vs => do
    if (← hgDegree vertex) > 250 then pure true else excludeLoop vs

/-- gb/hypergraph/queries.py:22-26 `exclude_edge`. -/
def excludeEdge (edge : Val F) : M Bool := do
  let vs ← liftE edge.iter
  excludeLoop vs.tail

/-- gb/hypergraph/queries.py:29-30 `include_edge`. -/
def includeEdge (edge : Val F) : M Bool := do
  let b ← excludeEdge edge
  pure (!b)

/-- gb/hypergraph/queries.py:57-60 `node2edges`.  What follows the call of `ego` is not modelled, because with a
positive depth it never returns (`C44_ego_counterexample`); the result type is a placeholder. -/
def node2edges (node : Val F) : M (List (List (Val F))) := do
  let _ ← hgEgo node 2
  raise .typeError

/-- gb/hypergraph/queries.py:126: the list comprehension over the seeds. -/
def edgesets : List (Val F) → M (List (List (List (Val F))))
  | [] => pure []
  | seed :: seeds => do
    let es ← node2edges seed
    let rest ← edgesets seeds
    pure (es :: rest)

/-- `seeds[0]`. -/
def seed0 (seeds : List (Val F)) : Except PyErr (Val F) :=
  match seeds with
  | [] => .error .indexError
  | s :: _ => .ok s

/-- gb/hypergraph/queries.py:125-138 `intersect`, up to line 131 (`[seeds[0]]`), after which nothing is reached. -/
def hgIntersect (seeds : List (Val F)) : M (List (List (Val F))) := do
  let _ ← edgesets seeds
  let _ ← liftE (seed0 seeds)
  raise .typeError

end GB
