import Verif.Model.Sql

/-
Model of gb/hypergraph/hypergraph.py with an SQL backend.
-/

namespace GB

variable {F : Type} [PyFloat F]

/-- gb/hypergraph/constants.py:23 `source`. -/
def constSource : Str := lit "src/1"

/-- gb/hypergraph/hypergraph.py:44-46 `exists`. -/
def hgExists (vertex : Val F) : M Bool := existsM vertex

/-- gb/hypergraph/hypergraph.py:48-51 `add`. -/
def hgAdd (edges : Val F) (ts : Int) : M (Val F) := sqlAdd edges ts

/-- gb/hypergraph/hypergraph.py:53-56 `remove`. -/
def hgRemove (edges : Val F) : M Unit := sqlRemove edges

/-- gb/hypergraph/hypergraph.py:58-61 `pattern2edges`. -/
def hgPattern2edges (pattern : Val F) : M (List (Val F)) := pattern2edges pattern

/-- gb/hypergraph/hypergraph.py:63-66 `star`. -/
def hgStar (center : Val F) : M (List (Val F)) := sqlStar center

/-- gb/hypergraph/hypergraph.py:68-70 `symbols_with_root`. -/
def hgSymbolsWithRoot (root : Str) : M (List Str) := symbolsWithRoot root

/-- gb/hypergraph/hypergraph.py:72-74 `destroy`. -/
def hgDestroy : M Unit := sqlDestroy

/-- gb/hypergraph/hypergraph.py:76-78 `degree`. -/
def hgDegree (vertex : Val F) : M Int := sqlDegree vertex

/-- gb/hypergraph/hypergraph.py:80-82 `timestamp`. -/
def hgTimestamp (vertex : Val F) : M Int := sqlTimestamp vertex

/-- gb/hypergraph/hypergraph.py:84-89 `batch_exec`. -/
def hgBatchExec (funs : List (M Unit)) : M Unit := sqlBatchExec funs

/-- gb/hypergraph/hypergraph.py:91-95 `f_all`. -/
def hgFAll {β : Type} (f : Val F → Int → β) : M (List β) := sqlFAll f

/-- gb/hypergraph/hypergraph.py:97-101 `remove_by_pattern`. -/
def hgRemoveByPattern (pattern : Val F) : M Unit := do
  let edges ← hgPattern2edges pattern
  forEach hgRemove edges

/-- gb/hypergraph/hypergraph.py:104-111 `ego`.  `edges[1:]` is applied to the set returned by
`star` and raises `TypeError`, so nothing after it can run.  `none` is the implicit `None`
returned when `depth <= 0`. -/
def hgEgo (center : Val F) (depth : Int) : M (Option (List (Val F))) :=
  if depth > 0 then do
    let _ ← hgStar center
    raise .typeError
  else pure none

/-- gb/hypergraph/hypergraph.py:120-127: the argument `add_belief` passes to `self.add`. -/
def beliefEdges (source edges : Val F) : Except PyErr (Val F) := do
  let first ← edges.head0
  if first.isSeq then
    let es ← edges.iter
    .ok (.seq true (es.flatMap fun e => [e, .tup [.str constSource, e, source]]))
  else
    .ok (.tup [edges, .tup [.str constSource, edges, source]])

/-- gb/hypergraph/hypergraph.py:113-127 `add_belief`. -/
def hgAddBelief (source edges : Val F) (ts : Int) : M Unit := do
  let arg ← liftE (beliefEdges source edges)
  let _ ← hgAdd arg ts

/-- `e[2]`. -/
def Val.item2 (e : Val F) : Except PyErr (Val F) := do
  match (← e.iter)[2]? with
  | Option.some x => .ok x
  | Option.none => .error .indexError

/-- gb/hypergraph/hypergraph.py:129-133 `sources`. -/
def hgSources (edge : Val F) : M (List (Val F)) := do
  let edges ← hgPattern2edges (.tup [.str constSource, edge, .none])
  let srcs ← liftE (mapE Val.item2 edges)
  pure (pySet srcs)

/-- gb/hypergraph/hypergraph.py:135-141 `remove_belief`. -/
def hgRemoveBelief (source edge : Val F) : M Unit := do
  hgRemove (.tup [.str constSource, edge, source])
  let srcs ← hgSources edge
  if srcs.length = 0 then hgRemove edge

end GB
