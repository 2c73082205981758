import Verif.Model.HyperGraph

/-
Additions with SQLite, where a time stamp that does not fit into 64 bits makes the driver raise `OverflowError` when it
binds the parameters of the statement.  (In the base model, Model/Sql.lean, time stamps are assumed to fit.)
-/

namespace GB

variable {F : Type} [PyFloat F]

/-- An INTEGER column of SQLite (gb/hypergraph/sqlite.py:46-47) holds signed 64-bit numbers. -/
def fits64 (n : Int) : Bool := decide (-(2 ^ 63) ≤ n) && decide (n < 2 ^ 63)

/-- `cur.execute(...)` of a writing statement with an integer parameter: a closed cursor is noticed first; a parameter
that does not fit raises `OverflowError` before the statement runs. -/
def execBound {α : Type} (ok : Bool) (c : Cursor) (q : DB → Option (α × DB)) : M α := fun s =>
  if c = .shared ∧ s.cur = some false then (.error .programmingError, s)
  else if ok then execWrite c q s
  else (.error .overflowError, s)

/-- gb/hypergraph/sql.py:133-147 `update_or_insert` on table `vertices`, with parameters that are checked. -/
def updateOrInsertVertex64 (id : Str) (deg ts : Int) : M Unit := do
  let cur ← openCursor true
  let rowcount ← execBound (fits64 ts) cur fun db => some (db.updateVertex id deg ts)
  if rowcount = 0 then
    execBound (fits64 ts) cur fun db => db.insertVertex id deg ts
  closeCursor true true

/-- gb/hypergraph/sql.py:228-230: the loop body of `add_raw`. -/
def addVert64 (ts : Int) (vert : Val F) : M Unit := do
  let vertStr := edge2str vert
  let known ← incDegree vertStr
  if !known then updateOrInsertVertex64 vertStr 1 ts

/-- gb/hypergraph/sql.py:224-233 `add_raw`. -/
def addRaw64 (edge : Val F) (ts : Int) : M (Val F) := do
  let present ← existsM edge
  if !present then
    let verts ← liftE edge.iter
    forEach (addVert64 ts) verts
    updateOrInsertVertex64 (edge2str edge) 0 ts
    writeEdgePermutations verts
  pure edge

/-- gb/hypergraph/sql.py:235-245, gb/hypergraph/hypergraph.py:48-51 `add`. -/
def hgAdd64 (edges : Val F) (ts : Int) : M (Val F) := do
  let first ← liftE edges.head0
  if first.isSeq then
    let _ ← openCursor false
    let es ← liftE edges.iter
    forEach (fun e => do let _ ← addRaw64 e ts) es
    closeCursor false true
  else
    let _ ← addRaw64 edges ts
  pure edges

/-- gb/hypergraph/hypergraph.py:113-127 `add_belief`. -/
def hgAddBelief64 (source edges : Val F) (ts : Int) : M Unit := do
  let arg ← liftE (beliefEdges source edges)
  let _ ← hgAdd64 arg ts

end GB
