import Verif.Model.History

/-
The MySQL backend (gb/hypergraph/mysql.py) where the server differs from SQLite in ways the code of
gb/hypergraph/sql.py can notice:

* `cur.rowcount` after an `UPDATE` counts the rows whose contents *changed* (MySQLdb connects without
  `CLIENT.FOUND_ROWS`, gb/hypergraph/mysql.py:41), while SQLite counts the rows that matched;
* the primary keys are on the first 250 characters of the text only (gb/hypergraph/mysql.py:50, 57), so an `INSERT`
  fails if any row agrees with the new one in the first `k` characters (`k` = 250).

The methods that contain no such statement are those of Model/Sql.lean; so are all reading statements.  Here texts
are compared character by character, as with a binary collation; Model/Collation.lean has the collation of the tables.
The character sets of the connection and the columns are in Model/Encode.lean.  Not modelled: the length limit 10000 of the
columns.
-/

namespace GB

variable {F : Type} [PyFloat F] [DecidableEq F]

/-- `UPDATE vertices SET id=%s,degree=%s,timestamp=%s WHERE id=%s`: `rowcount` is the number of changed rows. -/
def DB.myUpdateVertex (db : DB) (id : Str) (deg ts : Int) : Nat × DB :=
  (db.vertices.countP fun r => decide (r.id = id) && decide (r ≠ ⟨id, deg, ts⟩),
   { db with vertices := db.vertices.map fun r => if r.id = id then ⟨id, deg, ts⟩ else r })

/-- `INSERT INTO vertices (id,degree,timestamp) values (%s,%s,%s)` with `PRIMARY KEY (id(k))`
(gb/hypergraph/mysql.py:50). -/
def DB.myInsertVertex (k : Nat) (db : DB) (id : Str) (deg ts : Int) : Option (Unit × DB) :=
  if db.vertices.any fun r => r.id.take k = id.take k then none
  else some ((), { db with vertices := db.vertices ++ [⟨id, deg, ts⟩] })

/-- `UPDATE perms SET id=%s WHERE id=%s` with the same id: no row changes. -/
def DB.myUpdatePerm (db : DB) (_id : Str) : Nat × DB := (0, db)

/-- `INSERT INTO perms (id) values (%s)` with `PRIMARY KEY (id(k))` (gb/hypergraph/mysql.py:57). -/
def DB.myInsertPerm (k : Nat) (db : DB) (id : Str) : Option (Unit × DB) :=
  if db.perms.any fun r => r.take k = id.take k then none
  else some ((), { db with perms := db.perms ++ [id] })

/-- gb/hypergraph/sql.py:133-147 `update_or_insert` on table `vertices`. -/
def myUpdateOrInsertVertex (k : Nat) (id : Str) (deg ts : Int) : M Unit := do
  let cur ← openCursor true
  let rowcount ← execWrite cur fun db => some (db.myUpdateVertex id deg ts)
  if rowcount = 0 then
    execWrite cur fun db => db.myInsertVertex k id deg ts
  closeCursor true true

/-- gb/hypergraph/sql.py:133-147 `update_or_insert` on table `perms`. -/
def myUpdateOrInsertPerm (k : Nat) (id : Str) : M Unit := do
  let cur ← openCursor true
  let rowcount ← execWrite cur fun db => some (db.myUpdatePerm id)
  if rowcount = 0 then
    execWrite cur fun db => db.myInsertPerm k id
  closeCursor true true

/-- gb/hypergraph/sql.py:149-153 `add_str`. -/
def myAddStr (k : Nat) (vertStr : Str) (deg ts : Int) : M Unit := myUpdateOrInsertVertex k vertStr deg ts

/-- gb/hypergraph/sql.py:155-157 `write_edge_permutation`. -/
def myWriteEdgePermutation (k : Nat) (perm : Str) : M Unit :=
  myUpdateOrInsertPerm k (edge2str (F := F) (.str perm))

/-- gb/hypergraph/sql.py:159-161 `write_edge_permutations`. -/
def myWriteEdgePermutations (k : Nat) (edge : List (Val F)) : M Unit :=
  doWithEdgePermutations edge (myWriteEdgePermutation (F := F) k)

/-- gb/hypergraph/sql.py:228-230: the loop body of `add_raw`. -/
def myAddVert (k : Nat) (ts : Int) (vert : Val F) : M Unit := do
  let vertStr := edge2str vert
  let known ← incDegree vertStr
  if !known then myAddStr k vertStr 1 ts

/-- gb/hypergraph/sql.py:224-233 `add_raw`. -/
def myAddRaw (k : Nat) (edge : Val F) (ts : Int) : M (Val F) := do
  let present ← existsM edge
  if !present then
    let verts ← liftE edge.iter
    forEach (myAddVert k ts) verts
    myAddStr k (edge2str edge) 0 ts
    myWriteEdgePermutations k verts
  pure edge

/-- gb/hypergraph/sql.py:235-245 `add`. -/
def myAdd (k : Nat) (edges : Val F) (ts : Int) : M (Val F) := do
  let first ← liftE edges.head0
  if first.isSeq then
    let _ ← openCursor false
    let es ← liftE edges.iter
    forEach (fun e => do let _ ← myAddRaw k e ts) es
    closeCursor false true
  else
    let _ ← myAddRaw k edges ts
  pure edges

/-- gb/hypergraph/hypergraph.py:113-127 `add_belief`. -/
def myAddBelief (k : Nat) (source edges : Val F) (ts : Int) : M Unit := do
  let arg ← liftE (beliefEdges source edges)
  let _ ← myAdd k arg ts

/-- A call allowed inside a batch (gb/hypergraph/hypergraph.py:48-101, 135-141). -/
def Prim.myRun (k : Nat) : Prim F → M Unit
  | .add e ts => do let _ ← myAdd k e ts
  | .remove e => hgRemove e
  | .removeMany es => hgRemove (.seq true es)
  | .removeByPattern ps => hgRemoveByPattern (.tup ps)
  | .removeBelief src e => hgRemoveBelief src e
  | .destroy => hgDestroy
  | .query q => q.run

/-- A call (gb/hypergraph/hypergraph.py:44-141). -/
def Op.myRun (k : Nat) : Op F → M Unit
  | .prim p => p.myRun k
  | .addMany es ts => do let _ ← myAdd k (.seq true es) ts
  | .addBelief src e ts => myAddBelief k src e ts
  | .addBeliefs src es ts => myAddBelief k src (.seq true es) ts
  | .batch ps => hgBatchExec (ps.map (Prim.myRun k))
  | .degree v => do let _ ← hgDegree v
  | .timestamp v => do let _ ← hgTimestamp v

/-- A history of calls. -/
def myRunOps (k : Nat) (ops : List (Op F)) : M Unit := forEach (Op.myRun k) ops

end GB
