import Verif.Model.Statements
import Verif.Model.MySql

/-
Several clients of one MySQL database.

gb/hypergraph/mysql.py:42 switches autocommit on, so the server makes every statement a transaction of its own, and
`conn.commit()` has nothing to do, inside `batch_exec` and bulk additions too.  So the steps of the clients are their single
statements: `Stm.auto` reads the programs of Model/Statements.lean in this way.  The methods that write `update_or_insert`
are written with the statements of Model/MySql.lean (`rowcount` counts changed rows, keys are prefixes); that they are the
methods of that file is proved (`C74_same_program`).  The methods without such statements are those of
Model/Statements.lean.

Not modelled: deadlocks and lock timeouts of InnoDB (single statements by key do not wait for each other in a circle),
lost connections.
-/

namespace GB

variable {F : Type} [PyFloat F] [DecidableEq F]

/-- gb/hypergraph/sql.py:133-147 `update_or_insert` on table `vertices`. -/
def cMyUpdateOrInsertVertex (k : Nat) (id : Str) (deg ts : Int) : Conn Unit := do
  let cur ← cOpen true
  let rowcount ← cWrite cur fun db => some (db.myUpdateVertex id deg ts)
  if rowcount = 0 then
    cWrite cur fun db => db.myInsertVertex k id deg ts
  cClose true true

/-- gb/hypergraph/sql.py:133-147 `update_or_insert` on table `perms`. -/
def cMyUpdateOrInsertPerm (k : Nat) (id : Str) : Conn Unit := do
  let cur ← cOpen true
  let rowcount ← cWrite cur fun db => some (db.myUpdatePerm id)
  if rowcount = 0 then
    cWrite cur fun db => db.myInsertPerm k id
  cClose true true

/-- gb/hypergraph/sql.py:149-153 `add_str`. -/
def cMyAddStr (k : Nat) (vertStr : Str) (deg ts : Int) : Conn Unit := cMyUpdateOrInsertVertex k vertStr deg ts

/-- gb/hypergraph/sql.py:155-157 `write_edge_permutation`. -/
def cMyWritePerm (k : Nat) (perm : Str) : Conn Unit := cMyUpdateOrInsertPerm k (edge2str (F := F) (.str perm))

/-- gb/hypergraph/sql.py:228-230: the loop body of `add_raw`. -/
def cMyAddVert (k : Nat) (ts : Int) (vert : Val F) : Conn Unit := do
  let vertStr := edge2str vert
  let known ← cIncDegree vertStr
  if !known then cMyAddStr k vertStr 1 ts

/-- gb/hypergraph/sql.py:227-232: what `add_raw` does when the edge is absent. -/
def cMyAddNew (k : Nat) (edge : Val F) (ts : Int) : Conn Unit := do
  let verts ← cLift edge.iter
  cEach (cMyAddVert k ts) verts
  cMyAddStr k (edge2str edge) 0 ts
  cPerms verts (cMyWritePerm (F := F) k)

/-- gb/hypergraph/sql.py:224-233 `add_raw` (the result, which no caller uses, is left out). -/
def cMyAddRaw (k : Nat) (edge : Val F) (ts : Int) : Conn Unit := do
  let present ← cExists edge
  if !present then cMyAddNew k edge ts

/-- gb/hypergraph/sql.py:235-245 `add`. -/
def cMyAdd (k : Nat) (edges : Val F) (ts : Int) : Conn Unit := do
  let first ← cLift edges.head0
  if first.isSeq then
    let _ ← cOpen false
    let es ← cLift edges.iter
    cEach (fun e => cMyAddRaw k e ts) es
    cClose false true
  else
    cMyAddRaw k edges ts

/-- gb/hypergraph/hypergraph.py:113-127 `add_belief`. -/
def cMyAddBelief (k : Nat) (source edges : Val F) (ts : Int) : Conn Unit := do
  let arg ← cLift (beliefEdges source edges)
  cMyAdd k arg ts

/-- The call, statement by statement (gb/hypergraph/hypergraph.py:44-141). -/
def PAct.myConn (k : Nat) : PAct F → Conn Unit
  | .add e ts => cMyAdd k e ts
  | .addMany es ts => cMyAdd k (.seq true es) ts
  | .remove e => cRemove e
  | .removeMany es => cRemove (.seq true es)
  | .removeByPattern ps => cRemoveByPattern (.tup ps)
  | .addBelief src e ts => cMyAddBelief k src e ts
  | .addBeliefs src es ts => cMyAddBelief k src (.seq true es) ts
  | .removeBelief src e => cRemoveBelief src e

/-- The call, or the calls as functions given to one `batch_exec` (gb/hypergraph/sql.py:318-323), statement by
statement. -/
def PCall.myConn (k : Nat) : PCall F → Conn Unit
  | .one a => a.myConn k
  | .batch as => cBatch (as.map (PAct.myConn k))

/-- The same call as a method of Model/MySql.lean: what a single client does. -/
def PCall.myRun (k : Nat) : PCall F → M Unit
  | .one a => a.op.myRun k
  | .batch as => hgBatchExec (as.map fun a => a.op.myRun k)

/-- The program under autocommit (gb/hypergraph/mysql.py:42): every statement is a transaction, `commit` does nothing, and a
statement that violates a key changes nothing. -/
def Stm.auto {α : Type} : Stm (Except PyErr α × Option Bool) → Proc α
  | .ret (r, _) => .ret r
  | .read k => .tx (fun db => db) fun db => (k db).auto
  | .write u k e => .tx (fun db => (u db).getD db) fun db => if (u db).isSome then (k db).auto else e.auto
  | .commit k => k.auto

/-- Clients with the programs `progs` start on a database with contents `db` and keys of `k` characters; how they go
on is `Sys.Step`. -/
def Sys.startMy (k : Nat) (db : DB) (progs : List (List (PCall F))) : Sys :=
  ⟨db, progs.map fun p => (cEach (PCall.myConn k) p none).auto⟩

end GB
