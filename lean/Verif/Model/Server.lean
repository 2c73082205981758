import Verif.Model.Encode
import Verif.Model.Collation
import Verif.Model.Overflow

/-
gb/hypergraph/sql.py and hypergraph.py with the database server as a parameter.  The class `SQL` of the repository has
one text for all databases; what a statement does is up to the server.  Here too the methods are written once, over any
server; the instances are SQLite, SQLite with its 64-bit integers, and MySQL with its row count, its prefix keys, its collation
and its character sets: all of them at once.  Props/Server.lean proves that the models in which one of these deviations is
studied are these instances.
-/

namespace GB

variable {F : Type} [PyFloat F] [DecidableEq F]

/-- A database server: what the nine statements of gb/hypergraph/sql.py do when they are executed on a cursor. -/
structure Server where
  /-- gb/hypergraph/sql.py:133-144: `UPDATE vertices SET id=?,degree=?,timestamp=? WHERE id=?`, with its `rowcount`. -/
  updateVertex : Cursor → Str → Int → Int → M Nat
  /-- gb/hypergraph/sql.py:144-146: `INSERT INTO vertices (id,degree,timestamp) values (?,?,?)`. -/
  insertVertex : Cursor → Str → Int → Int → M Unit
  /-- gb/hypergraph/sql.py:133-144: `UPDATE perms SET id=? WHERE id=?`, with its `rowcount`. -/
  updatePerm : Cursor → Str → M Nat
  /-- gb/hypergraph/sql.py:144-146: `INSERT INTO perms (id) values (?)`. -/
  insertPerm : Cursor → Str → M Unit
  /-- gb/hypergraph/sql.py:163-168: `DELETE FROM perms WHERE id=?`. -/
  deletePerm : Cursor → Str → M Unit
  /-- gb/hypergraph/sql.py:174-178: `DELETE FROM vertices WHERE id=?`. -/
  deleteVertex : Cursor → Str → M Unit
  /-- gb/hypergraph/sql.py:208-222: `UPDATE vertices SET degree=degree+1 WHERE id=?` (or `-1`), with its `rowcount`. -/
  bumpDegree : Cursor → Int → Str → M Nat
  /-- gb/hypergraph/sql.py:180-202, 273-285: `SELECT id FROM perms WHERE id>=? AND id<?`. -/
  selectRange : Cursor → Str → Str → M (List Str)
  /-- gb/hypergraph/sql.py:294-316: `SELECT ... FROM vertices WHERE id=?`. -/
  selectVertex : Cursor → Str → M (List VRow)

/-- SQLite (gb/hypergraph/sqlite.py), with integers of any size: the base model. -/
def Server.sqlite : Server where
  updateVertex c id deg ts := execWrite c fun db => some (db.updateVertex id deg ts)
  insertVertex c id deg ts := execWrite c fun db => db.insertVertex id deg ts
  updatePerm c id := execWrite c fun db => some (db.updatePerm id)
  insertPerm c id := execWrite c fun db => db.insertPerm id
  deletePerm c id := execWrite c fun db => some ((), db.deletePerm id)
  deleteVertex c id := execWrite c fun db => some ((), db.deleteVertex id)
  bumpDegree c d id := execWrite c fun db => some (db.bumpDegree d id)
  selectRange c lo hi := execRead c fun db => db.selectRange lo hi
  selectVertex c id := execRead c fun db => db.selectVertex id

/-- SQLite (gb/hypergraph/sqlite.py:46-47) with 64-bit integers (Model/Overflow.lean). -/
def Server.sqlite64 : Server :=
  { Server.sqlite with
    updateVertex := fun c id deg ts => execBound (fits64 ts) c fun db => some (db.updateVertex id deg ts)
    insertVertex := fun c id deg ts => execBound (fits64 ts) c fun db => db.insertVertex id deg ts }

/-- MySQL (gb/hypergraph/mysql.py) with exact comparisons: its row count and its keys of `k` characters (Model/MySql.lean). -/
def Server.mysqlExact (k : Nat) : Server :=
  { Server.sqlite with
    updateVertex := fun c id deg ts => execWrite c fun db => some (db.myUpdateVertex id deg ts)
    insertVertex := fun c id deg ts => execWrite c fun db => db.myInsertVertex k id deg ts
    updatePerm := fun c id => execWrite c fun db => some (db.myUpdatePerm id)
    insertPerm := fun c id => execWrite c fun db => db.myInsertPerm k id }

/-- MySQL (gb/hypergraph/mysql.py:50-60) with its row count, its keys and the collation of the tables
(Model/Collation.lean). -/
def Server.mysqlColl (w : Char → Nat) (k : Nat) : Server where
  updateVertex c id deg ts := execWrite c fun db => some (db.coUpdateVertex w id deg ts)
  insertVertex c id deg ts := execWrite c fun db => db.coInsertVertex w k id deg ts
  updatePerm c id := execWrite c fun db => some (db.coUpdatePerm w id)
  insertPerm c id := execWrite c fun db => db.coInsertPerm w k id
  deletePerm c id := execWrite c fun db => some ((), db.coDeletePerm w id)
  deleteVertex c id := execWrite c fun db => some ((), db.coDeleteVertex w id)
  bumpDegree c d id := execWrite c fun db => some (db.coBumpDegree w d id)
  selectRange c lo hi := execRead c fun db => db.coSelectRange w lo hi
  selectVertex c id := execRead c fun db => db.coSelectVertex w id

/-- SQLite's statements behind the character sets of Model/Encode.lean (gb/hypergraph/mysql.py:41, 51, 58). -/
def Server.coded (cd : Codec) : Server where
  updateVertex c id deg ts := execWriteEnc cd [id] c fun db => some (db.updateVertex id deg ts)
  insertVertex c id deg ts := execInsertEnc cd id c fun db => db.insertVertex id deg ts
  updatePerm c id := execWriteEnc cd [id] c fun db => some (db.updatePerm id)
  insertPerm c id := execInsertEnc cd id c fun db => db.insertPerm id
  deletePerm c id := execWriteEnc cd [id] c fun db => some ((), db.deletePerm id)
  deleteVertex c id := execWriteEnc cd [id] c fun db => some ((), db.deleteVertex id)
  bumpDegree c d id := execWriteEnc cd [id] c fun db => some (db.bumpDegree d id)
  selectRange c lo hi := execReadEnc cd [lo, hi] c fun db => db.selectRange lo hi
  selectVertex c id := execReadEnc cd [id] c fun db => db.selectVertex id

/-- MySQL (gb/hypergraph/mysql.py:41-60) with all of these: character sets, collation, row count, keys.  The time stamp
column is `BIGINT`: the server refuses to write a number that does not fit (`DataError`); an `UPDATE` that finds no row
writes nothing.  (The degree column is a 32-bit `INT`; here degrees
are taken to fit; Model/Count.lean is about those that do not.) -/
def Server.mysql (cd : Codec) (w : Char → Nat) (k : Nat) : Server where
  updateVertex c id deg ts := fun s =>
    if c = .shared ∧ s.cur = some false then (.error .programmingError, s)
    else if id.all cd.sends && !fits64 ts && s.work.vertices.any (fun r => padEq w r.id id) then (.error .dataError, s)
    else execWriteEnc cd [id] c (fun db => some (db.coUpdateVertex w id deg ts)) s
  insertVertex c id deg ts := fun s =>
    if c = .shared ∧ s.cur = some false then (.error .programmingError, s)
    else if id.all cd.sends && !fits64 ts then (.error .dataError, s)
    else execInsertEnc cd id c (fun db => db.coInsertVertex w k id deg ts) s
  updatePerm c id := execWriteEnc cd [id] c fun db => some (db.coUpdatePerm w id)
  insertPerm c id := execInsertEnc cd id c fun db => db.coInsertPerm w k id
  deletePerm c id := execWriteEnc cd [id] c fun db => some ((), db.coDeletePerm w id)
  deleteVertex c id := execWriteEnc cd [id] c fun db => some ((), db.coDeleteVertex w id)
  bumpDegree c d id := execWriteEnc cd [id] c fun db => some (db.coBumpDegree w d id)
  selectRange c lo hi := execReadEnc cd [lo, hi] c fun db => db.coSelectRange w lo hi
  selectVertex c id := execReadEnc cd [id] c fun db => db.coSelectVertex w id

/-! ### class SQL -/

/-- gb/hypergraph/sql.py:133-147 `update_or_insert` on table `vertices`. -/
def updateOrInsertVertexOn (srv : Server) (id : Str) (deg ts : Int) : M Unit := do
  let cur ← openCursor true
  let rowcount ← srv.updateVertex cur id deg ts
  if rowcount = 0 then
    srv.insertVertex cur id deg ts
  closeCursor true true

/-- gb/hypergraph/sql.py:133-147 `update_or_insert` on table `perms`. -/
def updateOrInsertPermOn (srv : Server) (id : Str) : M Unit := do
  let cur ← openCursor true
  let rowcount ← srv.updatePerm cur id
  if rowcount = 0 then
    srv.insertPerm cur id
  closeCursor true true

/-- gb/hypergraph/sql.py:149-153 `add_str`. -/
def addStrOn (srv : Server) (vertStr : Str) (deg ts : Int) : M Unit := updateOrInsertVertexOn srv vertStr deg ts

/-- gb/hypergraph/sql.py:155-157 `write_edge_permutation`. -/
def writeEdgePermutationOn (F : Type) [PyFloat F] (srv : Server) (perm : Str) : M Unit :=
  updateOrInsertPermOn srv (edge2str (F := F) (.str perm))

/-- gb/hypergraph/sql.py:159-161 `write_edge_permutations`. -/
def writeEdgePermutationsOn (srv : Server) (edge : List (Val F)) : M Unit :=
  doWithEdgePermutations edge (writeEdgePermutationOn F srv)

/-- gb/hypergraph/sql.py:163-168 `remove_edge_permutation`. -/
def removeEdgePermutationOn (F : Type) [PyFloat F] (srv : Server) (perm : Str) : M Unit := do
  srv.deletePerm .own (edge2str (F := F) (.str perm))
  commitM

/-- gb/hypergraph/sql.py:170-172 `remove_edge_permutations`. -/
def removeEdgePermutationsOn (srv : Server) (edge : List (Val F)) : M Unit :=
  doWithEdgePermutations edge (removeEdgePermutationOn F srv)

/-- gb/hypergraph/sql.py:174-178 `remove_str`. -/
def removeStrOn (srv : Server) (vertStr : Str) : M Unit := do
  let cur ← openCursor true
  srv.deleteVertex cur vertStr
  closeCursor true true

/-- gb/hypergraph/sql.py:180-190 `str2perms`. -/
def str2permsOn (srv : Server) (centerId : Str) : M (List (Val F)) := do
  let startStr := centerId ++ lit " "
  let endStr ← liftE (strPlus1 startStr)
  let cur ← openCursor true
  let rows ← srv.selectRange cur startStr endStr
  let edges ← liftE (cur2edges rows)
  closeCursor true false
  pure (pySet edges)

/-- gb/hypergraph/sql.py:192-202 `pattern2edges`. -/
def pattern2edgesOn (srv : Server) (pattern : Val F) : M (List (Val F)) := do
  let ps ← liftE pattern.iter
  let nodes := ps.filter fun n => !n.isNone
  let startStr := nodes2str nodes
  let endStr ← liftE (strPlus1 startStr)
  let cur ← openCursor true
  let rows ← srv.selectRange cur startStr endStr
  let edges ← liftE (cur2edges rows)
  closeCursor true false
  let res ← liftE (filterE (fun e => edgeMatchesPattern e pattern) edges)
  pure (pySet res)

/-- gb/hypergraph/sql.py:204-206, gb/hypergraph/hypergraph.py:44-46 `exists`. -/
def existsOn (srv : Server) (vertex : Val F) : M Bool := do
  let es ← pattern2edgesOn srv vertex
  pure (decide (es.length > 0))

/-- gb/hypergraph/sql.py:208-214 `inc_degree`. -/
def incDegreeOn (srv : Server) (vertStr : Str) : M Bool := do
  let cur ← openCursor true
  let rowcount ← srv.bumpDegree cur 1 vertStr
  closeCursor true true
  pure (decide (rowcount > 0))

/-- gb/hypergraph/sql.py:216-222 `dec_degree`. -/
def decDegreeOn (srv : Server) (vertStr : Str) : M Bool := do
  let cur ← openCursor true
  let rowcount ← srv.bumpDegree cur (-1) vertStr
  closeCursor true true
  pure (decide (rowcount > 0))

/-- gb/hypergraph/sql.py:228-230: the loop body of `add_raw`. -/
def addVertOn (srv : Server) (ts : Int) (vert : Val F) : M Unit := do
  let vertStr := edge2str vert
  let known ← incDegreeOn srv vertStr
  if !known then addStrOn srv vertStr 1 ts

/-- gb/hypergraph/sql.py:224-233 `add_raw`. -/
def addRawOn (srv : Server) (edge : Val F) (ts : Int) : M (Val F) := do
  let present ← existsOn srv edge
  if !present then
    let verts ← liftE edge.iter
    forEach (addVertOn srv ts) verts
    addStrOn srv (edge2str edge) 0 ts
    writeEdgePermutationsOn srv verts
  pure edge

/-- gb/hypergraph/sql.py:235-245, gb/hypergraph/hypergraph.py:48-51 `add`. -/
def hgAddOn (srv : Server) (edges : Val F) (ts : Int) : M (Val F) := do
  let first ← liftE edges.head0
  if first.isSeq then
    let _ ← openCursor false
    let es ← liftE edges.iter
    forEach (fun e => do let _ ← addRawOn srv e ts) es
    closeCursor false true
  else
    let _ ← addRawOn srv edges ts
  pure edges

/-- gb/hypergraph/sql.py:247-253 `remove_raw`. -/
def removeRawOn (srv : Server) (edge : Val F) : M Unit := do
  let present ← existsOn srv edge
  if present then
    let verts ← liftE edge.iter
    forEach (fun v => do let _ ← decDegreeOn srv (edge2str v)) verts
    removeEdgePermutationsOn srv verts
    removeStrOn srv (edge2str edge)

/-- gb/hypergraph/sql.py:255-263, gb/hypergraph/hypergraph.py:53-56 `remove`. -/
def hgRemoveOn (srv : Server) (edges : Val F) : M Unit := do
  let first ← liftE edges.head0
  if first.isSeq then
    let es ← liftE edges.iter
    forEach (removeRawOn srv) es
  else
    removeRawOn srv edges

/-- gb/hypergraph/sql.py:265-271, gb/hypergraph/hypergraph.py:63-66 `star`. -/
def hgStarOn (srv : Server) (center : Val F) : M (List (Val F)) :=
  if center.isSeq then str2permsOn srv (edge2str center) else str2permsOn srv (atomStr center)

/-- gb/hypergraph/sql.py:273-285, gb/hypergraph/hypergraph.py:68-70 `symbols_with_root`. -/
def hgSymbolsWithRootOn (srv : Server) (root : Str) : M (List Str) := do
  let startStr := root ++ lit "/"
  let endStr ← liftE (strPlus1 startStr)
  let cur ← openCursor true
  let rows ← srv.selectRange cur startStr endStr
  let symbs ← liftE (mapE rowFirstToken rows)
  closeCursor true false
  pure (strSet symbs)

/-- gb/hypergraph/sql.py:294-304, gb/hypergraph/hypergraph.py:76-78 `degree`. -/
def hgDegreeOn (srv : Server) (vertex : Val F) : M Int := do
  let vertStr := edge2str vertex
  let cur ← openCursor true
  let rows ← srv.selectVertex cur vertStr
  match rows with
  | row :: _ => do
    closeDirect cur
    pure row.degree
  | [] => do
    closeCursor true false
    pure 0

/-- gb/hypergraph/sql.py:306-316, gb/hypergraph/hypergraph.py:80-82 `timestamp`. -/
def hgTimestampOn (srv : Server) (vertex : Val F) : M Int := do
  let vertStr := edge2str vertex
  let cur ← openCursor true
  let rows ← srv.selectVertex cur vertStr
  match rows with
  | row :: _ => do
    closeDirect cur
    pure row.timestamp
  | [] => do
    closeCursor true false
    pure (-1)

/-! ### gb/hypergraph/hypergraph.py; `destroy`, `batch_exec` and `f_all` are the same on all servers -/

/-- gb/hypergraph/hypergraph.py:97-101 `remove_by_pattern`. -/
def hgRemoveByPatternOn (srv : Server) (pattern : Val F) : M Unit := do
  let edges ← pattern2edgesOn srv pattern
  forEach (hgRemoveOn srv) edges

/-- gb/hypergraph/hypergraph.py:113-127 `add_belief`. -/
def hgAddBeliefOn (srv : Server) (source edges : Val F) (ts : Int) : M Unit := do
  let arg ← liftE (beliefEdges source edges)
  let _ ← hgAddOn srv arg ts

/-- gb/hypergraph/hypergraph.py:129-133 `sources`. -/
def hgSourcesOn (srv : Server) (edge : Val F) : M (List (Val F)) := do
  let edges ← pattern2edgesOn srv (.tup [.str constSource, edge, .none])
  let srcs ← liftE (mapE Val.item2 edges)
  pure (pySet srcs)

/-- gb/hypergraph/hypergraph.py:135-141 `remove_belief`. -/
def hgRemoveBeliefOn (srv : Server) (source edge : Val F) : M Unit := do
  hgRemoveOn srv (.tup [.str constSource, edge, source])
  let srcs ← hgSourcesOn srv edge
  if srcs.length = 0 then hgRemoveOn srv edge

/-! ### histories -/

/-- A read-only call (gb/hypergraph/hypergraph.py:44-95, 129-133); the result is discarded. -/
def Query.srvRun (srv : Server) : Query F → M Unit
  | .exists e => do let _ ← existsOn srv e
  | .pattern ps => do let _ ← pattern2edgesOn srv (.tup ps)
  | .star c => do let _ ← hgStarOn srv c
  | .symbolsWithRoot r => do let _ ← hgSymbolsWithRootOn srv r
  | .sources e => do let _ ← hgSourcesOn srv e
  | .fAll => do let _ ← hgFAll (fun (v : Val F) (d : Int) => (v, d))

/-- A call allowed inside a batch (gb/hypergraph/hypergraph.py:48-101, 135-141). -/
def Prim.srvRun (srv : Server) : Prim F → M Unit
  | .add e ts => do let _ ← hgAddOn srv e ts
  | .remove e => hgRemoveOn srv e
  | .removeMany es => hgRemoveOn srv (.seq true es)
  | .removeByPattern ps => hgRemoveByPatternOn srv (.tup ps)
  | .removeBelief src e => hgRemoveBeliefOn srv src e
  | .destroy => hgDestroy
  | .query q => q.srvRun srv

/-- A call (gb/hypergraph/hypergraph.py:44-141). -/
def Op.srvRun (srv : Server) : Op F → M Unit
  | .prim p => p.srvRun srv
  | .addMany es ts => do let _ ← hgAddOn srv (.seq true es) ts
  | .addBelief src e ts => hgAddBeliefOn srv src e ts
  | .addBeliefs src es ts => hgAddBeliefOn srv src (.seq true es) ts
  | .batch ps => hgBatchExec (ps.map (Prim.srvRun srv))
  | .degree v => do let _ ← hgDegreeOn srv v
  | .timestamp v => do let _ ← hgTimestampOn srv v

/-- A history of calls. -/
def runOpsOn (srv : Server) (ops : List (Op F)) : M Unit := forEach (Op.srvRun srv) ops

end GB
