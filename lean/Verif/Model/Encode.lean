import Verif.Model.History

/-
gb/hypergraph/sql.py and hypergraph.py once more, with the two character sets that a text passes on its way into a MySQL
database (gb/hypergraph/mysql.py:41, 51, 58):

* the one of the connection: `MySQLdb.connect` is called without `charset`, so it is the default of the client library
  (latin1 for older ones); `cur.execute` encodes every text parameter, of reading and of writing statements, and raises
  `UnicodeEncodeError` before anything is sent if a character is not in the set;
* the one of the columns (`utf8`, which has no characters beyond U+FFFF): the server, in its default strict mode, refuses an
  `INSERT` of a text that contains a character outside it.  Comparing such a text with a column is allowed.

Both are parameters.  With SQLite the same happens in `cur.execute` for a text with a lone surrogate, the only texts that
cannot be encoded there.  The bodies are those of Model/Sql.lean, HyperGraph.lean and History.lean; the statements are those
of Model/Sql.lean, so what Model/MySql.lean and Model/Collation.lean are about is left out here.
-/

namespace GB

variable {F : Type} [PyFloat F] [DecidableEq F]

/-- The character sets: of the connection, and of the columns. -/
structure Codec where
  sends : Char → Bool
  stores : Char → Bool

/-- `cur.execute(...)` of a reading statement with the text parameters `ts`: a closed cursor is noticed first. -/
def execReadEnc {α : Type} (cd : Codec) (ts : List Str) (c : Cursor) (q : DB → α) : M α := fun s =>
  if c = .shared ∧ s.cur = some false then (.error .programmingError, s)
  else if ts.all (fun t => t.all cd.sends) then execRead c q s
  else (.error .encodeError, s)

/-- `cur.execute(...)` of a writing statement with the text parameters `ts` that stores no new text.  (An `UPDATE` of `id`
that finds a row writes the text that is there.) -/
def execWriteEnc {α : Type} (cd : Codec) (ts : List Str) (c : Cursor) (q : DB → Option (α × DB)) : M α := fun s =>
  if c = .shared ∧ s.cur = some false then (.error .programmingError, s)
  else if ts.all (fun t => t.all cd.sends) then execWrite c q s
  else (.error .encodeError, s)

/-- `cur.execute(...)` of an `INSERT` of the text `t`: the server looks at its characters. -/
def execInsertEnc {α : Type} (cd : Codec) (t : Str) (c : Cursor) (q : DB → Option (α × DB)) : M α := fun s =>
  if c = .shared ∧ s.cur = some false then (.error .programmingError, s)
  else if t.all cd.sends then
    if t.all cd.stores then execWrite c q s else (.error .dataError, s)
  else (.error .encodeError, s)

/-! ### class SQL -/

/-- gb/hypergraph/sql.py:133-147 `update_or_insert` on table `vertices`. -/
def updateOrInsertVertexEnc (cd : Codec) (id : Str) (deg ts : Int) : M Unit := do
  let cur ← openCursor true
  let rowcount ← execWriteEnc cd [id] cur fun db => some (db.updateVertex id deg ts)
  if rowcount = 0 then
    execInsertEnc cd id cur fun db => db.insertVertex id deg ts
  closeCursor true true

/-- gb/hypergraph/sql.py:133-147 `update_or_insert` on table `perms`. -/
def updateOrInsertPermEnc (cd : Codec) (id : Str) : M Unit := do
  let cur ← openCursor true
  let rowcount ← execWriteEnc cd [id] cur fun db => some (db.updatePerm id)
  if rowcount = 0 then
    execInsertEnc cd id cur fun db => db.insertPerm id
  closeCursor true true

/-- gb/hypergraph/sql.py:149-153 `add_str`. -/
def addStrEnc (cd : Codec) (vertStr : Str) (deg ts : Int) : M Unit := updateOrInsertVertexEnc cd vertStr deg ts

/-- gb/hypergraph/sql.py:155-157 `write_edge_permutation`. -/
def writeEdgePermutationEnc (F : Type) [PyFloat F] (cd : Codec) (perm : Str) : M Unit :=
  updateOrInsertPermEnc cd (edge2str (F := F) (.str perm))

/-- gb/hypergraph/sql.py:159-161 `write_edge_permutations`. -/
def writeEdgePermutationsEnc (cd : Codec) (edge : List (Val F)) : M Unit :=
  doWithEdgePermutations edge (writeEdgePermutationEnc F cd)

/-- gb/hypergraph/sql.py:163-168 `remove_edge_permutation`. -/
def removeEdgePermutationEnc (F : Type) [PyFloat F] (cd : Codec) (perm : Str) : M Unit := do
  execWriteEnc cd [edge2str (F := F) (.str perm)] .own fun db => some ((), db.deletePerm (edge2str (F := F) (.str perm)))
  commitM

/-- gb/hypergraph/sql.py:170-172 `remove_edge_permutations`. -/
def removeEdgePermutationsEnc (cd : Codec) (edge : List (Val F)) : M Unit :=
  doWithEdgePermutations edge (removeEdgePermutationEnc F cd)

/-- gb/hypergraph/sql.py:174-178 `remove_str`. -/
def removeStrEnc (cd : Codec) (vertStr : Str) : M Unit := do
  let cur ← openCursor true
  execWriteEnc cd [vertStr] cur fun db => some ((), db.deleteVertex vertStr)
  closeCursor true true

/-- gb/hypergraph/sql.py:180-190 `str2perms`. -/
def str2permsEnc (cd : Codec) (centerId : Str) : M (List (Val F)) := do
  let startStr := centerId ++ lit " "
  let endStr ← liftE (strPlus1 startStr)
  let cur ← openCursor true
  let rows ← execReadEnc cd [startStr, endStr] cur fun db => db.selectRange startStr endStr
  let edges ← liftE (cur2edges rows)
  closeCursor true false
  pure (pySet edges)

/-- gb/hypergraph/sql.py:192-202 `pattern2edges`. -/
def pattern2edgesEnc (cd : Codec) (pattern : Val F) : M (List (Val F)) := do
  let ps ← liftE pattern.iter
  let nodes := ps.filter fun n => !n.isNone
  let startStr := nodes2str nodes
  let endStr ← liftE (strPlus1 startStr)
  let cur ← openCursor true
  let rows ← execReadEnc cd [startStr, endStr] cur fun db => db.selectRange startStr endStr
  let edges ← liftE (cur2edges rows)
  closeCursor true false
  let res ← liftE (filterE (fun e => edgeMatchesPattern e pattern) edges)
  pure (pySet res)

/-- gb/hypergraph/sql.py:204-206, gb/hypergraph/hypergraph.py:44-46 `exists`. -/
def existsEnc (cd : Codec) (vertex : Val F) : M Bool := do
  let es ← pattern2edgesEnc cd vertex
  pure (decide (es.length > 0))

/-- gb/hypergraph/sql.py:208-214 `inc_degree`. -/
def incDegreeEnc (cd : Codec) (vertStr : Str) : M Bool := do
  let cur ← openCursor true
  let rowcount ← execWriteEnc cd [vertStr] cur fun db => some (db.bumpDegree 1 vertStr)
  closeCursor true true
  pure (decide (rowcount > 0))

/-- gb/hypergraph/sql.py:216-222 `dec_degree`. -/
def decDegreeEnc (cd : Codec) (vertStr : Str) : M Bool := do
  let cur ← openCursor true
  let rowcount ← execWriteEnc cd [vertStr] cur fun db => some (db.bumpDegree (-1) vertStr)
  closeCursor true true
  pure (decide (rowcount > 0))

/-- gb/hypergraph/sql.py:228-230: the loop body of `add_raw`. -/
def addVertEnc (cd : Codec) (ts : Int) (vert : Val F) : M Unit := do
  let vertStr := edge2str vert
  let known ← incDegreeEnc cd vertStr
  if !known then addStrEnc cd vertStr 1 ts

/-- gb/hypergraph/sql.py:224-233 `add_raw`. -/
def addRawEnc (cd : Codec) (edge : Val F) (ts : Int) : M (Val F) := do
  let present ← existsEnc cd edge
  if !present then
    let verts ← liftE edge.iter
    forEach (addVertEnc cd ts) verts
    addStrEnc cd (edge2str edge) 0 ts
    writeEdgePermutationsEnc cd verts
  pure edge

/-- gb/hypergraph/sql.py:235-245, gb/hypergraph/hypergraph.py:48-51 `add`. -/
def hgAddEnc (cd : Codec) (edges : Val F) (ts : Int) : M (Val F) := do
  let first ← liftE edges.head0
  if first.isSeq then
    let _ ← openCursor false
    let es ← liftE edges.iter
    forEach (fun e => do let _ ← addRawEnc cd e ts) es
    closeCursor false true
  else
    let _ ← addRawEnc cd edges ts
  pure edges

/-- gb/hypergraph/sql.py:247-253 `remove_raw`. -/
def removeRawEnc (cd : Codec) (edge : Val F) : M Unit := do
  let present ← existsEnc cd edge
  if present then
    let verts ← liftE edge.iter
    forEach (fun v => do let _ ← decDegreeEnc cd (edge2str v)) verts
    removeEdgePermutationsEnc cd verts
    removeStrEnc cd (edge2str edge)

/-- gb/hypergraph/sql.py:255-263, gb/hypergraph/hypergraph.py:53-56 `remove`. -/
def hgRemoveEnc (cd : Codec) (edges : Val F) : M Unit := do
  let first ← liftE edges.head0
  if first.isSeq then
    let es ← liftE edges.iter
    forEach (removeRawEnc cd) es
  else
    removeRawEnc cd edges

/-- gb/hypergraph/sql.py:265-271, gb/hypergraph/hypergraph.py:63-66 `star`. -/
def hgStarEnc (cd : Codec) (center : Val F) : M (List (Val F)) :=
  if center.isSeq then str2permsEnc cd (edge2str center) else str2permsEnc cd (atomStr center)

/-- gb/hypergraph/sql.py:273-285, gb/hypergraph/hypergraph.py:68-70 `symbols_with_root`. -/
def hgSymbolsWithRootEnc (cd : Codec) (root : Str) : M (List Str) := do
  let startStr := root ++ lit "/"
  let endStr ← liftE (strPlus1 startStr)
  let cur ← openCursor true
  let rows ← execReadEnc cd [startStr, endStr] cur fun db => db.selectRange startStr endStr
  let symbs ← liftE (mapE rowFirstToken rows)
  closeCursor true false
  pure (strSet symbs)

/-- gb/hypergraph/sql.py:294-304, gb/hypergraph/hypergraph.py:76-78 `degree`. -/
def hgDegreeEnc (cd : Codec) (vertex : Val F) : M Int := do
  let vertStr := edge2str vertex
  let cur ← openCursor true
  let rows ← execReadEnc cd [vertStr] cur fun db => db.selectVertex vertStr
  match rows with
  | row :: _ => do
    closeDirect cur
    pure row.degree
  | [] => do
    closeCursor true false
    pure 0

/-- gb/hypergraph/sql.py:306-316, gb/hypergraph/hypergraph.py:80-82 `timestamp`. -/
def hgTimestampEnc (cd : Codec) (vertex : Val F) : M Int := do
  let vertStr := edge2str vertex
  let cur ← openCursor true
  let rows ← execReadEnc cd [vertStr] cur fun db => db.selectVertex vertStr
  match rows with
  | row :: _ => do
    closeDirect cur
    pure row.timestamp
  | [] => do
    closeCursor true false
    pure (-1)

/-! ### gb/hypergraph/hypergraph.py; `destroy`, `batch_exec` and `f_all` send no texts -/

/-- gb/hypergraph/hypergraph.py:97-101 `remove_by_pattern`. -/
def hgRemoveByPatternEnc (cd : Codec) (pattern : Val F) : M Unit := do
  let edges ← pattern2edgesEnc cd pattern
  forEach (hgRemoveEnc cd) edges

/-- gb/hypergraph/hypergraph.py:113-127 `add_belief`. -/
def hgAddBeliefEnc (cd : Codec) (source edges : Val F) (ts : Int) : M Unit := do
  let arg ← liftE (beliefEdges source edges)
  let _ ← hgAddEnc cd arg ts

/-- gb/hypergraph/hypergraph.py:129-133 `sources`. -/
def hgSourcesEnc (cd : Codec) (edge : Val F) : M (List (Val F)) := do
  let edges ← pattern2edgesEnc cd (.tup [.str constSource, edge, .none])
  let srcs ← liftE (mapE Val.item2 edges)
  pure (pySet srcs)

/-- gb/hypergraph/hypergraph.py:135-141 `remove_belief`. -/
def hgRemoveBeliefEnc (cd : Codec) (source edge : Val F) : M Unit := do
  hgRemoveEnc cd (.tup [.str constSource, edge, source])
  let srcs ← hgSourcesEnc cd edge
  if srcs.length = 0 then hgRemoveEnc cd edge

/-! ### histories -/

/-- A read-only call (gb/hypergraph/hypergraph.py:44-95, 129-133); the result is discarded. -/
def Query.runEnc (cd : Codec) : Query F → M Unit
  | .exists e => do let _ ← existsEnc cd e
  | .pattern ps => do let _ ← pattern2edgesEnc cd (.tup ps)
  | .star c => do let _ ← hgStarEnc cd c
  | .symbolsWithRoot r => do let _ ← hgSymbolsWithRootEnc cd r
  | .sources e => do let _ ← hgSourcesEnc cd e
  | .fAll => do let _ ← hgFAll (fun (v : Val F) (d : Int) => (v, d))

/-- A call allowed inside a batch (gb/hypergraph/hypergraph.py:48-101, 135-141). -/
def Prim.runEnc (cd : Codec) : Prim F → M Unit
  | .add e ts => do let _ ← hgAddEnc cd e ts
  | .remove e => hgRemoveEnc cd e
  | .removeMany es => hgRemoveEnc cd (.seq true es)
  | .removeByPattern ps => hgRemoveByPatternEnc cd (.tup ps)
  | .removeBelief src e => hgRemoveBeliefEnc cd src e
  | .destroy => hgDestroy
  | .query q => q.runEnc cd

/-- A call (gb/hypergraph/hypergraph.py:44-141). -/
def Op.runEnc (cd : Codec) : Op F → M Unit
  | .prim p => p.runEnc cd
  | .addMany es ts => do let _ ← hgAddEnc cd (.seq true es) ts
  | .addBelief src e ts => hgAddBeliefEnc cd src e ts
  | .addBeliefs src es ts => hgAddBeliefEnc cd src (.seq true es) ts
  | .batch ps => hgBatchExec (ps.map (Prim.runEnc cd))
  | .degree v => do let _ ← hgDegreeEnc cd v
  | .timestamp v => do let _ ← hgTimestampEnc cd v

/-- A history of calls. -/
def runOpsEnc (cd : Codec) (ops : List (Op F)) : M Unit := forEach (Op.runEnc cd) ops

/-- A call whose caller catches `UnicodeEncodeError` and the refusal to store, and goes on.  This is not code of the
repository, but what a program that uses it may do. -/
def Op.tryEnc (cd : Codec) (op : Op F) : M Unit := fun s =>
  match op.runEnc cd s with
  | (.error .encodeError, s') => (.ok (), s')
  | (.error .dataError, s') => (.ok (), s')
  | r => r

end GB
