import Verif.Model.Perm

/-
Model of class SQL (gb/hypergraph/sql.py:97-334) over a model of a DB-API connection, with the
commit behaviour of the two drivers (gb/hypergraph/sqlite.py, gb/hypergraph/mysql.py).
-/

namespace GB

variable {F : Type} [PyFloat F]

/-- A row of table `vertices` (gb/hypergraph/sqlite.py:45-47). -/
structure VRow where
  id : Str
  degree : Int
  timestamp : Int
  deriving DecidableEq, Repr

/-- The two tables (gb/hypergraph/sqlite.py:44-50); `perms` has only the column `id`. -/
structure DB where
  vertices : List VRow
  perms : List Str
  deriving DecidableEq, Repr

/-- The empty database, as after `create_tables` on a new file. -/
def DB.empty : DB := ⟨[], []⟩

/-- State of the connection and of the `SQL` object.
* `work`: contents seen by this connection (including the open transaction);
* `disk`: contents a crash would leave (last committed contents);
* `commits`: ghost history: the contents at every commit so far, oldest first;
* `cur`: `self.cur`: `none` is `None`, `some true` an open cursor, `some false` a closed one;
* `autocommit`: every writing statement is committed at once (`conn.autocommit(True)`,
  gb/hypergraph/mysql.py:42); false for SQLite, whose driver opens a transaction implicitly. -/
structure St where
  work : DB
  disk : DB
  commits : List DB
  cur : Option Bool
  autocommit : Bool
  deriving DecidableEq, Repr

/-- A method call: from a state to a result or exception, and the state reached. -/
def M (α : Type) : Type := St → Except PyErr α × St

namespace M
/-- Return a value. -/
def pure {α : Type} (a : α) : M α := fun s => (.ok a, s)
/-- Sequencing; an exception stops execution and keeps the state reached. -/
def bind {α β : Type} (x : M α) (f : α → M β) : M β := fun s =>
  match x s with
  | (.ok a, s') => f a s'
  | (.error e, s') => (.error e, s')
end M

instance : Monad M where
  pure := M.pure
  bind := M.bind

/-- A state-independent computation that may raise. -/
def liftE {α : Type} (x : Except PyErr α) : M α := fun s => (x, s)

/-- Raise an exception. -/
def raise {α : Type} (e : PyErr) : M α := fun s => (.error e, s)

/-- `for x in xs: f(x)`. -/
def forEach {α : Type} (f : α → M Unit) : List α → M Unit
  | [] => pure ()
  | x :: xs => do
    f x
    forEach f xs

/-- `conn.commit()`. -/
def St.commit (s : St) : St := { s with disk := s.work, commits := s.commits ++ [s.work] }

/-- `conn.commit()` as a statement. -/
def commitM : M Unit := fun s => (.ok (), s.commit)

/-- The cursor object a method holds: its own, or the shared `self.cur`. -/
inductive Cursor where
  | own
  | shared
  deriving DecidableEq, Repr

/-- gb/hypergraph/sql.py:110-119 `open_cursor`. -/
def openCursor (loc : Bool) : M Cursor := fun s =>
  if loc then
    match s.cur with
    | none => (.ok .own, s)
    | some _ => (.ok .shared, s)
  else
    match s.cur with
    | none => (.ok .shared, { s with cur := some true })
    | some _ => (.ok .shared, s)

/-- gb/hypergraph/sql.py:121-131 `close_cursor`.  In the non-local case `self.cur.close()` raises
`AttributeError` when `self.cur` is `None` (after the commit).  Closing a closed cursor is allowed. -/
def closeCursor (loc : Bool) (commit : Bool) : M Unit := fun s =>
  if loc then
    match s.cur with
    | none => (.ok (), if commit then s.commit else s)
    | some _ => (.ok (), s)
  else
    let s' := if commit then s.commit else s
    match s'.cur with
    | none => (.error .attributeError, s')
    | some _ => (.ok (), { s' with cur := none })

/-- `cur.close()` (as called directly in `degree` and `timestamp`). -/
def closeDirect : Cursor → M Unit
  | .own => pure ()
  | .shared => fun s => (.ok (), { s with cur := s.cur.map fun _ => false })

/-- `cur.execute(...)` of a reading statement: a closed cursor raises `ProgrammingError`. -/
def execRead {α : Type} (c : Cursor) (q : DB → α) : M α := fun s =>
  if c = .shared ∧ s.cur = some false then (.error .programmingError, s)
  else (.ok (q s.work), s)

/-- `cur.execute(...)` of a writing statement; `q` gives `none` when the statement violates the
primary key. -/
def execWrite {α : Type} (c : Cursor) (q : DB → Option (α × DB)) : M α := fun s =>
  if c = .shared ∧ s.cur = some false then (.error .programmingError, s)
  else
    match q s.work with
    | none => (.error .integrityError, s)
    | some (a, db) =>
      let s' := { s with work := db }
      (.ok a, if s.autocommit then s'.commit else s')

/-! SQL statements -/

/-- `UPDATE vertices SET id=?,degree=?,timestamp=? WHERE id=?`; returns `rowcount`. -/
def DB.updateVertex (db : DB) (id : Str) (deg ts : Int) : Nat × DB :=
  (db.vertices.countP fun r => r.id = id,
   { db with vertices := db.vertices.map fun r => if r.id = id then ⟨id, deg, ts⟩ else r })

/-- `INSERT INTO vertices (id,degree,timestamp) values (?,?,?)`. -/
def DB.insertVertex (db : DB) (id : Str) (deg ts : Int) : Option (Unit × DB) :=
  if db.vertices.any fun r => r.id = id then none
  else some ((), { db with vertices := db.vertices ++ [⟨id, deg, ts⟩] })

/-- `UPDATE perms SET id=? WHERE id=?` with the same id; returns `rowcount`. -/
def DB.updatePerm (db : DB) (id : Str) : Nat × DB :=
  (db.perms.countP fun r => r = id, db)

/-- `INSERT INTO perms (id) values (?)`. -/
def DB.insertPerm (db : DB) (id : Str) : Option (Unit × DB) :=
  if db.perms.any fun r => r = id then none
  else some ((), { db with perms := db.perms ++ [id] })

/-- `DELETE FROM perms WHERE id=?`. -/
def DB.deletePerm (db : DB) (id : Str) : DB :=
  { db with perms := db.perms.filter fun r => r ≠ id }

/-- `DELETE FROM vertices WHERE id=?`. -/
def DB.deleteVertex (db : DB) (id : Str) : DB :=
  { db with vertices := db.vertices.filter fun r => r.id ≠ id }

/-- `UPDATE vertices SET degree=degree+d WHERE id=?`; returns `rowcount`. -/
def DB.bumpDegree (db : DB) (d : Int) (id : Str) : Nat × DB :=
  (db.vertices.countP fun r => r.id = id,
   { db with vertices := db.vertices.map fun r =>
      if r.id = id then { r with degree := r.degree + d } else r })

/-- `SELECT id FROM perms WHERE id>=? AND id<?` (order of rows: table order, irrelevant because
results are put into sets). -/
def DB.selectRange (db : DB) (lo hi : Str) : List Str :=
  db.perms.filter fun r => strLe lo r && strLt r hi

/-- `SELECT ... FROM vertices WHERE id=?`. -/
def DB.selectVertex (db : DB) (id : Str) : List VRow :=
  db.vertices.filter fun r => r.id = id

/-! Methods of class SQL -/

/-- gb/hypergraph/sql.py:133-147 `update_or_insert` on table `vertices`. -/
def updateOrInsertVertex (id : Str) (deg ts : Int) : M Unit := do
  let cur ← openCursor true
  let rowcount ← execWrite cur fun db => some (db.updateVertex id deg ts)
  if rowcount = 0 then
    execWrite cur fun db => db.insertVertex id deg ts
  closeCursor true true

/-- gb/hypergraph/sql.py:133-147 `update_or_insert` on table `perms`. -/
def updateOrInsertPerm (id : Str) : M Unit := do
  let cur ← openCursor true
  let rowcount ← execWrite cur fun db => some (db.updatePerm id)
  if rowcount = 0 then
    execWrite cur fun db => db.insertPerm id
  closeCursor true true

/-- gb/hypergraph/sql.py:149-153 `add_str`. -/
def addStr (vertStr : Str) (deg ts : Int) : M Unit := updateOrInsertVertex vertStr deg ts

/-- gb/hypergraph/sql.py:155-157 `write_edge_permutation` (`edge2str` of a string is the string). -/
def writeEdgePermutation (perm : Str) : M Unit :=
  updateOrInsertPerm (edge2str (F := F) (.str perm))

/-- gb/hypergraph/sql.py:41-47 `do_with_edge_permutations`, for an action `f`. -/
def doWithEdgePermutations (edge : List (Val F)) (f : Str → M Unit) : M Unit :=
  forEach (fun nperm => do
    let permS ← liftE (permStr edge nperm)
    f permS) (List.range (factorial edge.length))

/-- gb/hypergraph/sql.py:159-161 `write_edge_permutations`. -/
def writeEdgePermutations (edge : List (Val F)) : M Unit :=
  doWithEdgePermutations edge (writeEdgePermutation (F := F))

/-- gb/hypergraph/sql.py:163-168 `remove_edge_permutation`: always its own cursor, always commits. -/
def removeEdgePermutation (perm : Str) : M Unit := do
  execWrite .own fun db => some ((), db.deletePerm (edge2str (F := F) (.str perm)))
  commitM

/-- gb/hypergraph/sql.py:170-172 `remove_edge_permutations`. -/
def removeEdgePermutations (edge : List (Val F)) : M Unit :=
  doWithEdgePermutations edge (removeEdgePermutation (F := F))

/-- gb/hypergraph/sql.py:174-178 `remove_str`. -/
def removeStr (vertStr : Str) : M Unit := do
  let cur ← openCursor true
  execWrite cur fun db => some ((), db.deleteVertex vertStr)
  closeCursor true true

/-- gb/hypergraph/sql.py:180-190 `str2perms`. -/
def str2perms (centerId : Str) : M (List (Val F)) := do
  let startStr := centerId ++ lit " "
  let endStr ← liftE (strPlus1 startStr)
  let cur ← openCursor true
  let rows ← execRead cur fun db => db.selectRange startStr endStr
  let edges ← liftE (cur2edges rows)
  closeCursor true false
  pure (pySet edges)

/-- `[x for x in xs if p(x)]` with a predicate that may raise. -/
def filterE {α : Type} (p : α → Except PyErr Bool) : List α → Except PyErr (List α)
  | [] => .ok []
  | x :: xs => do
    let b ← p x
    let ys ← filterE p xs
    .ok (if b then x :: ys else ys)

/-- gb/hypergraph/sql.py:192-202 `pattern2edges`. -/
def pattern2edges (pattern : Val F) : M (List (Val F)) := do
  let ps ← liftE pattern.iter
  let nodes := ps.filter fun n => !n.isNone
  let startStr := nodes2str nodes
  let endStr ← liftE (strPlus1 startStr)
  let cur ← openCursor true
  let rows ← execRead cur fun db => db.selectRange startStr endStr
  let edges ← liftE (cur2edges rows)
  closeCursor true false
  let res ← liftE (filterE (fun e => edgeMatchesPattern e pattern) edges)
  pure (pySet res)

/-- gb/hypergraph/sql.py:204-206 `exists`. -/
def existsM (vertex : Val F) : M Bool := do
  let es ← pattern2edges vertex
  pure (decide (es.length > 0))

/-- gb/hypergraph/sql.py:208-214 `inc_degree`. -/
def incDegree (vertStr : Str) : M Bool := do
  let cur ← openCursor true
  let rowcount ← execWrite cur fun db => some (db.bumpDegree 1 vertStr)
  closeCursor true true
  pure (decide (rowcount > 0))

/-- gb/hypergraph/sql.py:216-222 `dec_degree`. -/
def decDegree (vertStr : Str) : M Bool := do
  let cur ← openCursor true
  let rowcount ← execWrite cur fun db => some (db.bumpDegree (-1) vertStr)
  closeCursor true true
  pure (decide (rowcount > 0))

/-- gb/hypergraph/sql.py:228-230: the loop body of `add_raw`. -/
def addVert (ts : Int) (vert : Val F) : M Unit := do
  let vertStr := edge2str vert
  let known ← incDegree vertStr
  if !known then addStr vertStr 1 ts

/-- gb/hypergraph/sql.py:224-233 `add_raw`. -/
def addRaw (edge : Val F) (ts : Int) : M (Val F) := do
  let present ← existsM edge
  if !present then
    let verts ← liftE edge.iter
    forEach (addVert ts) verts
    addStr (edge2str edge) 0 ts
    writeEdgePermutations verts
  pure edge

/-- gb/hypergraph/sql.py:235-245 `add`. -/
def sqlAdd (edges : Val F) (ts : Int) : M (Val F) := do
  let first ← liftE edges.head0
  if first.isSeq then
    let _ ← openCursor false
    let es ← liftE edges.iter
    forEach (fun e => do let _ ← addRaw e ts) es
    closeCursor false true
  else
    let _ ← addRaw edges ts
  pure edges

/-- gb/hypergraph/sql.py:247-253 `remove_raw`. -/
def removeRaw (edge : Val F) : M Unit := do
  let present ← existsM edge
  if present then
    let verts ← liftE edge.iter
    forEach (fun v => do let _ ← decDegree (edge2str v)) verts
    removeEdgePermutations verts
    removeStr (edge2str edge)

/-- gb/hypergraph/sql.py:255-263 `remove`. -/
def sqlRemove (edges : Val F) : M Unit := do
  let first ← liftE edges.head0
  if first.isSeq then
    let es ← liftE edges.iter
    forEach removeRaw es
  else
    removeRaw edges

/-- gb/hypergraph/sql.py:265-271 `star`. -/
def sqlStar (center : Val F) : M (List (Val F)) :=
  if center.isSeq then str2perms (edge2str center) else str2perms (atomStr center)

/-- `set(xs)` for strings. -/
def strSet : List Str → List Str
  | [] => []
  | x :: xs => x :: (strSet xs).filter fun y => y ≠ x

/-- gb/hypergraph/sql.py:280-283: the loop body of `symbols_with_root`. -/
def rowFirstToken (row : Str) : Except PyErr Str := do
  match ← splitEdgeStr row with
  | [] => .error .indexError
  | t :: _ => .ok t

/-- gb/hypergraph/sql.py:273-285 `symbols_with_root`. -/
def symbolsWithRoot (root : Str) : M (List Str) := do
  let startStr := root ++ lit "/"
  let endStr ← liftE (strPlus1 startStr)
  let cur ← openCursor true
  let rows ← execRead cur fun db => db.selectRange startStr endStr
  let symbs ← liftE (mapE rowFirstToken rows)
  closeCursor true false
  pure (strSet symbs)

/-- gb/hypergraph/sql.py:287-292 `destroy`. -/
def sqlDestroy : M Unit := do
  let cur ← openCursor true
  execWrite cur fun db => some ((), { db with vertices := [] })
  execWrite cur fun db => some ((), { db with perms := [] })
  closeCursor true true

/-- gb/hypergraph/sql.py:294-304 `degree`: a found row is returned after a direct `cur.close()`. -/
def sqlDegree (vertex : Val F) : M Int := do
  let vertStr := edge2str vertex
  let cur ← openCursor true
  let rows ← execRead cur fun db => db.selectVertex vertStr
  match rows with
  | row :: _ => do
    closeDirect cur
    pure row.degree
  | [] => do
    closeCursor true false
    pure 0

/-- gb/hypergraph/sql.py:306-316 `timestamp`: likewise. -/
def sqlTimestamp (vertex : Val F) : M Int := do
  let vertStr := edge2str vertex
  let cur ← openCursor true
  let rows ← execRead cur fun db => db.selectVertex vertStr
  match rows with
  | row :: _ => do
    closeDirect cur
    pure row.timestamp
  | [] => do
    closeCursor true false
    pure (-1)

/-- gb/hypergraph/sql.py:318-323 `batch_exec`; the functions receive the backend. -/
def sqlBatchExec (funs : List (M Unit)) : M Unit := do
  let _ ← openCursor false
  forEach (fun f => f) funs
  closeCursor false true

/-- gb/hypergraph/sql.py:325-334 `f_all`, consumed to the end at once (the code is a generator; for its
consumption interleaved with other calls see Model/Lazy.lean). -/
def sqlFAll {β : Type} (f : Val F → Int → β) : M (List β) := do
  let cur ← openCursor true
  let rows ← execRead cur fun db => db.vertices
  let res ← liftE (mapE (fun row => do
    let v ← str2edge row.id
    .ok (f v row.degree)) rows)
  closeCursor true false
  pure res

end GB
