import Verif.Model.Concurrent

/-
The methods of class SQL statement by statement, and several processes whose single statements (not only
transactions) interleave on one SQLite file.

`Stm` is what a process still has to send to the database.  The methods are written once more, line by line, as
sequences of such statements; that they are the methods of Model/Sql.lean is proved (`C72_same_program`).
-/

namespace GB

variable {F : Type} [PyFloat F] [DecidableEq F]

/-- What remains of a program that talks to the database: it ended, or its next request is a `SELECT`, a writing
statement (`u` gives `none` if it violates a key, which raises `IntegrityError`: `fail`), or `conn.commit()`. -/
inductive Stm (β : Type) where
  | ret (b : β)
  | read (k : DB → Stm β)
  | write (u : DB → Option DB) (k : DB → Stm β) (fail : Stm β)
  | commit (k : Stm β)

/-- Sequencing. -/
def Stm.bind {β γ : Type} : Stm β → (β → Stm γ) → Stm γ
  | .ret b, f => f b
  | .read k, f => .read fun db => (k db).bind f
  | .write u k e, f => .write u (fun db => (k db).bind f) (e.bind f)
  | .commit k, f => .commit (k.bind f)

/-- A method of an `SQL` object: it starts with `self.cur` in some state and ends with a result or exception and a
new state of `self.cur`. -/
def Conn (α : Type) : Type := Option Bool → Stm (Except PyErr α × Option Bool)

/-- Return a value. -/
def Conn.pure {α : Type} (a : α) : Conn α := fun c => .ret (.ok a, c)

/-- What follows after a method: an exception stops execution. -/
def Conn.next {α β : Type} (f : α → Conn β) : Except PyErr α × Option Bool → Stm (Except PyErr β × Option Bool)
  | (.ok a, c) => f a c
  | (.error e, c) => .ret (.error e, c)

/-- Sequencing. -/
def Conn.bind {α β : Type} (x : Conn α) (f : α → Conn β) : Conn β := fun c => (x c).bind (Conn.next f)

instance : Monad Conn where
  pure := Conn.pure
  bind := Conn.bind

/-- A computation that does not use the database. -/
def cLift {α : Type} (x : Except PyErr α) : Conn α := fun c => .ret (x, c)

/-- `for x in xs: f(x)`. -/
def cEach {α : Type} (f : α → Conn Unit) : List α → Conn Unit
  | [] => pure ()
  | x :: xs => do
    f x
    cEach f xs

/-- `conn.commit()`. -/
def cCommit : Conn Unit := fun c => .commit (.ret (.ok (), c))

/-- gb/hypergraph/sql.py:110-119 `open_cursor`. -/
def cOpen (loc : Bool) : Conn Cursor := fun c =>
  if loc then
    match c with
    | none => .ret (.ok .own, c)
    | some _ => .ret (.ok .shared, c)
  else
    match c with
    | none => .ret (.ok .shared, some true)
    | some _ => .ret (.ok .shared, c)

/-- gb/hypergraph/sql.py:121-131 `close_cursor`. -/
def cClose (loc : Bool) (commit : Bool) : Conn Unit := fun c =>
  if loc then
    match c with
    | none => if commit then .commit (.ret (.ok (), c)) else .ret (.ok (), c)
    | some _ => .ret (.ok (), c)
  else
    let rest : Stm (Except PyErr Unit × Option Bool) :=
      match c with
      | none => .ret (.error .attributeError, c)
      | some _ => .ret (.ok (), none)
    if commit then .commit rest else rest

/-- `cur.execute(...)` of a reading statement. -/
def cRead {α : Type} (cu : Cursor) (q : DB → α) : Conn α := fun c =>
  if cu = .shared ∧ c = some false then .ret (.error .programmingError, c)
  else .read fun db => .ret (.ok (q db), c)

/-- `cur.execute(...)` of a writing statement. -/
def cWrite {α : Type} (cu : Cursor) (q : DB → Option (α × DB)) : Conn α := fun c =>
  if cu = .shared ∧ c = some false then .ret (.error .programmingError, c)
  else .write (fun db => (q db).map Prod.snd)
    (fun db => match q db with
      | some (a, _) => .ret (.ok a, c)
      | none => .ret (.error .integrityError, c))
    (.ret (.error .integrityError, c))

/-- gb/hypergraph/sql.py:133-147 `update_or_insert` on table `vertices`. -/
def cUpdateOrInsertVertex (id : Str) (deg ts : Int) : Conn Unit := do
  let cur ← cOpen true
  let rowcount ← cWrite cur fun db => some (db.updateVertex id deg ts)
  if rowcount = 0 then
    cWrite cur fun db => db.insertVertex id deg ts
  cClose true true

/-- gb/hypergraph/sql.py:133-147 `update_or_insert` on table `perms`. -/
def cUpdateOrInsertPerm (id : Str) : Conn Unit := do
  let cur ← cOpen true
  let rowcount ← cWrite cur fun db => some (db.updatePerm id)
  if rowcount = 0 then
    cWrite cur fun db => db.insertPerm id
  cClose true true

/-- gb/hypergraph/sql.py:149-153 `add_str`. -/
def cAddStr (vertStr : Str) (deg ts : Int) : Conn Unit := cUpdateOrInsertVertex vertStr deg ts

/-- gb/hypergraph/sql.py:155-157 `write_edge_permutation`. -/
def cWritePerm (perm : Str) : Conn Unit := cUpdateOrInsertPerm (edge2str (F := F) (.str perm))

/-- gb/hypergraph/sql.py:41-47 `do_with_edge_permutations`. -/
def cPerms (edge : List (Val F)) (f : Str → Conn Unit) : Conn Unit :=
  cEach (fun nperm => do
    let permS ← cLift (permStr edge nperm)
    f permS) (List.range (factorial edge.length))

/-- gb/hypergraph/sql.py:163-168 `remove_edge_permutation`. -/
def cRemovePerm (perm : Str) : Conn Unit := do
  cWrite .own fun db => some ((), db.deletePerm (edge2str (F := F) (.str perm)))
  cCommit

/-- gb/hypergraph/sql.py:174-178 `remove_str`. -/
def cRemoveStr (vertStr : Str) : Conn Unit := do
  let cur ← cOpen true
  cWrite cur fun db => some ((), db.deleteVertex vertStr)
  cClose true true

/-- gb/hypergraph/sql.py:192-202 `pattern2edges`. -/
def cPattern2edges (pattern : Val F) : Conn (List (Val F)) := do
  let ps ← cLift pattern.iter
  let nodes := ps.filter fun n => !n.isNone
  let startStr := nodes2str nodes
  let endStr ← cLift (strPlus1 startStr)
  let cur ← cOpen true
  let rows ← cRead cur fun db => db.selectRange startStr endStr
  let edges ← cLift (cur2edges rows)
  cClose true false
  let res ← cLift (filterE (fun e => edgeMatchesPattern e pattern) edges)
  pure (pySet res)

/-- gb/hypergraph/sql.py:204-206 `exists`. -/
def cExists (vertex : Val F) : Conn Bool := do
  let es ← cPattern2edges vertex
  pure (decide (es.length > 0))

/-- gb/hypergraph/sql.py:208-214 `inc_degree`. -/
def cIncDegree (vertStr : Str) : Conn Bool := do
  let cur ← cOpen true
  let rowcount ← cWrite cur fun db => some (db.bumpDegree 1 vertStr)
  cClose true true
  pure (decide (rowcount > 0))

/-- gb/hypergraph/sql.py:216-222 `dec_degree`. -/
def cDecDegree (vertStr : Str) : Conn Bool := do
  let cur ← cOpen true
  let rowcount ← cWrite cur fun db => some (db.bumpDegree (-1) vertStr)
  cClose true true
  pure (decide (rowcount > 0))

/-- gb/hypergraph/sql.py:228-230: the loop body of `add_raw`. -/
def cAddVert (ts : Int) (vert : Val F) : Conn Unit := do
  let vertStr := edge2str vert
  let known ← cIncDegree vertStr
  if !known then cAddStr vertStr 1 ts

/-- gb/hypergraph/sql.py:227-232: what `add_raw` does when the edge is absent. -/
def cAddNew (edge : Val F) (ts : Int) : Conn Unit := do
  let verts ← cLift edge.iter
  cEach (cAddVert ts) verts
  cAddStr (edge2str edge) 0 ts
  cPerms verts (cWritePerm (F := F))

/-- gb/hypergraph/sql.py:224-233 `add_raw` (the result, which no caller uses, is left out). -/
def cAddRaw (edge : Val F) (ts : Int) : Conn Unit := do
  let present ← cExists edge
  if !present then cAddNew edge ts

/-- gb/hypergraph/sql.py:235-245 `add`. -/
def cAdd (edges : Val F) (ts : Int) : Conn Unit := do
  let first ← cLift edges.head0
  if first.isSeq then
    let _ ← cOpen false
    let es ← cLift edges.iter
    cEach (fun e => cAddRaw e ts) es
    cClose false true
  else
    cAddRaw edges ts

/-- gb/hypergraph/sql.py:247-253 `remove_raw`. -/
def cRemoveRaw (edge : Val F) : Conn Unit := do
  let present ← cExists edge
  if present then
    let verts ← cLift edge.iter
    cEach (fun v => do let _ ← cDecDegree (edge2str v)) verts
    cPerms verts (cRemovePerm (F := F))
    cRemoveStr (edge2str edge)

/-- gb/hypergraph/sql.py:255-263 `remove`. -/
def cRemove (edges : Val F) : Conn Unit := do
  let first ← cLift edges.head0
  if first.isSeq then
    let es ← cLift edges.iter
    cEach cRemoveRaw es
  else
    cRemoveRaw edges

/-- gb/hypergraph/hypergraph.py:97-101 `remove_by_pattern`. -/
def cRemoveByPattern (pattern : Val F) : Conn Unit := do
  let edges ← cPattern2edges pattern
  cEach cRemove edges

/-- gb/hypergraph/hypergraph.py:113-127 `add_belief`. -/
def cAddBelief (source edges : Val F) (ts : Int) : Conn Unit := do
  let arg ← cLift (beliefEdges source edges)
  cAdd arg ts

/-- gb/hypergraph/hypergraph.py:129-133 `sources`. -/
def cSources (edge : Val F) : Conn (List (Val F)) := do
  let edges ← cPattern2edges (.tup [.str constSource, edge, .none])
  let srcs ← cLift (mapE Val.item2 edges)
  pure (pySet srcs)

/-- gb/hypergraph/hypergraph.py:135-141 `remove_belief`. -/
def cRemoveBelief (source edge : Val F) : Conn Unit := do
  cRemove (.tup [.str constSource, edge, source])
  let srcs ← cSources edge
  if srcs.length = 0 then cRemove edge

/-- gb/hypergraph/sql.py:318-323 `batch_exec`. -/
def cBatch (funs : List (Conn Unit)) : Conn Unit := do
  let _ ← cOpen false
  cEach (fun f => f) funs
  cClose false true

/-- The call, statement by statement. -/
def PAct.conn : PAct F → Conn Unit
  | .add e ts => cAdd e ts
  | .addMany es ts => cAdd (.seq true es) ts
  | .remove e => cRemove e
  | .removeMany es => cRemove (.seq true es)
  | .removeByPattern ps => cRemoveByPattern (.tup ps)
  | .addBelief src e ts => cAddBelief src e ts
  | .addBeliefs src es ts => cAddBelief src (.seq true es) ts
  | .removeBelief src e => cRemoveBelief src e

/-- The call, or the calls as functions given to one `batch_exec`, statement by statement. -/
def PCall.conn : PCall F → Conn Unit
  | .one a => a.conn
  | .batch as => cBatch (as.map PAct.conn)

/-! ### one process alone -/

/-- The statements are sent over a connection that nobody disturbs, in the state of Model/Sql.lean. -/
def Stm.exec {α : Type} : Stm (Except PyErr α × Option Bool) → St → Except PyErr α × St
  | .ret (r, c), s => (r, { s with cur := c })
  | .read k, s => (k s.work).exec s
  | .write u k e, s =>
    match u s.work with
    | none => e.exec s
    | some w =>
      let s' := { s with work := w }
      (k s.work).exec (if s.autocommit then s'.commit else s')
  | .commit k, s => k.exec s.commit

/-- The method on an undisturbed connection. -/
def Conn.run {α : Type} (x : Conn α) : M α := fun s => (x s.cur).exec s

/-! ### several processes on one SQLite file -/

/-- A process: what remains of its program, or it is gone (killed, or ended by the `OperationalError` the driver
raises when it has waited too long for a lock; in both cases its connection is closed). -/
inductive Client where
  | live (p : Stm (Except PyErr Unit × Option Bool))
  | gone

/-- The file, the open write transaction if there is one (the number of the process that holds the lock, and the
contents as it sees them), and the processes. -/
structure Box where
  disk : DB
  tx : Option (Nat × DB)
  clients : List Client

/-- The processes start with idle connections. -/
def Box.start (db : DB) (progs : List (List (PCall F))) : Box :=
  ⟨db, none, progs.map fun p => .live (cEach PCall.conn p none)⟩

/-- The contents as process `i` sees them: its own transaction, else the file. -/
def Box.view (b : Box) (i : Nat) : DB :=
  match b.tx with
  | some (j, w) => if j = i then w else b.disk
  | none => b.disk

/-- Process `i` holds the lock. -/
def Box.holds (b : Box) (i : Nat) : Prop := ∃ w, b.tx = some (i, w)

/-- Nobody but process `i` holds the lock. -/
def Box.free (b : Box) (i : Nat) : Prop := ∀ j w, b.tx = some (j, w) → j = i

/-- Process `i` goes on as `p`. -/
def Box.set (b : Box) (i : Nat) (p : Client) : Box := { b with clients := b.clients.set i p }

/-- What the file and the lock become when the connection of process `i` is closed: its transaction is rolled back. -/
def Box.release (b : Box) (i : Nat) : Box :=
  { b with tx := match b.tx with
      | some (j, w) => if j = i then none else some (j, w)
      | none => none }

/-- One request of one process.  The driver opens a transaction before the first writing statement (and only then), and
the statement waits until no other process holds the lock; a statement that violates a key leaves the
transaction open, and so does a program that ends without `commit` until its connection is closed. -/
inductive Box.Move : Box → Box → Prop
  | read {b : Box} (i : Nat) {k} (h : b.clients[i]? = some (.live (.read k))) :
      Move b (b.set i (.live (k (b.view i))))
  | write {b : Box} (i : Nat) {u k e} (w : DB) (h : b.clients[i]? = some (.live (.write u k e))) (hf : b.free i)
      (hw : u (b.view i) = some w) :
      Move b { b.set i (.live (k (b.view i))) with tx := some (i, w) }
  | refused {b : Box} (i : Nat) {u k e} (h : b.clients[i]? = some (.live (.write u k e))) (hf : b.free i)
      (hw : u (b.view i) = none) :
      Move b { b.set i (.live e) with tx := some (i, b.view i) }
  | commit {b : Box} (i : Nat) {k} (w : DB) (h : b.clients[i]? = some (.live (.commit k))) (ht : b.tx = some (i, w)) :
      Move b { b.set i (.live k) with disk := w, tx := none }
  | idle {b : Box} (i : Nat) {k} (h : b.clients[i]? = some (.live (.commit k))) (ht : ¬ b.holds i) :
      Move b (b.set i (.live k))
  | close {b : Box} (i : Nat) {r} (h : b.clients[i]? = some (.live (.ret r))) (ht : b.holds i) : Move b (b.release i)

/-- A request, or a process is gone: this may happen at any moment. -/
inductive Box.Step : Box → Box → Prop
  | move {b c : Box} (h : b.Move c) : Step b c
  | leave {b : Box} (i : Nat) {p} (h : b.clients[i]? = some (.live p)) : Step b ((b.set i .gone).release i)

/-- The states that can come about. -/
inductive Box.Reach (b : Box) : Box → Prop
  | refl : Reach b b
  | step {c d : Box} : Reach b c → Step c d → Reach b d

/-- The first `k` processes returned, the others may be anywhere. -/
def Box.FirstDone (k : Nat) (b : Box) : Prop :=
  ∀ i, i < k → i < b.clients.length → ∃ r, b.clients[i]? = some (.live (.ret r))

/-- All processes returned. -/
def Box.Finished (b : Box) : Prop := b.FirstDone b.clients.length

end GB
