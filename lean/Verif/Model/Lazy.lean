import Verif.Model.History

/-
`f_all` as the generator it is (gb/hypergraph/sql.py:325-334): nothing runs before the first `next`, and between two
`next` the caller, or the function given to `f_all`, may call other methods.  What such a call does to an unfinished
`f_all` depends on the cursor both use, so the unread rows of the shared cursor `self.cur` become part of the state, and
the reading methods are written once more, line by line, with every cursor operation.  That they are the methods of
Model/Sql.lean is proved (`C76_same_calls`).
-/

namespace GB

variable {F : Type} [PyFloat F] [DecidableEq F]

/-- A row of a query result: `SELECT id`, `SELECT degree` or `SELECT timestamp`, `SELECT id, degree`. -/
inductive Fetched where
  | text (t : Str)
  | num (n : Int)
  | pair (t : Str) (n : Int)
  deriving DecidableEq, Repr

/-- The `SQL` object and its connection (`st`), the rows of the last query on the shared cursor `self.cur` that were not
fetched yet (`unread`), and the number of shared cursors dropped so far (`epoch`), which tells the present one from an
older one still held by a generator. -/
structure Live where
  st : St
  unread : List Fetched
  epoch : Nat
  deriving DecidableEq, Repr

/-- A method call that may leave rows unread. -/
def L (α : Type) : Type := Live → Except PyErr α × Live

/-- Return a value. -/
def L.pure {α : Type} (a : α) : L α := fun l => (.ok a, l)
/-- Sequencing; an exception stops execution. -/
def L.bind {α β : Type} (x : L α) (f : α → L β) : L β := fun l =>
  match x l with
  | (.ok a, l') => f a l'
  | (.error e, l') => (.error e, l')

instance : Monad L where
  pure := L.pure
  bind := L.bind

/-- A computation that uses neither the database nor a cursor. -/
def lLift {α : Type} (x : Except PyErr α) : L α := fun l => (x, l)

/-- gb/hypergraph/sql.py:110-119 `open_cursor` and 121-131 `close_cursor` with `local=True`, `commit=False`, and a direct
`cur.close()`: they fetch nothing. -/
def lOn {α : Type} (x : M α) : L α := fun l => ((x l.st).1, { l with st := (x l.st).2 })

/-- `cur.execute(SELECT ...)`: on the shared cursor it discards the rows not yet fetched and offers the new ones; on an
own cursor the new rows are kept with that cursor (the value returned).  A closed cursor raises `ProgrammingError`. -/
def lSelect (c : Cursor) (q : DB → List Fetched) : L (List Fetched) := fun l =>
  if c = .shared ∧ l.st.cur = some false then (.error .programmingError, l)
  else
    match c with
    | .own => (.ok (q l.st.work), l)
    | .shared => (.ok [], { l with unread := q l.st.work })

/-- `for row in cur: body` until a body raises: what the bodies computed and the rows left. -/
def consume {α : Type} (body : Fetched → Except PyErr α) : List Fetched → Except PyErr (List α) × List Fetched
  | [] => (.ok [], [])
  | r :: rows =>
    match body r with
    | .error e => (.error e, rows)
    | .ok a =>
      match consume body rows with
      | (.ok as, rest) => (.ok (a :: as), rest)
      | (.error e, rest) => (.error e, rest)

/-- `for row in cur: body` with a body that does not use the database, on an own cursor with rows `own` or on the shared
one. -/
def lLoop {α : Type} (c : Cursor) (own : List Fetched) (body : Fetched → Except PyErr α) : L (List α) := fun l =>
  match c with
  | .own => ((consume body own).1, l)
  | .shared =>
    if l.st.cur = some false then (.error .programmingError, l)
    else ((consume body l.unread).1, { l with unread := (consume body l.unread).2 })

/-- `next(cur)`: the next row if there is one, and the rows an own cursor keeps. -/
def lFetch (c : Cursor) (own : List Fetched) : L (Option Fetched × List Fetched) := fun l =>
  match c with
  | .own => (.ok (own.head?, own.tail), l)
  | .shared =>
    if l.st.cur = some false then (.error .programmingError, l)
    else (.ok (l.unread.head?, []), { l with unread := l.unread.tail })

/-- `row[0]` where a text is expected; a number would raise `TypeError` in `edge_str[0]`
(gb/hypergraph/edge.py, `split_edge_str`). -/
def Fetched.textE : Fetched → Except PyErr Str
  | .text t => .ok t
  | .pair t _ => .ok t
  | .num _ => .error .typeError

/-- The body of `cur2edges` (gb/hypergraph/sql.py:68-75) on one row. -/
def rowEdge (r : Fetched) : Except PyErr (Val F) := do decodeRow (← r.textE)

/-- gb/hypergraph/sql.py:180-190 `str2perms`. -/
def lStr2perms (centerId : Str) : L (List (Val F)) := do
  let startStr := centerId ++ lit " "
  let endStr ← lLift (strPlus1 startStr)
  let cur ← lOn (openCursor true)
  let own ← lSelect cur fun db => (db.selectRange startStr endStr).map .text
  let edges ← lLoop cur own rowEdge
  lOn (closeCursor true false)
  pure (pySet (pySet edges))

/-- gb/hypergraph/sql.py:192-202 `pattern2edges`. -/
def lPattern2edges (pattern : Val F) : L (List (Val F)) := do
  let ps ← lLift pattern.iter
  let startStr := nodes2str (ps.filter fun n => !n.isNone)
  let endStr ← lLift (strPlus1 startStr)
  let cur ← lOn (openCursor true)
  let own ← lSelect cur fun db => (db.selectRange startStr endStr).map .text
  let edges ← lLoop cur own rowEdge
  lOn (closeCursor true false)
  let res ← lLift (filterE (fun e => edgeMatchesPattern e pattern) (pySet edges))
  pure (pySet res)

/-- gb/hypergraph/sql.py:204-206 `exists`. -/
def lExists (vertex : Val F) : L Bool := do
  let es ← lPattern2edges vertex
  pure (decide (es.length > 0))

/-- gb/hypergraph/sql.py:265-271 `star`. -/
def lStar (center : Val F) : L (List (Val F)) :=
  if center.isSeq then lStr2perms (edge2str center) else lStr2perms (atomStr center)

/-- gb/hypergraph/sql.py:273-285 `symbols_with_root`. -/
def lSymbolsWithRoot (root : Str) : L (List Str) := do
  let startStr := root ++ lit "/"
  let endStr ← lLift (strPlus1 startStr)
  let cur ← lOn (openCursor true)
  let own ← lSelect cur fun db => (db.selectRange startStr endStr).map .text
  let symbs ← lLoop cur own fun r => do rowFirstToken (← r.textE)
  lOn (closeCursor true false)
  pure (strSet symbs)

/-- gb/hypergraph/hypergraph.py:129-133 `sources`. -/
def lSources (edge : Val F) : L (List (Val F)) := do
  let edges ← lPattern2edges (.tup [.str constSource, edge, .none])
  let srcs ← lLift (mapE Val.item2 edges)
  pure (pySet srcs)

/-- `row[0]` where a number is expected (always `SELECT degree` or `SELECT timestamp`). -/
def Fetched.numE : Fetched → Except PyErr Int
  | .num n => .ok n
  | _ => .error .typeError

/-- gb/hypergraph/sql.py:294-304 `degree` (`sel` is the column `degree`, `dflt` 0) and 306-316 `timestamp` (`timestamp`,
-1). -/
def lLook (sel : VRow → Int) (dflt : Int) (vertex : Val F) : L Int := do
  let vertStr := edge2str vertex
  let cur ← lOn (openCursor true)
  let own ← lSelect cur fun db => (db.selectVertex vertStr).map fun r => .num (sel r)
  let got ← lFetch cur own
  match got.1 with
  | some row => do
    let n ← lLift row.numE
    lOn (closeDirect cur)
    pure n
  | none => do
    lOn (closeCursor true false)
    pure dflt

/-- gb/hypergraph/sql.py:330-333: the vertex map of a row. -/
def rowVertex (r : Fetched) : Except PyErr (Val F × Int) := do
  let v ← str2edge (← r.textE)
  match r with
  | .pair _ d => .ok (v, d)
  | _ => .error .indexError

/-- `SELECT id, degree FROM vertices`. -/
def DB.vertexRows (db : DB) : List Fetched := db.vertices.map fun r => .pair r.id r.degree

/-- gb/hypergraph/sql.py:325-334: `list(f_all(f))` for an `f` that returns its argument. -/
def lVertices : L (List (Val F × Int)) := do
  let cur ← lOn (openCursor true)
  let own ← lSelect cur DB.vertexRows
  let vs ← lLoop cur own rowVertex
  lOn (closeCursor true false)
  pure vs

/-! ### Reading calls and programs made of them -/

/-- A reading call. -/
inductive RCall (F : Type) where
  | exists (e : Val F)
  | pattern (p : Val F)
  | star (c : Val F)
  | symbolsWithRoot (r : Str)
  | sources (e : Val F)
  | degree (v : Val F)
  | timestamp (v : Val F)
  /-- `list(hg.f_all(lambda x: x))` -/
  | vertices

/-- What a reading call returns. -/
inductive Ans (F : Type) where
  | bool (b : Bool)
  | edges (es : List (Val F))
  | names (rs : List Str)
  | int (n : Int)
  | vertices (vs : List (Val F × Int))
  deriving DecidableEq

/-- The call as a method of Model/HyperGraph.lean (gb/hypergraph/hypergraph.py:44-95, 129-133). -/
def RCall.run : RCall F → M (Ans F)
  | .exists e => do let r ← hgExists e; pure (.bool r)
  | .pattern p => do let r ← hgPattern2edges p; pure (.edges r)
  | .star c => do let r ← hgStar c; pure (.edges r)
  | .symbolsWithRoot t => do let r ← hgSymbolsWithRoot t; pure (.names r)
  | .sources e => do let r ← hgSources e; pure (.edges r)
  | .degree v => do let r ← hgDegree v; pure (.int r)
  | .timestamp v => do let r ← hgTimestamp v; pure (.int r)
  | .vertices => do let r ← hgFAll (fun (v : Val F) (d : Int) => (v, d)); pure (.vertices r)

/-- The same call with its cursor operations (gb/hypergraph/hypergraph.py:44-95, 129-133). -/
def RCall.live : RCall F → L (Ans F)
  | .exists e => do let r ← lExists e; pure (.bool r)
  | .pattern p => do let r ← lPattern2edges p; pure (.edges r)
  | .star c => do let r ← lStar c; pure (.edges r)
  | .symbolsWithRoot t => do let r ← lSymbolsWithRoot t; pure (.names r)
  | .sources e => do let r ← lSources e; pure (.edges r)
  | .degree v => do let r ← lLook VRow.degree 0 v; pure (.int r)
  | .timestamp v => do let r ← lLook VRow.timestamp (-1) v; pure (.int r)
  | .vertices => do let r ← lVertices; pure (.vertices r)

/-- A program that reads the graph: it returns, raises, or makes a call and goes on with what came back (a result or an
exception, which it may handle). -/
inductive RProg (F : Type) (β : Type) where
  | ret (b : β)
  | raise (e : PyErr)
  | call (c : RCall F) (k : Except PyErr (Ans F) → RProg F β)

/-- Running it. -/
def RProg.live {β : Type} : RProg F β → L β
  | .ret b => fun l => (.ok b, l)
  | .raise e => fun l => (.error e, l)
  | .call c k => fun l => (k (c.live l).1).live (c.live l).2

/-! ### The generator -/

/-- A generator returned by `f_all`: not started; suspended at `yield` on an own cursor with its unread rows; suspended
on the shared cursor of an epoch; finished. -/
inductive Gen (F : Type) (β : Type) where
  | new (f : Val F → Int → RProg F β)
  | own (f : Val F → Int → RProg F β) (rows : List Fetched)
  | shared (f : Val F → Int → RProg F β) (epoch : Nat)
  | done

/-- gb/hypergraph/sql.py:331-334: one turn of the loop after the row was fetched, or the end of the loop.  `back` is the
generator suspended at `yield`. -/
def genTurn {β : Type} (f : Val F → Int → RProg F β) (row : Option Fetched) (back : Gen F β) (l : Live) :
    Except PyErr (Option β) × Gen F β × Live :=
  match row with
  | none =>
    match lOn (closeCursor true false) l with
    | (.ok _, l') => (.ok none, .done, l')
    | (.error e, l') => (.error e, .done, l')
  | some r =>
    match rowVertex r with
    | .error e => (.error e, .done, l)
    | .ok vd =>
      match (f vd.1 vd.2).live l with
      | (.ok b, l') => (.ok (some b), back, l')
      | (.error e, l') => (.error e, .done, l')

/-- The shared cursor a generator of epoch `n` holds was closed: another one has taken its place, or none. -/
def Live.lost (l : Live) (n : Nat) : Bool := n ≠ l.epoch || l.st.cur = none

/-- `next(g)`: `none` is `StopIteration`.  A generator that raised is finished. -/
def genNext {β : Type} (g : Gen F β) (l : Live) : Except PyErr (Option β) × Gen F β × Live :=
  match g with
  | .done => (.ok none, .done, l)
  | .own f rows => genTurn f rows.head? (.own f rows.tail) l
  | .shared f n =>
    if l.lost n then (.error .programmingError, .done, l)
    else
      match lFetch .shared [] l with
      | (.error e, l') => (.error e, .done, l')
      | (.ok got, l') => genTurn f got.1 (.shared f n) l'
  | .new f =>
    match lOn (openCursor true) l with
    | (.error e, l') => (.error e, .done, l')
    | (.ok c, l') =>
      match lSelect c DB.vertexRows l' with
      | (.error e, l'') => (.error e, .done, l'')
      | (.ok rows, l'') =>
        match lFetch c rows l'' with
        | (.error e, l3) => (.error e, .done, l3)
        | (.ok got, l3) =>
          genTurn f got.1 (match c with | .own => .own f got.2 | .shared => .shared f l3.epoch) l3

/-! ### A user's program -/

/-- What a program does, step by step: `g = hg.f_all(f)`; `next` of the `i`-th generator made; a reading call; entering
and leaving the functions of a `batch_exec` (gb/hypergraph/sql.py:318-323); an operation outside a batch.
An operation that changes the tables under an unfinished `SELECT` leaves it open, in SQLite, which rows that `SELECT`
still delivers: `rest i` are the rows generator `i` gets from then on, any rows (before Python 3.6 a commit makes the
next fetch raise; not modelled).  MySQLdb fetches all rows at once, so
there (`autocommit`) `rest` is not used. -/
inductive Act (F : Type) (β : Type) where
  | make (f : Val F → Int → RProg F β)
  | next (i : Nat)
  | call (c : RCall F)
  | enter
  | leave
  | op (o : Op F) (rest : Nat → List Fetched)

/-- What the program sees of a step. -/
inductive Out (F : Type) (β : Type) where
  | unit (r : Except PyErr Unit)
  | got (r : Except PyErr (Option β))
  | answer (r : Except PyErr (Ans F))
  deriving DecidableEq

/-- The program's state: the graph and its generators. -/
structure Prg (F : Type) (β : Type) where
  live : Live
  gens : List (Gen F β)

/-- The rows an unfinished `SELECT` on an own cursor delivers after the tables changed. -/
def Gen.disturb {β : Type} (rest : List Fetched) : Gen F β → Gen F β
  | .own f _ => .own f rest
  | g => g

/-- One step (gb/hypergraph/sql.py:318-334 and the methods above).  `next` of a generator that does not exist is a
`NameError` in Python, here `KeyError`; an operation is meant to be outside a batch (its own shared cursor is new and
dropped again: one epoch more). -/
def Act.run {β : Type} (p : Prg F β) : Act F β → Out F β × Prg F β
  | .make f => (.unit (.ok ()), { p with gens := p.gens ++ [.new f] })
  | .next i =>
    match p.gens[i]? with
    | none => (.got (.error .keyError), p)
    | some g =>
      match genNext g p.live with
      | (r, g', l') => (.got r, ⟨l', p.gens.set i g'⟩)
  | .call c =>
    match c.live p.live with
    | (r, l') => (.answer r, { p with live := l' })
  | .enter =>
    match openCursor false p.live.st with
    | (.ok _, s') => (.unit (.ok ()), { p with live := ⟨s', if p.live.st.cur = none then [] else p.live.unread, p.live.epoch⟩ })
    | (.error e, s') => (.unit (.error e), { p with live := { p.live with st := s' } })
  | .leave =>
    match closeCursor false true p.live.st with
    | (r, s') => (.unit r, { p with live := ⟨s', [], p.live.epoch + 1⟩ })
  | .op o rest =>
    match o.run p.live.st with
    | (r, s') => (.unit r, ⟨⟨s', [], p.live.epoch + 1⟩,
        if p.live.st.autocommit then p.gens else p.gens.mapIdx fun i g => g.disturb (rest i)⟩)

/-- A program. -/
def runActs {β : Type} : List (Act F β) → Prg F β → List (Out F β) × Prg F β
  | [], p => ([], p)
  | a :: as, p =>
    let (o, p') := a.run p
    let (os, p'') := runActs as p'
    (o :: os, p'')

end GB
