import Verif.Model.History
import Verif.Spec.Crash

/-
Model of what opening a database does to its file: `create_tables` of gb/hypergraph/sqlite.py:38-53 and of
gb/hypergraph/mysql.py:47-62, which issue the same statements with other types.  Every one of these statements takes
effect at once and wholly (SQLite's driver opens no transaction for them; MySQL commits them implicitly).
-/

namespace GB

variable {F : Type} [PyFloat F] [DecidableEq F]

/-- The columns of table `vertices` besides `id` (gb/hypergraph/sqlite.py:44-45).  Files with further columns are not
modelled. -/
inductive Col where
  | degree
  | timestamp
  deriving DecidableEq, Repr

/-- Table `vertices` as it is in a file: the columns besides `id` in their order, and rows with a value for each. -/
structure VTable where
  cols : List Col
  rows : List (Str × List Int)
  deriving DecidableEq, Repr

/-- A database file: each table may be missing. -/
structure File where
  vertices : Option VTable
  perms : Option (List Str)
  deriving DecidableEq, Repr

/-- A file that did not exist before `sqlite3.connect`. -/
def File.new : File := ⟨none, none⟩

/-- The statements of `create_tables`. -/
inductive Ddl where
  | createVertices
  | addColumn (c : Col) (default : Int)
  | createPerms
  deriving DecidableEq, Repr

/-- Execute one of the statements; `none` is `OperationalError`: the table or column exists already, or the table to
be altered does not exist.  A new column has its default value in all rows. -/
def Ddl.exec : Ddl → File → Option File
  | .createVertices, f =>
    match f.vertices with
    | none => some { f with vertices := some ⟨[], []⟩ }
    | some _ => none
  | .addColumn c d, f =>
    match f.vertices with
    | none => none
    | some t =>
      if c ∈ t.cols then none
      else some { f with vertices := some ⟨t.cols ++ [c], t.rows.map fun r => (r.1, r.2 ++ [d])⟩ }
  | .createPerms, f =>
    match f.perms with
    | none => some { f with perms := some [] }
    | some _ => none

/-- gb/hypergraph/sqlite.py:25-29, mysql.py:25-31 `exec_or_ignore`.  `busy`: the statement fails for another reason
that is reported by the same exception, as when the database stays locked. -/
def execOrIgnore (busy : Bool) (d : Ddl) (f : File) : File :=
  if busy then f else (d.exec f).getD f

/-- gb/hypergraph/sqlite.py:43-50, mysql.py:51-59: the statements in their order. -/
def createTables : List Ddl :=
  [.createVertices, .addColumn .degree 0, .addColumn .timestamp (-1), .createPerms]

/-- gb/hypergraph/sqlite.py:38-53 `create_tables`, undisturbed. -/
def openFile (f : File) : File := createTables.foldl (fun f d => execOrIgnore false d f) f

/-- The same where some of the statements find the database busy (one flag for each statement). -/
def openBusy (busy : List Bool) (f : File) : File :=
  (busy.zip createTables).foldl (fun f bd => execOrIgnore bd.1 bd.2 f) f

/-- The value of a column in a row. -/
def VTable.value (t : VTable) (c : Col) (vals : List Int) : Option Int := vals[t.cols.idxOf c]?

/-- A row as the statements of gb/hypergraph/sql.py see it: `none` if a column they name does not exist. -/
def VTable.row (t : VTable) (r : Str × List Int) : Option VRow :=
  match t.value .degree r.2, t.value .timestamp r.2 with
  | some d, some s => some ⟨r.1, d, s⟩
  | _, _ => none

/-- What the statements of gb/hypergraph/sql.py see in the file; `none`: they raise `OperationalError` because a table
or a column does not exist. -/
def File.contents (f : File) : Option DB :=
  match f.vertices, f.perms with
  | some t, some ps =>
    if .degree ∈ t.cols ∧ .timestamp ∈ t.cols then some ⟨t.rows.filterMap t.row, ps⟩ else none
  | _, _ => none

/-- The value of a row in a column. -/
def VRow.get (r : VRow) : Col → Int
  | .degree => r.degree
  | .timestamp => r.timestamp

/-- The file with the tables as before and these contents in them. -/
def File.store (f : File) (db : DB) : File :=
  ⟨f.vertices.map fun t => { t with rows := db.vertices.map fun r => (r.id, t.cols.map r.get) },
   f.perms.map fun _ => db.perms⟩

/-! Several processes that open one file -/

/-- The file, and for each process how many of its statements it has made. -/
structure Openers where
  file : File
  pos : List Nat
  deriving Repr

/-- What may happen next: a process makes its next statement, or one that has opened the database puts
something into the tables. -/
inductive OpenEvent where
  | statement (i : Nat)
  | work (i : Nat) (db : DB)

/-- One event.  It has no effect if the process does not exist, or has made all statements, or has to make some before
it can work. -/
def Openers.step (o : Openers) : OpenEvent → Openers
  | .statement i =>
    match o.pos[i]? with
    | none => o
    | some k =>
      match createTables[k]? with
      | none => o
      | some d => ⟨execOrIgnore false d o.file, o.pos.set i (k + 1)⟩
  | .work i db =>
    if o.pos[i]? = some createTables.length then { o with file := o.file.store db } else o

/-- `n` processes begin to open the file. -/
def Openers.start (f : File) (n : Nat) : Openers := ⟨f, List.replicate n 0⟩

/-- A schedule. -/
def Openers.run (o : Openers) (es : List OpenEvent) : Openers := es.foldl Openers.step o

/-! Sessions -/

/-- A session: open the file, run the calls, end.  The result is that of the calls, `none` if already the tables are
not there; what was not committed is lost at the end. -/
def session (ops : List (Op F)) (f : File) : Option (Except PyErr Unit) × File :=
  match (openFile f).contents with
  | none => (none, openFile f)
  | some db =>
    let r := runOps ops (reopen db false)
    (some r.1, (openFile f).store r.2.disk)

/-- One session after the other, while they return. -/
def sessions : List (List (Op F)) → File → Option (Except PyErr Unit) × File
  | [], f => (some (.ok ()), openFile f)
  | ops :: rest, f =>
    match session ops f with
    | (some (.ok ()), f') => sessions rest f'
    | (r, f') => (r, f')

end GB
