import Verif.Py.Basic

/-
Model of the choice of a backend: HyperGraph.__init__, SQLite.__init__, MySQL.__init__ and the command line.
-/

namespace GB

/-- A Python dict with string keys and values. -/
abbrev Params := List (Str × Str)

/-- `params[k]`. -/
def Params.get (p : Params) (k : Str) : Except PyErr Str :=
  match p.find? (fun kv => kv.1 = k) with
  | some kv => .ok kv.2
  | none => .error .keyError

/-- What is opened. -/
inductive Opened where
  /-- no `backend` attribute at all -/
  | none
  | null
  /-- `sqlite3.connect(file_path)` -/
  | sqlite (file : Str)
  /-- `MySQLdb.connect(host, user, passwd, db)` -/
  | mysql (host user password db : Str)
  deriving DecidableEq, Repr

/-- gb/hypergraph/sqlite.py:34-36. -/
def openSqlite (p : Params) : Except PyErr Opened := do
  let file ← p.get (lit "db")
  .ok (.sqlite file)

/-- gb/hypergraph/mysql.py:36-43. -/
def openMysql (p : Params) : Except PyErr Opened := do
  let host ← p.get (lit "host")
  let user ← p.get (lit "user")
  let password ← p.get (lit "password")
  let db ← p.get (lit "db")
  .ok (.mysql host user password db)

/-- gb/hypergraph/hypergraph.py:31-42 `__init__` (connecting itself is not modelled). -/
def openHyperGraph (p : Params) : Except PyErr Opened := do
  let backend ← p.get (lit "backend")
  if backend = lit "none" then .ok .none
  else if backend = lit "null" then .ok .null
  else if backend = lit "sqlite" then openSqlite p
  else if backend = lit "mysql" then openMysql p
  else .error .runtimeError

/-- gb/gbrain.py:29-41 `cli`: the parameters made from the command line options. -/
def cliParams (backend db dbuser dbpass : Str) : Params :=
  [(lit "backend", backend), (lit "db", db), (lit "dbuser", dbuser), (lit "dbpass", dbpass)]

end GB
