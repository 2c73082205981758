import Verif.Model.Server

/-
The length of the columns of the MySQL tables (gb/hypergraph/mysql.py:50, 57: `id VARCHAR(10000)`), for any length and any of
the servers of Model/Server.lean.  SQLite (gb/hypergraph/sqlite.py:44, 50: `id TEXT`) has no such limit.
-/

namespace GB

/-- `cur.execute(...)` of an `INSERT` of the text `t` into a column of `n` characters (gb/hypergraph/mysql.py:50, 57,
gb/hypergraph/sql.py:144-146): the server, in its default strict mode, refuses a longer text (`DataError`), before it looks for the
key.  What is noticed before the text reaches the column (a closed cursor, characters that cannot be sent) is noticed before.
Simplification: MySQL would cut trailing spaces that do not fit, with a warning; here they count. -/
def limitInsert (n : Nat) (t : Str) (m : M Unit) : M Unit := fun s =>
  if t.length ≤ n then m s
  else match m s with
    | (.ok _, _) => (.error .dataError, s)
    | (.error .integrityError, _) => (.error .dataError, s)
    | (.error e, s') => (.error e, s')

/-- The server with columns of `n` characters (gb/hypergraph/mysql.py:50, 57).  Only `INSERT` stores a text that was not there:
an `UPDATE` of `id` that finds a row writes the text that is there, and comparing with a longer text is allowed. -/
def Server.limit (n : Nat) (srv : Server) : Server :=
  { srv with
    insertVertex := fun c id deg ts => limitInsert n id (srv.insertVertex c id deg ts)
    insertPerm := fun c id => limitInsert n id (srv.insertPerm c id) }

end GB
