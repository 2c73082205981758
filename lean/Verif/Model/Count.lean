import Verif.Model.Server

/-
The degree column of the MySQL tables (gb/hypergraph/mysql.py:53: `degree INT DEFAULT 0`) holds 32-bit integers; for any
largest number and any of the servers of Model/Server.lean.
-/

namespace GB

/-- `UPDATE vertices SET degree=degree+1 WHERE id=%s` (gb/hypergraph/sql.py:208-222) with a column that holds numbers up to
`b` (gb/hypergraph/mysql.py:53; 2147483647 for `INT`): the server, in its default strict mode, refuses to write a larger one
(`DataError`), and then the statement changes nothing.  Rows that the statement does not change are not looked at.
Simplifications: only the upper end is modelled; and no other statement of gb/hypergraph/sql.py writes a degree other than 0
or 1 (lines 230-231), so `b` is meant to be at least 1. -/
def countBump (b : Nat) (m : M Nat) : M Nat := fun s =>
  match m s with
  | (.ok n, s') =>
    if s'.work.vertices.all fun r => decide (r ∈ s.work.vertices) || decide (r.degree ≤ b) then (.ok n, s')
    else (.error .dataError, s)
  | r => r

/-- The server with a degree column that holds numbers up to `b` (gb/hypergraph/mysql.py:53). -/
def Server.counts (b : Nat) (srv : Server) : Server :=
  { srv with bumpDegree := fun c d id => countBump b (srv.bumpDegree c d id) }

end GB
