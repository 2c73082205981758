import Verif.Model.Server

/-
A program that wraps each of its calls in `try: ... except Exception: ...` and goes on, on any of the servers of
Model/Server.lean.  (The calls are those of gb/hypergraph/hypergraph.py:44-141; the repository itself catches nothing.)
-/

namespace GB

variable {F : Type} [PyFloat F] [DecidableEq F]

/-- The calls, each with whether it returned without an exception, and the state at the end
(gb/hypergraph/hypergraph.py:44-101, 135-141). -/
def caught (srv : Server) : List (Prim F) → St → List (Prim F × Bool) × St
  | [], s => ([], s)
  | p :: ps, s =>
    match p.srvRun srv s with
    | (.ok _, s') => ((p, true) :: (caught srv ps s').1, (caught srv ps s').2)
    | (.error _, s') => ((p, false) :: (caught srv ps s').1, (caught srv ps s').2)

/-- The calls that returned. -/
def returned (rs : List (Prim F × Bool)) : List (Prim F) := (rs.filter fun r => r.2).map Prod.fst

end GB
