import Verif.Model.Concurrent
import Verif.Spec.Destroy

/-
Processes that may also erase the graph.  `destroy` takes its own cursor, executes two DELETE statements
and commits (gb/hypergraph/sql.py:287-292): one transaction, so one step of its process.
-/

namespace GB

variable {F : Type} [PyFloat F] [DecidableEq F]

/-- The call as a process; gb/hypergraph/hypergraph.py:72-74 and gb/hypergraph/sql.py:287-292 `destroy`. -/
def DAct.proc : DAct F → Proc Unit
  | .call a => a.proc
  | .destroy => Proc.atom hgDestroy

/-- A program: calls one after the other. -/
def programD (acts : DProgram F) : Proc Unit := Proc.each DAct.proc acts

/-- The processes `progs` start on a file with contents `db`. -/
def Sys.startD (db : DB) (progs : List (DProgram F)) : Sys := ⟨db, progs.map programD⟩

end GB
