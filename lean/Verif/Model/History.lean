import Verif.Model.HyperGraph
import Verif.Spec.History

/-
Running a history of operations on a HyperGraph with an SQL backend: each operation is the call of
the corresponding method, its result discarded.
-/

namespace GB

variable {F : Type} [PyFloat F] [DecidableEq F]

/-- A read-only call (gb/hypergraph/hypergraph.py:44-95, 129-133); the result is discarded. -/
def Query.run : Query F → M Unit
  | .exists e => do let _ ← hgExists e
  | .pattern ps => do let _ ← hgPattern2edges (.tup ps)
  | .star c => do let _ ← hgStar c
  | .symbolsWithRoot r => do let _ ← hgSymbolsWithRoot r
  | .sources e => do let _ ← hgSources e
  | .fAll => do let _ ← hgFAll (fun (v : Val F) (d : Int) => (v, d))

/-- A call allowed inside a batch (gb/hypergraph/hypergraph.py:48-101, 135-141). -/
def Prim.run : Prim F → M Unit
  | .add e ts => do let _ ← hgAdd e ts
  | .remove e => hgRemove e
  | .removeMany es => hgRemove (.seq true es)
  | .removeByPattern ps => hgRemoveByPattern (.tup ps)
  | .removeBelief src e => hgRemoveBelief src e
  | .destroy => hgDestroy
  | .query q => q.run

/-- A call (gb/hypergraph/hypergraph.py:44-141). -/
def Op.run : Op F → M Unit
  | .prim p => p.run
  | .addMany es ts => do let _ ← hgAdd (.seq true es) ts
  | .addBelief src e ts => hgAddBelief src e ts
  | .addBeliefs src es ts => hgAddBelief src (.seq true es) ts
  | .batch ps => hgBatchExec (ps.map Prim.run)
  | .degree v => do let _ ← hgDegree v
  | .timestamp v => do let _ ← hgTimestamp v

/-- A history of calls. -/
def runOps (ops : List (Op F)) : M Unit := forEach Op.run ops

/-- A new graph: empty tables, idle connection.  `autocommit` is false for SQLite
(gb/hypergraph/sqlite.py:32-39) and true for MySQL (gb/hypergraph/mysql.py:32-45). -/
def St.new (autocommit : Bool) : St := ⟨DB.empty, DB.empty, [], none, autocommit⟩

end GB
