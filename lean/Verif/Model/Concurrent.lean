import Verif.Spec.Concurrent
import Verif.Spec.Crash

/-
Several processes, each with its own connection, on one SQLite database file.

Every method of class SQL that takes its own cursor commits before it returns
(gb/hypergraph/sql.py:110-131), and SQLite lets one connection at a time hold the lock of a write
transaction, so one such method call is one atomic step on the file: `atom`.  Between two of them any
other process may make steps.  A bulk `add` (gb/hypergraph/sql.py:238-242) keeps one transaction open
from its first write to its end; the driver opens no transaction for the SELECTs before it.

Not modelled here: lock timeouts, `batch_exec` (see Model/Statements.lean), `destroy` (see Model/Destroy.lean).  Not modelled
at all: several threads using one connection.
-/

namespace GB

variable {F : Type} [PyFloat F] [DecidableEq F]

/-- What a process still has to do: nothing (it returned or raised), or one transaction with effect
`upd` on the contents, after which it goes on depending on the contents it saw. -/
inductive Proc (α : Type) where
  | ret (r : Except PyErr α)
  | tx (upd : DB → DB) (next : DB → Proc α)

namespace Proc

/-- Sequencing; an exception ends the process. -/
def bind {α β : Type} : Proc α → (α → Proc β) → Proc β
  | .ret (.ok a), f => f a
  | .ret (.error e), _ => .ret (.error e)
  | .tx u n, f => .tx u fun db => (n db).bind f

/-- Sequencing after a statement. -/
def seq {α β : Type} (p : Proc α) (q : Proc β) : Proc β := p.bind fun _ => q

/-- The method call `m` on an idle connection, as one transaction.  (That it is one is proved:
`C65_atomic`.) -/
def atom {α : Type} (m : M α) : Proc α :=
  .tx (fun db => (m (reopen db false)).2.disk) fun db => .ret (m (reopen db false)).1

/-- `for x in xs: f(x)`. -/
def each {α : Type} (f : α → Proc Unit) : List α → Proc Unit
  | [] => .ret (.ok ())
  | x :: xs => (f x).seq (each f xs)

end Proc

/-- gb/hypergraph/sql.py:228-230: the loop body of `add_raw`. -/
def addVertP (ts : Int) (vert : Val F) : Proc Unit :=
  (Proc.atom (incDegree (edge2str vert))).bind fun known =>
    if !known then Proc.atom (addStr (edge2str vert) 1 ts) else .ret (.ok ())

/-- gb/hypergraph/sql.py:41-47 `do_with_edge_permutations`, for a method `f`. -/
def permsP (edge : List (Val F)) (f : Str → M Unit) : Proc Unit :=
  Proc.each (fun nperm => (Proc.ret (permStr edge nperm)).bind fun p => Proc.atom (f p))
    (List.range (factorial edge.length))

/-- gb/hypergraph/sql.py:224-233 `add_raw` and 235-245 `add` of one edge. -/
def addP (edge : Val F) (ts : Int) : Proc Unit :=
  (Proc.atom (existsM edge)).bind fun present =>
    if !present then
      (Proc.ret edge.iter).bind fun verts =>
        (Proc.each (addVertP ts) verts).seq
          ((Proc.atom (addStr (edge2str edge) 0 ts)).seq (permsP verts (writeEdgePermutation (F := F))))
    else .ret (.ok ())

/-- gb/hypergraph/sql.py:227-232: what `add_raw` does when the edge is absent. -/
def addNew (edge : Val F) (ts : Int) : M Unit := do
  let verts ← liftE edge.iter
  forEach (addVert ts) verts
  addStr (edge2str edge) 0 ts
  writeEdgePermutations verts

/-- gb/hypergraph/sql.py:238-242 `add` of several edges: edges that exist are passed over; the first that
does not starts the transaction, which lasts to the end. -/
def addManyP (ts : Int) : List (Val F) → Proc Unit
  | [] => .ret (.ok ())
  | e :: es =>
    (Proc.atom (existsM e)).bind fun present =>
      if !present then
        Proc.atom (do
          let _ ← openCursor false
          addNew e ts
          forEach (fun e => do let _ ← addRaw e ts) es
          closeCursor false true)
      else addManyP ts es

/-- gb/hypergraph/sql.py:247-253 `remove_raw` and 255-263 `remove` of one edge. -/
def removeP (edge : Val F) : Proc Unit :=
  (Proc.atom (existsM edge)).bind fun present =>
    if present then
      (Proc.ret edge.iter).bind fun verts =>
        (Proc.each (fun v => (Proc.atom (decDegree (edge2str v))).bind fun _ => .ret (.ok ())) verts).seq
          ((permsP verts (removeEdgePermutation (F := F))).seq (Proc.atom (removeStr (edge2str edge))))
    else .ret (.ok ())

/-- gb/hypergraph/sql.py:235-245 `add`. -/
def addAnyP (edges : Val F) (ts : Int) : Proc Unit :=
  (Proc.ret edges.head0).bind fun first =>
    if first.isSeq then (Proc.ret edges.iter).bind fun es => addManyP ts es else addP edges ts

/-- gb/hypergraph/sql.py:255-263 `remove`: no transaction around the edges of a list. -/
def removeAnyP (edges : Val F) : Proc Unit :=
  (Proc.ret edges.head0).bind fun first =>
    if first.isSeq then (Proc.ret edges.iter).bind fun es => Proc.each removeP es else removeP edges

/-- gb/hypergraph/hypergraph.py:97-101 `remove_by_pattern`. -/
def removeByPatternP (pattern : Val F) : Proc Unit :=
  (Proc.atom (hgPattern2edges pattern)).bind fun edges => Proc.each removeAnyP edges

/-- gb/hypergraph/hypergraph.py:113-127 `add_belief`. -/
def addBeliefP (source edges : Val F) (ts : Int) : Proc Unit :=
  (Proc.ret (beliefEdges source edges)).bind fun arg => addAnyP arg ts

/-- gb/hypergraph/hypergraph.py:135-141 `remove_belief`. -/
def removeBeliefP (source edge : Val F) : Proc Unit :=
  (removeAnyP (.tup [.str constSource, edge, source])).seq
    ((Proc.atom (hgSources edge)).bind fun srcs =>
      if srcs.length = 0 then removeAnyP edge else .ret (.ok ()))

/-- The call as a process. -/
def PAct.proc : PAct F → Proc Unit
  | .add e ts => addAnyP e ts
  | .addMany es ts => addAnyP (.seq true es) ts
  | .remove e => removeAnyP e
  | .removeMany es => removeAnyP (.seq true es)
  | .removeByPattern ps => removeByPatternP (.tup ps)
  | .addBelief src e ts => addBeliefP src e ts
  | .addBeliefs src es ts => addBeliefP src (.seq true es) ts
  | .removeBelief src e => removeBeliefP src e

/-- A program: calls one after the other. -/
def programP (acts : List (PAct F)) : Proc Unit := Proc.each PAct.proc acts

/-- The contents of the file and what each process still has to do. -/
structure Sys where
  db : DB
  procs : List (Proc Unit)

/-- The processes `progs` start on a file with contents `db`. -/
def Sys.start (db : DB) (progs : List (List (PAct F))) : Sys := ⟨db, progs.map programP⟩

/-- Process number `i` makes its next transaction. -/
inductive Sys.Step : Sys → Sys → Prop
  | tx {db : DB} {procs : List (Proc Unit)} (i : Nat) {upd : DB → DB} {next : DB → Proc Unit}
      (h : procs[i]? = some (.tx upd next)) : Step ⟨db, procs⟩ ⟨upd db, procs.set i (next db)⟩

/-- The states that the processes can bring about, in whatever order they make their steps. -/
inductive Sys.Reach (σ : Sys) : Sys → Prop
  | refl : Reach σ σ
  | step {τ υ : Sys} : Reach σ τ → Step τ υ → Reach σ υ

/-- Every process returned. -/
def Sys.Finished (σ : Sys) : Prop := ∀ p ∈ σ.procs, ∃ r, p = .ret r

/-- The first `k` processes returned; the others may have been killed anywhere in their programs (they make no
further step). -/
def FirstDone (k : Nat) (σ : Sys) : Prop := ∀ (i : Nat) (p : Proc Unit), i < k → σ.procs[i]? = some p → ∃ r, p = .ret r

end GB
