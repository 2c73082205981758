import Verif.Model.Batch
import Verif.Model.History

/-
Specification: sequences of additions through a BatchHyperGraph, and the same additions made directly.
-/

namespace GB

variable {F : Type} [PyFloat F]

/-- An addition through a BatchHyperGraph, or an explicit flush (of a buffer that is not empty). -/
inductive BOp (F : Type) where
  | add (e : Val F)
  | addMany (es : List (Val F))
  | addBelief (src e : Val F)
  | addBeliefs (src : Val F) (es : List (Val F))
  | flush

/-- The call on a BatchHyperGraph; `flush` is called only if something is buffered. -/
def BOp.run (bufferMax ts : Int) : BOp F → BSt F → Except PyErr Unit × BSt F
  | .add e, b => match bhAdd bufferMax e ts b with | (r, b') => (r.map fun _ => (), b')
  | .addMany es, b => match bhAdd bufferMax (.seq true es) ts b with | (r, b') => (r.map fun _ => (), b')
  | .addBelief src e, b => bhAddBelief bufferMax src e ts b
  | .addBeliefs src es, b => bhAddBelief bufferMax src (.seq true es) ts b
  | .flush, b => if b.buffer = [] then (.ok (), b) else bhFlush ts b

/-- A sequence of calls on a BatchHyperGraph; the first exception ends it. -/
def bhRun (bufferMax ts : Int) : List (BOp F) → BSt F → Except PyErr Unit × BSt F
  | [], b => (.ok (), b)
  | o :: os, b =>
    match o.run bufferMax ts b with
    | (.ok (), b') => bhRun bufferMax ts os b'
    | (.error e, b') => (.error e, b')

/-- The same call made directly on the hypergraph. -/
def BOp.direct (ts : Int) : BOp F → List (Op F)
  | .add e => [.prim (.add e ts)]
  | .addMany es => [.addMany es ts]
  | .addBelief src e => [.addBelief src e ts]
  | .addBeliefs src es => [.addBeliefs src es ts]
  | .flush => []

/-- The edges a call adds, in order. -/
def BOp.edges : BOp F → List (Val F)
  | .add e => [e]
  | .addMany es => es
  | .addBelief src e => [e, support e src]
  | .addBeliefs src es => es.flatMap fun e => [e, support e src]
  | .flush => []

/-- Calls over a vocabulary. -/
def BOp.Over (V : Val F → Prop) : BOp F → Prop
  | .add e => EdgeOver V e
  | .addMany es => es ≠ [] ∧ ∀ e ∈ es, EdgeOver V e
  | .addBelief src e => BeliefOver V src e
  | .addBeliefs src es => es ≠ [] ∧ ∀ e ∈ es, BeliefOver V src e
  | .flush => True

end GB
