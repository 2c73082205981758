import Verif.Model.HyperGraph

/-
Model of gb/hypergraph/batch_hypergraph.py with an SQL backend.
-/

namespace GB

variable {F : Type} [PyFloat F]

/-- State of a BatchHyperGraph (gb/hypergraph/batch_hypergraph.py:28-33): the backend shared with the wrapped
hypergraph, and `self.buffer`.  `self.buffer_max` is a parameter of the methods. -/
structure BSt (F : Type) where
  base : St
  buffer : List (Val F)

/-- gb/hypergraph/batch_hypergraph.py:35-37 `flush`.  The buffer is emptied only if `backend.add` returns. -/
def bhFlush (ts : Int) (b : BSt F) : Except PyErr Unit × BSt F :=
  match sqlAdd (.seq true b.buffer) ts b.base with
  | (.ok _, s) => (.ok (), ⟨s, []⟩)
  | (.error e, s) => (.error e, ⟨s, b.buffer⟩)

/-- gb/hypergraph/batch_hypergraph.py:42-45: the new buffer (aliasing of the caller's lists is not modelled). -/
def bhExtend (buffer : List (Val F)) (edges : Val F) : Except PyErr (List (Val F)) := do
  let first ← edges.head0
  if first.isSeq then
    let es ← edges.iter
    .ok (buffer ++ es)
  else
    .ok (buffer ++ [edges])

/-- gb/hypergraph/batch_hypergraph.py:39-50 `add`. -/
def bhAdd (bufferMax : Int) (edges : Val F) (ts : Int) (b : BSt F) : Except PyErr (Val F) × BSt F :=
  match bhExtend b.buffer edges with
  | .error e => (.error e, b)
  | .ok buffer =>
    if (buffer.length : Int) > bufferMax then
      match bhFlush ts ⟨b.base, buffer⟩ with
      | (.ok (), b') => (.ok edges, b')
      | (.error e, b') => (.error e, b')
    else (.ok edges, ⟨b.base, buffer⟩)

/-- gb/hypergraph/hypergraph.py:113-127 `add_belief`, inherited: calls the overridden `add`. -/
def bhAddBelief (bufferMax : Int) (source edges : Val F) (ts : Int) (b : BSt F) : Except PyErr Unit × BSt F :=
  match beliefEdges source edges with
  | .error e => (.error e, b)
  | .ok arg =>
    match bhAdd bufferMax arg ts b with
    | (.ok _, b') => (.ok (), b')
    | (.error e, b') => (.error e, b')

/-- All other methods are inherited and act on the shared backend (gb/hypergraph/batch_hypergraph.py:31). -/
def bhBase {α : Type} (m : M α) (b : BSt F) : Except PyErr α × BSt F :=
  match m b.base with
  | (r, s) => (r, ⟨s, b.buffer⟩)

end GB
