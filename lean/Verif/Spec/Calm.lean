import Verif.Spec.History

/-
Specification: in which histories a vertex is never created or removed while it is an element of a present edge.
-/

namespace GB

variable {F : Type} [DecidableEq F]

/-- `v` is an element of some present edge. -/
def Spec.Inside (S : Spec F) (v : Val F) : Prop := ∃ e, S.Present e ∧ v ∈ e.elems

/-- If removing the edges satisfying `P` removes `v`, it also removes all edges `v` is an element of. -/
def Spec.Whole (S : Spec F) (v : Val F) (P : Val F → Prop) : Prop :=
  P v → S.Present v → ∀ e, S.Present e → v ∈ e.elems → P e

/-- The operation neither creates `v` while it is an element of a present edge, nor leaves an edge with the element
`v` behind when it removes `v`. -/
def Spec.Calm (S : Spec F) (v : Val F) : Prim F → Prop
  | .add e _ => e = v → S.Present v ∨ ¬ S.Inside v
  | .remove e => S.Whole v (· = e)
  | .removeMany es => S.Whole v (· ∈ es)
  | .removeByPattern ps => S.Whole v fun x => Matches ps x.elems
  | .removeBelief src e =>
      S.Whole v (· = support e src) ∧
      ((¬ ∃ s', (S.remove (support e src)).Present (support e s')) →
        (S.remove (support e src)).Whole v (· = e))
  | .destroy => True
  | .query _ => True

/-- The same for a sequence of operations. -/
def Spec.CalmAll (S : Spec F) (v : Val F) : List (Prim F) → Prop
  | [] => True
  | p :: ps => S.Calm v p ∧ (S.prim p).CalmAll v ps

/-- An operation as a sequence of primitive ones. -/
def Op.steps : Op F → List (Prim F)
  | .prim p => [p]
  | .addMany es ts => es.map fun e => .add e ts
  | .addBelief src e ts => [.add e ts, .add (support e src) ts]
  | .addBeliefs src es ts => es.flatMap fun e => [.add e ts, .add (support e src) ts]
  | .batch ps => ps
  | .degree _ => []
  | .timestamp _ => []

end GB
