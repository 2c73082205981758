import Verif.Spec.History

/-
Specification: which edges an operation adds or erases, without reference to what the graph
contains.  Used to read histories literally ("was added earlier", "not removed since").
-/

namespace GB

variable {F : Type} [DecidableEq F]

/-- The operation adds `e` (if it is not present already). -/
def Prim.Adds : Prim F → Val F → Prop
  | .add x _, e => e = x
  | _, _ => False

/-- The operation adds `e` (if it is not present already). -/
def Op.Adds : Op F → Val F → Prop
  | .prim p, e => p.Adds e
  | .addMany es _, e => e ∈ es
  | .addBelief src x _, e => e = x ∨ e = support x src
  | .addBeliefs src es _, e => ∃ x ∈ es, e = x ∨ e = support x src
  | .batch ps, e => ∃ p ∈ ps, p.Adds e
  | .degree _, _ => False
  | .timestamp _, _ => False

/-- The operation erases `e` (if it is present). -/
def Prim.Erases : Prim F → Val F → Prop
  | .remove x, e => e = x
  | .removeMany es, e => e ∈ es
  | .removeByPattern ps, e => Matches ps e.elems
  | .destroy, _ => True
  | _, _ => False

/-- The operation erases `e` (if it is present). -/
def Op.Erases : Op F → Val F → Prop
  | .prim p, e => p.Erases e
  | _, _ => False

/-- Operations whose effect on an edge can be read off without knowing what the graph contains:
everything except `remove_belief` and batches. -/
def Op.Literal : Op F → Prop
  | .prim (.removeBelief _ _) => False
  | .batch _ => False
  | _ => True

/-- Not an addition of a collection: the first element of the argument, if there is one, is not a sequence. -/
def Prim.Single : Prim F → Prop
  | .add e _ => ∀ h, e.head0 = .ok h → h.isSeq = false
  | _ => True

/-- Not a `destroy`. -/
def Prim.Keeps : Prim F → Prop
  | .destroy => False
  | _ => True

/-- Does not contain a `destroy`. -/
def Op.Keeps : Op F → Prop
  | .prim p => p.Keeps
  | .batch ps => ∀ p ∈ ps, p.Keeps
  | _ => True

end GB
