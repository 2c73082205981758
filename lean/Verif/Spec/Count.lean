import Verif.Model.Edge
import Verif.Spec.Calm

/-! How often a history adds a text (property C96). -/

namespace GB

variable {F : Type} [PyFloat F] [DecidableEq F]

/-- Texts that are equal. -/
def sameText (t u : Str) : Bool := decide (t = u)

/-- How often the elements of the edge have a text that the server takes for `t`. -/
def occ (same : Str → Str → Bool) (t : Str) (e : Val F) : Nat := e.elems.countP fun x => same t (edge2str x)

/-- How often a call inside a batch adds the text `t`. -/
def Prim.adds (same : Str → Str → Bool) (t : Str) : Prim F → Nat
  | .add e _ => occ same t e
  | _ => 0

/-- How often a history adds the text `t`: its occurrences in all edges that are added. -/
def mentions (same : Str → Str → Bool) (t : Str) (ops : List (Op F)) : Nat :=
  (ops.flatMap Op.steps |>.map fun p => p.adds same t).sum

end GB
