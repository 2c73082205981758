import Verif.Spec.Bounds

/-
Processes that race on the same edges: which edges a call takes out for certain.
-/

namespace GB

variable {F : Type} [PyFloat F] [DecidableEq F]

/-- The call removes `x` after asking the graph whether `x` exists: it is `x` itself that it is asked to remove.  (The fact of a
belief is removed only if no source is left.) -/
def PAct.Takes (x : Val F) : PAct F → Prop
  | .remove e => x = e
  | .removeMany es => x ∈ es
  | .removeBelief src e => x = support e src
  | _ => False

/-- The call removes `x`, or it is a pattern that `x` matches. -/
def PAct.Clears (x : Val F) : PAct F → Prop
  | .removeByPattern ps => Matches ps x.elems
  | a => a.Takes x

end GB
