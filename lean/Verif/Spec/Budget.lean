import Verif.Spec.Bounds
import Verif.Proofs.Abs

/-
What several processes that add and remove may do to degrees.  (`Proofs/Abs` only gives that matching is decidable.)
-/

namespace GB

variable {F : Type} [PyFloat F] [DecidableEq F]

/-- The edges that a call is asked to remove, as often as it is asked to; a pattern asks for every edge of `U` that it
matches. -/
def PAct.drops (U : List (Val F)) : PAct F → List (Val F)
  | .remove e => [e]
  | .removeMany es => es
  | .removeByPattern ps => U.filter fun e => decide (Matches ps e.elems)
  | .removeBelief src e => [support e src, e]
  | _ => []

/-- The edges that the programs are asked to remove, as often as they are asked to. -/
def dropsOf (U : List (Val F)) (progs : List (Program F)) : List (Val F) :=
  progs.flatMap fun p => p.flatMap (PAct.drops U)

end GB
