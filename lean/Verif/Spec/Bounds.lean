import Verif.Spec.Concurrent

/-
What several processes that only add may do to degrees.
-/

namespace GB

variable {F : Type} [PyFloat F] [DecidableEq F]

/-- The edges that a call is asked to add, as often as it is asked to. -/
def PAct.adds : PAct F → List (Val F)
  | .add e _ => [e]
  | .addMany es _ => es
  | .addBelief src e _ => [e, support e src]
  | .addBeliefs src es _ => es.flatMap fun e => [e, support e src]
  | _ => []

/-- The edges that the programs are asked to add, as often as they are asked to. -/
def addsOf (progs : List (Program F)) : List (Val F) := progs.flatMap fun p => p.flatMap PAct.adds

end GB
