import Verif.Spec.History

/-
Which calls are delicate inside a batch (properties C35).
-/

namespace GB

variable {F : Type} [DecidableEq F]

/-- A call that adds several edges at once, or a batch. -/
def Op.Bulk : Op F → Prop
  | .addMany _ _ => True
  | .addBelief _ _ _ => True
  | .addBeliefs _ _ _ => True
  | .batch _ => True
  | _ => False

/-- A call that asks for the degree or time stamp of a known vertex. -/
def Op.Asks (S : Spec F) : Op F → Prop
  | .degree v => S.known v ≠ none
  | .timestamp v => S.known v ≠ none
  | _ => False

/-- No call of `cs`, after the history `ops`, is a bulk addition or a batch or asks for a known vertex. -/
def Harmless (ops cs : List (Op F)) : Prop :=
  ∀ pre c post, cs = pre ++ c :: post → ¬ c.Bulk ∧ ¬ c.Asks (Spec.after (ops ++ pre))

end GB
