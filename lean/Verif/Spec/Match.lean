import Verif.Spec.Vocab

/-
Specification of patterns.
-/

namespace GB

variable {F : Type} [PyFloat F]

/-- The elements `xs` match the pattern `ps`: same length, and equal wherever the pattern does not
have the wildcard `None`. -/
def Matches : List (Val F) → List (Val F) → Prop
  | [], [] => True
  | p :: ps, x :: xs => (p = .none ∨ p = x) ∧ Matches ps xs
  | _, _ => False

/-- A pattern over a vocabulary whose first non-wildcard is a symbol or number (in particular there
is one). -/
structure PatternOver (V : Val F → Prop) (ps : List (Val F)) : Prop where
  over : ∀ p ∈ ps, p = .none ∨ V p
  first : ∃ pre c post, ps = pre ++ c :: post ∧ (∀ p ∈ pre, p = .none) ∧ c.isAtom = true

end GB
