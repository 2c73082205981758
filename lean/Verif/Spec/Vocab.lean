import Verif.Spec.Wf

/-
Specification vocabulary for the storage properties: which values may be used as elements of stored
edges, and what a stored edge is.
-/

namespace GB

variable {F : Type} [PyFloat F]

/-- `v` is a string whose last character is U+10FFFF or U+D7FF (the only characters whose successor
is not a character, so that `str_plus_1` raises). -/
def EndsInLastChar (v : Val F) : Prop :=
  ∃ s c, v = .str (s ++ [c]) ∧ (c.toNat = 0x10FFFF ∨ c.toNat = 0xD7FF)

/-- A set of values that may be used as edge elements: well-formed, not ending in a last character,
and without two different values that compare equal in Python (such as `7` and `7.0`). -/
structure Vocab (V : Val F → Prop) : Prop where
  wf : ∀ v, V v → WfVal v
  last : ∀ v, V v → ¬ EndsInLastChar v
  eq : ∀ v w, V v → V w → pyEq v w = true → v = w

/-- An edge over a vocabulary: a tuple of at least two elements of it, the first of which (the
relation) is a symbol or number. -/
def EdgeOver (V : Val F → Prop) (e : Val F) : Prop :=
  ∃ h t, e = .tup (h :: t) ∧ t ≠ [] ∧ h.isAtom = true ∧ ∀ x ∈ h :: t, V x

/-- The elements of an edge. -/
def Val.elems : Val F → List (Val F)
  | .seq _ xs => xs
  | _ => []

end GB
