import Verif.Spec.Wf

/-
Specification vocabulary: the size of a value, and texts that `int()` rejects whatever notation it knows.
-/

namespace GB

variable {F : Type}

mutual
/-- Number of symbols and numbers in a value. -/
def atomCount : Val F → Nat
  | .seq _ xs => atomCountL xs
  | .str _ => 1
  | .int _ => 1
  | .flt _ => 1
  | .none => 1
/-- The same for a list of values. -/
def atomCountL : List (Val F) → Nat
  | [] => 0
  | x :: xs => atomCount x + atomCountL xs
end

/-- A text with an ASCII character other than digits, signs and the underscore: no notation that Python's `int()`
knows (signs, digit groups as in `1_000`, digits of other scripts) contains such a character, blanks apart. -/
def NotIntText (t : Str) : Prop :=
  ∃ c ∈ t, c.toNat < 128 ∧ isDigit c = false ∧ c ≠ '+' ∧ c ≠ '-' ∧ c ≠ '_'

end GB
