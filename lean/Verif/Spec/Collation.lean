import Verif.Spec.MySql
import Verif.Model.Collation

/-
Specification: which texts the collation of MySQL keeps apart and in order.
-/

namespace GB

variable {F : Type} [PyFloat F]

/-- On ASCII the weights are those of `utf8_general_ci`: letters weigh as capitals, other characters as their codes.
Nothing is said about the other characters. -/
def GeneralOnAscii (w : Char → Nat) : Prop :=
  ∀ c : Char, c.toNat < 128 → w c = if 97 ≤ c.toNat ∧ c.toNat ≤ 122 then c.toNat - 32 else c.toNat

/-- Printable ASCII without capitals. -/
def LowerChar (c : Char) : Prop := 32 ≤ c.toNat ∧ c.toNat ≤ 126 ∧ ¬ (65 ≤ c.toNat ∧ c.toNat ≤ 90)

instance (c : Char) : Decidable (LowerChar c) := by unfold LowerChar; infer_instance

/-- The texts of the vocabulary are printable ASCII without capitals, and none ends in a backquote. -/
structure LowerVocab (V : Val F → Prop) : Prop where
  lower : ∀ v, V v → ∀ c ∈ edge2str v, LowerChar c
  last : ∀ v, V v → (edge2str v).getLast? ≠ some '`'

/-- The text of the last element of the pattern that is not a wildcard ends in `z`. -/
def EndsInZ (ps : List (Val F)) : Prop := (nodes2str (ps.filter fun n => !n.isNone)).getLast? = some 'z'

/-- The roots of which symbols are asked for are printable ASCII without capitals; so are the vertices whose degrees or
time stamps are asked for; no edges are removed by patterns whose last text ends in `z`. -/
def Prim.Plain : Prim F → Prop
  | .removeByPattern ps => ¬ EndsInZ ps
  | .query (.symbolsWithRoot r) => ∀ c ∈ r, LowerChar c
  | _ => True

/-- The same for all calls. -/
def Op.Plain : Op F → Prop
  | .prim p => p.Plain
  | .batch ps => ∀ p ∈ ps, p.Plain
  | .degree v => ∀ c ∈ edge2str v, LowerChar c
  | .timestamp v => ∀ c ∈ edge2str v, LowerChar c
  | _ => True

end GB
