import Verif.Py.Val

/-
Specification vocabulary: which strings, values and edges are "well-formed".
Nothing here refers to the functions of the model other than the float interface.
-/

namespace GB

variable {F : Type} [PyFloat F]

/-- A string of ASCII digits. -/
def IsDigits (s : Str) : Prop := ∀ c ∈ s, '0' ≤ c ∧ c ≤ '9'

/-- `-?[0-9]*` -/
def LooksInt (s : Str) : Prop :=
  ∃ sgn ds, (sgn = [] ∨ sgn = ['-']) ∧ IsDigits ds ∧ s = sgn ++ ds

/-- `-?[0-9]*\.[0-9]*` -/
def LooksDec (s : Str) : Prop :=
  ∃ sgn ds fs, (sgn = [] ∨ sgn = ['-']) ∧ IsDigits ds ∧ IsDigits fs ∧ s = sgn ++ ds ++ ['.'] ++ fs

/-- A symbol that is safe as an edge element: non-empty, no whitespace, no '(' in front, no ')' at
the end, and not looking like a number. -/
structure WfStr (s : Str) : Prop where
  ne : s ≠ []
  noSpace : ∀ c ∈ s, isSpace c = false
  noOpen : s.head? ≠ some '('
  noClose : s.getLast? ≠ some ')'
  notInt : ¬ LooksInt s
  notDec : ¬ LooksDec s

/-- A float that Python prints in plain decimal notation. -/
def PlainFloat (x : F) : Prop := LooksDec (PyFloat.repr x)

/-- Atoms: symbols and numbers. -/
def Val.isAtom : Val F → Bool
  | .str _ | .int _ | .flt _ => true
  | _ => false

/-- Well-formed values: safe symbols, integers, plainly printed floats, and tuples of at least two
well-formed values. -/
inductive WfVal : Val F → Prop where
  | str {s : Str} : WfStr s → WfVal (.str s)
  | int {i : Int} : WfVal (.int i)
  | flt {x : F} : PlainFloat x → WfVal (.flt x)
  | tup {xs : List (Val F)} : 2 ≤ xs.length → (∀ x ∈ xs, WfVal x) → WfVal (.tup xs)

/-- Well-formed edges: tuples of at least two well-formed values, the first of which is an atom
(the relation of the edge). -/
def WfEdge (e : Val F) : Prop :=
  ∃ h t, e = .tup (h :: t) ∧ t ≠ [] ∧ h.isAtom ∧ ∀ x ∈ h :: t, WfVal x

end GB
