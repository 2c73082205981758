import Verif.Spec.History

/-
Specification: how deeply a value is nested.
-/

namespace GB

variable {F : Type}

mutual
/-- The nesting of a value: 0 for symbols and numbers, 1 for an edge of symbols and numbers, and so on. -/
def Val.depth : Val F → Nat
  | .seq _ xs => depths xs + 1
  | _ => 0
/-- The largest nesting in a list. -/
def depths : List (Val F) → Nat
  | [] => 0
  | x :: xs => max x.depth (depths xs)
end

/-- The values of `V` that are nested at most `d` levels. -/
def NestedWithin (V : Val F → Prop) (d : Nat) (v : Val F) : Prop := V v ∧ v.depth ≤ d

/-- The vertices that `degree` and `timestamp` are asked about are nested at most one level deeper than `d`. -/
def Op.AsksWithin (d : Nat) : Op F → Prop
  | .degree v => v.depth ≤ d + 1
  | .timestamp v => v.depth ≤ d + 1
  | _ => True

/-- The call writes at most one edge. -/
def Prim.OneEdge : Prim F → Prop
  | .add _ _ => True
  | .remove _ => True
  | .query _ => True
  | _ => False

end GB
