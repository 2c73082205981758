import Verif.Spec.Calm
import Verif.Spec.Tally
import Verif.Model.Perm

/-
Specification: which additions a database notices that counts changed rows and has keys of `k` characters.
-/

namespace GB

variable {F : Type} [PyFloat F] [DecidableEq F]

/-- All that is stored for the edge is at most `k` characters long: its own text, and the texts of its elements (in any
order, separated by spaces) with a permutation number after them, which is one shorter plus the number. -/
def KeyFits (k : Nat) (e : Val F) : Prop :=
  ∀ n, n < factorial e.elems.length → (edge2str e).length + (natStr n).length ≤ k + 1

/-- The absent edge `e` is known as a vertex, with counter 0 and the very time stamp with which it shall be added. -/
def Clash (S : Spec F) (T : Tally F) (e : Val F) (ts : Int) : Prop :=
  ¬ S.Present e ∧ T.count e = some 0 ∧ S.known e = some ts

/-- Along the operations, all edges added fit and none of the additions meets its own traces. -/
def Smooth (k : Nat) (S : Spec F) (T : Tally F) : List (Prim F) → Prop
  | [] => True
  | p :: ps =>
    (∀ e ts, p = .add e ts → KeyFits k e ∧ ¬ Clash S T e ts) ∧ Smooth k (S.prim p) (T.prim p) ps

/-- An operation that removes nothing. -/
def Prim.keeps : Prim F → Bool
  | .add _ _ => true
  | .query _ => true
  | _ => false

end GB
