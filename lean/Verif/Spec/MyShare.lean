import Verif.Spec.Concurrent
import Verif.Spec.MySql

/-
Specification: which programs may share one MySQL graph.
-/

namespace GB

variable {F : Type} [PyFloat F] [DecidableEq F]

/-- The program may add `x`. -/
def Program.Adds (p : Program F) (x : Val F) : Prop := ∃ a ∈ p, a.Adds x

/-- Started on a graph with the edges `P`, the program may add `x`, or find it and remove it. -/
def Program.Uses (P : Val F → Prop) (p : Program F) (x : Val F) : Prop := p.Adds x ∨ (P x ∧ p.Touches x)

/-- The programs are apart, and the edges that different programs add or find and remove have no elements in common but
symbols satisfying `K`; nor is one an element of the other. -/
structure Shareable (V P : Val F → Prop) (K : Val F → Prop) (progs : List (Program F)) : Prop where
  apart : Apart progs
  elems : ∀ (i j : Nat) (p q : Program F), progs[i]? = some p → progs[j]? = some q → i ≠ j →
    ∀ x y, EdgeOver V x → EdgeOver V y → p.Uses P x → q.Uses P y →
      x ∉ y.elems ∧ ∀ v, v ∈ x.elems → v ∈ y.elems → K v

end GB
