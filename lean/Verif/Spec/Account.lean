import Verif.Spec.Calm

/-
Specification: what really happens in a history (which edges are created and deleted, one after the other), and the
account that the degree of a vertex keeps of it.
-/

namespace GB

variable {F : Type} [DecidableEq F]

/-- What happens to a graph. -/
inductive Event (F : Type) where
  | created (e : Val F)
  | deleted (e : Val F)
  | wiped

/-- The present edges satisfying `P` are deleted, in some order. -/
def Deletes (S : Spec F) (P : Val F → Prop) (evs : List (Event F)) : Prop :=
  ∃ l : List (Val F), l.Nodup ∧ (∀ x, x ∈ l ↔ P x ∧ S.Present x) ∧ evs = l.map .deleted

/-- What happens in one call: an addition creates an edge that is absent; a removal deletes those that are present. -/
def Happens (S : Spec F) : Prim F → List (Event F) → Prop
  | .add e _, evs => (S.Present e → evs = []) ∧ (¬ S.Present e → evs = [.created e])
  | .remove e, evs => Deletes S (· = e) evs
  | .removeMany es, evs => Deletes S (· ∈ es) evs
  | .removeByPattern ps, evs => Deletes S (fun x => Matches ps x.elems) evs
  | .removeBelief src e, evs => Deletes S (fun x => x = support e src ∨
      (x = e ∧ ¬ ∃ s', s' ≠ src ∧ S.Present (support e s'))) evs
  | .destroy, evs => evs = [.wiped]
  | .query _, evs => evs = []

/-- What happens in a sequence of calls. -/
def HappensAll (S : Spec F) : List (Prim F) → List (Event F) → Prop
  | [], evs => evs = []
  | p :: ps, evs => ∃ a b, evs = a ++ b ∧ Happens S p a ∧ HappensAll (S.prim p) ps b

/-- The account of a vertex: opened with 0 when the vertex is itself created as an edge, or when an edge with it is
created and there is none; closed when the vertex itself is deleted; in between it counts the occurrences in created edges and
subtracts those in deleted edges.  Deletions do nothing if there is no account. -/
def account (v : Val F) : List (Event F) → Option Int → Option Int
  | [], d => d
  | .created e :: evs, d => account v evs
      (if e = v then some 0 else if v ∈ e.elems then some (d.getD 0 + e.elems.count v) else d)
  | .deleted e :: evs, d => account v evs (if e = v then none else d.map (· - (e.elems.count v : Int)))
  | .wiped :: evs, _ => account v evs none

/-- How often `v` occurs in the edge that is created, or minus how often in the one that is deleted. -/
def Event.balance (v : Val F) : Event F → Int
  | .created e => e.elems.count v
  | .deleted e => -(e.elems.count v : Int)
  | .wiped => 0

end GB
