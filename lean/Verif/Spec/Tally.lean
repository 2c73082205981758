import Verif.Spec.History

/-
Specification of degrees for every vertex (symbols, numbers and edges) and every history, by a tally: the present
edges, and for every vertex a counter that may be missing.

* Creating an edge adds to the counter of each of its elements the number of times it occurs there (a missing counter
  starts from 0), and then sets the counter of the edge itself to 0.
* Removing edges drops their counters and subtracts from every other counter that is not missing the number of
  occurrences of the vertex in the removed edges.

Nothing here refers to the model of the code.
-/

namespace GB

variable {F : Type} [DecidableEq F]

/-- Present edges and counters. -/
structure Tally (F : Type) where
  edges : List (Val F)
  count : Val F → Option Int

namespace Tally

/-- The new graph. -/
def empty : Tally F := ⟨[], fun _ => none⟩

/-- The counter of `v` after an edge with the given elements was created. -/
def more (c : Option Int) (n : Nat) : Option Int := if n = 0 then c else some (c.getD 0 + n)

/-- Adding: nothing if present. -/
def add (T : Tally F) (e : Val F) : Tally F :=
  if e ∈ T.edges then T
  else ⟨T.edges ++ [e], fun v => if v = e then some 0 else more (T.count v) (e.elems.count v)⟩

open Classical in
/-- Removing the present edges satisfying `P`. -/
noncomputable def removeWhere (T : Tally F) (P : Val F → Prop) : Tally F :=
  ⟨T.edges.filter fun x => decide (¬ P x), fun v =>
    if v ∈ T.edges ∧ P v then none
    else (T.count v).map fun c => c - (occurrences v (T.edges.filter fun x => decide (P x)) : Nat)⟩

/-- Adding a fact together with its support. -/
def addBelief (T : Tally F) (src e : Val F) : Tally F := (T.add e).add (support e src)

open Classical in
/-- Removing a support, and the fact if nothing else supports it. -/
noncomputable def removeBelief (T : Tally F) (src e : Val F) : Tally F :=
  let T1 := T.removeWhere (· = support e src)
  if ∃ s', support e s' ∈ T1.edges then T1 else T1.removeWhere (· = e)

/-- Effect of one batchable operation. -/
noncomputable def prim (T : Tally F) : Prim F → Tally F
  | .add e _ => T.add e
  | .remove e => T.removeWhere (· = e)
  | .removeMany es => T.removeWhere (· ∈ es)
  | .removeByPattern ps => T.removeWhere fun x => Matches ps x.elems
  | .removeBelief src e => T.removeBelief src e
  | .destroy => empty
  | .query _ => T

/-- Effect of one operation. -/
noncomputable def op (T : Tally F) : Op F → Tally F
  | .prim p => T.prim p
  | .addMany es _ => es.foldl add T
  | .addBelief src e _ => T.addBelief src e
  | .addBeliefs src es _ => es.foldl (fun T e => T.addBelief src e) T
  | .batch ps => ps.foldl prim T
  | .degree _ => T
  | .timestamp _ => T

/-- The tally after a history. -/
noncomputable def after (ops : List (Op F)) : Tally F := ops.foldl op empty

end Tally

end GB
