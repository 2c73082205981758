import Verif.Spec.Match

/-
Specification of histories of operations: what the user did (`Op`), and what the graph should then
contain (`Spec`).  Nothing here refers to the model of the code.
-/

namespace GB

variable {F : Type} [DecidableEq F]

/-- Read-only operations. -/
inductive Query (F : Type) where
  | exists (e : Val F)
  | pattern (ps : List (Val F))
  | star (c : Val F)
  | symbolsWithRoot (r : Str)
  | sources (e : Val F)
  | fAll

/-- Operations that may also be used inside a batch. -/
inductive Prim (F : Type) where
  | add (e : Val F) (ts : Int)
  | remove (e : Val F)
  | removeMany (es : List (Val F))
  | removeByPattern (ps : List (Val F))
  | removeBelief (src e : Val F)
  | destroy
  | query (q : Query F)

/-- Operations. -/
inductive Op (F : Type) where
  | prim (p : Prim F)
  | addMany (es : List (Val F)) (ts : Int)
  | addBelief (src e : Val F) (ts : Int)
  | addBeliefs (src : Val F) (es : List (Val F)) (ts : Int)
  | batch (ps : List (Prim F))
  | degree (v : Val F)
  | timestamp (v : Val F)

/-- The edge stating that `src` supports `e`. -/
def support (e src : Val F) : Val F := .tup [.str (lit "src/1"), e, src]

/-- What a user should observe after a history.
* `created e`: `some ts` if `e` is present and was (last) created with timestamp `ts`;
* `known v`: `some ts` if `v` is a known vertex with timestamp `ts`. -/
structure Spec (F : Type) where
  created : Val F → Option Int
  known : Val F → Option Int

namespace Spec

/-- The new graph. -/
def empty : Spec F := ⟨fun _ => none, fun _ => none⟩

/-- `e` is present. -/
def Present (S : Spec F) (e : Val F) : Prop := (S.created e).isSome = true

/-- Adding: nothing if present; otherwise `e` is created with this timestamp, and its elements
become known with this timestamp unless they were known already. -/
def add (S : Spec F) (e : Val F) (ts : Int) : Spec F :=
  if (S.created e).isSome then S
  else
    { created := fun x => if x = e then some ts else S.created x
      known := fun v =>
        if v = e then some ts
        else if v ∈ e.elems ∧ S.known v = none then some ts
        else S.known v }

/-- Removing: nothing if absent; otherwise `e` is forgotten (also as a vertex), its elements stay
known. -/
def remove (S : Spec F) (e : Val F) : Spec F :=
  if (S.created e).isSome then
    { created := fun x => if x = e then none else S.created x
      known := fun v => if v = e then none else S.known v }
  else S

open Classical in
/-- Removing all present edges satisfying a condition. -/
noncomputable def removeWhere (S : Spec F) (P : Val F → Prop) : Spec F :=
  { created := fun x => if P x then none else S.created x
    known := fun v => if P v ∧ (S.created v).isSome then none else S.known v }

/-- Adding a fact together with its support. -/
def addBelief (S : Spec F) (src e : Val F) (ts : Int) : Spec F :=
  (S.add e ts).add (support e src) ts

open Classical in
/-- Removing a support, and the fact if nothing else supports it. -/
noncomputable def removeBelief (S : Spec F) (src e : Val F) : Spec F :=
  let S1 := S.remove (support e src)
  if ∃ s', S1.Present (support e s') then S1 else S1.remove e

/-- Effect of one batchable operation. -/
noncomputable def prim (S : Spec F) : Prim F → Spec F
  | .add e ts => S.add e ts
  | .remove e => S.remove e
  | .removeMany es => es.foldl remove S
  | .removeByPattern ps => S.removeWhere fun x => Matches ps x.elems
  | .removeBelief src e => S.removeBelief src e
  | .destroy => empty
  | .query _ => S

/-- Effect of one operation. -/
noncomputable def op (S : Spec F) : Op F → Spec F
  | .prim p => S.prim p
  | .addMany es ts => es.foldl (fun S e => S.add e ts) S
  | .addBelief src e ts => S.addBelief src e ts
  | .addBeliefs src es ts => es.foldl (fun S e => S.addBelief src e ts) S
  | .batch ps => ps.foldl prim S
  | .degree _ => S
  | .timestamp _ => S

/-- What should be observed after a history. -/
noncomputable def after (ops : List (Op F)) : Spec F := ops.foldl op empty

end Spec

variable [PyFloat F]

/-- The fact and its support may be stored. -/
structure BeliefOver (V : Val F → Prop) (src e : Val F) : Prop where
  srcConst : V (.str (lit "src/1"))
  src : V src
  fact : V e
  edge : EdgeOver V e

/-- Queries over a vocabulary, of the supported kinds. -/
def Query.Over (V : Val F → Prop) : Query F → Prop
  | .exists e => EdgeOver V e
  | .pattern ps => PatternOver V ps
  | .star c => V c ∧ c.isAtom = true
  | .symbolsWithRoot r => (∀ c ∈ r, isSpace c = false) ∧ r.head? ≠ some '('
  | .sources e => V (.str (lit "src/1")) ∧ V e
  | .fAll => True

/-- Operations over a vocabulary. -/
def Prim.Over (V : Val F → Prop) : Prim F → Prop
  | .add e _ => EdgeOver V e
  | .remove e => EdgeOver V e
  | .removeMany es => es ≠ [] ∧ ∀ e ∈ es, EdgeOver V e
  | .removeByPattern ps => PatternOver V ps
  | .removeBelief src e => BeliefOver V src e
  | .destroy => True
  | .query q => q.Over V

/-- Operations over a vocabulary. -/
def Op.Over (V : Val F → Prop) : Op F → Prop
  | .prim p => p.Over V
  | .addMany es _ => es ≠ [] ∧ ∀ e ∈ es, EdgeOver V e
  | .addBelief src e _ => BeliefOver V src e
  | .addBeliefs src es _ => es ≠ [] ∧ ∀ e ∈ es, BeliefOver V src e
  | .batch ps => ∀ p ∈ ps, p.Over V
  | .degree v => WfVal v
  | .timestamp v => WfVal v

/-- Total number of occurrences of `v` as an element of the given edges. -/
def occurrences (v : Val F) (edges : List (Val F)) : Nat :=
  (edges.map fun e => e.elems.count v).sum

end GB
