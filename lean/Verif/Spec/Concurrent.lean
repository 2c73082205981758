import Verif.Spec.View

/-
Programs of several processes that work on one graph, and what their users may rely on.
-/

namespace GB

variable {F : Type} [PyFloat F] [DecidableEq F]

/-- A writing call of a process. -/
inductive PAct (F : Type) where
  | add (e : Val F) (ts : Int)
  | addMany (es : List (Val F)) (ts : Int)
  | remove (e : Val F)
  | removeMany (es : List (Val F))
  | removeByPattern (ps : List (Val F))
  | addBelief (src e : Val F) (ts : Int)
  | addBeliefs (src : Val F) (es : List (Val F)) (ts : Int)
  | removeBelief (src e : Val F)

/-- The same call, as an operation of a single user. -/
def PAct.op : PAct F → Op F
  | .add e ts => .prim (.add e ts)
  | .addMany es ts => .addMany es ts
  | .remove e => .prim (.remove e)
  | .removeMany es => .prim (.removeMany es)
  | .removeByPattern ps => .prim (.removeByPattern ps)
  | .addBelief src e ts => .addBelief src e ts
  | .addBeliefs src es ts => .addBeliefs src es ts
  | .removeBelief src e => .prim (.removeBelief src e)

/-- The call may add or remove `x`. -/
def PAct.Touches (x : Val F) : PAct F → Prop
  | .add e _ => x = e
  | .addMany es _ => x ∈ es
  | .remove e => x = e
  | .removeMany es => x ∈ es
  | .removeByPattern ps => Matches ps x.elems
  | .addBelief src e _ => x = e ∨ x = support e src
  | .addBeliefs src es _ => ∃ e ∈ es, x = e ∨ x = support e src
  | .removeBelief src e => x = e ∨ x = support e src

/-- The call may add `x`. -/
def PAct.Adds (x : Val F) : PAct F → Prop
  | .add e _ => x = e
  | .addMany es _ => x ∈ es
  | .addBelief src e _ => x = e ∨ x = support e src
  | .addBeliefs src es _ => ∃ e ∈ es, x = e ∨ x = support e src
  | _ => False

/-- The call may remove `x`. -/
def PAct.Removes (x : Val F) : PAct F → Prop
  | .remove e => x = e
  | .removeMany es => x ∈ es
  | .removeByPattern ps => Matches ps x.elems
  | .removeBelief src e => x = e ∨ x = support e src
  | _ => False

/-- The call asks the graph for `x`, to decide about other edges: `remove_by_pattern` for the edges that match, and
`remove_belief` for the sources of the fact. -/
def PAct.Sees (x : Val F) : PAct F → Prop
  | .removeByPattern ps => Matches ps x.elems
  | .removeBelief _ e => ∃ src, x = support e src
  | _ => False

/-- The calls that work inside a batch: all but the additions of several edges at once (see C35). -/
def PAct.Single : PAct F → Prop
  | .addMany _ _ => False
  | .addBelief _ _ _ => False
  | .addBeliefs _ _ _ => False
  | _ => True

/-- A call of a process: one of its own, or several given to one `batch_exec`. -/
inductive PCall (F : Type) where
  | one (a : PAct F)
  | batch (as : List (PAct F))

/-- The calls that are made. -/
def PCall.acts : PCall F → List (PAct F)
  | .one a => [a]
  | .batch as => as

/-- The calls are over the vocabulary, and those in a batch work there. -/
def PCall.Over (V : Val F → Prop) : PCall F → Prop
  | .one a => a.op.Over V
  | .batch as => ∀ a ∈ as, a.op.Over V ∧ a.Single

/-- The calls that add edges in one transaction: additions of several edges at once, beliefs (the fact and its
source), and batches of single additions. -/
def PCall.Atomic : PCall F → Prop
  | .one (.addMany _ _) => True
  | .one (.addBelief _ _ _) => True
  | .one (.addBeliefs _ _ _) => True
  | .batch as => ∀ a ∈ as, ∃ e ts, a = .add e ts
  | _ => False

/-- A program: calls one after the other. -/
abbrev Program (F : Type) := List (PAct F)

/-- The program may add or remove `x`. -/
def Program.Touches (p : Program F) (x : Val F) : Prop := ∃ a ∈ p, a.Touches x

/-- The program may remove `x`. -/
def Program.Removes (p : Program F) (x : Val F) : Prop := ∃ a ∈ p, a.Removes x

/-- The program may ask for `x`. -/
def Program.Sees (p : Program F) (x : Val F) : Prop := ∃ a ∈ p, a.Sees x

/-- No program removes or asks for an edge that another one adds or removes.  (Several may add the same edge.) -/
def Independent (progs : List (Program F)) : Prop :=
  ∀ (i j : Nat) (p q : Program F), progs[i]? = some p → progs[j]? = some q → i ≠ j → ∀ x, p.Touches x →
    ¬ q.Removes x ∧ ¬ q.Sees x

/-- No program adds, removes or asks for an edge that another one adds or removes. -/
def Apart (progs : List (Program F)) : Prop :=
  ∀ (i j : Nat) (p q : Program F), progs[i]? = some p → progs[j]? = some q → i ≠ j → ∀ x, p.Touches x →
    ¬ q.Touches x ∧ ¬ q.Sees x

/-- All queries over the vocabulary agree. -/
structure SameEdges (V : Val F → Prop) (s s' : St) : Prop where
  ex : ∀ e, EdgeOver V e → (hgExists e s).1 = (hgExists e s').1
  pattern : ∀ ps, PatternOver V ps → SameSet (hgPattern2edges (.tup ps) s).1 (hgPattern2edges (.tup ps) s').1
  star : ∀ c, V c → c.isAtom = true → SameSet (hgStar c s).1 (hgStar c s').1
  symbols : ∀ r, (Query.symbolsWithRoot r : Query F).Over V →
    SameSet (hgSymbolsWithRoot r s).1 (hgSymbolsWithRoot r s').1
  sources : ∀ e, V (.str (lit "src/1")) → V e → SameSet (hgSources e s).1 (hgSources e s').1

/-- Two calls succeeded and returned the same set of edges, apart from those satisfying `T`. -/
def SameSetOutside (T : Val F → Prop) (a b : Except PyErr (List (Val F))) : Prop :=
  ∃ r r', a = .ok r ∧ b = .ok r' ∧ r.Nodup ∧ r'.Nodup ∧ ∀ x, ¬ T x → (x ∈ r ↔ x ∈ r')

/-- No query raises, and what they say about the edges not satisfying `T` agrees. -/
structure SameOutside (V T : Val F → Prop) (s s' : St) : Prop where
  ok : ∀ e, EdgeOver V e → ∃ b, (hgExists e s).1 = .ok b
  ex : ∀ x, EdgeOver V x → ¬ T x → (hgExists x s).1 = (hgExists x s').1
  pattern : ∀ ps, PatternOver V ps →
    SameSetOutside T (hgPattern2edges (.tup ps) s).1 (hgPattern2edges (.tup ps) s').1
  star : ∀ c, V c → c.isAtom = true → SameSetOutside T (hgStar c s).1 (hgStar c s').1

end GB
