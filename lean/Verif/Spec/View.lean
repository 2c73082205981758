import Verif.Model.History

/-
What a user can observe of a graph through its API.
-/

namespace GB

variable {F : Type} [PyFloat F] [DecidableEq F]

/-- Two calls succeeded and returned the same set (as duplicate-free lists). -/
def SameSet {α : Type} (a b : Except PyErr (List α)) : Prop :=
  ∃ r r', a = .ok r ∧ b = .ok r' ∧ r.Nodup ∧ r'.Nodup ∧ ∀ x, x ∈ r ↔ x ∈ r'

/-- All queries over the vocabulary, and the degrees of all symbols and numbers, agree. -/
structure SameView (V : Val F → Prop) (s s' : St) : Prop where
  ex : ∀ e, EdgeOver V e → (hgExists e s).1 = (hgExists e s').1
  pattern : ∀ ps, PatternOver V ps → SameSet (hgPattern2edges (.tup ps) s).1 (hgPattern2edges (.tup ps) s').1
  star : ∀ c, V c → c.isAtom = true → SameSet (hgStar c s).1 (hgStar c s').1
  symbols : ∀ r, (Query.symbolsWithRoot r : Query F).Over V →
    SameSet (hgSymbolsWithRoot r s).1 (hgSymbolsWithRoot r s').1
  sources : ∀ e, V (.str (lit "src/1")) → V e → SameSet (hgSources e s).1 (hgSources e s').1
  degree : ∀ v : Val F, WfVal v → v.isAtom = true → (hgDegree v s).1 = (hgDegree v s').1

/-- Two calls succeeded and returned the same set of edges, except possibly for `e`. -/
def SameSetExcept (e : Val F) (a b : Except PyErr (List (Val F))) : Prop :=
  ∃ r r', a = .ok r ∧ b = .ok r' ∧ r.Nodup ∧ r'.Nodup ∧ ∀ x, x ≠ e → (x ∈ r ↔ x ∈ r')

/-- What the queries say about edges other than `e` agrees. -/
structure SameExcept (V : Val F → Prop) (e : Val F) (s s' : St) : Prop where
  ex : ∀ x, EdgeOver V x → x ≠ e → (hgExists x s).1 = (hgExists x s').1
  pattern : ∀ ps, PatternOver V ps →
    SameSetExcept e (hgPattern2edges (.tup ps) s).1 (hgPattern2edges (.tup ps) s').1
  star : ∀ c, V c → c.isAtom = true → SameSetExcept e (hgStar c s).1 (hgStar c s').1

/-- The degree of every symbol in state `s` is between those in `a` and `b`. -/
def DegreesBetween (F : Type) [PyFloat F] (a s b : St) : Prop :=
  ∀ v : Val F, WfVal v → v.isAtom = true → ∃ i j k, (hgDegree v a).1 = .ok i ∧ (hgDegree v s).1 = .ok j ∧
    (hgDegree v b).1 = .ok k ∧ i ≤ j ∧ j ≤ k

/-- `l` lists the present edges, without repetition. -/
def Lists (S : Spec F) (l : List (Val F)) : Prop := l.Nodup ∧ ∀ e, e ∈ l ↔ S.Present e

end GB
