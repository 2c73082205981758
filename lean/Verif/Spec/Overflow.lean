import Verif.Model.History

/-
Vocabulary of property C83.
-/

namespace GB

/-- From `s` to `s'` no answer about edges and no time stamp changed; the degree of `v` rose by `more v`. -/
structure OnlyDegrees (F : Type) [PyFloat F] [DecidableEq F] (s s' : St) (more : Val F → Nat) : Prop where
  ex : ∀ e : Val F, (hgExists e s').1 = (hgExists e s).1
  pattern : ∀ p : Val F, (hgPattern2edges p s').1 = (hgPattern2edges p s).1
  star : ∀ c : Val F, (hgStar c s').1 = (hgStar c s).1
  symbols : ∀ r, (hgSymbolsWithRoot r s').1 = (hgSymbolsWithRoot r s).1
  sources : ∀ e : Val F, (hgSources e s').1 = (hgSources e s).1
  timestamp : ∀ v : Val F, WfVal v → (hgTimestamp v s').1 = (hgTimestamp v s).1
  degree : ∀ v : Val F, WfVal v → ∃ d : Int, (hgDegree v s).1 = .ok d ∧ (hgDegree v s').1 = .ok (d + more v)

/-- The elements of `e` before the first one that is unknown. -/
def knownPrefix {F : Type} (S : Spec F) (e : Val F) : List (Val F) := e.elems.takeWhile fun x => (S.known x).isSome

end GB
