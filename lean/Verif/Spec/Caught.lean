import Verif.Model.HyperGraph
import Verif.Spec.History

/-! Two states of which nobody can tell the edges apart (property C97). -/

namespace GB

variable {F : Type} [PyFloat F] [DecidableEq F]

/-- Every question about edges has the same answer. -/
structure AgreeOnEdges (F : Type) [PyFloat F] [DecidableEq F] (s s' : St) : Prop where
  ex : ∀ e : Val F, (hgExists e s).1 = (hgExists e s').1
  pattern : ∀ p : Val F, (hgPattern2edges p s).1 = (hgPattern2edges p s').1
  star : ∀ c : Val F, (hgStar c s).1 = (hgStar c s').1
  symbols : ∀ r, (hgSymbolsWithRoot r s).1 = (hgSymbolsWithRoot r s').1
  sources : ∀ e : Val F, (hgSources e s).1 = (hgSources e s').1

/-- The database after the program has gone, opened again. -/
def St.opened (s : St) : St := ⟨s.disk, s.disk, [], none, s.autocommit⟩

/-- The calls that may be refused: additions. -/
def Prim.Refusable : Prim F → Prop
  | .add _ _ => True
  | _ => False

end GB
