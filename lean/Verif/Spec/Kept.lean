import Verif.Model.Token
import Verif.Spec.STree

/-
The tokens of a parse that the extraction keeps.
-/

namespace GB

/-- Punctuation, or a token without a grammatical relation. -/
def TokInfo.skip (t : TokInfo) : Bool := decide (t.dep = []) || decide (t.dep = lit "punct")

mutual
/-- A token and its descendants in reading order, without the tokens to skip and what is below them.  The token itself
is kept whatever it is. -/
def Tok.kept : Tok → List TokInfo
  | .mk i l r => keptL l ++ i :: keptL r
/-- The same for children, which may be skipped. -/
def keptL : List Tok → List TokInfo
  | [] => []
  | .mk i l r :: ts => (if i.skip then [] else keptL l ++ i :: keptL r) ++ keptL ts
end

mutual
/-- No namespace anywhere. -/
def STree.Bare : STree → Prop
  | .leaf ns _ => ns = none
  | .node ns c ts => ns = none ∧ c = false ∧ bareL ts
/-- The same for several trees. -/
def bareL : List STree → Prop
  | [] => True
  | t :: ts => t.Bare ∧ bareL ts
end

end GB
