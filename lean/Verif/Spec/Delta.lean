import Verif.Spec.Stages
import Verif.Spec.Reads

/-
What the delta stage may do to the words of a tree.
-/

namespace GB

/-- The same words, each as often as before; and the words that are not verbs, adverbs, adpositions or particles are in
the same order. -/
def Reorders (xs ys : List Word) : Prop :=
  xs.Perm ys ∧ xs.filter (fun w => !w.2.relates) = ys.filter (fun w => !w.2.relates)

/-- The first element has only words that relate. -/
def STree.leads : STree → Bool
  | .node _ _ (t :: _) => t.relates
  | _ => false

end GB
