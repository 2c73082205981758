import Verif.Model.SemTree
import Verif.Spec.STree

/-
When do the linked objects behind an id stand for a tree of words?
-/

namespace GB

/-- A place in the heap: an entry of the table, an object or a list. -/
inductive Loc where
  | id (n : Nat)
  | obj (r : Nat)
  | lst (l : Nat)
  deriving DecidableEq, Repr

mutual
/-- The id stands for the tree, using exactly the places in the last argument. -/
def Rep (h : SemTree) : STree → Int → List Loc → Prop
  | .leaf ns tok, i, F => ∃ (n r : Nat), i = (n : Int) ∧ h.table[n]? = some r ∧ h.objs[r]? = some ⟨n, ns, .leaf tok⟩ ∧
      F = [.id n, .obj r]
  | .node ns c ts, i, F => ∃ (n r l : Nat) (ids : List Int) (Fs : List Loc), i = (n : Int) ∧ h.table[n]? = some r ∧
      h.objs[r]? = some ⟨n, ns, .node l [] (-1) c⟩ ∧ h.lists[l]? = some ids ∧ Reps h ts ids Fs ∧
      F = .id n :: .obj r :: .lst l :: Fs
/-- The ids stand for the trees. -/
def Reps (h : SemTree) : List STree → List Int → List Loc → Prop
  | [], ids, F => ids = [] ∧ F = []
  | t :: ts, ids, F => ∃ i is F1 F2, ids = i :: is ∧ Rep h t i F1 ∧ Reps h ts is F2 ∧ F = F1 ++ F2
end

/-- The tree object stands for the tree of words `t`, and nothing is shared within it: no element is reachable along
two paths. -/
def Stands (h : SemTree) (t : STree) : Prop := ∃ i F, h.rootId = some i ∧ Rep h t (i : Int) F ∧ F.Nodup

end GB
