import Verif.Model.SemTree
import Verif.Spec.STree

/-
When do the linked objects behind an id read as a tree of words, where elements may be shared?
-/

namespace GB

mutual
/-- Following the links from the id gives the tree.  Unlike in `Rep`, elements may be shared. -/
def Reads (h : SemTree) : STree → Int → Prop
  | .leaf ns tok, i => ∃ (n r : Nat), i = (n : Int) ∧ h.table[n]? = some r ∧ h.objs[r]? = some ⟨n, ns, .leaf tok⟩
  | .node ns c ts, i => ∃ (n r l : Nat) (lids : List Nat) (lid : Int) (ids : List Int), i = (n : Int) ∧
      h.table[n]? = some r ∧ h.objs[r]? = some ⟨n, ns, .node l lids lid c⟩ ∧ h.lists[l]? = some ids ∧ ReadsL h ts ids
/-- The same for several ids. -/
def ReadsL (h : SemTree) : List STree → List Int → Prop
  | [], ids => ids = []
  | t :: ts, ids => ∃ i is, ids = i :: is ∧ Reads h t i ∧ ReadsL h ts is
end

/-- The tree object reads as the tree of words `t`. -/
def Holds (h : SemTree) (t : STree) : Prop := ∃ i : Nat, h.rootId = some i ∧ Reads h t (i : Int)

/-- The elements at these references are in the table of the tree object and read as these trees. -/
def RefsR (h : SemTree) : List STree → List Nat → Prop
  | [], rs => rs = []
  | t :: ts, rs => ∃ r rs' n, rs = r :: rs' ∧ h.table[n]? = some r ∧ Reads h t ((n : Nat) : Int) ∧ RefsR h ts rs'

/-- A word: its namespace and its token. -/
abbrev Word := Option Str × TokInfo

mutual
/-- The words of a tree, from left to right. -/
def STree.words : STree → List Word
  | .leaf ns tok => [(ns, tok)]
  | .node _ _ ts => wordsL ts
/-- The words of several trees. -/
def wordsL : List STree → List Word
  | [] => []
  | t :: ts => t.words ++ wordsL ts
end

mutual
/-- No node is empty. -/
def STree.Full : STree → Prop
  | .leaf _ _ => True
  | .node _ _ ts => ts ≠ [] ∧ fullL ts
/-- The same for several trees. -/
def fullL : List STree → Prop
  | [] => True
  | t :: ts => t.Full ∧ fullL ts
end

end GB
