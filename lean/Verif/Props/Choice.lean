import Verif.Proofs.ChoiceRun
import Verif.Spec.Pipeline
import Verif.Spec.WitnessText
import Verif.Spec.Alpha

/-
Property C62: which rearrangement the delta stage takes.
-/

namespace GB

/-- C62: of the candidates it finds, the fourth stage takes the one that fits the original tree best, and the first of
several equally good ones.  Every candidate has the words of the tree, reordered as in C57.  (The original is read
after the search, which may change marks and brackets in it, but not its words.) -/
theorem C62_choice {h : SemTree} {t : STree} {i r : Nat} (hroot : h.rootId = some i) (hr : Reads h t (i : Int))
    (ht : h.table[i]? = some r) (hf : t.Full) (hn : t.terminal = false) (hlead : t.leads = true) :
    ∃ rs h1 o cs, Yields (fun k => findCandidates k r h) (.ok (rs, h1)) ∧ Reads h1 o (i : Int) ∧ o.words = t.words ∧
      RefsR h1 cs rs ∧ (∀ c ∈ cs, Reorders t.words c.words) ∧
      ∃ a c b h2, cs = a ++ c :: b ∧ (∀ y ∈ a, o.fit y < o.fit c) ∧ (∀ y ∈ b, o.fit y ≤ o.fit c) ∧
        Yields (fun k => deltaStage k h) (.ok ((), h2)) ∧ Holds h2 c :=
  choice_reads hroot hr ht hf hn hlead

/-! ### Examples -/

/-- A word of the examples. -/
def exWord (w p : String) : STree := .leaf (some (lit "1")) (exInfo w w p "")

/-- "going to gym telmo": the tree as gamma gives it, `(is_going telmo (to gym))`. -/
def exBefore : STree :=
  .node none false [.node none true [exWord "is" "VERB", exWord "going" "VERB"], exWord "telmo" "PROPN",
    .node none false [exWord "to" "ADP", exWord "gym" "NOUN"]]

/-- The same with "is_going" and "to" as one relation, `((is_going to) telmo gym)`. -/
def exAfter : STree :=
  .node none false [.node none true [exWord "is" "VERB", exWord "going" "VERB", exWord "to" "ADP"], exWord "telmo" "PROPN",
    exWord "gym" "NOUN"]

/-- The hypotheses are met by a small tree object; it reads as a tree that starts with a relation. -/
example : ∃ (h : SemTree) (t : STree), h.rootId = some 2 ∧ Reads h t 2 ∧ h.table[2]? = some 2 ∧ t.Full ∧
    t.terminal = false ∧ t.leads = true := by
  refine ⟨⟨some 2, [0, 1, 2], [⟨0, none, .leaf (exInfo "going" "go" "VERB" "ROOT")⟩, ⟨1, none, .leaf (exInfo "telmo" "telmo" "PROPN" "nsubj")⟩,
    ⟨2, none, .node 0 [] (-1) false⟩], [[0, 1]]⟩,
    .node none false [.leaf none (exInfo "going" "go" "VERB" "ROOT"), .leaf none (exInfo "telmo" "telmo" "PROPN" "nsubj")],
    rfl, ⟨2, 2, 0, [], -1, [0, 1], rfl, rfl, rfl, rfl, ⟨0, [1], rfl, ⟨0, 0, rfl, rfl, rfl⟩, ⟨1, [], rfl, ⟨1, 1, rfl, rfl, rfl⟩, rfl⟩⟩⟩, rfl,
    ⟨by simp, trivial, trivial, trivial⟩, rfl, by decide +kernel⟩

/-- Leaving the tree as it is and making one relation of it both have the right number of arguments. -/
example : exBefore.fit exBefore = 1000 := by decide +kernel
example : exBefore.fit exAfter = 1000 := by decide +kernel

/-- A relation of two parts and two arguments, the first part next to an argument it had in the original. -/
example : exBefore.fit (.node none false [.node none false [.node none true [exWord "is" "VERB", exWord "going" "VERB"], exWord "to" "ADP"],
    exWord "telmo" "PROPN", exWord "gym" "NOUN"]) = 100 := by decide +kernel

end GB
