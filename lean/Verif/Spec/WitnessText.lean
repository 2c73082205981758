import Verif.Model.Parser

/-
A sentence for the examples: "Telmo is going to the gym." (gb/knowledge/tests/extractor_tests.py).
-/

namespace GB

/-- A token of the examples. -/
def exInfo (w l p d : String) (e : String := "") : TokInfo := ⟨lit w, lit l, lit p, lit d, some (lit e), false⟩

/-- "going", with everything below it. -/
def exGoing : Tok := .mk (exInfo "going" "go" "VERB" "ROOT")
  [.mk (exInfo "telmo" "telmo" "PROPN" "nsubj" "PERSON") [] [], .mk (exInfo "is" "be" "VERB" "aux") [] []]
  [.mk (exInfo "to" "to" "ADP" "prep") [] [.mk (exInfo "gym" "gym" "NOUN" "pobj") [.mk (exInfo "the" "the" "DET" "det") [] []] []],
   .mk (exInfo "." "." "PUNCT" "punct") [] []]

/-- The sentence. -/
def exSentence : List Tok :=
  [.mk (exInfo "telmo" "telmo" "PROPN" "nsubj" "PERSON") [] [], .mk (exInfo "is" "be" "VERB" "aux") [] [], exGoing]

/-- The same as a document. -/
def exDoc : Doc := ⟨7, [
  ⟨lit "Telmo ", lit "telmo", lit "PROPN", lit "nsubj", lit "PERSON", [], []⟩,
  ⟨lit "is", lit "be", lit "VERB", lit "aux", [], [], []⟩,
  ⟨lit "going", lit "go", lit "VERB", lit "ROOT", [], [0, 1], [3, 6]⟩,
  ⟨lit "to", lit "to", lit "ADP", lit "prep", [], [], [5]⟩,
  ⟨lit "the", lit "the", lit "DET", lit "det", [], [], []⟩,
  ⟨lit "gym", lit "gym", lit "NOUN", lit "pobj", [], [4], []⟩,
  ⟨lit ".", lit ".", lit "PUNCT", lit "punct", [], [], []⟩], [(0, 7)]⟩

end GB
