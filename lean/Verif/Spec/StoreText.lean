import Verif.Spec.Kept
import Verif.Spec.Vocab

/-
When the edges read from a text can be stored.
-/

namespace GB

variable {F : Type}

/-- A word as tokenizers give it: without whitespace, and not starting with '(' (which is punctuation). -/
def PlainWord (w : Str) : Prop := (∀ c ∈ w, isSpace c = false) ∧ w.head? ≠ some '('

/-- All words of the sentence that get into the edge are plain. -/
def PlainSentence (x : Tok) : Prop := ∀ t ∈ x.kept, PlainWord t.word

/-- The edge is a tuple that starts with a symbol. -/
def StartsWithSymbol (v : Val F) : Prop := ∃ s t, v = .tup (.str s :: t)

end GB
