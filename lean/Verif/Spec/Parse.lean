import Verif.Model.Parser

/-
What the parser should give for a document, and what it means that a token is above a stretch of the text.
-/

namespace GB

mutual
/-- The token is a copy of the one at position `i`: the same attributes, the word normalised, and its children are copies
of the children, in the same order. -/
def Mirrors (norm : Str → Str) (d : Doc) : Nat → Tok → Prop
  | i, .mk info l r => ∃ s, d.toks[i]? = some s ∧ info.word = norm s.orth ∧ info.lemma = s.lemma ∧ info.pos = s.pos ∧
      info.dep = s.dep ∧ info.entityType = some s.entType ∧ info.separator = false ∧
      MirrorsL norm d s.lefts l ∧ MirrorsL norm d s.rights r
/-- The same for several tokens. -/
def MirrorsL (norm : Str → Str) (d : Doc) : List Nat → List Tok → Prop
  | is, [] => is = []
  | is, t :: ts => ∃ j js, is = j :: js ∧ Mirrors norm d j t ∧ MirrorsL norm d js ts
end

/-- The children of tokens are tokens of the document, and no token is above itself. -/
def Doc.Sound (d : Doc) : Prop :=
  (∃ rank : Nat → Nat, ∀ (i : Nat) (s : SpacyTok), d.toks[i]? = some s → ∀ j ∈ s.lefts ++ s.rights,
    j < d.toks.length ∧ rank j < rank i) ∧
  ∀ p ∈ d.sents, p.2 ≤ d.toks.length

/-- One list of tokens for each sentence, copies of the tokens from its start to its end. -/
def Parsed (norm : Str → Str) (d : Doc) (sents : List (List Tok)) : Prop :=
  sents.length = d.sents.length ∧ ∀ p ∈ d.sents.zip sents, MirrorsL norm d (List.range' p.1.1 (p.1.2 - p.1.1)) p.2

mutual
/-- The token at position `i` and what is below it is the text from `lo` to before `hi`: the children to the left
cover the text from `lo` to before `i`, those to the right the text after `i`. -/
inductive Above (d : Doc) : Nat → Nat → Nat → Prop
  | mk (i lo hi : Nat) (s : SpacyTok) : d.toks[i]? = some s → Tiles d s.lefts lo i → Tiles d s.rights (i + 1) hi →
      Above d i lo hi
/-- The tokens at these positions and what is below them is the text from `lo` to before `hi`, one after the other. -/
inductive Tiles (d : Doc) : List Nat → Nat → Nat → Prop
  | nil (lo : Nat) : Tiles d [] lo lo
  | cons (i : Nat) (is : List Nat) (lo mid hi : Nat) : Above d i lo mid → Tiles d is mid hi → Tiles d (i :: is) lo hi
end

end GB
