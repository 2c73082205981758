import Verif.Model.Token

/-
Model of gb/nlp/parser.py.  spaCy is a parameter: a parsed document gives, for each of its tokens, the attributes and
the positions of the children to the left and to the right, and the spans of the sentences.
-/

namespace GB

/-- The attributes of a spaCy token that gb/nlp/parser.py:39-46,51 reads; `shape_` and `prob` are left out, as in
`TokInfo`.  `lefts` and `rights` are positions in the document. -/
structure SpacyTok where
  orth : Str
  lemma : Str
  pos : Str
  dep : Str
  entType : Str
  lefts : List Nat
  rights : List Nat
  deriving Repr

/-- A document parsed by spaCy: tokens and sentence spans (from, to).  spaCy tokens are equal if they are at the same
position of the same document; `key` tells documents apart. -/
structure Doc where
  key : Nat
  toks : List SpacyTok
  sents : List (Nat × Nat)
  deriving Repr

/-- gb/nlp/parser.py:31 `self.token_table`. -/
abbrev TokTable := List ((Nat × Nat) × Tok)

/-- gb/nlp/parser.py:39-46,51: the attributes of the new token; `norm` stands for `lower().strip()`. -/
def SpacyTok.info (norm : Str → Str) (s : SpacyTok) : TokInfo :=
  ⟨norm s.orth, s.lemma, s.pos, s.dep, some s.entType, false⟩

/-- `[self.__spacy2token(t) for t in ...]` (gb/nlp/parser.py:45-46, 61), with the call as an argument. -/
def tokensWith (f : Nat → TokTable → Except PyErr (Tok × TokTable)) : List Nat → TokTable → Except PyErr (List Tok × TokTable)
  | [], tb => .ok ([], tb)
  | i :: is, tb =>
    match f i tb with
    | .error e => .error e
    | .ok (t, tb1) =>
      match tokensWith f is tb1 with
      | .error e => .error e
      | .ok (ts, tb2) => .ok (t :: ts, tb2)

/-- gb/nlp/parser.py:34-54 `__spacy2token`, of a token (`None` is never passed).  Token objects are values here: what
is in the table is what was returned. -/
def spacy2token (norm : Str → Str) : Nat → Doc → Nat → TokTable → Except PyErr (Tok × TokTable)
  | 0, _, _, _ => .error .outOfFuel
  | k + 1, d, i, tb =>
    match tb.lookup (d.key, i) with
    | some t => .ok (t, tb)
    | none =>
      match d.toks[i]? with
      | none => .error .indexError
      | some s =>
        match tokensWith (spacy2token norm k d) s.lefts tb with
        | .error e => .error e
        | .ok (l, tb1) =>
          match tokensWith (spacy2token norm k d) s.rights tb1 with
          | .error e => .error e
          | .ok (r, tb2) => .ok (.mk (s.info norm) l r, ((d.key, i), .mk (s.info norm) l r) :: tb2)

/-- gb/nlp/parser.py:60-62: the loop over the sentences. -/
def parseSents (norm : Str → Str) (k : Nat) (d : Doc) : List (Nat × Nat) → TokTable → Except PyErr (List (List Tok) × TokTable)
  | [], tb => .ok ([], tb)
  | (a, b) :: spans, tb =>
    match tokensWith (spacy2token norm k d) (List.range' a (b - a)) tb with
    | .error e => .error e
    | .ok (ts, tb1) =>
      match parseSents norm k d spans tb1 with
      | .error e => .error e
      | .ok (sents, tb2) => .ok (ts :: sents, tb2)

/-- gb/nlp/parser.py:56-64 `parse_text`, of a text that spaCy parses as `d`. -/
def parseText (norm : Str → Str) (k : Nat) (d : Doc) (tb : TokTable) : Except PyErr (List (List Tok) × TokTable) :=
  parseSents norm k d d.sents tb

end GB
