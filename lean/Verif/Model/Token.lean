import Verif.Py.Val

/-
Model of gb/nlp/nlp_token.py, gb/nlp/sentence.py and gb/nlp/parser.py.  spaCy is a parameter: its tokens are given by
the attributes and children the code asks for.
-/

namespace GB

/-- The attributes of a token that the code uses (gb/nlp/nlp_token.py:25-36); `parent`, which nothing reads, is in
`parserParent` below, `shape` and `logprob` are left out. -/
structure TokInfo where
  word : Str
  lemma : Str
  pos : Str
  dep : Str
  entityType : Option Str
  separator : Bool
  deriving DecidableEq, Repr

/-- A token with its children (gb/nlp/nlp_token.py:33-34). -/
inductive Tok where
  | mk (info : TokInfo) (left right : List Tok)
  deriving Repr

/-- `token.word`, ... -/
def Tok.info : Tok → TokInfo
  | .mk i _ _ => i

/-- `token.left_children`. -/
def Tok.left : Tok → List Tok
  | .mk _ l _ => l

/-- `token.right_children`. -/
def Tok.right : Tok → List Tok
  | .mk _ _ r => r

mutual
/-- gb/nlp/nlp_token.py:38-45 `to_list` (each token given by its attributes). -/
def Tok.toList : Tok → List TokInfo
  | .mk i l r => toLists l ++ [i] ++ toLists r
/-- The loops of `to_list`. -/
def toLists : List Tok → List TokInfo
  | [] => []
  | t :: ts => t.toList ++ toLists ts
end

/-- gb/nlp/nlp_token.py:47-54 `is_word`. -/
def TokInfo.isWord (t : TokInfo) : Bool :=
  if t.separator then false
  else if t.pos = lit "PUNCT" then false
  else if t.pos = lit "SPACE" then false
  else true

/-- gb/nlp/nlp_token.py:56-58 `to_word_token_list`. -/
def Tok.toWordTokenList (t : Tok) : List TokInfo := t.toList.filter TokInfo.isWord

/-- gb/nlp/nlp_token.py:60-62 `chunk_str`. -/
def Tok.chunkStr (t : Tok) : Str := pyJoin (lit " ") (t.toWordTokenList.map TokInfo.word)

/-- gb/nlp/nlp_token.py:64-69 `__eq__`. -/
def TokInfo.eq (a b : TokInfo) : Bool := decide (a.word = b.word) && decide (a.pos = b.pos) && decide (a.dep = b.dep)

/-- gb/nlp/sentence.py:41-45 `root`. -/
def sentenceRoot : List Tok → Option Tok
  | [] => none
  | t :: ts => if t.info.dep = lit "ROOT" then some t else sentenceRoot ts

end GB
