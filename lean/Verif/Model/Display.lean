import Verif.Model.Token

/-
Model of the parts of gb/nlp/nlp_token.py and gb/nlp/sentence.py that make texts for people.  `print_tree` hands
`label_tree()` to a library; the model ends at `label_tree()`.
-/

namespace GB

/-- `s.strip()`. -/
def pyStrip (s : Str) : Str := ((s.dropWhile isSpace).reverse.dropWhile isSpace).reverse

/-- gb/nlp/nlp_token.py:71-72 `__str__`; an `entity_type` that is `None` is shown as `None`. -/
def TokInfo.str (t : TokInfo) : Str :=
  pyStrip t.word ++ lit "/" ++ t.pos ++ lit " (" ++ t.dep ++ lit ") {" ++ t.entityType.getD (lit "None") ++ lit "}"

/-- An `OrderedDict` from labels to such dictionaries: the entries in order. -/
inductive LabelDict where
  | mk (entries : List (Str × LabelDict))

/-- The entries. -/
def LabelDict.entries : LabelDict → List (Str × LabelDict)
  | .mk es => es

/-- `d[k] = v` on the entries of an `OrderedDict`: an old key keeps its place. -/
def dictSet {α : Type} (k : Str) (v : α) : List (Str × α) → List (Str × α)
  | [] => [(k, v)]
  | (k', v') :: es => if k' = k then (k', v) :: es else (k', v') :: dictSet k v es

/-- `OrderedDict(pairs)`. -/
def orderedDict {α : Type} (ps : List (Str × α)) : List (Str × α) := ps.foldl (fun d p => dictSet p.1 p.2 d) []

/-- gb/nlp/sentence.py:26-27 `node_label`. -/
def nodeLabel (t : TokInfo) (pre : Str) : Str := lit "[" ++ pre ++ lit "]" ++ t.str

mutual
/-- gb/nlp/sentence.py:30-34 `token2label_tree`. -/
def token2labelTree : Tok → Str → Str × LabelDict
  | .mk i l r, pre =>
    (nodeLabel i pre, .mk (orderedDict (tokens2labelTrees l (lit "L") ++ tokens2labelTrees r (lit "R"))))
/-- The comprehensions of `token2label_tree`. -/
def tokens2labelTrees : List Tok → Str → List (Str × LabelDict)
  | [], _ => []
  | t :: ts, pre => token2labelTree t pre :: tokens2labelTrees ts pre
end

/-- gb/nlp/sentence.py:47-52 `label_tree`. -/
def labelTree (s : List Tok) : LabelDict :=
  match sentenceRoot s with
  | none => .mk []
  | some r => .mk [token2labelTree r (lit "*")]

/-- gb/nlp/sentence.py:58-59 `__str__` of a sentence. -/
def sentenceStr (s : List Tok) : Str := pyJoin (lit " ") (s.map fun t => pyStrip t.info.word)

end GB
