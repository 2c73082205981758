import Verif.Py.Val
import Verif.Spec.Reads

/-
What the epsilon stage makes of a tree of words.
-/

namespace GB

variable {F : Type}

/-- Word and namespace, with a slash in between. -/
def wordSymbol (ns : Str) (t : TokInfo) : Val F := .str (t.word ++ lit "/" ++ ns)

/-- Words joined by `_`, with the namespace `?`. -/
def nameSymbol (ts : List TokInfo) : Val F := .str (pyJoin (lit "_") (ts.map TokInfo.word) ++ lit "/?")

mutual
/-- The edge of a tree: a symbol for a word; one symbol for a compound node; the tuple of the edges of the children for
other nodes.  A word without namespace, unless it is in a compound node, is a `TypeError`. -/
def STree.edge : STree → Except PyErr (Val F)
  | .leaf none _ => .error .typeError
  | .leaf (some ns) t => .ok (wordSymbol ns t)
  | .node _ true ts => .ok (nameSymbol (leavesL ts))
  | .node _ false ts => (edgeL ts).map (Val.seq false)
/-- The edges of several trees; the first error counts. -/
def edgeL : List STree → Except PyErr (List (Val F))
  | [] => .ok []
  | t :: ts => match t.edge with
    | .error e => .error e
    | .ok v => match edgeL ts with
      | .error e => .error e
      | .ok vs => .ok (v :: vs)
end

mutual
/-- Every tuple in the edge has at least two elements. -/
def Paired : Val F → Prop
  | .seq _ xs => 2 ≤ xs.length ∧ pairedL xs
  | _ => True
/-- The same for several edges. -/
def pairedL : List (Val F) → Prop
  | [] => True
  | x :: xs => Paired x ∧ pairedL xs
end

/-- The edge is made of these words, each once and in this order: of symbols for one word, of symbols for names of
several words, and of tuples of such edges. -/
inductive Covers : Val F → List Word → Prop
  | word (ns : Str) (t : TokInfo) : Covers (wordSymbol ns t) [(some ns, t)]
  | name (ws : List Word) : ws ≠ [] → Covers (nameSymbol (ws.map Prod.snd)) ws
  | nil : Covers (.seq false []) []
  | cons (v : Val F) (ws : List Word) (vs : List (Val F)) (us : List Word) : Covers v ws → Covers (.seq false vs) us →
      Covers (.seq false (v :: vs)) (ws ++ us)

end GB
