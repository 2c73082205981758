import Verif.Model.Symbol

/-
Model of gb/hypergraph/edge.py.  (`TokType` and `tokenType`, edge.py:25-75, are in Verif/Py/Val.lean
because the float interface mentions them.)
-/

namespace GB

variable {F : Type} [PyFloat F]

/-- List traversal with exceptions: `[f(x) for x in xs]`. -/
def mapE {α β : Type} (f : α → Except PyErr β) : List α → Except PyErr (List β)
  | [] => .ok []
  | x :: xs => do
    let y ← f x
    let ys ← mapE f xs
    .ok (y :: ys)

/-- gb/hypergraph/edge.py:34-39 `open_pars`: `s[pos]` past the end raises `IndexError`. -/
def openPars : Str → Except PyErr Nat
  | [] => .error .indexError
  | c :: s => if c = '(' then do let n ← openPars s; .ok (n + 1) else .ok 0

/-- The loop of `close_pars`, on the reversed string. -/
def closeParsRev : Str → Except PyErr Nat
  | [] => .error .indexError
  | c :: s => if c = ')' then do let n ← closeParsRev s; .ok (n + 1) else .ok 0

/-- gb/hypergraph/edge.py:42-47 `close_pars`. -/
def closePars (s : Str) : Except PyErr Nat := closeParsRev s.reverse

/-- gb/hypergraph/edge.py:104-118: the `while` loop of `split_edge_str`, with variables
`curtok` and `depth`; returns the tokens appended from here on. -/
def splitLoop : Option Str → Int → List Str → Except PyErr (List Str)
  | _, _, [] => .ok []
  | cur, depth, tok :: stoks => do
    let o ← openPars tok
    let c ← closePars tok
    let depth' := depth + o - c
    let cur' := match cur with
      | none => tok
      | some t => t ++ lit " " ++ tok
    if depth' = 0 then
      let rest ← splitLoop none depth' stoks
      .ok (cur' :: rest)
    else splitLoop (some cur') depth' stoks

/-- gb/hypergraph/edge.py:92-118 `split_edge_str`.  `edge_str[0]` raises `IndexError` on the empty
string; `edge_str[1:-1]` drops the first and the last character. -/
def splitEdgeStr (s : Str) : Except PyErr (List Str) :=
  match s with
  | [] => .error .indexError
  | c :: rest =>
    if c = '(' then splitLoop none 0 (pySplit rest.dropLast)
    else splitLoop none 0 (pySplit (c :: rest))

/-- `float(token)`. -/
def pyFloatParse (s : Str) : Except PyErr F :=
  match PyFloat.parse s with
  | some x => .ok x
  | none => .error .valueError

/-- gb/hypergraph/edge.py:83-89: the non-parenthesised branch of `parsed_token`. -/
def parsedAtom (token : Str) : Except PyErr (Val F) :=
  match tokenType token with
  | .string => .ok (.str token)
  | .integer => do let i ← pyInt token; .ok (.int i)
  | .double => do let x ← pyFloatParse token; .ok (.flt x)

/-- gb/hypergraph/edge.py:124-128: the end of `str2edge`: one element is returned itself, no element
raises `IndexError`. -/
def packEdge : List (Val F) → Except PyErr (Val F)
  | [] => .error .indexError
  | [x] => .ok x
  | xs => .ok (.tup xs)

/-- gb/hypergraph/edge.py:121-128: the body of `str2edge`, with `parsed_token` as a parameter. -/
def str2edgeWith (parsedToken : Str → Except PyErr (Val F)) (s : Str) : Except PyErr (Val F) := do
  let tokens ← splitEdgeStr s
  let elements ← mapE parsedToken tokens
  packEdge elements

/-- gb/hypergraph/edge.py:78-89 `parsed_token` (mutually recursive with `str2edge`); the first
argument bounds the recursion depth. -/
def parsedTokenF : Nat → Str → Except PyErr (Val F)
  | _, [] => .error .indexError
  | 0, c :: t => if c = '(' then .error .outOfFuel else parsedAtom (c :: t)
  | k + 1, c :: t =>
    if c = '(' then str2edgeWith (parsedTokenF k) (c :: t) else parsedAtom (c :: t)

/-- gb/hypergraph/edge.py:121-128 `str2edge`.  Each recursive call is on a strictly shorter string,
so a budget of the length suffices (`C04`). -/
def str2edge (s : Str) : Except PyErr (Val F) := str2edgeWith (parsedTokenF s.length) s

/-- `str(node)` for atoms. -/
def atomStr : Val F → Str
  | .str s => s
  | .int i => intStr i
  | .flt x => PyFloat.repr x
  | .none => lit "None"
  | .seq _ _ => []

mutual
/-- gb/hypergraph/edge.py:142-147 `edge2str`. -/
def edge2str : Val F → Str
  | .seq _ xs => lit "(" ++ pyJoin (lit " ") (nodeStrs xs) ++ lit ")"
  | .str s => s
  | .int i => intStr i
  | .flt x => PyFloat.repr x
  | .none => lit "None"
/-- gb/hypergraph/edge.py:133-138: `node_strings` in `nodes2str`. -/
def nodeStrs : List (Val F) → List Str
  | [] => []
  | x :: xs => edge2str x :: nodeStrs xs
end

/-- gb/hypergraph/edge.py:131-139 `nodes2str`. -/
def nodes2str (xs : List (Val F)) : Str := pyJoin (lit " ") (nodeStrs xs)

/-- gb/hypergraph/symbol.py:139-141 `is_negative` on any value: `symb[0] == '~'`. -/
def valIsNegative (v : Val F) : Except PyErr Bool := do
  let h ← v.head0
  .ok (pyEq h (.str (lit "~")))

/-- gb/hypergraph/edge.py:150-152 `is_negative`. -/
def edgeIsNegative (edge : Val F) : Except PyErr Bool := do
  let h ← edge.head0
  valIsNegative h

/-- gb/hypergraph/symbol.py:144-149 `negative` on any value.  `'~%s' % symb` with a tuple formats its only element, and
raises `TypeError` for two or more.  Simplification: where Python would render a list or a nested sequence by `repr`
(`symb` a list not starting with '~', or a tuple of one sequence) the model raises `TypeError`. -/
def valNegative (v : Val F) : Except PyErr (Val F) := do
  let neg ← valIsNegative v
  match v with
  | .str s => do
    let s' ← symNegative s
    .ok (.str s')
  | .seq b xs =>
    if neg then .ok (.seq b (xs.drop 1))
    else match b, xs with
      | false, [x] => if x.isSeq then .error .typeError else .ok (.str (lit "~" ++ edge2str x))
      | _, _ => .error .typeError
  | _ => .error .typeError

/-- gb/hypergraph/edge.py:155-157 `negative`: `(x,) + edge[1:]` is a concatenation of tuples, so for a list or a string
it raises `TypeError`. -/
def edgeNegative (edge : Val F) : Except PyErr (Val F) := do
  let h ← edge.head0
  let h' ← valNegative h
  match edge with
  | .seq false (_ :: rest) => .ok (.tup (h' :: rest))
  | _ => .error .typeError

end GB
