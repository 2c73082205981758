import Verif.Model.Edge

/-
Model of the module-level functions of gb/hypergraph/sql.py (lines 28-94).
-/

namespace GB

variable {F : Type} [PyFloat F]

/-- All ways of picking one element of a list, in order, with the remaining elements. -/
def picks {α : Type} : List α → List (α × List α)
  | [] => []
  | x :: xs => (x, xs) :: (picks xs).map fun p => (p.1, x :: p.2)

/-- Permutations of length `n` of a list, in the lexicographic (position) order of
`itertools.permutations`. -/
def permsLex {α : Type} : Nat → List α → List (List α)
  | 0, _ => [[]]
  | n + 1, l => (picks l).flatMap fun p => (permsLex n p.2).map (p.1 :: ·)

/-- `itertools.permutations(l)`. -/
def permutations {α : Type} (l : List α) : List (List α) := permsLex l.length l

/-- gb/hypergraph/sql.py:31-37: the loop of `nthperm` looking for position `n`. -/
def nthpermLoop (n : Int) : Int → List (List Nat) → Option (List Nat)
  | _, [] => none
  | pos, perm :: rest => if pos ≥ n then some perm else nthpermLoop n (pos + 1) rest

/-- gb/hypergraph/sql.py:28-38 `nthperm`.  If the loop finds nothing, `pindices` stays `None` and
`pindices[i]` raises `TypeError` (unless the list is empty). -/
def nthperm {α : Type} (li : List α) (n : Int) : Except PyErr (List α) :=
  match nthpermLoop n 0 (permutations (List.range li.length)) with
  | none => if li.length = 0 then .ok [] else .error .typeError
  | some pindices =>
    mapE (fun i => match li[i]? with
      | some x => .ok x
      | none => .error .indexError) pindices

/-- `math.factorial`. -/
def factorial : Nat → Nat
  | 0 => 1
  | n + 1 => (n + 1) * factorial n

/-- gb/hypergraph/sql.py:44-46: the string passed to `f` for permutation number `nperm`. -/
def permStr (edge : List (Val F)) (nperm : Nat) : Except PyErr Str := do
  let p ← nthperm edge nperm
  .ok (pyJoin (lit " ") (p.map edge2str) ++ lit " " ++ natStr nperm)

/-- gb/hypergraph/sql.py:58-60: the assignment loop of `unpermutate`, on a list of slots. -/
def unpermLoop {α : Type} (tokens : List α) : Nat → List (Option α) → List Nat →
    Except PyErr (List (Option α))
  | _, res, [] => .ok res
  | pos, res, i :: is =>
    match tokens[pos]? with
    | none => .error .indexError
    | some t => unpermLoop tokens (pos + 1) (res.set i (some t)) is

/-- gb/hypergraph/sql.py:50-62 `unpermutate`.  A slot left `None` would make the later
`' '.join` raise `TypeError`. -/
def unpermutate {α : Type} (tokens : List α) (nper : Int) : Except PyErr (List α) := do
  let indices ← nthperm (List.range tokens.length) nper
  let res ← unpermLoop tokens 0 (List.replicate tokens.length none) indices
  mapE (fun o => match o with
    | some x => .ok x
    | none => .error .typeError) res

/-- gb/hypergraph/sql.py:69-75: decoding one row of the permutations table. -/
def decodeRow (row : Str) : Except PyErr (Val F) := do
  let tokens ← splitEdgeStr row
  match tokens.getLast? with
  | none => .error .indexError
  | some last => do
    let nper ← pyInt last
    let tokens' ← unpermutate tokens.dropLast nper
    str2edge (pyJoin (lit " ") tokens')

/-- gb/hypergraph/sql.py:65-76 `cur2edges`. -/
def cur2edges (rows : List Str) : Except PyErr (List (Val F)) := do
  let edges ← mapE decodeRow rows
  .ok (pySet edges)

/-- gb/hypergraph/sql.py:79-83 `str_plus_1`. -/
def strPlus1 (s : Str) : Except PyErr Str :=
  match s.getLast? with
  | none => .error .indexError
  | some c => do
    let c' ← chrSucc c
    .ok (s.dropLast ++ [c'])

/-- `len(v)`. -/
def Val.len (v : Val F) : Except PyErr Nat := do
  let xs ← v.iter
  .ok xs.length

/-- gb/hypergraph/sql.py:91-94: the comparison loop of `edge_matches_pattern`. -/
def matchElems : List (Val F) → List (Val F) → Bool
  | e :: es, p :: ps => (p.isNone || pyEq p e) && matchElems es ps
  | _, _ => true

/-- gb/hypergraph/sql.py:86-94 `edge_matches_pattern`. -/
def edgeMatchesPattern (edge pattern : Val F) : Except PyErr Bool := do
  let es ← edge.iter
  let ps ← pattern.iter
  if es.length ≠ ps.length then .ok false
  else .ok (matchElems es ps)

end GB
