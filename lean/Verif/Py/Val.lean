import Verif.Py.Basic

/-
Python values that occur in hypergraphs.
-/

namespace GB

/-- Result classes of `token_type` (gb/hypergraph/edge.py:25-31). -/
inductive TokType where
  | integer
  | double
  | string
  deriving DecidableEq, Repr

/-- gb/hypergraph/edge.py:50-75 `token_type`: the `while` loop, with its variables `pos > 0` and
`point`. -/
def tokenTypeAux : Bool → Bool → Str → TokType
  | _, point, [] => if point then .double else .integer
  | later, point, c :: s =>
    if c = '-' then
      if later then .string else tokenTypeAux true point s
    else if c = '.' then
      if point then .string else tokenTypeAux true true s
    else if c.toNat < '0'.toNat || c.toNat > '9'.toNat then .string
    else tokenTypeAux true point s

/-- gb/hypergraph/edge.py:50-75 `token_type`. -/
def tokenType (s : Str) : TokType := tokenTypeAux false false s

/-- Python's `float`, abstractly.  `repr` is `str(x)`, `parse` is `float(s)` (`none`: ValueError),
`intVal` is the integer that `x` compares equal to, if any, `feq` is `==` on floats.
The two laws are the only facts about floats used: a float printed in plain decimal notation is
read back as itself, and equals itself. -/
class PyFloat (F : Type) where
  repr : F → Str
  parse : Str → Option F
  intVal : F → Option Int
  feq : F → F → Bool
  parse_repr : ∀ x, tokenType (repr x) = .double → parse (repr x) = some x
  feq_refl : ∀ x, tokenType (repr x) = .double → feq x x = true
  /-- `repr` never contains whitespace, nor starts or ends with a parenthesis, nor is empty -/
  repr_clean : ∀ x, repr x ≠ [] ∧ (∀ c ∈ repr x, isSpace c = false ∧ c ≠ '(' ∧ c ≠ ')')

/-- A Python value: `str`, `int`, `float`, `None`, or a sequence (`seq false` is a tuple,
`seq true` a list).  Other types (`bool`, ...) are not modelled. -/
inductive Val (F : Type) where
  | str (s : Str)
  | int (i : Int)
  | flt (x : F)
  | none
  | seq (isList : Bool) (xs : List (Val F))
  deriving Repr

variable {F : Type}

mutual
/-- Decidable equality of values (Lean equality, not Python's `==`). -/
def Val.decEq [DecidableEq F] : (v w : Val F) → Decidable (v = w)
  | .str s, .str t => if h : s = t then isTrue (by rw [h]) else isFalse (by simpa using h)
  | .int s, .int t => if h : s = t then isTrue (by rw [h]) else isFalse (by simpa using h)
  | .flt s, .flt t => if h : s = t then isTrue (by rw [h]) else isFalse (by simpa using h)
  | .none, .none => isTrue rfl
  | .seq b xs, .seq c ys =>
    if h : b = c then
      match Val.decEqs xs ys with
      | isTrue h' => isTrue (by rw [h, h'])
      | isFalse h' => isFalse (by simp [h'])
    else isFalse (by simp [h])
  | .str _, .int _ | .str _, .flt _ | .str _, .none | .str _, .seq _ _ => isFalse (by simp)
  | .int _, .str _ | .int _, .flt _ | .int _, .none | .int _, .seq _ _ => isFalse (by simp)
  | .flt _, .str _ | .flt _, .int _ | .flt _, .none | .flt _, .seq _ _ => isFalse (by simp)
  | .none, .str _ | .none, .int _ | .none, .flt _ | .none, .seq _ _ => isFalse (by simp)
  | .seq _ _, .str _ | .seq _ _, .int _ | .seq _ _, .flt _ | .seq _ _, .none => isFalse (by simp)
/-- Decidable equality of lists of values. -/
def Val.decEqs [DecidableEq F] : (xs ys : List (Val F)) → Decidable (xs = ys)
  | [], [] => isTrue rfl
  | x :: xs, y :: ys =>
    match Val.decEq x y, Val.decEqs xs ys with
    | isTrue h, isTrue h' => isTrue (by rw [h, h'])
    | isFalse h, _ => isFalse (by simp [h])
    | _, isFalse h => isFalse (by simp [h])
  | [], _ :: _ => isFalse (by simp)
  | _ :: _, [] => isFalse (by simp)
end

instance [DecidableEq F] : DecidableEq (Val F) := Val.decEq

/-- A tuple. -/
abbrev Val.tup (xs : List (Val F)) : Val F := .seq false xs

/-- `isinstance(v, (list, tuple))`. -/
def Val.isSeq : Val F → Bool
  | .seq _ _ => true
  | _ => false

/-- `v is None`. -/
def Val.isNone : Val F → Bool
  | .none => true
  | _ => false

mutual
/-- Python `v == w` on modelled values. -/
def pyEq [PyFloat F] : Val F → Val F → Bool
  | .str s, .str t => s == t
  | .int i, .int j => i == j
  | .flt x, .flt y => PyFloat.feq x y
  | .int i, .flt y => PyFloat.intVal y == some i
  | .flt x, .int j => PyFloat.intVal x == some j
  | .none, .none => true
  | .seq b xs, .seq c ys => b == c && pyEqs xs ys
  | _, _ => false
/-- Element-wise `==` of two sequences (lengths must agree). -/
def pyEqs [PyFloat F] : List (Val F) → List (Val F) → Bool
  | [], [] => true
  | x :: xs, y :: ys => pyEq x y && pyEqs xs ys
  | _, _ => false
end

/-- `set(xs)`, as a list without two elements that compare equal (the first one is kept, as
CPython does).  All uses in the code are on hashable values. -/
def pySet [PyFloat F] : List (Val F) → List (Val F)
  | [] => []
  | x :: xs => x :: (pySet xs).filter fun y => !pyEq x y

/-- `for x in v` / iteration: sequences give their elements, strings their characters; other
values raise `TypeError`. -/
def Val.iter : Val F → Except PyErr (List (Val F))
  | .seq _ xs => .ok xs
  | .str s => .ok (s.map fun c => .str [c])
  | _ => .error .typeError

/-- `v[0]`. -/
def Val.head0 (v : Val F) : Except PyErr (Val F) := do
  match ← v.iter with
  | [] => .error .indexError
  | x :: _ => .ok x

end GB
