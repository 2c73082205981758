import Verif.Py.Val

/-
Model of gb/hypergraph/symbol.py.
-/

namespace GB

variable {F : Type} [PyFloat F]

/-- gb/hypergraph/symbol.py:27-36 `SymbolType`. -/
inductive SymType where
  | unknown
  | concept
  | edge
  | integer
  | float
  | url
  deriving DecidableEq, Repr

/-- gb/hypergraph/symbol.py:56-72 `sym_type`. -/
def symType : Val F → SymType
  | .seq _ _ => .edge
  | .str s =>
    if s.take 7 = lit "http://" then .url
    else if s.take 8 = lit "https://" then .url
    else .concept
  | .int _ => .integer
  | .flt _ => .float
  | .none => .unknown

/-- gb/hypergraph/symbol.py:75-81 `parts`. -/
def symParts (sym : Val F) : List (Val F) :=
  match symType sym, sym with
  | .concept, .str s => (splitOnChar '/' s).map .str
  | _, v => [v]

/-- gb/hypergraph/symbol.py:84-86 `root` (`parts(sym)[0]`; `parts` is never empty, see
`symParts_ne_nil`, so the `IndexError` branch is dead). -/
def symRoot (sym : Val F) : Except PyErr (Val F) :=
  match symParts sym with
  | [] => .error .indexError
  | p :: _ => .ok p

/-- gb/hypergraph/symbol.py:89-96 `nspace` (`none` is Python's `None`). -/
def symNspace (sym : Val F) : Option (Val F) :=
  match symParts sym with
  | _ :: p :: _ => some p
  | _ => none

/-- gb/hypergraph/symbol.py:99-101 `is_root`. -/
def symIsRoot (sym : Val F) : Except PyErr Bool := do
  let r ← symRoot sym
  .ok (pyEq sym r)

/-- gb/hypergraph/symbol.py:104-106 `build`. -/
def symBuild (pts : List Str) : Str := pyJoin (lit "/") pts

/-- gb/hypergraph/symbol.py:109-116 `str2symbol`.  `lower` is Python's `str.lower`, a parameter. -/
def str2symbol (lower : Str → Str) (s : Str) : Str :=
  replaceChar ')' '_' (replaceChar '(' '_' (replaceChar ' ' '_' (replaceChar '/' '_' (lower s))))

/-- gb/hypergraph/symbol.py:119-127 `symbol2str`.  Restricted to atoms: for an edge the code
returns Python's `repr` of the tuple, which is not modelled (`none`). -/
def symbol2str (sym : Val F) : Option Str :=
  match symType sym, sym with
  | .concept, .str s =>
    match splitOnChar '/' s with
    | [] => none
    | r :: _ => some (replaceChar '_' ' ' r)
  | .url, .str s => some s
  | _, .int i => some (intStr i)
  | _, .flt x => some (PyFloat.repr x)
  | _, .none => some (lit "None")
  | _, _ => none

/-- 2^64: numpy `uint64` arithmetic wraps around. -/
def two64 : Nat := 18446744073709551616

/-- One round of the loop in `hashed` (gb/hypergraph/symbol.py:43-46): `31 * (h + c)` in uint64. -/
def hashStep (h : Nat) (c : Char) : Nat := (31 * ((h + c.toNat) % two64)) % two64

/-- Lower-case hexadecimal digit. -/
def hexDigit (n : Nat) : Char :=
  if n % 16 < 10 then Char.ofNat (48 + n % 16) else Char.ofNat (87 + n % 16)

/-- Helper of `hexStr`; the first argument bounds the number of digits. -/
def hexStrAux : Nat → Nat → Str
  | 0, n => [hexDigit n]
  | k + 1, n => if n < 16 then [hexDigit n] else hexStrAux k (n / 16) ++ [hexDigit n]

/-- `hex(n)[2:]` for a 64-bit unsigned integer (at most 16 digits). -/
def hexStr (n : Nat) : Str := hexStrAux 15 n

/-- The initial value in `hashed` (gb/hypergraph/symbol.py:42). -/
def hashInit : Nat := 1125899906842597

/-- gb/hypergraph/symbol.py:39-47 `hashed`. -/
def hashed (txt : Str) : Str := hexStr (txt.foldl hashStep hashInit)

/-- gb/hypergraph/symbol.py:130-136 `new_meaning`.  `rnd` is the random 100-character string drawn
by `random_hash` (gb/hypergraph/symbol.py:50-53); strings only. -/
def newMeaning (symb : Str) (pre : Str) (rnd : Str) : Except PyErr Str := do
  if ← symIsRoot (F := F) (.str symb) then .ok (symBuild [symb, pre ++ hashed rnd])
  else .ok symb

/-- gb/hypergraph/symbol.py:139-141 `is_negative` (on strings). -/
def symIsNegative : Str → Except PyErr Bool
  | [] => .error .indexError
  | c :: _ => .ok (c = '~')

/-- gb/hypergraph/symbol.py:144-149 `negative` (on strings). -/
def symNegative (symb : Str) : Except PyErr Str := do
  if ← symIsNegative symb then .ok (symb.drop 1) else .ok ('~' :: symb)

end GB
