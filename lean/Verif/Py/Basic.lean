/-
Python built-ins used by graphbrain, on strings represented as lists of characters.
Nothing here models a file of /repo: these are the library functions the code calls
(`str.split`, `str.join`, `str.replace`, `<` on `str`, `str(int)`, `int(str)`, `chr(ord(c)+1)`).
-/

namespace GB

/-- A Python `str`: a list of Unicode scalar values.  (Lone surrogates, which a Python `str`
may contain but which neither SQLite nor UTF-8 can store, are not represented.) -/
abbrev Str := List Char

/-- Turn a Lean string literal into a `Str`. -/
abbrev lit (x : String) : Str := x.toList

/-- The exceptions the modelled code can raise. -/
inductive PyErr where
  | indexError
  | valueError
  | typeError
  | keyError
  | attributeError
  | runtimeError
  | assertionError
  /-- `sqlite3.ProgrammingError`: operation on a closed cursor -/
  | programmingError
  /-- `sqlite3.IntegrityError`: duplicate primary key -/
  | integrityError
  /-- an integer that does not fit into 64 bits, given to SQLite -/
  | overflowError
  /-- Python's stack is full (`RecursionError`), see `Model/Frames.lean` -/
  | recursionError
  /-- `UnicodeEncodeError`: a text that the character set of the connection does not have, see `Model/Encode.lean` -/
  | encodeError
  /-- the server refuses to store a text (`Incorrect string value`), see `Model/Encode.lean` -/
  | dataError
  /-- not a Python exception: the model's recursion budget was exhausted
  (proved unreachable, see `C04`) -/
  | outOfFuel
  deriving DecidableEq, Repr

/-- Results of computations can be compared. -/
instance instDecEqExcept {ε α : Type} [DecidableEq ε] [DecidableEq α] : DecidableEq (Except ε α)
  | .ok a, .ok b => if h : a = b then isTrue (by rw [h]) else isFalse (by simpa using h)
  | .error a, .error b => if h : a = b then isTrue (by rw [h]) else isFalse (by simpa using h)
  | .ok _, .error _ => isFalse (by simp)
  | .error _, .ok _ => isFalse (by simp)

/-- `str.isspace` for the characters `str.split()` splits on (Python 3: exactly these 29). -/
def isSpace (c : Char) : Bool :=
  let n := c.toNat
  (9 ≤ n && n ≤ 13) || (0x1c ≤ n && n ≤ 0x20) || n == 0x85 || n == 0xa0 || n == 0x1680 ||
  (0x2000 ≤ n && n ≤ 0x200a) || n == 0x2028 || n == 0x2029 || n == 0x202f || n == 0x205f ||
  n == 0x3000

/-- Helper of `pySplit`: `cur` is the word being read. -/
def pySplitAux : Str → Str → List Str
  | cur, [] => if cur.isEmpty then [] else [cur]
  | cur, c :: s =>
    if isSpace c then
      if cur.isEmpty then pySplitAux [] s else cur :: pySplitAux [] s
    else pySplitAux (cur ++ [c]) s

/-- `s.split()`: maximal runs of non-whitespace characters. -/
def pySplit (s : Str) : List Str := pySplitAux [] s

/-- `sep.join(xs)`. -/
def pyJoin (sep : Str) : List Str → Str
  | [] => []
  | [x] => x
  | x :: y :: xs => x ++ sep ++ pyJoin sep (y :: xs)

/-- Helper of `splitOnChar`: `cur` is the current part. -/
def splitOnCharAux (d : Char) : Str → Str → List Str
  | cur, [] => [cur]
  | cur, c :: s => if c = d then cur :: splitOnCharAux d [] s else splitOnCharAux d (cur ++ [c]) s

/-- `s.split(d)` for a one-character separator `d`. -/
def splitOnChar (d : Char) (s : Str) : List Str := splitOnCharAux d [] s

/-- `s.replace(a, b)` for one-character `a` and `b`. -/
def replaceChar (a b : Char) (s : Str) : Str := s.map fun c => if c = a then b else c

/-- `s < t` on Python strings (code-point lexicographic order); also SQLite's BINARY collation,
since UTF-8 preserves code-point order. -/
def strLt : Str → Str → Bool
  | _, [] => false
  | [], _ :: _ => true
  | a :: s, b :: t => a.toNat < b.toNat || (a.toNat == b.toNat && strLt s t)

/-- `s <= t` on Python strings. -/
def strLe (s t : Str) : Bool := !strLt t s

/-- `chr(ord(c) + 1)`.  Raises `ValueError` past the last code point.  Also an error for U+D7FF,
whose successor is a surrogate (Python returns it, but SQLite then refuses the query string). -/
def chrSucc (c : Char) : Except PyErr Char :=
  if (c.toNat + 1).isValidChar then .ok (Char.ofNat (c.toNat + 1)) else .error .valueError

/-- Decimal digit character of `n % 10`. -/
def digitChar (n : Nat) : Char := Char.ofNat (48 + n % 10)

/-- Helper of `natStr`; the first argument bounds the number of digits. -/
def natStrAux : Nat → Nat → Str
  | 0, n => [digitChar n]
  | k + 1, n => if n < 10 then [digitChar n] else natStrAux k (n / 10) ++ [digitChar n]

/-- `str(n)` for a natural number. -/
def natStr (n : Nat) : Str := natStrAux n n

/-- `str(i)` for an integer. -/
def intStr : Int → Str
  | .ofNat n => natStr n
  | .negSucc n => '-' :: natStr (n + 1)

/-- Is `c` an ASCII digit? -/
def isDigit (c : Char) : Bool := 48 ≤ c.toNat && c.toNat ≤ 57

/-- Value of a digit string (most significant first). -/
def digitsVal (s : Str) : Nat := s.foldl (fun acc c => acc * 10 + (c.toNat - 48)) 0

/-- A non-empty string of digits as a number. -/
def parseNat (s : Str) : Except PyErr Nat :=
  if !s.isEmpty && s.all isDigit then .ok (digitsVal s) else .error .valueError

/-- `int(s)` for ASCII decimal notation with an optional sign.  Simplification: the further
notations accepted by Python (surrounding blanks, digit-group underscores, non-ASCII digits) are
treated as errors.  The code applies `int` to numbers it wrote itself and to tokens made of digits and `-`; only when a
row that begins with an edge is misread can the token be an arbitrary word, and the theorems that say that this raises
assume a word that no such notation matches (`NotIntText`). -/
def pyInt : Str → Except PyErr Int
  | '-' :: s => do let n ← parseNat s; .ok (-(n : Int))
  | '+' :: s => do let n ← parseNat s; .ok (n : Int)
  | s => do let n ← parseNat s; .ok (n : Int)

end GB
