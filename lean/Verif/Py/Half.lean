import Verif.Proofs.Str
import Verif.Spec.Vocab

/-
A concrete instance of the float interface: the multiples of 1/2, printed as Python prints them
("3.0", "-2.5").  It shows that the laws assumed of `PyFloat` can be met, and it is used to state
examples and counterexamples that can be evaluated.
-/

namespace GB

/-- The number `twice / 2`. -/
structure Half where
  twice : Int
  deriving DecidableEq, Repr

namespace Half

/-- Printing of `n / 2`. -/
def reprNat (n : Nat) : Str := natStr (n / 2) ++ (if n % 2 = 0 then lit ".0" else lit ".5")

/-- `str(x)`. -/
def repr (x : Half) : Str :=
  match x.twice with
  | .ofNat n => reprNat n
  | .negSucc n => '-' :: reprNat (n + 1)

/-- Reads digits followed by ".0" or ".5". -/
def parseNatHalf (s : Str) : Option Nat :=
  let ds := s.takeWhile isDigit
  let rest := s.dropWhile isDigit
  if ds.isEmpty then none
  else if rest = lit ".0" then some (2 * digitsVal ds)
  else if rest = lit ".5" then some (2 * digitsVal ds + 1)
  else none

/-- `float(s)`, for the texts printed by `repr`. -/
def parse : Str → Option Half
  | '-' :: s => (parseNatHalf s).map fun (n : Nat) => ⟨-(n : Int)⟩
  | s => (parseNatHalf s).map fun (n : Nat) => ⟨(n : Int)⟩

theorem dot_not_digit : isDigit '.' = false := by decide

theorem takeWhile_digits {ds : Str} (h : ds.all isDigit = true) (rest : Str) :
    (ds ++ '.' :: rest).takeWhile isDigit = ds ∧ (ds ++ '.' :: rest).dropWhile isDigit = '.' :: rest := by
  induction ds with
  | nil => simp [dot_not_digit]
  | cons c ds ih =>
    simp only [List.all_cons, Bool.and_eq_true] at h
    simp [h.1, ih h.2]

theorem parseNatHalf_reprNat (n : Nat) : parseNatHalf (reprNat n) = some n := by
  have hne : (natStr (n / 2)).isEmpty = false := by simpa using natStr_ne (n / 2)
  unfold parseNatHalf reprNat
  split
  · rw [show (lit ".0" : Str) = '.' :: ['0'] from rfl, (takeWhile_digits (natStr_digits _) _).1,
      (takeWhile_digits (natStr_digits _) _).2]
    simp only [hne, natStr_val]
    rename_i h
    simp
    omega
  · rw [show (lit ".5" : Str) = '.' :: ['5'] from rfl, (takeWhile_digits (natStr_digits _) _).1,
      (takeWhile_digits (natStr_digits _) _).2]
    simp only [hne, natStr_val]
    rename_i h
    simp [lit]
    omega

theorem reprNat_head (n : Nat) : ∃ c s, reprNat n = c :: s ∧ c ≠ '-' := by
  obtain ⟨c, s, hs, hc⟩ := natStr_head (n / 2)
  refine ⟨c, s ++ (if n % 2 = 0 then lit ".0" else lit ".5"), ?_, ?_⟩
  · unfold reprNat; rw [hs]; rfl
  · rintro rfl; simp [isDigit] at hc

theorem parse_repr (x : Half) : parse (repr x) = some x := by
  obtain ⟨i⟩ := x
  cases i with
  | ofNat n =>
    obtain ⟨c, s, hs, hc⟩ := reprNat_head n
    have h1 : parse (c :: s) = (parseNatHalf (c :: s)).map fun (n : Nat) => ⟨(n : Int)⟩ := by
      unfold parse; split
      · rename_i h; cases h; contradiction
      · rfl
    show parse (reprNat n) = _
    rw [hs, h1, ← hs, parseNatHalf_reprNat]; rfl
  | negSucc n =>
    show (parseNatHalf (reprNat (n + 1))).map (fun (n : Nat) => (⟨-(n : Int)⟩ : Half)) = _
    rw [parseNatHalf_reprNat]; rfl

theorem reprNat_chars (n : Nat) : ∀ c ∈ reprNat n, isDigit c = true ∨ c = '-' ∨ c = '.' := by
  intro c hc
  unfold reprNat at hc
  rw [List.mem_append] at hc
  rcases hc with hc | hc
  · exact .inl (List.all_eq_true.1 (natStr_digits _) c hc)
  · have : c = '.' ∨ c = '0' ∨ c = '5' := by
      split at hc <;> simp [lit] at hc <;> rcases hc with h | h <;> simp [h]
    rcases this with rfl | rfl | rfl <;> simp [isDigit]

theorem repr_chars (x : Half) : ∀ c ∈ repr x, isDigit c = true ∨ c = '-' ∨ c = '.' := by
  unfold repr
  split
  · exact reprNat_chars _
  · intro c hc
    rcases List.mem_cons.1 hc with rfl | hc
    · simp
    · exact reprNat_chars _ c hc

theorem repr_ne (x : Half) : repr x ≠ [] := by
  unfold repr
  split
  · unfold reprNat; simp [natStr_ne]
  · simp

theorem looksDec_reprNat (n : Nat) (sgn : Str) (h : sgn = [] ∨ sgn = ['-']) : LooksDec (sgn ++ reprNat n) := by
  unfold reprNat
  split
  · exact ⟨sgn, natStr (n / 2), ['0'], h, (isDigits_iff _).2 (natStr_digits _), by simp [isDigits_iff, isDigit], by simp [lit]⟩
  · exact ⟨sgn, natStr (n / 2), ['5'], h, (isDigits_iff _).2 (natStr_digits _), by simp [isDigits_iff, isDigit], by simp [lit]⟩

theorem looksDec_repr (x : Half) : LooksDec (repr x) := by
  unfold repr
  split
  · exact looksDec_reprNat _ [] (.inl rfl)
  · exact looksDec_reprNat _ ['-'] (.inr rfl)

end Half

instance : PyFloat Half where
  repr := Half.repr
  parse := Half.parse
  intVal x := if x.twice % 2 = 0 then some (x.twice / 2) else none
  feq x y := x.twice == y.twice
  parse_repr x _ := Half.parse_repr x
  feq_refl x _ := by simp
  repr_clean x := by
    refine ⟨Half.repr_ne x, fun c hc => ?_⟩
    rcases Half.repr_chars x c hc with h | rfl | rfl
    · refine ⟨isDigit_not_space h, ?_, ?_⟩ <;> rintro rfl <;> simp [isDigit] at h
    · decide
    · decide

/-- Values with `Half` as the type of floats. -/
abbrev HVal := Val Half

/-- A symbol. -/
abbrev sy (x : String) : HVal := .str (lit x)

/-- A float. -/
abbrev fl (k : Int) : HVal := .flt ⟨k⟩

/-- Every float of this instance is printed plainly. -/
theorem Half.plain (x : Half) : PlainFloat x := Half.looksDec_repr x

end GB
