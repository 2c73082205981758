import Verif.Proofs.MySqlRun
import Verif.Proofs.Repair
import Verif.Spec.Collation

/-! Comparison of texts by weights, padded with spaces. -/

set_option linter.unusedSectionVars false

namespace GB

/-- The collation keeps the characters of `S` apart, and the space is the lightest. -/
structure Apt (w : Char → Nat) (S : Char → Prop) : Prop where
  space : S ' '
  opens : S '('
  closes : S ')'
  digit : ∀ c, isDigit c = true → S c
  inj : ∀ a b, S a → S b → w a = w b → a = b
  above : ∀ c, S c → w ' ' ≤ w c

/-- All characters are in `S`, and the last one is not a space. -/
def TidyText (S : Char → Prop) (t : Str) : Prop := (∀ c ∈ t, S c) ∧ t.getLast? ≠ some ' '

/-- No other character of `S` is from `c` to just before the successor of `c`. -/
def Sharp (w : Char → Nat) (S : Char → Prop) (c : Char) : Prop :=
  ∀ c' : Char, c'.toNat = c.toNat + 1 → w c < w c' ∧ ∀ d, S d → w c ≤ w d → w d < w c' → d = c

/-- The successor of `c` is heavier than `c`, and there is no other opening parenthesis between. -/
def Wide (w : Char → Nat) (c : Char) : Prop :=
  ∀ c' : Char, c'.toNat = c.toNat + 1 → w c < w c' ∧ (w c ≤ w '(' → w '(' < w c' → c = '(')

variable {w : Char → Nat} {S : Char → Prop}

theorem padBelow_eq (t : Str) : padBelow w t = padLt w [] t := by simp [padLt]

theorem padAbove_eq (t : Str) : padAbove w t = padLt w t [] := by cases t <;> simp [padLt, padAbove, padBelow]

theorem padLt_nil_nil : padLt w [] [] = false := by simp [padLt, padBelow]

theorem padLt_nil_cons (b : Char) (t : Str) :
    padLt w [] (b :: t) = (decide (w ' ' < w b) || (w ' ' == w b && padLt w [] t)) := by
  simp [padLt, padBelow]

theorem padLt_cons_nil (a : Char) (s : Str) :
    padLt w (a :: s) [] = (decide (w a < w ' ') || (w a == w ' ' && padLt w s [])) := by
  rw [← padAbove_eq, ← padAbove_eq, padAbove]

theorem padLt_cons (a b : Char) (s t : Str) :
    padLt w (a :: s) (b :: t) = (decide (w a < w b) || (w a == w b && padLt w s t)) := by rw [padLt]

theorem padLt_nil_left (t : Str) : padLt w [] t = padLt w [' '] t := by
  cases t <;> simp [padLt_nil_nil, padLt_nil_cons, padLt_cons_nil, padLt_cons]

theorem padLt_nil_right (s : Str) : padLt w s [] = padLt w s [' '] := by
  cases s <;> simp [padLt_nil_nil, padLt_nil_cons, padLt_cons_nil, padLt_cons]

theorem padLt_self (s : Str) : padLt w s s = false := by
  induction s with
  | nil => exact padLt_nil_nil
  | cons a s ih => simp [padLt_cons, ih]

theorem padEq_self (s : Str) : padEq w s s = true := by simp [padEq, padLt_self]

theorem padLt_nil_of (hT : Apt w S) {t : Str} (h : ∀ c ∈ t, S c) : padLt w t [] = false := by
  induction t with
  | nil => exact padLt_nil_nil
  | cons a t ih =>
    have h1 := hT.above a (h a (by simp))
    have h2 := ih fun c hc => h c (by simp [hc])
    simp only [padLt_nil_nil, padLt_nil_cons, padLt_cons_nil, h2, Bool.and_false, Bool.or_false, decide_eq_false_iff_not]
    omega

/-- A text between `p c` and `p c'`. -/
theorem range_empty {p : Str} {c c' : Char} (h : w c' ≤ w c) (r : Str) :
    (padLe w (p ++ [c]) r && padLt w r (p ++ [c'])) = false := by
  have key : ∀ (d : Char) (t : Str), (padLe w [c] (d :: t) && padLt w (d :: t) [c']) = false := by
    intro d t
    simp only [padLe, padLt_cons]
    by_cases h1 : w d < w c
    · simp [h1]
    · by_cases h2 : w d = w c'
      · have h3 : w d = w c := by omega
        have h4 : w c = w c' := by omega
        simp only [h4, h2, Nat.lt_irrefl, decide_false, Bool.false_or, beq_self_eq_true, Bool.true_and]
        cases padLt w t [] <;> rfl
      · have h3 : ¬ w d < w c' := by omega
        simp [h2, h3]
  have step : ∀ (x d : Char) (p t : Str), (∀ r, (padLe w (p ++ [c]) r && padLt w r (p ++ [c'])) = false) →
      (padLe w (x :: (p ++ [c])) (d :: t) && padLt w (d :: t) (x :: (p ++ [c']))) = false := by
    intro x d p t ih
    simp only [padLe, padLt_cons]
    by_cases h1 : w d < w x
    · simp [h1]
    · by_cases h2 : w d = w x
      · have := ih t
        simp only [padLe] at this
        simpa [h2] using this
      · simp [h1, h2]
  induction p generalizing r with
  | nil =>
    cases r with
    | nil =>
      have := key ' ' []
      simp only [padLe] at this
      simp only [List.nil_append, padLe]
      rw [padLt_nil_left [c], padLt_nil_left [c']]
      exact this
    | cons d t => exact key d t
  | cons x p ih =>
    cases r with
    | nil =>
      have := step x ' ' p [] ih
      simp only [padLe] at this
      simp only [List.cons_append, padLe]
      rw [padLt_nil_left (x :: (p ++ [c])), padLt_nil_left (x :: (p ++ [c']))]
      exact this
    | cons d t => exact step x d p t ih

/-- What lies in a range: continuations of the text up to another last character, or the text without trailing
spaces. -/
theorem range_fwd (hT : Apt w S) {p r : Str} {c c' : Char} (hp : ∀ x ∈ p, S x) (hc : S c) (hr : ∀ x ∈ r, S x)
    (h : (padLe w (p ++ [c]) r && padLt w r (p ++ [c'])) = true) :
    (∃ d t, r = p ++ d :: t ∧ w c ≤ w d ∧ w d < w c') ∨ ∃ j, p ++ [c] = r ++ List.replicate (j + 1) ' ' := by
  induction p generalizing r with
  | nil =>
    cases r with
    | nil =>
      right
      refine ⟨0, ?_⟩
      simp only [List.nil_append, padLe, padLt_nil_nil, padLt_nil_cons, padLt_cons_nil, Bool.and_false, Bool.or_false, Bool.and_eq_true, Bool.not_eq_true',
        decide_eq_false_iff_not, decide_eq_true_eq, Nat.not_lt] at h
      have : c = ' ' := hT.inj c ' ' hc hT.space (Nat.le_antisymm h.1 (hT.above c hc))
      simp [this]
    | cons d t =>
      left
      refine ⟨d, t, rfl, ?_⟩
      have ht := padLt_nil_of hT (t := t) fun x hx => hr x (by simp [hx])
      simp only [List.nil_append, padLe, padLt_cons, ht, Bool.and_false, Bool.or_false, Bool.and_eq_true,
        Bool.not_eq_true', decide_eq_false_iff_not, decide_eq_true_eq, Nat.not_lt] at h
      exact h
  | cons x p ih =>
    have hpx := hp x (by simp)
    have hp' : ∀ y ∈ p, S y := fun y hy => hp y (by simp [hy])
    have step : ∀ (d : Char) (t : Str), S d → (padLe w (x :: (p ++ [c])) (d :: t) &&
        padLt w (d :: t) (x :: (p ++ [c']))) = true → d = x ∧ (padLe w (p ++ [c]) t && padLt w t (p ++ [c'])) = true := by
      intro d t hd h
      simp only [padLe, padLt_cons] at h
      by_cases h1 : w d < w x
      · simp [h1] at h
      · by_cases h2 : w d = w x
        · refine ⟨hT.inj d x hd hpx h2, ?_⟩
          simpa [padLe, h2] using h
        · simp [h1, h2] at h
    cases r with
    | nil =>
      simp only [List.cons_append, padLe] at h
      rw [padLt_nil_left (x :: (p ++ [c])), padLt_nil_left (x :: (p ++ [c']))] at h
      obtain ⟨h1, h2⟩ := step ' ' [] hT.space h
      rcases ih hp' (by simp) h2 with ⟨d, t, h3, _⟩ | ⟨j, h3⟩
      · simp at h3
      · right
        exact ⟨j + 1, by rw [List.cons_append, h3, ← h1]; rfl⟩
    | cons d t =>
      obtain ⟨h1, h2⟩ := step d t (hr d (by simp)) h
      subst h1
      rcases ih hp' (fun y hy => hr y (by simp [hy])) h2 with ⟨d', t', h3, h4⟩ | ⟨j, h3⟩
      · exact .inl ⟨d', t', by rw [h3]; rfl, h4⟩
      · exact .inr ⟨j, by rw [List.cons_append, h3]; rfl⟩

/-- The continuations of a text are in its range. -/
theorem range_bwd (hT : Apt w S) {p t : Str} {c c' : Char} (ht : ∀ x ∈ t, S x) (h : w c < w c') :
    (padLe w (p ++ [c]) (p ++ c :: t) && padLt w (p ++ c :: t) (p ++ [c'])) = true := by
  induction p with
  | nil => simp [padLe, padLt_cons, padLt_nil_of hT ht, h]
  | cons x p ih =>
    simp only [padLe, List.cons_append, padLt_cons, Nat.lt_irrefl, decide_false, Bool.false_or, beq_self_eq_true,
      Bool.true_and]
    simpa [padLe] using ih

/-- On tidy texts, equality under the collation is equality. -/
theorem padEq_tidy (hT : Apt w S) {s t : Str} (hs : TidyText S s) (ht : TidyText S t) : padEq w s t = decide (s = t) := by
  rw [Bool.eq_iff_iff, decide_eq_true_eq]
  constructor
  · intro h
    induction s generalizing t with
    | nil =>
      -- only spaces
      have : ∀ t : Str, TidyText S t → padEq w [] t = true → t = [] := by
        intro t
        induction t with
        | nil => intro _ _; rfl
        | cons b t ih =>
          intro ht h
          have hb : w ' ' = w b ∧ padEq w [] t = true := by
            simp only [padEq, padLt_nil_nil, padLt_nil_cons, padLt_cons_nil, Bool.and_eq_true, Bool.not_eq_true', Bool.or_eq_false_iff,
              decide_eq_false_iff_not] at h ⊢
            have : w ' ' = w b := by omega
            simpa [this] using h
          have hbs : b = ' ' := hT.inj b ' ' (ht.1 b (by simp)) hT.space hb.1.symm
          have htt : TidyText S t ∨ t = [] := by
            cases t with
            | nil => exact .inr rfl
            | cons y t => exact .inl ⟨fun c hc => ht.1 c (List.mem_cons_of_mem _ hc), by simpa [List.getLast?_cons_cons] using ht.2⟩
          rcases htt with htt | rfl
          · rw [ih htt hb.2] at ht
            simp [TidyText, hbs] at ht
          · simp [TidyText, hbs] at ht
      exact (this t ht h).symm
    | cons a s ih =>
      cases t with
      | nil =>
        have : ∀ t : Str, TidyText S t → padEq w t [] = true → t = [] := by
          intro t
          induction t with
          | nil => intro _ _; rfl
          | cons b t ih =>
            intro ht h
            have hb : w b = w ' ' ∧ padEq w t [] = true := by
              simp only [padEq, padLt_nil_nil, padLt_nil_cons, padLt_cons_nil, Bool.and_eq_true, Bool.not_eq_true', Bool.or_eq_false_iff,
                decide_eq_false_iff_not] at h ⊢
              have : w b = w ' ' := by omega
              simpa [this] using h
            have hbs : b = ' ' := hT.inj b ' ' (ht.1 b (by simp)) hT.space hb.1
            have htt : TidyText S t ∨ t = [] := by
              cases t with
              | nil => exact .inr rfl
              | cons y t => exact .inl ⟨fun c hc => ht.1 c (List.mem_cons_of_mem _ hc), by simpa [List.getLast?_cons_cons] using ht.2⟩
            rcases htt with htt | rfl
            · rw [ih htt hb.2] at ht
              simp [TidyText, hbs] at ht
            · simp [TidyText, hbs] at ht
        exact this _ hs h
      | cons b t =>
        have hb : w a = w b ∧ padEq w s t = true := by
          simp only [padEq, padLt_cons, Bool.and_eq_true, Bool.not_eq_true', Bool.or_eq_false_iff,
            decide_eq_false_iff_not] at h ⊢
          have : w a = w b := by omega
          simpa [this] using h
        have hab := hT.inj a b (hs.1 a (by simp)) (ht.1 b (by simp)) hb.1
        have tl : ∀ (x : Char) (t : Str), TidyText S (x :: t) → TidyText S t := by
          intro x t h
          refine ⟨fun c hc => h.1 c (by simp [hc]), ?_⟩
          cases t with
          | nil => simp
          | cons y t => simpa [List.getLast?_cons_cons] using h.2
        rw [hab, ih (tl a s hs) (tl b t ht) hb.2]
  · rintro rfl
    exact padEq_self s

end GB
