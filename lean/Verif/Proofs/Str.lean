import Verif.Spec.Wf

namespace GB

/-! ### Characters -/

theorem isDigit_iff (c : Char) : isDigit c = true ↔ ('0' ≤ c ∧ c ≤ '9') := by
  have h1 : ('0' ≤ c) ↔ 48 ≤ c.toNat := by
    rw [Char.le_def, UInt32.le_iff_toNat_le]; rfl
  have h2 : (c ≤ '9') ↔ c.toNat ≤ 57 := by
    rw [Char.le_def, UInt32.le_iff_toNat_le]; rfl
  simp [isDigit, h1, h2]

theorem isDigits_iff (s : Str) : IsDigits s ↔ s.all isDigit = true := by
  simp [IsDigits, List.all_eq_true, isDigit_iff]

theorem isDigit_not_space {c : Char} (h : isDigit c = true) : isSpace c = false := by
  simp only [isDigit, Bool.and_eq_true, decide_eq_true_eq] at h
  simp only [isSpace, Bool.or_eq_false_iff, Bool.and_eq_false_iff, decide_eq_false_iff_not,
    beq_eq_false_iff_ne]
  omega

theorem toNat_ofNat_lt {n : Nat} (h : n < 0xd800) : (Char.ofNat n).toNat = n := by
  have hv : n.isValidChar := Or.inl h
  simp only [Char.ofNat, dif_pos hv]
  rfl

theorem toNat_inj {a b : Char} (h : a.toNat = b.toNat) : a = b := by
  apply Char.ext
  exact UInt32.toNat_inj.mp h

/-! ### join / split on blanks -/

theorem pyJoin_cons {sep x : Str} {xs : List Str} (h : xs ≠ []) :
    pyJoin sep (x :: xs) = x ++ sep ++ pyJoin sep xs := by
  cases xs with
  | nil => contradiction
  | cons y ys => rfl

theorem pyJoin_append {sep : Str} {xs ys : List Str} (hx : xs ≠ []) (hy : ys ≠ []) :
    pyJoin sep (xs ++ ys) = pyJoin sep xs ++ sep ++ pyJoin sep ys := by
  induction xs with
  | nil => contradiction
  | cons x xs ih =>
    cases xs with
    | nil => simp [pyJoin_cons hy, pyJoin]
    | cons x' xs' =>
      have := ih (by simp)
      simp only [List.cons_append] at this ⊢
      rw [pyJoin_cons (by simp), this, pyJoin_cons (x := x) (xs := x' :: xs') (by simp)]
      simp

theorem pyJoin_cons_head {sep p x : Str} {xs : List Str} :
    pyJoin sep ((p ++ x) :: xs) = p ++ pyJoin sep (x :: xs) := by
  cases xs <;> simp [pyJoin]

theorem pyJoin_concat_last {sep p x : Str} {xs : List Str} :
    pyJoin sep (xs ++ [x ++ p]) = pyJoin sep (xs ++ [x]) ++ p := by
  induction xs with
  | nil => simp [pyJoin]
  | cons y ys ih =>
    simp only [List.cons_append]
    rw [pyJoin_cons (by simp), pyJoin_cons (by simp), ih]
    simp

theorem pySplitAux_word {w : Str} (hw : ∀ c ∈ w, isSpace c = false) (cur rest : Str) :
    pySplitAux cur (w ++ rest) = pySplitAux (cur ++ w) rest := by
  induction w generalizing cur with
  | nil => simp
  | cons c w ih =>
    have hc : isSpace c = false := hw c (by simp)
    simp only [List.cons_append, pySplitAux, hc]
    rw [if_neg (by simp), ih (fun d hd => hw d (by simp [hd]))]
    simp

theorem pySplit_join {ps : List Str} (h : ∀ p ∈ ps, p ≠ [] ∧ ∀ c ∈ p, isSpace c = false) :
    pySplit (pyJoin (lit " ") ps) = ps := by
  unfold pySplit
  induction ps with
  | nil => simp [pyJoin, pySplitAux]
  | cons p ps ih =>
    have hp := h p (by simp)
    have hps := ih (fun q hq => h q (by simp [hq]))
    cases ps with
    | nil =>
      have := pySplitAux_word hp.2 [] []
      simp only [List.append_nil, List.nil_append] at this
      simp [pyJoin, this, pySplitAux, hp.1]
    | cons q qs =>
      rw [pyJoin_cons (by simp), List.append_assoc, pySplitAux_word hp.2]
      have hsp : isSpace ' ' = true := by decide
      have hne : p.isEmpty = false := by simp [hp.1]
      show pySplitAux ([] ++ p) (' ' :: pyJoin (lit " ") (q :: qs)) = _
      rw [List.nil_append, pySplitAux, if_pos hsp, hne, if_neg (by simp), hps]

/-! ### decimal numerals -/

theorem digitChar_toNat (n : Nat) : (digitChar n).toNat = 48 + n % 10 := by
  unfold digitChar
  exact toNat_ofNat_lt (by omega)

theorem isDigit_digitChar (n : Nat) : isDigit (digitChar n) = true := by
  simp only [isDigit, digitChar_toNat, Bool.and_eq_true, decide_eq_true_eq]
  omega

theorem natStrAux_eq (k n : Nat) (h : n < 10 ^ (k + 1)) :
    (natStrAux k n).all isDigit = true ∧ natStrAux k n ≠ [] ∧ digitsVal (natStrAux k n) = n := by
  induction k generalizing n with
  | zero =>
    have : n < 10 := by simpa using h
    simp [natStrAux, isDigit_digitChar, digitsVal, digitChar_toNat]; omega
  | succ k ih =>
    unfold natStrAux
    split
    · rename_i h10
      simp [isDigit_digitChar, digitsVal, digitChar_toNat]; omega
    · rename_i h10
      have := ih (n / 10) (by rw [Nat.pow_succ] at h; omega)
      refine ⟨by simp only [List.all_append, this.1, List.all_cons, isDigit_digitChar]; rfl, by simp, ?_⟩
      have h3 := this.2.2
      unfold digitsVal at h3 ⊢
      rw [List.foldl_append, h3]
      simp [digitChar_toNat]; omega

theorem lt_ten_pow (n : Nat) : n < 10 ^ (n + 1) := by
  have h : n + 1 < 10 ^ (n + 1) := Nat.lt_pow_self (by omega)
  omega

theorem natStr_digits (n : Nat) : (natStr n).all isDigit = true :=
  (natStrAux_eq n n (lt_ten_pow n)).1

theorem natStr_ne (n : Nat) : natStr n ≠ [] := (natStrAux_eq n n (lt_ten_pow n)).2.1

theorem natStr_val (n : Nat) : digitsVal (natStr n) = n := (natStrAux_eq n n (lt_ten_pow n)).2.2

theorem natStr_inj {a b : Nat} (h : natStr a = natStr b) : a = b := by
  rw [← natStr_val a, ← natStr_val b, h]

theorem parseNat_natStr (n : Nat) : parseNat (natStr n) = .ok n := by
  unfold parseNat
  simp [natStr_digits, natStr_val, natStr_ne]

theorem natStr_head (n : Nat) : ∃ c s, natStr n = c :: s ∧ isDigit c = true := by
  cases h : natStr n with
  | nil => exact absurd h (natStr_ne n)
  | cons c s =>
    refine ⟨c, s, rfl, ?_⟩
    have := natStr_digits n
    rw [h] at this
    simp at this
    exact this.1

theorem pyInt_natStr (n : Nat) : pyInt (natStr n) = .ok (n : Int) := by
  obtain ⟨c, s, hs, hc⟩ := natStr_head n
  have h1 : c ≠ '-' := by rintro rfl; simp [isDigit] at hc
  have h2 : c ≠ '+' := by rintro rfl; simp [isDigit] at hc
  have hp := parseNat_natStr n
  rw [hs] at hp ⊢
  unfold pyInt
  split
  · rename_i heq; simp at heq; exact absurd heq.1 h1
  · rename_i heq; simp at heq; exact absurd heq.1 h2
  · rw [hp]; rfl

theorem pyInt_intStr (i : Int) : pyInt (intStr i) = .ok i := by
  cases i with
  | ofNat n => exact pyInt_natStr n
  | negSucc n =>
    show pyInt ('-' :: natStr (n + 1)) = _
    simp only [pyInt, parseNat_natStr]
    rfl

theorem intStr_inj {a b : Int} (h : intStr a = intStr b) : a = b := by
  have := pyInt_intStr a
  rw [h, pyInt_intStr] at this
  simpa using this.symm

/-! ### token classification -/

theorem tokenTypeAux_digits {ds : Str} (h : ds.all isDigit = true) (b p : Bool) (rest : Str) :
    tokenTypeAux b p (ds ++ rest) = tokenTypeAux (b || !ds.isEmpty) p rest := by
  induction ds generalizing b with
  | nil => simp
  | cons c ds ih =>
    simp only [List.all_cons, Bool.and_eq_true] at h
    have hc := h.1
    have h1 : c ≠ '-' := by rintro rfl; simp [isDigit] at hc
    have h2 : c ≠ '.' := by rintro rfl; simp [isDigit] at hc
    simp only [isDigit, Bool.and_eq_true, decide_eq_true_eq] at hc
    have h3 : (decide (c.toNat < '0'.toNat) || decide (c.toNat > '9'.toNat)) = false := by
      simp; omega
    simp only [List.cons_append, tokenTypeAux, h1, h2, if_false, h3]
    rw [if_neg (by simp), ih h.2]
    simp

theorem tokenTypeAux_ne_string {b p : Bool} {s : Str} (h : tokenTypeAux b p s ≠ .string) :
    ∃ sgn ds, (sgn = [] ∨ (sgn = ['-'] ∧ b = false)) ∧ ds.all isDigit = true ∧
      ((s = sgn ++ ds ∧ tokenTypeAux b p s = if p then .double else .integer) ∨
       (∃ fs, p = false ∧ fs.all isDigit = true ∧ s = sgn ++ ds ++ ['.'] ++ fs ∧
          tokenTypeAux b p s = .double)) := by
  induction s generalizing b p with
  | nil => exact ⟨[], [], by simp, by simp, .inl ⟨by simp, by simp [tokenTypeAux]⟩⟩
  | cons c s ih =>
    unfold tokenTypeAux at h
    split at h
    · rename_i hc
      split at h
      · exact absurd rfl h
      · rename_i hb
        obtain ⟨sgn, ds, hs, hd, hr⟩ := ih h
        have hs' : sgn = [] := by simpa using hs
        subst hs'
        have hb' : b = false := by simpa using hb
        subst hc hb'
        refine ⟨['-'], ds, .inr ⟨rfl, rfl⟩, hd, ?_⟩
        rcases hr with ⟨h1, h2⟩ | ⟨fs, h1, h2, h3, h4⟩
        · exact .inl ⟨by simp [h1], by rw [← h2]; simp [tokenTypeAux]⟩
        · exact .inr ⟨fs, h1, h2, by simp [h3], by rw [← h4]; simp [tokenTypeAux]⟩
    · rename_i hc
      split at h
      · rename_i hdot
        split at h
        · exact absurd rfl h
        · rename_i hp
          obtain ⟨sgn, ds, hs, hd, hr⟩ := ih h
          have hs' : sgn = [] := by simpa using hs
          have hp' : p = false := by simpa using hp
          subst hs' hp' hdot
          rcases hr with ⟨h1, h2⟩ | ⟨fs, h1, h2, h3, h4⟩
          · refine ⟨[], [], .inl rfl, by simp, .inr ⟨ds, rfl, hd, by simp [h1], ?_⟩⟩
            simp only [if_true] at h2
            rw [← h2]; simp [tokenTypeAux]
          · exact absurd h1 (by simp)
      · rename_i hdot
        split at h
        · exact absurd rfl h
        · rename_i hdig
          have hcd : isDigit c = true := by
            simp at hdig
            simp [isDigit]; omega
          obtain ⟨sgn, ds, hs, hd, hr⟩ := ih h
          have hs' : sgn = [] := by simpa using hs
          subst hs'
          have heq : ∀ q : Bool, tokenTypeAux b q (c :: s) = tokenTypeAux true q s := by
            intro q
            rw [tokenTypeAux, if_neg hc, if_neg hdot, if_neg hdig]
          refine ⟨[], c :: ds, .inl rfl, by simp only [List.all_cons, hcd, hd]; rfl, ?_⟩
          rcases hr with ⟨h1, h2⟩ | ⟨fs, h1, h2, h3, h4⟩
          · exact .inl ⟨by simp [h1], by rw [← h2, heq]⟩
          · exact .inr ⟨fs, h1, h2, by simp [h3], by rw [← h4, heq]⟩

theorem tokenType_of_looksInt {s : Str} (h : LooksInt s) : tokenType s = .integer := by
  obtain ⟨sgn, ds, hs, hd, rfl⟩ := h
  rw [isDigits_iff] at hd
  have key : ∀ b, tokenTypeAux b false ds = .integer := by
    intro b
    have := tokenTypeAux_digits hd b false []
    simpa [tokenTypeAux] using this
  rcases hs with rfl | rfl
  · exact key _
  · show tokenTypeAux false false ('-' :: ds) = _
    simp [tokenTypeAux, key]

theorem tokenType_of_looksDec {s : Str} (h : LooksDec s) : tokenType s = .double := by
  obtain ⟨sgn, ds, fs, hs, hd, hf, rfl⟩ := h
  rw [isDigits_iff] at hd hf
  have key : ∀ b, tokenTypeAux b false (ds ++ (['.'] ++ fs)) = .double := by
    intro b
    rw [tokenTypeAux_digits hd b false]
    show tokenTypeAux _ false ('.' :: fs) = _
    have := tokenTypeAux_digits hf true true []
    simp [tokenTypeAux] at this
    simp [tokenTypeAux, this]
  rcases hs with rfl | rfl
  · simpa [tokenType] using key false
  · show tokenTypeAux false false ('-' :: ds ++ ['.'] ++ fs) = _
    have := key true
    simp at this
    simp [tokenTypeAux, this]

theorem tokenType_cases (s : Str) :
    (tokenType s = .integer ∧ LooksInt s) ∨ (tokenType s = .double ∧ LooksDec s) ∨
    (tokenType s = .string ∧ ¬ LooksInt s ∧ ¬ LooksDec s) := by
  by_cases h : tokenType s = .string
  · refine .inr (.inr ⟨h, ?_, ?_⟩)
    · intro h'; rw [tokenType_of_looksInt h'] at h; cases h
    · intro h'; rw [tokenType_of_looksDec h'] at h; cases h
  · obtain ⟨sgn, ds, hs, hd, hr⟩ := tokenTypeAux_ne_string h
    have hs' : sgn = [] ∨ sgn = ['-'] := by
      rcases hs with h | ⟨h, _⟩ <;> simp [h]
    rcases hr with ⟨h1, h2⟩ | ⟨fs, h1, h2, h3, h4⟩
    · left
      exact ⟨by simpa [tokenType] using h2, sgn, ds, hs', (isDigits_iff _).2 hd, h1⟩
    · right; left
      exact ⟨h4, sgn, ds, fs, hs', (isDigits_iff _).2 hd, (isDigits_iff _).2 h2, h3⟩

theorem tokenType_integer_iff (s : Str) : tokenType s = .integer ↔ LooksInt s := by
  refine ⟨fun h => ?_, tokenType_of_looksInt⟩
  rcases tokenType_cases s with ⟨_, h'⟩ | ⟨h', _⟩ | ⟨h', _⟩
  · exact h'
  · rw [h] at h'; cases h'
  · rw [h] at h'; cases h'

theorem tokenType_double_iff (s : Str) : tokenType s = .double ↔ LooksDec s := by
  refine ⟨fun h => ?_, tokenType_of_looksDec⟩
  rcases tokenType_cases s with ⟨h', _⟩ | ⟨_, h'⟩ | ⟨h', _⟩
  · rw [h] at h'; cases h'
  · exact h'
  · rw [h] at h'; cases h'

theorem tokenType_string_iff (s : Str) : tokenType s = .string ↔ ¬ LooksInt s ∧ ¬ LooksDec s := by
  rcases tokenType_cases s with ⟨h, h'⟩ | ⟨h, h'⟩ | ⟨h, h', h''⟩
  · simp [h, h']
  · simp [h, h']
  · simp [h, h', h'']

theorem looksInt_intStr (i : Int) : LooksInt (intStr i) := by
  cases i with
  | ofNat n => exact ⟨[], natStr n, .inl rfl, (isDigits_iff _).2 (natStr_digits n), rfl⟩
  | negSucc n => exact ⟨['-'], natStr (n + 1), .inr rfl, (isDigits_iff _).2 (natStr_digits _), rfl⟩

end GB
