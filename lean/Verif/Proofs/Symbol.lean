import Verif.Model.Edge
import Verif.Proofs.Str

/-! Lemmas on symbols. -/

namespace GB

variable {F : Type} [PyFloat F]

theorem splitOnCharAux_ne (d : Char) (s cur : Str) : splitOnCharAux d cur s ≠ [] := by
  induction s generalizing cur with
  | nil => simp [splitOnCharAux]
  | cons c s ih =>
    unfold splitOnCharAux
    split
    · simp
    · exact ih _

theorem splitOnChar_ne (d : Char) (s : Str) : splitOnChar d s ≠ [] := splitOnCharAux_ne d s []

theorem join_splitOnCharAux (d : Char) (s cur : Str) : pyJoin [d] (splitOnCharAux d cur s) = cur ++ s := by
  induction s generalizing cur with
  | nil => simp [splitOnCharAux, pyJoin]
  | cons c s ih =>
    unfold splitOnCharAux
    split
    · rename_i h
      rw [pyJoin_cons (splitOnCharAux_ne d s []), ih, h]
      simp
    · rw [ih]; simp

theorem join_splitOnChar (d : Char) (s : Str) : pyJoin [d] (splitOnChar d s) = s := by
  rw [splitOnChar, join_splitOnCharAux]; rfl

theorem splitOnCharAux_free {d : Char} {p : Str} (h : d ∉ p) (cur rest : Str) :
    splitOnCharAux d cur (p ++ rest) = splitOnCharAux d (cur ++ p) rest := by
  induction p generalizing cur with
  | nil => simp
  | cons c p ih =>
    have hc : c ≠ d := fun hc => h (by simp [hc])
    rw [List.cons_append, splitOnCharAux, if_neg hc, ih (fun hm => h (by simp [hm]))]
    simp

theorem splitOnChar_join {d : Char} {ps : List Str} (hne : ps ≠ []) (h : ∀ p ∈ ps, d ∉ p) :
    splitOnChar d (pyJoin [d] ps) = ps := by
  unfold splitOnChar
  induction ps with
  | nil => contradiction
  | cons p ps ih =>
    cases ps with
    | nil =>
      have := splitOnCharAux_free (h p (by simp)) [] []
      simp only [List.append_nil, List.nil_append] at this
      show splitOnCharAux d [] p = [p]
      rw [this]; rfl
    | cons q qs =>
      rw [pyJoin_cons (by simp), List.append_assoc, splitOnCharAux_free (h p (by simp))]
      show splitOnCharAux d ([] ++ p) (d :: pyJoin [d] (q :: qs)) = _
      rw [splitOnCharAux, if_pos rfl, ih (by simp) (fun x hx => h x (by simp [hx]))]
      rfl

theorem splitOnChar_mem_free {d : Char} (s cur : Str) (hc : d ∉ cur) : ∀ p ∈ splitOnCharAux d cur s, d ∉ p := by
  induction s generalizing cur with
  | nil => simpa [splitOnCharAux] using hc
  | cons c s ih =>
    unfold splitOnCharAux
    split
    · intro p hp
      rcases List.mem_cons.1 hp with rfl | hp
      · exact hc
      · exact ih [] (by simp) p hp
    · rename_i h
      exact ih (cur ++ [c]) (by simp [hc, Ne.symm h])

theorem splitOnChar_single {d : Char} {s : Str} : (∃ p, splitOnChar d s = [p]) ↔ d ∉ s := by
  constructor
  · rintro ⟨p, hp⟩
    have h1 := join_splitOnChar d s
    rw [hp] at h1
    have h2 := splitOnChar_mem_free (d := d) s [] (by simp) p (by rw [← splitOnChar, hp]; simp)
    have : p = s := h1
    rwa [this] at h2
  · intro h
    have := splitOnChar_join (d := d) (ps := [s]) (by simp) (by simpa using h)
    exact ⟨s, this⟩

theorem splitOnChar_of_free {d : Char} {s : Str} (h : d ∉ s) : splitOnChar d s = [s] :=
  splitOnChar_join (d := d) (ps := [s]) (by simp) (by simpa using h)

theorem mem_replaceChar {a b : Char} {s : Str} {x : Char} (h : x ∈ replaceChar a b s) :
    (x ∈ s ∧ x ≠ a) ∨ x = b := by
  unfold replaceChar at h
  obtain ⟨c, hc, rfl⟩ := List.mem_map.1 h
  by_cases hca : c = a
  · right; simp [hca]
  · left; simp [hca, hc]

theorem replaceChar_free {a b : Char} {s : Str} (h : a ∉ s) : replaceChar a b s = s := by
  unfold replaceChar
  conv => rhs; rw [← List.map_id s]
  apply List.map_congr_left
  intro c hc
  have : c ≠ a := fun hca => h (hca ▸ hc)
  simp [this]

/-! hexadecimal -/

/-- Value of a hexadecimal digit. -/
def hexVal1 (c : Char) : Nat := if c.toNat < 58 then c.toNat - 48 else c.toNat - 87

/-- Value of a hexadecimal string. -/
def hexVal (s : Str) : Nat := s.foldl (fun acc c => acc * 16 + hexVal1 c) 0

theorem hexDigit_toNat (n : Nat) : (hexDigit n).toNat = if n % 16 < 10 then 48 + n % 16 else 87 + n % 16 := by
  unfold hexDigit
  split
  · exact toNat_ofNat_lt (by omega)
  · exact toNat_ofNat_lt (by omega)

theorem hexVal1_hexDigit (n : Nat) : hexVal1 (hexDigit n) = n % 16 := by
  unfold hexVal1
  rw [hexDigit_toNat]
  split <;> split <;> omega

theorem hexVal_append (s : Str) (c : Char) : hexVal (s ++ [c]) = hexVal s * 16 + hexVal1 c := by
  simp [hexVal]

theorem hexStrAux_spec (k n : Nat) (h : n < 16 ^ (k + 1)) :
    hexVal (hexStrAux k n) = n ∧ 1 ≤ (hexStrAux k n).length ∧ (hexStrAux k n).length ≤ k + 1 ∧
    (0 < n → (hexStrAux k n).head? ≠ some '0') ∧ ∀ c ∈ hexStrAux k n, ∃ m, c = hexDigit m := by
  induction k generalizing n with
  | zero =>
    have h16 : n < 16 := by simpa using h
    have e : hexStrAux 0 n = [hexDigit n] := rfl
    rw [e]
    refine ⟨?_, by simp, by simp, ?_, ?_⟩
    · have := hexVal_append [] (hexDigit n)
      simp only [List.nil_append] at this
      rw [this, hexVal1_hexDigit]; simp [hexVal]; omega
    · intro hp hh
      have : hexDigit n = '0' := by simpa using hh
      have h2 := hexDigit_toNat n
      rw [this] at h2
      have : ('0' : Char).toNat = 48 := rfl
      split at h2 <;> omega
    · intro c hc
      exact ⟨n, by simpa using hc⟩
  | succ k ih =>
    by_cases hn : n < 16
    · have e : hexStrAux (k + 1) n = [hexDigit n] := by rw [hexStrAux, if_pos hn]
      rw [e]
      refine ⟨?_, by simp, by simp, ?_, ?_⟩
      · have := hexVal_append [] (hexDigit n)
        simp only [List.nil_append] at this
        rw [this, hexVal1_hexDigit]; simp [hexVal]; omega
      · intro hp hh
        have : hexDigit n = '0' := by simpa using hh
        have h2 := hexDigit_toNat n
        rw [this] at h2
        have : ('0' : Char).toNat = 48 := rfl
        split at h2 <;> omega
      · intro c hc
        exact ⟨n, by simpa using hc⟩
    · have e : hexStrAux (k + 1) n = hexStrAux k (n / 16) ++ [hexDigit n] := by rw [hexStrAux, if_neg hn]
      have hlt : n / 16 < 16 ^ (k + 1) := by
        rw [Nat.div_lt_iff_lt_mul (by omega)]
        rw [Nat.pow_succ] at h
        exact h
      obtain ⟨h1, h2, h3, h4, h5⟩ := ih (n / 16) hlt
      rw [e]
      refine ⟨?_, by simp, by simp; omega, ?_, ?_⟩
      · rw [hexVal_append, h1, hexVal1_hexDigit]; omega
      · intro _
        have := h4 (by omega)
        cases hx : hexStrAux k (n / 16) with
        | nil => rw [hx] at h2; simp at h2
        | cons c t => rw [hx] at this; simpa using this
      · intro c hc
        rcases List.mem_append.1 hc with hc | hc
        · exact h5 c hc
        · exact ⟨n, by simpa using hc⟩

theorem hexDigit_class (n : Nat) : ('0' ≤ hexDigit n ∧ hexDigit n ≤ '9') ∨ ('a' ≤ hexDigit n ∧ hexDigit n ≤ 'f') := by
  have h := hexDigit_toNat n
  have e : ∀ c d : Char, c ≤ d ↔ c.toNat ≤ d.toNat := fun c d => by
    rw [Char.le_def, UInt32.le_iff_toNat_le]; rfl
  simp only [e]
  have h0 : ('0' : Char).toNat = 48 := rfl
  have h9 : ('9' : Char).toNat = 57 := rfl
  have ha : ('a' : Char).toNat = 97 := rfl
  have hf : ('f' : Char).toNat = 102 := rfl
  split at h <;> omega

end GB
