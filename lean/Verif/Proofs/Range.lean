import Verif.Proofs.Str
import Verif.Model.Perm

/-! Key ranges `s <= x < str_plus_1(s)` are prefix tests. -/

namespace GB

theorem chrSucc_toNat {c c' : Char} (h : chrSucc c = .ok c') : c'.toNat = c.toNat + 1 := by
  unfold chrSucc at h
  split at h
  · rename_i hv
    simp at h
    subst h
    simp only [Char.ofNat, dif_pos hv]
    rfl
  · simp at h

theorem strLt_irrefl (s : Str) : strLt s s = false := by
  induction s with
  | nil => rfl
  | cons c s ih => simp [strLt, ih]

theorem range_prefix_aux (s : Str) (c c' : Char) (hc : c'.toNat = c.toNat + 1) (x : Str) :
    (strLe (s ++ [c]) x && strLt x (s ++ [c'])) = true ↔ (s ++ [c]) <+: x := by
  induction s generalizing x with
  | nil =>
    cases x with
    | nil => simp [strLe, strLt]
    | cons d xs =>
      have : strLt xs [] = false := by cases xs <;> rfl
      simp only [strLe, strLt, this, List.nil_append, List.cons_prefix_cons, hc]
      simp
      constructor
      · intro ⟨h1, h2⟩
        exact toNat_inj (by omega)
      · rintro rfl
        omega
  | cons a s ih =>
    cases x with
    | nil => simp [strLe, strLt]
    | cons d xs =>
      have := ih xs
      simp only [List.cons_append, List.cons_prefix_cons, ← this]
      simp only [strLe, strLt]
      by_cases had : a = d
      · subst had; simp
      · have hne : a.toNat ≠ d.toNat := fun h => had (toNat_inj h)
        simp [had]
        omega

theorem strPlus1_ok {s t : Str} (h : strPlus1 s = .ok t) :
    ∃ s0 c c', s = s0 ++ [c] ∧ t = s0 ++ [c'] ∧ c'.toNat = c.toNat + 1 := by
  unfold strPlus1 at h
  split at h
  · simp at h
  · rename_i c hc
    cases hs : chrSucc c with
    | error e => rw [hs] at h; simp [bind, Except.bind] at h
    | ok c' =>
      rw [hs] at h
      simp [bind, Except.bind] at h
      refine ⟨s.dropLast, c, c', ?_, h.symm, chrSucc_toNat hs⟩
      obtain ⟨ys, rfl⟩ := List.getLast?_eq_some_iff.1 hc
      simp

theorem range_prefix {s t : Str} (h : strPlus1 s = .ok t) (x : Str) :
    (strLe s x && strLt x t) = true ↔ s <+: x := by
  obtain ⟨s0, c, c', rfl, rfl, hc⟩ := strPlus1_ok h
  exact range_prefix_aux s0 c c' hc x

theorem selectRange_eq {s t : Str} (h : strPlus1 s = .ok t) (rows : List Str) :
    rows.filter (fun r => strLe s r && strLt r t) = rows.filter (fun r => s.isPrefixOf r) := by
  apply List.filter_congr
  intro x _
  rw [Bool.eq_iff_iff, range_prefix h x, List.isPrefixOf_iff_prefix]

/-- a string ending in a blank always has a successor -/
theorem strPlus1_snoc (s : Str) (c : Char) :
    strPlus1 (s ++ [c]) = (chrSucc c).map fun c' => s ++ [c'] := by
  unfold strPlus1
  simp
  cases chrSucc c <;> rfl

theorem strPlus1_space (s : Str) : strPlus1 (s ++ lit " ") = .ok (s ++ lit "!") := by
  show strPlus1 (s ++ [' ']) = _
  rw [strPlus1_snoc]
  rfl

theorem strPlus1_slash (s : Str) : strPlus1 (s ++ lit "/") = .ok (s ++ lit "0") := by
  show strPlus1 (s ++ ['/']) = _
  rw [strPlus1_snoc]
  rfl

/-- The last character has a successor in Python's and SQLite's character set. -/
def HasSucc (s : Str) : Prop := ∃ c, s.getLast? = some c ∧ (c.toNat + 1).isValidChar

theorem strPlus1_isOk_iff (s : Str) : (∃ t, strPlus1 s = .ok t) ↔ HasSucc s := by
  unfold strPlus1 HasSucc
  cases s.getLast? with
  | none => simp
  | some c =>
    simp only [chrSucc, Option.some.injEq, exists_eq_left']
    by_cases h : (c.toNat + 1).isValidChar
    · simp [h, bind, Except.bind]
    · simp [h, bind, Except.bind]

end GB
