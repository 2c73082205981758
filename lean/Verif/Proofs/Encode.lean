import Verif.Model.Encode
import Verif.Spec.Encode
import Verif.Proofs.CollRun
import Verif.Proofs.View

/-! Texts that can and cannot be sent. -/

set_option linter.unusedSectionVars false

namespace GB

variable {F : Type} [PyFloat F] [DecidableEq F] {V : Val F → Prop} {p : Char → Bool} {cd : Codec}

/-! ### texts -/

theorem all_digits (ha : HasAscii p) {t : Str} (h : ∀ c ∈ t, isDigit c = true ∨ c = '-') : t.all p = true := by
  rw [List.all_eq_true]
  intro c hc
  apply ha
  rcases h c hc with h | rfl
  · unfold isDigit at h
    simp only [Bool.and_eq_true, decide_eq_true_eq] at h
    omega
  · decide

theorem ascii_lit (ha : HasAscii p) (t : Str) (h : t.all (fun c => c.toNat < 128) = true) : t.all p = true := by
  rw [List.all_eq_true] at h ⊢
  intro c hc
  exact ha c (by simpa using h c hc)

theorem all_join (ha : HasAscii p) (ts : List Str) : (pyJoin (lit " ") ts).all p = ts.all (fun t => t.all p) := by
  have hs : p ' ' = true := ha ' ' (by decide)
  induction ts with
  | nil => rfl
  | cons t ts ih =>
    cases ts with
    | nil => simp [pyJoin]
    | cons u ts =>
      have : pyJoin (lit " ") (t :: u :: ts) = t ++ lit " " ++ pyJoin (lit " ") (u :: ts) := rfl
      rw [this, List.all_append, List.all_append, ih]
      simp [lit, hs]

mutual
theorem edge2str_all (ha : HasAscii p) : ∀ v : Val F, (edge2str v).all p = v.uses p
  | .str s => rfl
  | .int i => (all_digits ha (intStr_chars i)).trans rfl
  | .flt x => rfl
  | .none => (ascii_lit ha (lit "None") (by decide)).trans rfl
  | .seq b xs => by
    have h1 : p '(' = true := ha _ (by decide)
    have h2 : p ')' = true := ha _ (by decide)
    have := nodeStrs_all ha xs
    simp only [edge2str, Val.uses, List.all_append, all_join ha, this]
    simp [lit, h1, h2]
theorem nodeStrs_all (ha : HasAscii p) : ∀ xs : List (Val F), (nodeStrs xs).all (fun t => t.all p) = usesAll p xs
  | [] => rfl
  | x :: xs => by
    simp only [nodeStrs, usesAll, List.all_cons, edge2str_all ha x, nodeStrs_all ha xs]
end

theorem usesAll_eq (p : Char → Bool) (xs : List (Val F)) : usesAll p xs = xs.all (fun x => x.uses p) := by
  induction xs with
  | nil => rfl
  | cons x xs ih => simp only [usesAll, List.all_cons, ih]

theorem nodes2str_all (ha : HasAscii p) (xs : List (Val F)) : (nodes2str xs).all p = xs.all (fun x => x.uses p) := by
  unfold nodes2str
  rw [all_join ha, nodeStrs_all ha, usesAll_eq]

theorem toNat_succ {n : Nat} (h : n < 128) : (Char.ofNat n).toNat = n := by
  have hv : n.isValidChar := .inl (by omega)
  unfold Char.ofNat
  rw [dif_pos hv]
  rfl

/-- The character after the last one of the text of a value. -/
theorem nextIn_edge2str (ha : HasAscii p) {v : Val F} (hn : v.isNone = false) : nextIn p (edge2str v) = v.endsWell p := by
  have hasc : ∀ (t : Str), (∀ c, t.getLast? = some c → c.toNat < 127) → nextIn p t = true := by
    intro t h
    unfold nextIn
    cases hl : t.getLast? with
    | none => rfl
    | some c =>
      have := h c hl
      have hv := toNat_succ (n := c.toNat + 1) (by omega)
      simp [ha _ (show (Char.ofNat (c.toNat + 1)).toNat < 128 by omega)]
  cases v with
  | str s => rfl
  | flt x => rfl
  | none => exact nomatch hn
  | int i =>
    refine hasc _ fun c hc => ?_
    rcases intStr_chars i c (List.mem_of_getLast? hc) with h | rfl
    · unfold isDigit at h
      simp only [Bool.and_eq_true, decide_eq_true_eq] at h
      omega
    · decide
  | seq b xs =>
    refine hasc _ fun c hc => ?_
    simp only [edge2str] at hc
    rw [List.getLast?_append, show (lit ")").getLast? = some ')' from rfl] at hc
    obtain rfl : ')' = c := by simpa using hc
    decide

theorem strPlus1_all {t t' : Str} (h : strPlus1 t = .ok t') (ha : t.all p = true) : t'.all p = nextIn p t := by
  unfold strPlus1 at h
  unfold nextIn
  cases hl : t.getLast? with
  | none => rw [hl] at h; exact nomatch h
  | some c =>
    rw [hl] at h
    simp only at h ⊢
    have hd : t.dropLast.all p = true := by
      rw [List.all_eq_true] at ha ⊢
      exact fun c hc => ha c (List.dropLast_subset _ hc)
    unfold chrSucc at h
    by_cases hv : (c.toNat + 1).isValidChar
    · rw [if_pos hv] at h
      have h' : t' = t.dropLast ++ [Char.ofNat (c.toNat + 1)] := by
        have : (Except.ok (t.dropLast ++ [Char.ofNat (c.toNat + 1)]) : Except PyErr Str) = .ok t' := h
        simpa using this.symm
      rw [h', List.all_append, hd]
      simp [hv]
    · rw [if_neg hv] at h
      exact nomatch h

theorem nextIn_snoc (ha : HasAscii p) (a b : Str) (hb : b ≠ []) : nextIn p (a ++ b) = nextIn p b := by
  unfold nextIn
  rw [List.getLast?_append]
  cases h : b.getLast? with
  | none => rw [List.getLast?_eq_none_iff] at h; exact absurd h hb
  | some c => rfl

theorem nextIn_of_last (ha : HasAscii p) {t : Str} {c : Char} (h : t.getLast? = some c) (hc : c.toNat < 127) :
    nextIn p t = true := by
  unfold nextIn
  rw [h]
  have hv := toNat_succ (n := c.toNat + 1) (by omega)
  simp [ha _ (show (Char.ofNat (c.toNat + 1)).toNat < 128 by omega)]

/-- The two ends of the range that a pattern is looked up in. -/
theorem patSent_eq (ha : HasAscii p) {ps : List (Val F)} {t' : Str}
    (h : strPlus1 (nodes2str (ps.filter fun x => !x.isNone)) = .ok t')
    (hne : ∀ x ∈ ps.filter fun x => !x.isNone, edge2str x ≠ []) :
    ((nodes2str (ps.filter fun x => !x.isNone)).all p && t'.all p) = patSent p ps := by
  have hall : (ps.filter fun x => !x.isNone).all (fun x => x.uses p) = ps.all (fun x => x.uses p) := by
    rw [Bool.eq_iff_iff, List.all_eq_true, List.all_eq_true]
    constructor
    · intro h x hx
      cases hn : x.isNone with
      | true =>
        cases x <;> first | rfl | (simp [Val.isNone] at hn)
      | false => exact h x (by rw [List.mem_filter]; exact ⟨hx, by simp [hn]⟩)
    · intro h x hx
      exact h x (List.mem_filter.1 hx).1
  unfold patSent
  cases hb : ps.all (fun x => x.uses p) with
  | false => rw [nodes2str_all ha, hall, hb]; rfl
  | true =>
    have h1 : (nodes2str (ps.filter fun x => !x.isNone)).all p = true := by rw [nodes2str_all ha, hall, hb]
    rw [h1, Bool.true_and, strPlus1_all h h1, Bool.true_and]
    cases hl : (ps.filter fun x => !x.isNone).getLast? with
    | none =>
      rw [List.getLast?_eq_none_iff] at hl
      rw [hl]
      rfl
    | some q =>
      obtain ⟨ini, hini⟩ : ∃ ini, ps.filter (fun x => !x.isNone) = ini ++ [q] := by
        have := List.getLast?_eq_some_iff.1 hl
        exact this
      have hq : q ∈ ps.filter fun x => !x.isNone := List.mem_of_getLast? hl
      have hqn : q.isNone = false := by simpa using (List.mem_filter.1 hq).2
      simp only
      rw [hini]
      have hone : nodes2str [q] = edge2str q := by simp [nodes2str, nodeStrs, pyJoin]
      by_cases hi : ini = []
      · subst hi
        rw [List.nil_append, hone]
        exact nextIn_edge2str ha hqn
      · rw [nodes2str_append hi (by simp), hone, nextIn_snoc ha _ _ (hne q hq)]
        exact nextIn_edge2str ha hqn

end GB
