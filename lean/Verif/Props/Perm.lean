import Verif.Proofs.Perm
import Verif.Proofs.Range

/-!
Properties C10-C12: permutations and key ranges (gb/hypergraph/sql.py:28-83).
-/

namespace GB

/-! ### C10 -/

/-- C10: for `n < k!` a permutation is returned, and it is a reordering of the list. -/
theorem C10_total {α : Type} (l : List α) (n : Nat) (h : n < factorial l.length) :
    ∃ p, nthperm l n = .ok p ∧ p.Perm l := by
  obtain ⟨p, hp, _⟩ := nthperm_ok h
  exact ⟨p, hp, nthperm_perm hp⟩

/-- C10: every reordering is returned for some `n < k!`. -/
theorem C10_complete {α : Type} (l p : List α) (h : p.Perm l) :
    ∃ n, n < factorial l.length ∧ nthperm l n = .ok p := by
  obtain ⟨n, hn, he⟩ := List.getElem_of_mem (mem_permutations.2 h)
  refine ⟨n, by rw [← permutations_length]; exact hn, ?_⟩
  rw [nthperm_eq, List.getElem?_eq_getElem hn, he]

/-- C10: the reorderings of positions come in strictly increasing lexicographic order; hence none
comes twice. -/
theorem C10_lexicographic (k n m : Nat) (hnm : n < m) (hm : m < factorial k) (p q : List Nat)
    (hp : nthperm (List.range k) n = .ok p) (hq : nthperm (List.range k) m = .ok q) : p < q := by
  have hlen : (permutations (List.range k)).length = factorial k := by
    rw [permutations_length, List.length_range]
  have h1 : n < (permutations (List.range k)).length := by omega
  have h2 : m < (permutations (List.range k)).length := by omega
  rw [nthperm_eq, List.getElem?_eq_getElem h1] at hp
  rw [nthperm_eq, List.getElem?_eq_getElem h2] at hq
  have hp' := Except.ok.inj hp
  have hq' := Except.ok.inj hq
  subst hp' hq'
  exact List.pairwise_iff_getElem.1 (permutations_range_sorted k) n m h1 h2 hnm

/-- C10: for a list without repetitions, different numbers give different reorderings. -/
theorem C10_injective {α : Type} (l : List α) (hl : l.Nodup) (n m : Nat) (hn : n < factorial l.length)
    (hm : m < factorial l.length) (h : nthperm l n = nthperm l m) : n = m := by
  have key : ∀ a b : Nat, a < b → b < factorial l.length → nthperm l a ≠ nthperm l b := by
    intro a b hab hb heq
    have ha : a < factorial l.length := by omega
    obtain ⟨p, hp, _⟩ := nthperm_ok (li := List.range l.length) (n := a) (by simpa using ha)
    obtain ⟨q, hq, _⟩ := nthperm_ok (li := List.range l.length) (n := b) (by simpa using hb)
    have hlt := C10_lexicographic l.length a b hab hb p q hp hq
    have e1 := nthperm_map (fun i => l[i]?) (List.range l.length) a
    have e2 := nthperm_map (fun i => l[i]?) (List.range l.length) b
    have hr : (List.range l.length).map (fun i => l[i]?) = l.map some := by
      apply List.ext_getElem
      · simp
      · intro i h1 h2
        simp at h1 ⊢
    rw [hr, hp] at e1
    rw [hr, hq] at e2
    have e3 := nthperm_map some l a
    have e4 := nthperm_map some l b
    rw [heq] at e3
    have : p.map (fun i => l[i]?) = q.map (fun i => l[i]?) := by
      have : (Except.ok (p.map fun i => l[i]?) : Except PyErr _) = .ok (q.map fun i => l[i]?) := by
        have h5 := e1.symm.trans (e3.trans e4.symm) |>.trans e2
        exact h5
      exact Except.ok.inj this
    have hpr := (nthperm_perm hp)
    have hqr := (nthperm_perm hq)
    have hpq : p = q := by
      apply List.ext_getElem
      · rw [hpr.length_eq, hqr.length_eq]
      · intro i h1 h2
        have hi := congrArg (fun x => x[i]?) this
        simp only [List.getElem?_map, List.getElem?_eq_getElem h1, List.getElem?_eq_getElem h2,
          Option.map_some, Option.some.injEq] at hi
        have b1 : p[i] < l.length := by
          have := hpr.mem_iff.1 (List.getElem_mem h1)
          simpa using this
        have b2 : q[i] < l.length := by
          have := hqr.mem_iff.1 (List.getElem_mem h2)
          simpa using this
        rw [List.getElem?_eq_getElem b1, List.getElem?_eq_getElem b2, Option.some.injEq] at hi
        exact List.getElem_inj hl |>.1 hi
    subst hpq
    exact List.lt_irrefl _ hlt
  rcases Nat.lt_trichotomy n m with h1 | h1 | h1
  · exact absurd h (key n m h1 hm)
  · exact h1
  · exact absurd h.symm (key m n h1 hn)

/-- C10: number 0 is the identity. -/
theorem C10_identity {α : Type} (l : List α) : nthperm l 0 = .ok l := by
  have := nthperm_eq l 0
  rw [permutations_zero] at this
  exact this

/-- C10: past the last permutation `nthperm` raises (on a non-empty list). -/
theorem C10_out_of_range {α : Type} (l : List α) (hne : l ≠ []) (n : Nat) (h : factorial l.length ≤ n) :
    nthperm l n = .error .typeError := by
  rw [nthperm_eq, List.getElem?_eq_none (by rw [permutations_length]; exact h)]
  have : l.length ≠ 0 := by simpa using hne
  simp [this]

example : nthperm ["a", "b", "c"] 3 = .ok ["b", "c", "a"] ∧ factorial ["a", "b", "c"].length = 6 ∧
    nthperm ["a", "b", "c"] 6 = .error .typeError := by decide

/-! ### C11 -/

/-- C11: un-permuting a permuted list with the same number gives the list back. -/
theorem C11_inverse {α : Type} (l : List α) (n : Nat) (h : n < factorial l.length) :
    ∃ p, nthperm l n = .ok p ∧ unpermutate p n = .ok l := by
  obtain ⟨p, hp, _⟩ := nthperm_ok h
  exact ⟨p, hp, unpermutate_nthperm h hp⟩

example : 4 < factorial ["a", "b", "c"].length ∧ nthperm ["a", "b", "c"] 4 = .ok ["c", "a", "b"] ∧
    unpermutate ["c", "a", "b"] 4 = .ok ["a", "b", "c"] := by decide

/-! ### C12 -/

/-- C12: the keys between `s` and `str_plus_1(s)` are exactly those starting with `s`. -/
theorem C12_range_is_prefix (s t : Str) (h : strPlus1 s = .ok t) (x : Str) :
    (strLe s x = true ∧ strLt x t = true) ↔ s <+: x := by
  rw [← range_prefix h x, Bool.and_eq_true]

/-- C12: `str_plus_1` works exactly for the non-empty strings whose last character is neither
U+10FFFF nor U+D7FF. -/
theorem C12_defined_iff (s : Str) :
    (∃ t, strPlus1 s = .ok t) ↔ ∃ s0 c, s = s0 ++ [c] ∧ c.toNat ≠ 0x10FFFF ∧ c.toNat ≠ 0xD7FF := by
  rw [strPlus1_isOk_iff]
  unfold HasSucc
  have hv : ∀ c : Char, (c.toNat + 1).isValidChar ↔ c.toNat ≠ 0x10FFFF ∧ c.toNat ≠ 0xD7FF := by
    intro c
    have hc : c.toNat.isValidChar := c.valid
    unfold Nat.isValidChar at *
    omega
  constructor
  · rintro ⟨c, hc, h⟩
    obtain ⟨s0, rfl⟩ := List.getLast?_eq_some_iff.1 hc
    exact ⟨s0, c, rfl, (hv c).1 h⟩
  · rintro ⟨s0, c, rfl, h⟩
    exact ⟨c, by simp, (hv c).2 h⟩

/-- C12: the error cases. -/
theorem C12_errors (s : Str) : strPlus1 [] = .error .indexError ∧
    ∀ c : Char, (c.toNat = 0x10FFFF ∨ c.toNat = 0xD7FF) → strPlus1 (s ++ [c]) = .error .valueError := by
  refine ⟨rfl, ?_⟩
  intro c hc
  have h : ¬ (c.toNat + 1).isValidChar := by
    unfold Nat.isValidChar; omega
  rw [strPlus1_snoc]
  unfold chrSucc
  rw [if_neg h]
  rfl

example : strPlus1 (lit "is sky") = .ok (lit "is skz") := by decide
example : (strLe (lit "is sky") (lit "is sky 1 3") = true ∧ strLt (lit "is sky 1 3") (lit "is skz") = true) ∧
    ¬ (strLe (lit "is sky") (lit "is skz 1 3") = true ∧ strLt (lit "is skz 1 3") (lit "is skz") = true) := by decide

end GB
