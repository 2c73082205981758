import Verif.Spec.Parse

/-
The parser copies what spaCy gives.
-/

namespace GB

variable {norm : Str → Str}

/-! ### One copy for each position -/

mutual
theorem mirrors_unique {d : Doc} : (t : Tok) → {i : Nat} → {t' : Tok} → Mirrors norm d i t → Mirrors norm d i t' → t = t'
  | .mk info l r, i, .mk info' l' r', h, h' => by
    obtain ⟨s, hs, a1, a2, a3, a4, a5, a6, hl, hr⟩ := h
    obtain ⟨s', hs', b1, b2, b3, b4, b5, b6, hl', hr'⟩ := h'
    obtain rfl : s = s' := by rw [hs] at hs'; exact Option.some.inj hs'
    have e1 := mirrorsL_unique l hl hl'
    have e2 := mirrorsL_unique r hr hr'
    subst e1 e2
    congr 1
    cases info; cases info'
    simp_all
theorem mirrorsL_unique {d : Doc} : (ts : List Tok) → {is : List Nat} → {ts' : List Tok} → MirrorsL norm d is ts →
    MirrorsL norm d is ts' → ts = ts'
  | [], is, [], _, _ => rfl
  | [], is, _ :: _, h, h' => by
    obtain ⟨_, _, rfl, _⟩ := h'
    cases (show (_ :: _ : List Nat) = [] from h)
  | _ :: _, is, [], h, h' => by
    obtain ⟨_, _, rfl, _⟩ := h
    cases (show (_ :: _ : List Nat) = [] from h')
  | t :: ts, is, t' :: ts', h, h' => by
    obtain ⟨j, js, rfl, ha, hb⟩ := h
    obtain ⟨j', js', e, ha', hb'⟩ := h'
    cases e
    rw [mirrors_unique t ha ha', mirrorsL_unique ts hb hb']
end

/-! ### Running -/

/-- What is in the table for this document is right. -/
def TableOk (norm : Str → Str) (d : Doc) (tb : TokTable) : Prop :=
  ∀ i t, tb.lookup (d.key, i) = some t → Mirrors norm d i t

/-- The entries of other documents are untouched. -/
def Others (d : Doc) (tb tb' : TokTable) : Prop := ∀ key i, key ≠ d.key → tb'.lookup (key, i) = tb.lookup (key, i)

mutual
theorem spacy2token_run {d : Doc} {rank : Nat → Nat} (hd : ∀ (i : Nat) (s : SpacyTok), d.toks[i]? = some s →
    ∀ j ∈ s.lefts ++ s.rights, j < d.toks.length ∧ rank j < rank i) : (k : Nat) → {i : Nat} → {tb : TokTable} →
    i < d.toks.length → rank i < k → TableOk norm d tb →
    ∃ t tb', spacy2token norm k d i tb = .ok (t, tb') ∧ Mirrors norm d i t ∧ TableOk norm d tb' ∧ Others d tb tb'
  | 0, _, _, _, hk, _ => by omega
  | k + 1, i, tb, hi, hk, hok => by
    rw [spacy2token]
    cases hlk : tb.lookup (d.key, i) with
    | some t => exact ⟨t, tb, rfl, hok i t hlk, hok, fun _ _ _ => rfl⟩
    | none =>
      obtain ⟨s, hs⟩ : ∃ s, d.toks[i]? = some s := ⟨_, List.getElem?_eq_getElem hi⟩
      have hc := hd i s hs
      obtain ⟨l, tb1, r1, m1, ok1, o1⟩ := spacy2tokens_run hd k s.lefts (tb := tb)
        (fun j hj => ⟨(hc j (by simp [hj])).1, by have := (hc j (by simp [hj])).2; omega⟩) hok
      obtain ⟨r, tb2, r2, m2, ok2, o2⟩ := spacy2tokens_run hd k s.rights (tb := tb1)
        (fun j hj => ⟨(hc j (by simp [hj])).1, by have := (hc j (by simp [hj])).2; omega⟩) ok1
      have hm : Mirrors norm d i (.mk (s.info norm) l r) := ⟨s, hs, rfl, rfl, rfl, rfl, rfl, rfl, m1, m2⟩
      refine ⟨.mk (s.info norm) l r, ((d.key, i), .mk (s.info norm) l r) :: tb2, ?_, hm, ?_, ?_⟩
      · simp only [hs, r1, r2]
      · intro j t ht
        rw [List.lookup_cons] at ht
        by_cases hj : j = i
        · subst hj
          simp only [beq_self_eq_true] at ht
          cases ht
          exact hm
        · have : ((d.key, j) == (d.key, i)) = false := by simpa using hj
          rw [this] at ht
          exact ok2 j t ht
      · intro key j hkey
        rw [List.lookup_cons]
        have : ((key, j) == (d.key, i)) = false := by
          apply Bool.eq_false_iff.mpr
          intro h
          simp only [beq_iff_eq, Prod.mk.injEq] at h
          exact hkey h.1
        rw [this]
        exact (o2 key j hkey).trans (o1 key j hkey)
  termination_by k => (k, 0)
theorem spacy2tokens_run {d : Doc} {rank : Nat → Nat} (hd : ∀ (i : Nat) (s : SpacyTok), d.toks[i]? = some s →
    ∀ j ∈ s.lefts ++ s.rights, j < d.toks.length ∧ rank j < rank i) (k : Nat) : (is : List Nat) → {tb : TokTable} →
    (∀ j ∈ is, j < d.toks.length ∧ rank j < k) → TableOk norm d tb →
    ∃ ts tb', tokensWith (spacy2token norm k d) is tb = .ok (ts, tb') ∧ MirrorsL norm d is ts ∧ TableOk norm d tb' ∧ Others d tb tb'
  | [], tb, _, hok => ⟨[], tb, rfl, rfl, hok, fun _ _ _ => rfl⟩
  | i :: is, tb, hi, hok => by
    obtain ⟨t, tb1, r1, m1, ok1, o1⟩ := spacy2token_run hd k (hi i (by simp)).1 (hi i (by simp)).2 hok
    obtain ⟨ts, tb2, r2, m2, ok2, o2⟩ := spacy2tokens_run hd k is (tb := tb1) (fun j hj => hi j (by simp [hj])) ok1
    refine ⟨t :: ts, tb2, ?_, ⟨i, is, rfl, m1, m2⟩, ok2, fun key j h => (o2 key j h).trans (o1 key j h)⟩
    simp only [tokensWith, r1, r2]
  termination_by is => (k, is.length + 1)
end

theorem parseSents_run {d : Doc} {rank : Nat → Nat} (hd : ∀ (i : Nat) (s : SpacyTok), d.toks[i]? = some s →
    ∀ j ∈ s.lefts ++ s.rights, j < d.toks.length ∧ rank j < rank i) {k : Nat} (hk : ∀ i, i < d.toks.length → rank i < k) :
    (spans : List (Nat × Nat)) → {tb : TokTable} → (∀ p ∈ spans, p.2 ≤ d.toks.length) → TableOk norm d tb →
    ∃ sents tb', parseSents norm k d spans tb = .ok (sents, tb') ∧ sents.length = spans.length ∧
      (∀ p ∈ spans.zip sents, MirrorsL norm d (List.range' p.1.1 (p.1.2 - p.1.1)) p.2) ∧ TableOk norm d tb' ∧ Others d tb tb'
  | [], tb, _, hok => ⟨[], tb, rfl, rfl, by simp, hok, fun _ _ _ => rfl⟩
  | (a, b) :: spans, tb, hs, hok => by
    have hb := hs (a, b) (by simp)
    obtain ⟨ts, tb1, r1, m1, ok1, o1⟩ := spacy2tokens_run (norm := norm) hd k (List.range' a (b - a)) (tb := tb)
      (fun j hj => by
        rw [List.mem_range'_1] at hj
        have : j < d.toks.length := by simp only at hb; omega
        exact ⟨this, hk j this⟩) hok
    obtain ⟨sents, tb2, r2, l2, m2, ok2, o2⟩ := parseSents_run hd hk spans (tb := tb1) (fun p hp => hs p (by simp [hp])) ok1
    refine ⟨ts :: sents, tb2, ?_, by simp [l2], ?_, ok2, fun key j h => (o2 key j h).trans (o1 key j h)⟩
    · simp only [parseSents, r1, r2]
    · intro p hp
      rw [List.zip_cons_cons] at hp
      rcases List.mem_cons.mp hp with rfl | hp
      · exact m1
      · exact m2 p hp

theorem bound_exists (f : Nat → Nat) : (n : Nat) → ∃ N, ∀ i, i < n → f i < N
  | 0 => ⟨0, fun _ h => by omega⟩
  | n + 1 => by
    obtain ⟨N, hN⟩ := bound_exists f n
    refine ⟨max N (f n + 1), fun i hi => ?_⟩
    by_cases h : i = n
    · subst h; omega
    · have := hN i (by omega); omega

theorem parseText_run {d : Doc} (hd : d.Sound) : ∃ N, ∀ k, N ≤ k → ∀ tb, TableOk norm d tb →
    ∃ sents tb', parseText norm k d tb = .ok (sents, tb') ∧ Parsed norm d sents ∧ TableOk norm d tb' ∧ Others d tb tb' := by
  obtain ⟨⟨rank, hr⟩, hs⟩ := hd
  obtain ⟨N, hN⟩ := bound_exists rank d.toks.length
  refine ⟨N, fun k hk tb hok => ?_⟩
  obtain ⟨sents, tb', h1, h2, h3, h4, h5⟩ := parseSents_run (norm := norm) hr (k := k)
    (fun i hi => Nat.lt_of_lt_of_le (hN i hi) hk) d.sents (tb := tb) hs hok
  exact ⟨sents, tb', h1, ⟨h2, h3⟩, h4, h5⟩

/-! ### Order -/

theorem range'_split {lo mid hi : Nat} (h1 : lo ≤ mid) (h2 : mid ≤ hi) :
    List.range' lo (hi - lo) = List.range' lo (mid - lo) ++ List.range' mid (hi - mid) := by
  obtain ⟨a, rfl⟩ := Nat.exists_eq_add_of_le h1
  obtain ⟨b, rfl⟩ := Nat.exists_eq_add_of_le h2
  have e1 : lo + a + b - lo = a + b := by omega
  have e2 : lo + a - lo = a := by omega
  have e3 : lo + a + b - (lo + a) = b := by omega
  rw [e1, e2, e3]
  have := List.range'_append (s := lo) (m := a) (n := b) (step := 1)
  simpa using this.symm

mutual
theorem toList_above {d : Doc} : (t : Tok) → {i lo hi : Nat} → Mirrors norm d i t → Above d i lo hi →
    lo ≤ i ∧ i < hi ∧ t.toList.map some = (List.range' lo (hi - lo)).map (fun j => d.toks[j]?.map (SpacyTok.info norm))
  | .mk info l r, i, lo, hi, hm, ha => by
    obtain ⟨s, hs, a1, a2, a3, a4, a5, a6, hl, hr⟩ := hm
    cases ha with
    | mk _ _ _ s' hs' t1 t2 =>
      obtain rfl : s = s' := by rw [hs] at hs'; exact Option.some.inj hs'
      obtain ⟨b1, e1⟩ := toLists_tiles l hl t1
      obtain ⟨b2, e2⟩ := toLists_tiles r hr t2
      refine ⟨b1, by omega, ?_⟩
      have hinfo : info = s.info norm := by
        cases info
        simp only at a1 a2 a3 a4 a5 a6
        subst a1 a2 a3 a4 a5 a6
        rfl
      rw [range'_split b1 (show i ≤ hi by omega), range'_split (show i ≤ i + 1 by omega) b2]
      simp only [Tok.toList, List.map_append, e1, e2, hinfo]
      have : i + 1 - i = 1 := by omega
      rw [this]
      simp [hs]
theorem toLists_tiles {d : Doc} : (ts : List Tok) → {is : List Nat} → {lo hi : Nat} → MirrorsL norm d is ts → Tiles d is lo hi →
    lo ≤ hi ∧ (toLists ts).map some = (List.range' lo (hi - lo)).map (fun j => d.toks[j]?.map (SpacyTok.info norm))
  | [], is, lo, hi, hm, ha => by
    cases (show is = [] from hm)
    cases ha
    exact ⟨Nat.le_refl _, by simp [toLists]⟩
  | t :: ts, is, lo, hi, hm, ha => by
    obtain ⟨j, js, rfl, m1, m2⟩ := hm
    cases ha with
    | cons _ _ _ mid _ h1 h2 =>
      obtain ⟨c1, c2, e1⟩ := toList_above t m1 h1
      obtain ⟨c3, e2⟩ := toLists_tiles ts m2 h2
      refine ⟨by omega, ?_⟩
      rw [range'_split (show lo ≤ mid by omega) c3]
      simp only [toLists, List.map_append, e1, e2]
end

end GB
