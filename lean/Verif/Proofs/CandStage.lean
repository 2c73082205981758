import Verif.Proofs.CandFind
import Verif.Proofs.PipelineRun

/-
The delta stage on tidy trees, and tidy trees in the extractor.
-/

namespace GB

mutual
theorem tidy_full : (t : STree) → t.tidy = true → t.Full
  | .leaf _ _, _ => trivial
  | .node ns c ts, h => by
    simp only [STree.tidy, Bool.and_eq_true, decide_eq_true_eq] at h
    refine ⟨?_, tidyL_full ts h.2⟩
    rintro rfl
    simp at h
theorem tidyL_full : (ts : List STree) → tidyL ts = true → fullL ts
  | [], _ => trivial
  | t :: ts, h => by
    simp only [tidyL, Bool.and_eq_true] at h
    exact ⟨tidy_full t h.1, tidyL_full ts h.2⟩
end

theorem refs_unique {h : SemTree} : {ts us : List STree} → {rs : List Nat} → RefsR h ts rs → RefsR h us rs → ts = us
  | [], [], _, _, _ => rfl
  | [], u :: us, rs, h1, h2 => by
    obtain ⟨r, rs', n, rfl, _⟩ := h2
    cases (show r :: rs' = [] from h1)
  | t :: ts, [], rs, h1, h2 => by
    obtain ⟨r, rs', n, rfl, _⟩ := h1
    cases (show r :: rs' = [] from h2)
  | t :: ts, u :: us, rs, h1, h2 => by
    obtain ⟨r, rs', n, rfl, ht, ha, hb⟩ := h1
    obtain ⟨r', rs'', n', he, ht', ha', hb'⟩ := h2
    cases he
    have hn : n = n' := by
      have e1 := elemId_reads ha ht
      have e2 := elemId_reads ha' ht'
      rw [e1] at e2
      cases e2
      rfl
    subst hn
    rw [reads_unique _ _ ha ha', refs_unique hb hb']

/-- The first of the best. -/
theorem pickBest_spec (o : STree) : (cs : List STree) → (b : STree) → ∃ a c d, b :: cs = a ++ c :: d ∧ pickBest o cs b = c ∧
    (∀ y ∈ a, o.fit y < o.fit c) ∧ ∀ y ∈ d, o.fit y ≤ o.fit c
  | [], b => ⟨[], b, [], rfl, rfl, by simp, by simp⟩
  | c :: cs, b => by
    rw [pickBest]
    split
    · rename_i hlt
      obtain ⟨a, x, d, h1, h2, h3, h4⟩ := pickBest_spec o cs c
      refine ⟨b :: a, x, d, by rw [h1]; rfl, h2, ?_, h4⟩
      intro y hy
      rcases List.mem_cons.mp hy with rfl | hy
      · cases a with
        | nil =>
          simp only [List.nil_append, List.cons.injEq] at h1
          rw [← h1.1]
          exact hlt
        | cons a0 a =>
          simp only [List.cons_append, List.cons.injEq] at h1
          have := h3 a0 (by simp)
          rw [← h1.1] at this
          omega
      · exact h3 y hy
    · rename_i hge
      obtain ⟨a, x, d, h1, h2, h3, h4⟩ := pickBest_spec o cs b
      cases a with
      | nil =>
        simp only [List.nil_append, List.cons.injEq] at h1
        refine ⟨[], x, c :: d, ?_, h2, by simp, ?_⟩
        · rw [← h1.1, ← h1.2]; rfl
        · intro y hy
          rcases List.mem_cons.mp hy with rfl | hy
          · rw [← h1.1]
            omega
          · exact h4 y hy
      | cons a0 a =>
        simp only [List.cons_append, List.cons.injEq] at h1
        refine ⟨b :: c :: a, x, d, ?_, h2, ?_, h4⟩
        · rw [h1.2]; rfl
        · intro y hy
          have h0 := h3 a0 (by simp)
          rw [← h1.1] at h0
          rcases List.mem_cons.mp hy with rfl | hy
          · exact h0
          · rcases List.mem_cons.mp hy with rfl | hy
            · omega
            · exact h3 y (by simp [hy])

theorem best_unique {o : STree} {cs a a' b b' : List STree} {c c' : STree} (h : cs = a ++ c :: b) (h' : cs = a' ++ c' :: b')
    (h1 : ∀ y ∈ a, o.fit y < o.fit c) (h2 : ∀ y ∈ b, o.fit y ≤ o.fit c) (h1' : ∀ y ∈ a', o.fit y < o.fit c')
    (h2' : ∀ y ∈ b', o.fit y ≤ o.fit c') : c = c' := by
  rw [h] at h'
  rw [List.append_eq_append_iff] at h'
  rcases h' with ⟨d, rfl, hd⟩ | ⟨d, rfl, hd⟩
  · cases d with
    | nil =>
      simp only [List.nil_append, List.cons.injEq] at hd
      exact hd.1
    | cons d0 d =>
      simp only [List.cons_append, List.cons.injEq] at hd
      have e1 := h1' d0 (by simp)
      have e2 := h2 c' (by rw [hd.2]; simp)
      rw [← hd.1] at e1
      omega
  · cases d with
    | nil =>
      simp only [List.nil_append, List.cons.injEq] at hd
      exact hd.1.symm
    | cons d0 d =>
      simp only [List.cons_append, List.cons.injEq] at hd
      have e1 := h1 d0 (by simp)
      have e2 := h2' c (by rw [hd.2]; simp)
      rw [← hd.1] at e1
      omega

theorem delta_reads {h : SemTree} {t : STree} (hs : Holds h t) (htd : t.tidy = true) :
    ∃ h', (∃ N, ∀ k, N ≤ k → deltaStage k h = .ok ((), h')) ∧ Holds h' t.delta := by
  have hf := tidy_full t htd
  by_cases hcase : t.terminal = true ∨ t.leads = false
  · obtain ⟨a, h', ⟨N, hN⟩, t', h1, h2, h3, h4, h5⟩ := deltaStage_settles hs hf.ok
    refine ⟨h', ⟨N, hN⟩, ?_⟩
    have hdel : t.delta = t := by
      rw [STree.delta, if_pos]
      rcases hcase with h | h <;> simp [h]
    rw [hdel, h4 hcase]
    exact hs
  · have hn : t.terminal = false := by
      cases hx : t.terminal with
      | false => rfl
      | true => exact absurd (.inl hx) hcase
    have hlead : t.leads = true := by
      cases hx : t.leads with
      | true => rfl
      | false => exact absurd (.inr hx) hcase
    obtain ⟨i, hroot, hr⟩ := hs
    obtain ⟨n, r, hi, ht, _⟩ := hr.entry
    obtain rfl : i = n := by omega
    obtain ⟨rs, h1, o, cs, ⟨N1, hN1⟩, hro, _, hrefs, _, a, c, b, h2, hsplit, ha, hb, ⟨N, hN⟩, hh⟩ :=
      choice_reads hroot hr ht hf hn hlead
    obtain ⟨rs', h1', ⟨N2, hN2⟩, k1, hrefs'⟩ := find_reads t htd hr ht
    have e := (hN1 (max N1 N2) (by omega)).symm.trans (hN2 (max N1 N2) (by omega))
    cases e
    obtain rfl := reads_unique _ _ hro (hr.keep k1)
    obtain rfl := refs_unique hrefs hrefs'
    refine ⟨h2, ⟨N, hN⟩, ?_⟩
    have hdel : o.delta = c := by
      rw [STree.delta, if_neg (by simp [hn, hlead])]
      split
      · rename_i hnil
        rw [hnil] at hsplit
        simp at hsplit
      · rename_i c0 cs0 hcons
        obtain ⟨a', c', d', h1, h2, h3, h4⟩ := pickBest_spec o cs0 c0
        rw [h2]
        exact best_unique (h1.symm ▸ hcons) hsplit h3 h4 ha hb
    rw [hdel]
    exact hh

/-! ### The trees of the extractor -/

mutual
/-- Names are made of words and names. -/
def STree.solid : STree → Bool
  | .leaf _ _ => true
  | .node _ c ts => (if c then !ts.isEmpty && namedL ts else true) && solidL ts
/-- All of them. -/
def solidL : List STree → Bool
  | [] => true
  | t :: ts => t.solid && solidL ts
end

theorem solidL_iff : (ts : List STree) → (solidL ts = true ↔ ∀ t ∈ ts, t.solid = true)
  | [] => by simp [solidL]
  | t :: ts => by simp [solidL, solidL_iff ts]

mutual
theorem named_solid : (t : STree) → t.named = true → t.solid = true
  | .leaf _ _, _ => rfl
  | .node _ c ts, h => by
    simp only [STree.named, Bool.and_eq_true] at h
    obtain ⟨⟨rfl, h1⟩, h2⟩ := h
    simp [STree.solid, h1, h2, namedL_solid ts h2]
theorem namedL_solid : (ts : List STree) → namedL ts = true → solidL ts = true
  | [], _ => rfl
  | t :: ts, h => by
    simp only [namedL, Bool.and_eq_true] at h
    simp [solidL, named_solid t h.1, namedL_solid ts h.2]
end

theorem solid_named {t : STree} (h : t.solid = true) (ht : t.terminal = true) : t.named = true := by
  cases t with
  | leaf ns tok => rfl
  | node ns c ts =>
    cases (show c = true from ht)
    simp only [STree.solid, if_true, Bool.and_eq_true] at h
    simp [STree.named, h.1.1, h.1.2]

mutual
/-- With enough elements, solid names and such first elements a tree is tidy. -/
theorem tidy_of : (t : STree) → t.Branching → t.solid = true → t.headed = true → t.tidy = true
  | .leaf _ _, _, _, _ => rfl
  | .node ns true ts, hb, hs, _ => by
    simp only [STree.solid, if_true, Bool.and_eq_true] at hs
    have : tidyL ts = true := tidyL_named ts hb.2 hs.1.2
    have h2 : 2 ≤ ts.length := hb.1
    simp [STree.tidy, hs.1.2, this, h2]
  | .node ns false ts, hb, hs, hh => by
    simp only [STree.solid, Bool.false_eq_true, if_false, Bool.true_and] at hs
    simp only [STree.headed, Bool.and_eq_true] at hh
    have : tidyL ts = true := tidyL_of ts hb.2 hs hh.2
    have h2 : 2 ≤ ts.length := hb.1
    have h3 : namedL (ts.take 1) = true := by
      cases ts with
      | nil => rfl
      | cons t ts =>
        have h4 : t.terminal = true := by simpa using hh.1
        simp only [solidL, Bool.and_eq_true] at hs
        simp [namedL, solid_named hs.1 h4]
    simp [STree.tidy, h3, this, h2]
theorem tidyL_of : (ts : List STree) → branchingL ts → solidL ts = true → headedL ts = true → tidyL ts = true
  | [], _, _, _ => rfl
  | t :: ts, hb, hs, hh => by
    simp only [solidL, headedL, Bool.and_eq_true] at hs hh
    simp [tidyL, tidy_of t hb.1 hs.1 hh.1, tidyL_of ts hb.2 hs.2 hh.2]
theorem tidy_named : (t : STree) → t.Branching → t.named = true → t.tidy = true
  | .leaf _ _, _, _ => rfl
  | .node ns c ts, hb, hn => by
    simp only [STree.named, Bool.and_eq_true] at hn
    obtain ⟨⟨rfl, _⟩, hn⟩ := hn
    have h2 : 2 ≤ ts.length := hb.1
    simp [STree.tidy, hn, tidyL_named ts hb.2 hn, h2]
theorem tidyL_named : (ts : List STree) → branchingL ts → namedL ts = true → tidyL ts = true
  | [], _, _ => rfl
  | t :: ts, hb, hn => by
    simp only [namedL, Bool.and_eq_true] at hn
    simp [tidyL, tidy_named t hb.1 hn.1, tidyL_named ts hb.2 hn.2]
end

mutual
theorem beta_all : (t : STree) → t.Branching → t.leaves.all TokInfo.inCompound = true → t.beta.named = true
  | .leaf _ _, _, _ => rfl
  | .node ns c ts, hb, h => by
    simp only [STree.leaves] at h
    have h2 : 2 ≤ ts.length := hb.1
    have h3 : (betaL ts).isEmpty = false := by
      cases ts with
      | nil => simp at h2
      | cons t ts => rfl
    simp [STree.beta, STree.named, compoundB, h, betaL_all ts hb.2 h, h3]
theorem betaL_all : (ts : List STree) → branchingL ts → (leavesL ts).all TokInfo.inCompound = true → namedL (betaL ts) = true
  | [], _, _ => rfl
  | t :: ts, hb, h => by
    simp only [leavesL, List.all_append, Bool.and_eq_true] at h
    simp [betaL, namedL, beta_all t hb.1 h.1, betaL_all ts hb.2 h.2]
end

theorem betaL_typed {et : Str} : (ts : List STree) → ts.all (STree.hasType et) = true → namedL (betaL ts) = true
  | [], _ => rfl
  | .leaf _ _ :: ts, h => by
    simp only [List.all_cons, Bool.and_eq_true] at h
    simp [betaL, namedL, STree.beta, STree.named, betaL_typed ts h.2]
  | .node _ _ _ :: ts, h => by simp [STree.hasType] at h

theorem betaL_compound {ts : List STree} (hb : branchingL ts) (h : compoundB ts = true) : namedL (betaL ts) = true := by
  rw [compoundB, Bool.or_eq_true] at h
  rcases h with h | h
  · unfold sameEntityB at h
    split at h
    · split at h
      · simp only [Bool.and_eq_true] at h
        exact betaL_typed _ h.2
      · cases h
    · cases h
  · exact betaL_all ts hb h

mutual
theorem beta_solid : (t : STree) → t.Branching → t.beta.solid = true
  | .leaf _ _, _ => rfl
  | .node ns c ts, hb => by
    have h2 : 2 ≤ ts.length := hb.1
    have h3 : (betaL ts).isEmpty = false := by
      cases ts with
      | nil => simp at h2
      | cons t ts => rfl
    cases hc : compoundB ts with
    | true => simp [STree.beta, STree.solid, hc, betaL_compound hb.2 hc, h3, betaL_solid ts hb.2]
    | false => simp [STree.beta, STree.solid, hc, betaL_solid ts hb.2]
theorem betaL_solid : (ts : List STree) → branchingL ts → solidL (betaL ts) = true
  | [], _ => rfl
  | t :: ts, hb => by simp [betaL, solidL, beta_solid t hb.1, betaL_solid ts hb.2]
end

mutual
theorem mark_named : (t : STree) → t.Branching → (t.mark true).named = true
  | .leaf _ _, _ => rfl
  | .node ns c ts, hb => by
    have h2 : 2 ≤ ts.length := hb.1
    have h3 : (markL true ts).isEmpty = false := by
      cases ts with
      | nil => simp at h2
      | cons t ts => rfl
    simp [STree.mark, STree.named, markL_named ts hb.2, h3]
theorem markL_named : (ts : List STree) → branchingL ts → namedL (markL true ts) = true
  | [], _ => rfl
  | t :: ts, hb => by simp [markL, namedL, mark_named t hb.1, markL_named ts hb.2]
end

theorem combine_solid {f : STree} (hf : f.Branching) : (t : STree) → t.Branching → t.solid = true →
    (∃ ns ts, t = .node ns false ts) → (f.combine t).solid = true
  | .leaf _ _, _, h, _ => h
  | .node _ _ [], _, h, _ => by rw [STree.combine]; exact h
  | .node ns b (.leaf ns' tok :: us), hb, h, hx => by
    obtain ⟨_, _, h0⟩ := hx
    cases h0
    simp only [STree.solid, Bool.false_eq_true, if_false, Bool.true_and, solidL] at h
    have h1 := mark_named f hf
    have h2 := named_solid _ h1
    simp [STree.combine, STree.solid, solidL, namedL, STree.named, h1, h2, h]
  | .node ns b (.node ns' true ts :: us), hb, h, hx => by
    obtain ⟨_, _, h0⟩ := hx
    cases h0
    simp only [STree.solid, Bool.false_eq_true, if_false, Bool.true_and, solidL, Bool.and_eq_true] at h
    have h1 := mark_named f hf
    have h2 := named_solid _ h1
    have h3 := mark_named (.node ns' true ts) hb.2.1
    have h4 := named_solid _ h3
    rw [STree.combine, STree.solid]
    simp only [Bool.false_eq_true, if_false, Bool.true_and, solidL, h.2, Bool.and_true]
    simp [STree.solid, solidL, namedL, h1, h2, h3, h4]
  | .node ns b (.node ns' false ts :: us), hb, h, hx => by
    obtain ⟨_, _, h0⟩ := hx
    cases h0
    rw [STree.solid] at h
    simp only [Bool.false_eq_true, if_false, Bool.true_and, solidL, Bool.and_eq_true] at h
    rw [STree.combine, STree.solid]
    simp only [Bool.false_eq_true, if_false, Bool.true_and, solidL, h.2, Bool.and_true]
    exact combine_solid hf (.node ns' false ts) hb.2.1 h.1 ⟨_, _, rfl⟩

theorem gamma1_solid {t : STree} (hb : t.Branching) (h : t.solid = true) : t.gamma1.solid = true := by
  cases t with
  | leaf ns tok => exact h
  | node ns b ts =>
    by_cases hall : ts.all STree.relWord = true
    · rw [gamma1_all hall]; exact named_solid _ (mark_named _ hb)
    · by_cases hl : ts.length = 2
      · match ts, hl with
        | [f, s], _ =>
          rw [gamma1_pair hall]
          have hs : s.solid = true := by
            simp only [STree.solid, solidL, Bool.and_eq_true] at h
            exact h.2.2.1
          split
          · exact hs
          · split
            · rename_i hop
              simp only [Bool.and_eq_true] at hop
              refine combine_solid hb.2.1 s hb.2.2.1 hs ?_
              have hop := hop.1
              unfold STree.opensWith at hop
              split at hop
              · exact ⟨_, _, rfl⟩
              · cases hop
            · exact h
      · rw [gamma1_other hall hl]; exact h

theorem gamma1_named {t : STree} (hb : t.Branching) (h : t.named = true) : t.gamma1.named = true := by
  cases t with
  | leaf ns tok => exact h
  | node ns b ts =>
    by_cases hall : ts.all STree.relWord = true
    · rw [gamma1_all hall]; exact mark_named _ hb
    · by_cases hl : ts.length = 2
      · match ts, hl with
        | [f, s], _ =>
          rw [gamma1_pair hall]
          have hs : s.named = true := by
            simp only [STree.named, namedL, Bool.and_eq_true] at h
            exact h.2.2.1
          split
          · exact hs
          · split
            · rename_i hop
              simp only [Bool.and_eq_true] at hop
              have hop := hop.1
              unfold STree.opensWith at hop
              split at hop
              · simp [STree.named] at hs
              · cases hop
            · exact h
      · rw [gamma1_other hall hl]; exact h

theorem gammaL_length (ts : List STree) : (gammaL ts).length = ts.length := by
  induction ts with
  | nil => rfl
  | cons t ts ih => simp [gammaL, ih]

mutual
theorem gamma_named : (t : STree) → t.Branching → t.named = true → t.gamma.named = true
  | .leaf _ _, _, h => h
  | .node ns b ts, hb, h => by
    have hg : (STree.node ns b (gammaL ts)).Branching := ⟨by rw [gammaL_length]; exact hb.1, gammaL_branching ts hb.2⟩
    rw [STree.gamma]
    refine gamma1_named hg ?_
    simp only [STree.named, Bool.and_eq_true] at h ⊢
    refine ⟨⟨h.1.1, ?_⟩, gammaL_named ts hb.2 h.2⟩
    have h2 : 2 ≤ ts.length := hb.1
    cases ts with
    | nil => simp at h2
    | cons t ts => rfl
theorem gammaL_named : (ts : List STree) → branchingL ts → namedL ts = true → namedL (gammaL ts) = true
  | [], _, _ => rfl
  | t :: ts, hb, h => by
    simp only [namedL, Bool.and_eq_true] at h
    simp [gammaL, namedL, gamma_named t hb.1 h.1, gammaL_named ts hb.2 h.2]
end

mutual
theorem gamma_solid : (t : STree) → t.Branching → t.solid = true → t.gamma.solid = true
  | .leaf _ _, _, h => h
  | .node ns b ts, hb, h => by
    have hg : (STree.node ns b (gammaL ts)).Branching := ⟨by rw [gammaL_length]; exact hb.1, gammaL_branching ts hb.2⟩
    rw [STree.gamma]
    refine gamma1_solid hg ?_
    simp only [STree.solid, Bool.and_eq_true] at h ⊢
    refine ⟨?_, gammaL_solid ts hb.2 h.2⟩
    have h2 : 2 ≤ ts.length := hb.1
    cases b with
    | false => rfl
    | true =>
      simp only [if_true, Bool.and_eq_true] at h ⊢
      refine ⟨?_, gammaL_named ts hb.2 h.1.2⟩
      cases ts with
      | nil => simp at h2
      | cons t ts => rfl
theorem gammaL_solid : (ts : List STree) → branchingL ts → solidL ts = true → solidL (gammaL ts) = true
  | [], _, _ => rfl
  | t :: ts, hb, h => by
    simp only [solidL, Bool.and_eq_true] at h
    simp [gammaL, solidL, gamma_solid t hb.1 h.1, gammaL_solid ts hb.2 h.2]
end

/-- The trees of the extractor are tidy if their first elements are words or names. -/
theorem extracted_tidy (x : Tok) (h : ((alphaTree x).beta.gamma).headed = true) : ((alphaTree x).beta.gamma).tidy = true :=
  tidy_of _ (gamma_branching _ (beta_branching _ (alphaTree_branching x)))
    (gamma_solid _ (beta_branching _ (alphaTree_branching x)) (beta_solid _ (alphaTree_branching x))) h

/-! ### The tree itself -/

mutual
theorem copy_copy : (t : STree) → t.copy.copy = t.copy
  | .leaf _ _ => rfl
  | .node _ _ ts => by rw [STree.copy, STree.copy, copyL_copyL ts]
theorem copyL_copyL : (ts : List STree) → copyL (copyL ts) = copyL ts
  | [] => rfl
  | t :: ts => by rw [copyL, copyL, copy_copy t, copyL_copyL ts]
end

theorem copyL_append (ts us : List STree) : copyL (ts ++ us) = copyL ts ++ copyL us := by simp [copyL_eq]

mutual
/-- There are rearrangements. -/
theorem rearranged_ne : (t : STree) → t.tidy = true → t.rearranged ≠ []
  | .leaf _ _, _ => by simp [STree.rearranged]
  | .node _ _ [], h => by simp [STree.tidy] at h
  | .node ns b (r :: ts), h => by
    simp only [STree.tidy, tidyL, Bool.and_eq_true] at h
    rw [STree.rearranged]
    exact rearrangedFrom_ne ts h.2.2 [r]
theorem rearrangedFrom_ne : (ts : List STree) → tidyL ts = true → ∀ w, rearrangedFrom ts w ≠ []
  | [], _, w => by simp [rearrangedFrom]
  | t :: ts, h, w => by
    simp only [tidyL, Bool.and_eq_true] at h
    rw [rearrangedFrom]
    have h1 := rearranged_ne t h.1
    cases hc : t.rearranged with
    | nil => exact absurd hc h1
    | cons c cs => simp [rearrangedFrom_ne ts h.2]
end

/-- Leaving all arguments as they are. -/
theorem rearrangedFrom_same : (ts : List STree) → tidyL ts = true → ∀ (r : STree) (as : List STree), r.named = true →
    ∃ c ∈ rearrangedFrom ts (r :: as), c.copy = .node none false (copyL (r :: as ++ ts))
  | [], _, r, as, hr => ⟨_, List.mem_singleton.mpr rfl, by simp [finished, named_flat r hr, STree.copy]⟩
  | t :: ts, h, r, as, hr => by
    simp only [tidyL, Bool.and_eq_true] at h
    obtain ⟨c, hc, he⟩ := rearrangedFrom_same ts h.2 r.copy (copyL as ++ [t]) ((copy_named r).trans hr)
    refine ⟨c, ?_, ?_⟩
    · rw [rearrangedFrom]
      cases hx : t.rearranged with
      | nil => exact absurd hx (rearranged_ne t h.1)
      | cons c0 cs =>
        rw [List.mem_flatMap]
        exact ⟨c0, by simp, List.mem_append_right _ hc⟩
    · rw [he]
      simp [copyL_append, copyL, copy_copy, copyL_copyL]

/-- The tree itself is one of its rearrangements, up to the namespaces of nodes and the mark of the root. -/
theorem rearranged_same {ns : Option Str} {b : Bool} {ts : List STree} (h : (STree.node ns b ts).tidy = true) :
    ∃ c ∈ (STree.node ns b ts).rearranged, c.copy = .node none false (copyL ts) := by
  cases ts with
  | nil => simp [STree.tidy] at h
  | cons r ts =>
    simp only [STree.tidy, Bool.and_eq_true, decide_eq_true_eq] at h
    obtain ⟨⟨hlen, hn⟩, htd⟩ := h
    have hrn : r.named = true := by
      cases b
      · simpa [namedL] using hn
      · simp only [if_true, namedL, Bool.and_eq_true] at hn
        exact hn.1
    simp only [tidyL, Bool.and_eq_true] at htd
    exact rearrangedFrom_same ts htd.2 r [] hrn

mutual
theorem copy_leaves : (t : STree) → t.copy.leaves = t.leaves
  | .leaf _ _ => rfl
  | .node _ _ ts => by rw [STree.copy, STree.leaves, STree.leaves, copyL_leaves ts]
theorem copyL_leaves : (ts : List STree) → leavesL (copyL ts) = leavesL ts
  | [] => rfl
  | t :: ts => by rw [copyL, leavesL, leavesL, copy_leaves t, copyL_leaves ts]
end

mutual
theorem alike_copy : (t c : STree) → t.alike c.copy = t.alike c
  | .leaf _ _, .leaf _ _ => rfl
  | .leaf _ _, .node _ _ _ => rfl
  | .node _ _ _, .leaf _ _ => rfl
  | .node _ _ ts, .node _ _ us => by rw [STree.copy, STree.alike, STree.alike, alikeL_copy ts us]
theorem alikeL_copy : (ts us : List STree) → alikeL ts (copyL us) = alikeL ts us
  | [], [] => rfl
  | [], _ :: _ => rfl
  | _ :: _, [] => rfl
  | t :: ts, u :: us => by rw [copyL, alikeL, alikeL, alike_copy t u, alikeL_copy ts us]
end

theorem meets_copy (a b : STree) : a.meets b.copy = a.meets b := by
  simp only [STree.meets, copy_leaves]

mutual
theorem puts_copy : (t p c : STree) → t.puts p.copy c.copy = t.puts p c
  | .leaf _ _, _, _ => rfl
  | .node _ true _, _, _ => rfl
  | .node _ false [], _, _ => rfl
  | .node _ false (r :: as), p, c => by
    rw [STree.puts, STree.puts, meets_copy, putsL_copy as p c]
    simp only [alike_copy]
theorem putsL_copy : (ts : List STree) → (p c : STree) → putsL ts p.copy c.copy = putsL ts p c
  | [], _, _ => rfl
  | t :: ts, p, c => by rw [putsL, putsL, puts_copy t p c, putsL_copy ts p c]
end

theorem partPoints_copy (o : STree) : (ps as : List STree) → partPoints o (copyL ps) (copyL as) = partPoints o ps as
  | [], _ => by simp [copyL, partPoints]
  | p :: ps, [] => by simp [copyL, partPoints]
  | p :: ps, a :: as => by simp [copyL, partPoints, puts_copy, partPoints_copy o ps as]

theorem places_copy (t : STree) : t.copy.places = t.places := by
  cases t with
  | leaf _ _ => rfl
  | node ns c ts => simp [STree.copy, STree.places, copyL_eq]

/-- The fit of a copy. -/
theorem fit_copy (o c : STree) : o.fit c.copy = o.fit c := by
  cases c with
  | leaf _ _ => rfl
  | node ns b ts =>
    cases ts with
    | nil => rfl
    | cons rel as =>
      have h1 : rel.copy.relates = rel.relates := by simp only [STree.relates, copy_leaves]
      have h2 : (copyL as).length = as.length := by simp [copyL_eq]
      have h3 := places_copy rel
      cases rel with
      | leaf _ _ => simp [STree.copy, copyL, STree.fit, h2, STree.places]
      | node ns' c' ps =>
        cases c' with
        | true => simp only [STree.copy, copyL, STree.fit, h2] at h1 h3 ⊢; rw [h1, h3]
        | false =>
          cases ps with
          | nil => simp only [STree.copy, copyL, STree.fit, h2] at h1 h3 ⊢; rw [h1, h3]
          | cons p ps =>
            cases b with
            | true => simp only [STree.copy, copyL, STree.fit, h2] at h1 h3 ⊢; rw [h1, h3]
            | false =>
              match as, h2 with
              | [], _ => simp only [STree.copy, copyL, STree.fit] at h1 h3 ⊢; rw [h1, h3]
              | [a], _ => simp only [STree.copy, copyL, STree.fit, List.length_cons, List.length_nil] at h1 h3 ⊢; rw [h1, h3]
              | a :: a' :: as, h2 =>
                have h4 := partPoints_copy o (p :: ps) (a' :: as)
                simp only [STree.copy, copyL, STree.fit, puts_copy, List.length_cons] at h1 h2 h3 h4 ⊢
                rw [h1, h3, h4]
                simp only [h2]

/-- The result fits at least as well as the tree itself. -/
theorem delta_fit {t : STree} (htd : t.tidy = true) : t.fit t ≤ t.fit t.delta := by
  by_cases hcase : (t.terminal || !t.leads) = true
  · rw [STree.delta, if_pos hcase]
    exact Nat.le_refl _
  · rw [STree.delta, if_neg hcase]
    cases t with
    | leaf _ _ => simp [STree.terminal] at hcase
    | node ns b ts =>
      have hb : b = false := by
        cases b with
        | false => rfl
        | true => simp [STree.terminal] at hcase
      subst hb
      obtain ⟨c, hc, he⟩ := rearranged_same htd
      have hfit : (STree.node ns false ts).fit c = (STree.node ns false ts).fit (.node ns false ts) := by
        rw [← fit_copy _ c, he, ← fit_copy _ (STree.node ns false ts)]
        rfl
      split
      · rename_i hnil
        rw [hnil] at hc
        cases hc
      · rename_i c0 cs hcons
        obtain ⟨a, x, d, h1, h2, h3, h4⟩ := pickBest_spec (STree.node ns false ts) cs c0
        rw [h2, ← hfit]
        rw [hcons, h1] at hc
        rcases List.mem_append.mp hc with hc | hc
        · exact Nat.le_of_lt (h3 c hc)
        · rcases List.mem_cons.mp hc with rfl | hc
          · exact Nat.le_refl _
          · exact h4 c hc

/-! ### The extractor -/

theorem read_delta {F : Type} (pyStr : Val F → Str) {h : SemTree} {t : STree} (hh : Holds h t) (htd : t.tidy = true) :
    ∃ h', Holds h' t.delta ∧ ∃ N, ∀ k, N ≤ k → ∀ names os, runRest pyStr k (lit "delta" :: names) (.tree h) os =
        runRest pyStr k names (.tree h') (os ++ [t.delta.text]) := by
  obtain ⟨h1, ⟨M, hM⟩, hu⟩ := delta_reads hh htd
  have hy : Yields (fun k => runStage (F := F) k (lit "delta") (.tree h)) (.ok (.tree h1)) :=
    ⟨M, fun k hk => by simp only [stageDelta, hM k hk, Except.map]⟩
  obtain ⟨N1, g1⟩ := rest_tree (pyStr := pyStr) hy hu
  exact ⟨h1, hu, N1, g1⟩

end GB
