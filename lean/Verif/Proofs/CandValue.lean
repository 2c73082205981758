import Verif.Proofs.CandHeap

/-
The shape of the rearrangements of a tidy tree.
-/

namespace GB

theorem copyL_eq : (ts : List STree) → copyL ts = ts.map STree.copy
  | [] => rfl
  | t :: ts => by rw [copyL, copyL_eq ts]; rfl

theorem namedL_iff : (ts : List STree) → (namedL ts = true ↔ ∀ t ∈ ts, t.named = true)
  | [] => by simp [namedL]
  | t :: ts => by simp [namedL, namedL_iff ts]

theorem tidyL_iff : (ts : List STree) → (tidyL ts = true ↔ ∀ t ∈ ts, t.tidy = true)
  | [] => by simp [tidyL]
  | t :: ts => by simp [tidyL, tidyL_iff ts]

theorem copy_terminal (t : STree) : t.copy.terminal = t.terminal := by cases t <;> rfl

mutual
theorem copy_named : (t : STree) → t.copy.named = t.named
  | .leaf _ _ => rfl
  | .node ns c ts => by
    rw [STree.copy, STree.named, STree.named, copyL_named ts, copyL_eq]
    simp
theorem copyL_named : (ts : List STree) → namedL (copyL ts) = namedL ts
  | [] => rfl
  | t :: ts => by rw [copyL, namedL, namedL, copy_named t, copyL_named ts]
end

mutual
theorem copy_tidy : (t : STree) → t.copy.tidy = t.tidy
  | .leaf _ _ => rfl
  | .node ns c ts => by
    have h1 : namedL (List.take 1 (copyL ts)) = namedL (List.take 1 ts) := by
      cases ts with
      | nil => rfl
      | cons t ts => simp [copyL, namedL, copy_named]
    rw [STree.copy, STree.tidy, STree.tidy, copyL_tidy ts, copyL_named ts, h1, copyL_eq]
    simp
theorem copyL_tidy : (ts : List STree) → tidyL (copyL ts) = tidyL ts
  | [] => rfl
  | t :: ts => by rw [copyL, tidyL, tidyL, copy_tidy t, copyL_tidy ts]
end

theorem level_copy {t : STree} (h : t.level) : t.copy.level := by
  rcases h with h | ⟨ns, ts, rfl, hne, h⟩
  · exact .inl (by rw [copy_named, h])
  · exact .inr ⟨none, copyL ts, rfl, by simpa [copyL_eq] using hne, by rw [copyL_named, h]⟩

theorem loose_copy {t : STree} (h : t.loose) : t.copy.loose := by
  rcases h with h | ⟨ns, ts, u, rfl, hts, hu⟩
  · exact .inl (level_copy h)
  · refine .inr ⟨none, copyL ts, u.copy, ?_, ?_, by rw [copy_named, hu]⟩
    · simp [STree.copy, copyL_eq]
    · intro x hx
      rw [copyL_eq, List.mem_map] at hx
      obtain ⟨y, hy, rfl⟩ := hx
      exact level_copy (hts y hy)

theorem named_terminal {t : STree} (h : t.named = true) : t.terminal = true := by
  cases t with
  | leaf ns tok => rfl
  | node ns c ts =>
    simp only [STree.named, Bool.and_eq_true] at h
    exact h.1.1

/-- A relation that is one part is a word or a name. -/
theorem loose_terminal {t : STree} (h : t.loose) (ht : t.terminal = true) : t.named = true := by
  rcases h with (h | ⟨ns, ts, rfl, _, _⟩) | ⟨ns, ts, u, rfl, _, _⟩
  · exact h
  · cases ht
  · cases ht

/-- The parts of a relation: the last one is a word or a name. -/
theorem loose_parts {t : STree} (h : t.loose) : ∃ ts u, t.parts = ts ++ [u] ∧ (∀ x ∈ ts, x.level) ∧ u.named = true := by
  rcases h with (h | ⟨ns, ts, rfl, hne, h⟩) | ⟨ns, ts, u, rfl, hts, hu⟩
  · exact ⟨[], t, by rw [named_parts h]; rfl, by simp, h⟩
  · have h := (namedL_iff ts).mp h
    refine ⟨ts.dropLast, ts.getLast hne, (List.dropLast_concat_getLast hne).symm, ?_, h _ (List.getLast_mem hne)⟩
    intro x hx
    exact .inl (h x (List.dropLast_subset ts hx))
  · exact ⟨ts, u, rfl, hts, hu⟩

theorem level_parts {t : STree} (h : t.level) : ∃ u ts, t.parts = u :: ts ∧ u.named = true ∧ ∀ x ∈ ts, x.named = true := by
  rcases h with h | ⟨ns, ts, rfl, hne, h⟩
  · exact ⟨t, [], named_parts h, h, by simp⟩
  · have h := (namedL_iff ts).mp h
    cases ts with
    | nil => exact absurd rfl hne
    | cons u ts => exact ⟨u, ts, rfl, h u (by simp), fun x hx => h x (by simp [hx])⟩

/-- The new relations have the shape of a relation. -/
theorem newRels_loose {alone : Bool} {r f : STree} (hr : r.loose) (hf : f.level) (ha : alone = true → r.named = true) :
    ∀ rel ∈ newRels alone r f, rel.loose := by
  intro rel hrel
  simp only [newRels, List.mem_append] at hrel
  rcases hrel with ((h | h) | h) | h
  · split at h
    · simp only [List.mem_singleton] at h
      subst h
      exact .inr ⟨none, [f], r, rfl, by simpa using hf, ha ‹_›⟩
    · cases h
  · split at h
    · rename_i ht
      simp only [Bool.and_eq_true] at ht
      simp only [List.mem_singleton] at h
      subst h
      refine .inl (.inl ?_)
      simp [STree.named, namedL, copy_named, loose_terminal hr ht.1, loose_terminal (.inl hf) ht.2]
    · cases h
  · split at h
    · cases h
    · simp only [List.mem_singleton] at h
      subst h
      obtain ⟨ts, u, hp, hts, hu⟩ := loose_parts hr
      obtain ⟨v, vs, hq, hv, hvs⟩ := level_parts hf
      rw [hp, hq]
      have hc : (STree.node none true [u, v]).named = true := by simp [STree.named, namedL, hu, hv]
      right
      simp only [List.dropLast_concat, List.getLast?_concat, Option.toList_some, List.take_succ_cons, List.take_zero,
        List.drop_succ_cons, List.drop_zero, List.singleton_append]
      rcases List.eq_nil_or_concat vs with rfl | ⟨ws, w, rfl⟩
      · exact ⟨none, ts, .node none true [u, v], by simp, hts, hc⟩
      · refine ⟨none, ts ++ [.node none true [u, v]] ++ ws, w, by simp, ?_, hvs w (by simp)⟩
        intro x hx
        simp only [List.mem_append, List.mem_singleton] at hx
        rcases hx with (hx | rfl) | hx
        · exact hts x hx
        · exact .inl hc
        · exact .inl (hvs x (by simp [hx]))
  · split at h
    · rename_i ht
      simp only [List.mem_singleton] at h
      subst h
      refine .inr ⟨none, _, f, rfl, ?_, loose_terminal (.inl hf) ht⟩
      intro x hx
      split at hx
      · rename_i htr
        simp only [List.mem_singleton] at hx
        subst hx
        exact .inl (loose_terminal hr htr)
      · obtain ⟨ts, u, hp, hts, hu⟩ := loose_parts (loose_copy hr)
        rw [hp] at hx
        rcases List.mem_append.mp hx with hx | hx
        · exact hts x hx
        · simp only [List.mem_singleton] at hx
          subst hx
          exact .inl hu
    · cases h

/-- A relation and the arguments it has so far. -/
structure Work (r : STree) (as : List STree) : Prop where
  rel : r.loose
  args : tidyL as = true
  alone : as = [] → r.named = true

/-- A finished rearrangement. -/
def Done (c : STree) : Prop :=
  (∃ ns tok, c = .leaf ns tok) ∨ ∃ f bs, c = .node none false (f :: bs) ∧ f.level ∧ tidyL bs = true ∧ bs ≠ []

theorem loose_flat {t : STree} (h : t.loose) : t.flat.level := by
  rcases h with h | ⟨ns, ts, u, rfl, hts, hu⟩
  · rw [level_flat h]; exact h
  · right
    have key : ∀ (vs : List STree), (∀ x ∈ vs, x.level) → namedL (flatL vs) = true := by
      intro vs
      induction vs with
      | nil => intro _; rfl
      | cons v vs ih =>
        intro hv
        rw [flatL, level_flat (hv v (by simp)), namedL_iff]
        intro x hx
        rcases List.mem_append.mp hx with hx | hx
        · obtain ⟨u, ts, hp, hu, hts⟩ := level_parts (hv v (by simp))
          rw [hp] at hx
          rcases List.mem_cons.mp hx with rfl | hx
          · exact hu
          · exact hts x hx
        · exact (namedL_iff _).mp (ih (fun x hx => hv x (by simp [hx]))) x hx
    have hne : ∀ (vs : List STree), flatL (vs ++ [u]) ≠ [] := by
      intro vs
      induction vs with
      | nil => simp [flatL, named_flat u hu, named_parts hu]
      | cons v vs ih => simp [flatL, ih]
    refine ⟨ns, flatL (ts ++ [u]), rfl, hne ts, key _ ?_⟩
    intro x hx
    rcases List.mem_append.mp hx with hx | hx
    · exact hts x hx
    · simp only [List.mem_singleton] at hx
      subst hx
      exact .inl hu

theorem Work.copy {r : STree} {as : List STree} (h : Work r as) {t : STree} (ht : t.tidy = true) : Work r.copy (copyL as ++ [t]) :=
  ⟨loose_copy h.rel, by
    rw [tidyL_iff]
    intro x hx
    rcases List.mem_append.mp hx with hx | hx
    · exact (tidyL_iff _).mp ((copyL_tidy as).trans h.args) x hx
    · simp only [List.mem_singleton] at hx
      rw [hx]; exact ht, by simp⟩

theorem Work.merge {r rel f : STree} {as bs : List STree} (h : Work r as) (hf : f.level) (hb : tidyL bs = true) (hne : bs ≠ [])
    (hrel : rel ∈ newRels as.isEmpty r f) : Work rel (copyL as ++ bs) :=
  ⟨newRels_loose h.rel hf (fun he => h.alone (by simpa using he)) rel hrel, by
    rw [tidyL_iff]
    intro x hx
    rcases List.mem_append.mp hx with hx | hx
    · exact (tidyL_iff _).mp ((copyL_tidy as).trans h.args) x hx
    · exact (tidyL_iff _).mp hb x hx, by simp [hne]⟩

theorem mem_merged {r c : STree} {as w' : List STree} (h : w' ∈ merged (r :: as) c) : ∃ ns b f bs rel, c = .node ns b (f :: bs) ∧
    f.relates = true ∧ rel ∈ newRels as.isEmpty r f ∧ w' = rel :: copyL as ++ bs := by
  cases c with
  | leaf ns tok => cases h
  | node ns b ts =>
    cases ts with
    | nil => cases h
    | cons f bs =>
      rw [merged] at h
      split at h
      · obtain ⟨rel, h1, h2⟩ := List.mem_map.mp h
        exact ⟨ns, b, f, bs, rel, rfl, ‹_›, h1, h2.symm⟩
      · cases h

mutual
theorem rearranged_done : (t : STree) → t.tidy = true → ∀ c ∈ t.rearranged, Done c
  | .leaf ns tok, _, c, hc => by
    simp only [STree.rearranged, List.mem_singleton] at hc
    exact .inl ⟨ns, tok, hc⟩
  | .node ns b [], ht, c, hc => by cases hc
  | .node ns b (r :: ts), ht, c, hc => by
    simp only [STree.tidy, Bool.and_eq_true, decide_eq_true_eq] at ht
    obtain ⟨⟨hlen, hn⟩, htd⟩ := ht
    have hr : r.named = true := by
      cases b
      · simpa [namedL] using hn
      · simp only [if_true, namedL, Bool.and_eq_true] at hn
        exact hn.1
    simp only [tidyL, Bool.and_eq_true] at htd
    rw [STree.rearranged] at hc
    refine rearrangedFrom_done ts htd.2 r [] ⟨.inl (.inl hr), rfl, fun _ => hr⟩ (.inr ?_) c hc
    rintro rfl
    simp at hlen
theorem rearrangedFrom_done : (ts : List STree) → tidyL ts = true → ∀ (r : STree) (as : List STree), Work r as →
    (as ≠ [] ∨ ts ≠ []) → ∀ c ∈ rearrangedFrom ts (r :: as), Done c
  | [], _, r, as, hw, hne, c, hc => by
    simp only [rearrangedFrom, finished, List.mem_singleton] at hc
    have hne : as ≠ [] := by simpa using hne
    exact .inr ⟨r.flat, as, hc, loose_flat hw.rel, hw.args, hne⟩
  | t :: ts, ht, r, as, hw, hne, c, hc => by
    simp only [tidyL, Bool.and_eq_true] at ht
    rw [rearrangedFrom, List.mem_flatMap] at hc
    obtain ⟨c0, hc0, hc⟩ := hc
    have hd := rearranged_done t ht.1 c0 hc0
    rcases List.mem_append.mp hc with hc | hc
    · obtain ⟨w', hw', hc2⟩ := List.mem_flatMap.mp hc
      obtain ⟨ns, b, f, bs, rel, rfl, _, hrel, rfl⟩ := mem_merged hw'
      rcases hd with ⟨_, _, h0⟩ | ⟨f', bs', h0, hf, hb, hbne⟩
      · cases h0
      · cases h0
        exact rearrangedFrom_done ts ht.2 rel _ (hw.merge hf hb hbne hrel) (.inl (by simp [hbne])) c hc2
    · exact rearrangedFrom_done ts ht.2 r.copy _ (hw.copy ht.1) (.inl (by simp)) c hc
end

end GB
