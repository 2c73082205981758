import Verif.Spec.Pipeline

/-
When the extractor raises.
-/

namespace GB

variable {F : Type} {pyStr : Val F → Str} {k : Nat}

theorem runStage_ok {n : Str} {o o' : StageOut F} (h : runStage k n o = .ok o') :
    ∃ t, o = .tree t ∧ (((n = lit "beta" ∨ n = lit "gamma" ∨ n = lit "delta") ∧ ∃ t', o' = .tree t') ∨
      (n = lit "epsilon" ∧ ∃ v, o' = .edge v)) := by
  rw [runStage.eq_def] at h
  split at h
  · cases h
  split at h
  · rename_i _ hn
    cases o with
    | edge _ => cases h
    | tree t =>
      refine ⟨t, rfl, .inl ⟨.inl hn, ?_⟩⟩
      cases hx : betaStage k t with
      | error e => simp [hx, Except.map] at h
      | ok p => simp only [hx, Except.map] at h; cases h; exact ⟨_, rfl⟩
  split at h
  · rename_i _ _ hn
    cases o with
    | edge _ => cases h
    | tree t =>
      refine ⟨t, rfl, .inl ⟨.inr (.inl hn), ?_⟩⟩
      cases hx : gammaStage k t with
      | error e => simp [hx, Except.map] at h
      | ok p => simp only [hx, Except.map] at h; cases h; exact ⟨_, rfl⟩
  split at h
  · rename_i _ _ _ hn
    cases o with
    | edge _ => cases h
    | tree t =>
      refine ⟨t, rfl, .inl ⟨.inr (.inr hn), ?_⟩⟩
      cases hx : deltaStage k t with
      | error e => simp [hx, Except.map] at h
      | ok p => simp only [hx, Except.map] at h; cases h; exact ⟨_, rfl⟩
  split at h
  · rename_i _ _ _ _ hn
    cases o with
    | edge _ => cases h
    | tree t =>
      refine ⟨t, rfl, .inr ⟨hn, ?_⟩⟩
      cases hx : epsilonStage (F := F) k t with
      | error e => simp [hx, Except.map] at h
      | ok p => simp only [hx, Except.map] at h; cases h; exact ⟨_, rfl⟩
  · cases h

theorem runStage_unknown {n : Str} {o : StageOut F} (h : n ∉ stageNames) : runStage k n o = .error .runtimeError := by
  simp only [stageNames, List.mem_cons, List.not_mem_nil, or_false, not_or] at h
  rw [runStage.eq_def, if_neg h.1, if_neg h.2.1, if_neg h.2.2.1, if_neg h.2.2.2.1, if_neg h.2.2.2.2]

theorem runStage_alpha {o : StageOut F} : runStage k (lit "alpha") o = .error .attributeError := by
  rw [runStage.eq_def, if_pos rfl]

theorem runStage_edge {n : Str} {v : Val F} (h : n ∈ stageNames) : runStage k n (.edge v) = .error .attributeError := by
  simp only [stageNames, List.mem_cons, List.not_mem_nil, or_false] at h
  rcases h with rfl | rfl | rfl | rfl | rfl <;> rfl

theorem runFirst_ok {n : Str} {s : List Tok} {o : StageOut F} (h : runFirst k n s = .ok o) :
    n = lit "alpha" ∧ ∃ t, o = .tree t := by
  rw [runFirst] at h
  split at h
  · rename_i hn
    refine ⟨hn, ?_⟩
    cases hx : alphaStage k s SemTree.new with
    | error e => simp [hx, Except.map] at h
    | ok p => simp only [hx, Except.map] at h; cases h; exact ⟨_, rfl⟩
  · split at h <;> cases h

/-- The stages after some others. -/
theorem runRest_append : (a b : List Str) → (o : StageOut F) → (os : List Str) → runRest pyStr k (a ++ b) o os =
    match (runRest pyStr k a o os).result with
    | .ok o' => runRest pyStr k b o' (runRest pyStr k a o os).outputs
    | .error e => ⟨.error e, (runRest pyStr k a o os).outputs⟩
  | [], b, o, os => rfl
  | n :: a, b, o, os => by
    simp only [List.cons_append, runRest]
    cases hs : runStage k n o with
    | error e => rfl
    | ok o1 =>
      simp only [logged]
      cases ht : o1.str pyStr k with
      | error e => rfl
      | ok s =>
        simp only
        exact runRest_append a b o1 (os ++ [s])

theorem read_append {n : Str} {a b : List Str} {s : List Tok} : readSentence pyStr k (n :: a ++ b) s =
    match (readSentence pyStr k (n :: a) s).result with
    | .ok o' => runRest pyStr k b o' (readSentence pyStr k (n :: a) s).outputs
    | .error e => ⟨.error e, (readSentence pyStr k (n :: a) s).outputs⟩ := by
  simp only [List.cons_append, readSentence]
  cases hs : runFirst (F := F) k n s with
  | error e => rfl
  | ok o1 =>
    simp only [logged]
    cases ht : o1.str pyStr k with
    | error e => rfl
    | ok u => exact runRest_append a b o1 _

theorem runRest_fail {n : Str} {b : List Str} {o : StageOut F} {os : List Str} {e : PyErr} (h : runStage k n o = .error e) :
    runRest pyStr k (n :: b) o os = ⟨.error e, os⟩ := by
  simp only [runRest, h, logged]

theorem runRest_ok : (ns : List Str) → {o : StageOut F} → {os : List Str} → {o' : StageOut F} →
    (runRest pyStr k ns o os).result = .ok o' → (runRest pyStr k ns o os).outputs.length = os.length + ns.length ∧
      ((ns = [] ∧ o' = o) ∨ ∃ t, o = .tree t ∧
        ∃ mid, (∀ n ∈ mid, n = lit "beta" ∨ n = lit "gamma" ∨ n = lit "delta") ∧
          ((ns = mid ∧ ∃ t', o' = .tree t') ∨ (ns = mid ++ [lit "epsilon"] ∧ ∃ v, o' = .edge v)))
  | [], o, os, o', h => by
    cases h
    exact ⟨rfl, .inl ⟨rfl, rfl⟩⟩
  | n :: ns, o, os, o', h => by
    rw [runRest] at h ⊢
    cases hs : runStage k n o with
    | error e => simp [hs, logged] at h
    | ok o1 =>
      simp only [hs, logged] at h ⊢
      cases ht : o1.str pyStr k with
      | error e => simp [ht] at h
      | ok s =>
        simp only [ht] at h ⊢
        obtain ⟨hl, hc⟩ := runRest_ok ns h
        refine ⟨by rw [hl]; simp; omega, .inr ?_⟩
        obtain ⟨t, rfl, hst⟩ := runStage_ok hs
        refine ⟨t, rfl, ?_⟩
        rcases hst with ⟨hn, t1, rfl⟩ | ⟨hn, v, rfl⟩
        · rcases hc with ⟨rfl, rfl⟩ | ⟨t2, _, mid, hm, hc⟩
          · exact ⟨[n], by simpa using hn, .inl ⟨rfl, _, rfl⟩⟩
          · refine ⟨n :: mid, ?_, ?_⟩
            · intro x hx
              rcases List.mem_cons.mp hx with rfl | hx
              · exact hn
              · exact hm x hx
            · rcases hc with ⟨rfl, h1⟩ | ⟨rfl, h1⟩
              · exact .inl ⟨rfl, h1⟩
              · exact .inr ⟨rfl, h1⟩
        · rcases hc with ⟨rfl, rfl⟩ | ⟨t2, h2, _⟩
          · subst hn
            exact ⟨[], by simp, .inr ⟨rfl, v, rfl⟩⟩
          · cases h2

theorem read_ok {stages : List Str} {s : List Tok} {o : StageOut F} (h : (readSentence pyStr k stages s).result = .ok o) :
    (readSentence pyStr k stages s).outputs.length = stages.length ∧
      ∃ mid, (∀ n ∈ mid, n = lit "beta" ∨ n = lit "gamma" ∨ n = lit "delta") ∧
        ((stages = lit "alpha" :: mid ∧ ∃ t, o = .tree t) ∨ (stages = lit "alpha" :: mid ++ [lit "epsilon"] ∧ ∃ v, o = .edge v)) := by
  cases stages with
  | nil => cases h
  | cons n ns =>
    simp only [readSentence] at h ⊢
    cases hs : runFirst (F := F) k n s with
    | error e => simp [hs, logged] at h
    | ok o1 =>
      simp only [hs, logged] at h ⊢
      cases ht : o1.str pyStr k with
      | error e => simp [ht] at h
      | ok u =>
        simp only [ht, List.nil_append] at h ⊢
        obtain ⟨rfl, t1, rfl⟩ := runFirst_ok hs
        obtain ⟨hl, hc⟩ := runRest_ok ns h
        refine ⟨by rw [hl]; simp; omega, ?_⟩
        rcases hc with ⟨rfl, rfl⟩ | ⟨t2, _, mid, hm, hc⟩
        · exact ⟨[], by simp, .inl ⟨rfl, _, rfl⟩⟩
        · refine ⟨mid, hm, ?_⟩
          rcases hc with ⟨rfl, h1⟩ | ⟨rfl, h1⟩
          · exact .inl ⟨rfl, h1⟩
          · exact .inr ⟨rfl, h1⟩

/-- Where it fails: the stages before ran and were printed. -/
theorem runRest_error : (ns : List Str) → {o : StageOut F} → {os : List Str} → {e : PyErr} →
    (runRest pyStr k ns o os).result = .error e → ∃ a n b, ns = a ++ n :: b ∧ ∃ o', runRest pyStr k a o os =
      ⟨.ok o', (runRest pyStr k ns o os).outputs⟩
  | [], o, os, e, h => by cases h
  | n :: ns, o, os, e, h => by
    rw [runRest] at h
    rw [runRest]
    cases hs : runStage k n o with
    | error e1 => exact ⟨[], n, ns, rfl, o, rfl⟩
    | ok o1 =>
      simp only [hs, logged] at h ⊢
      cases ht : o1.str pyStr k with
      | error e1 => exact ⟨[], n, ns, rfl, o, rfl⟩
      | ok s =>
        simp only [ht] at h ⊢
        obtain ⟨a, m, b, rfl, o', hr⟩ := runRest_error ns h
        exact ⟨n :: a, m, b, rfl, o', by simp only [runRest, hs, logged, ht, hr]⟩

theorem read_error {stages : List Str} {s : List Tok} {e : PyErr} (h : (readSentence pyStr k stages s).result = .error e) :
    (readSentence pyStr k stages s).outputs = [] ∨ ∃ a n b, stages = a ++ n :: b ∧ ∃ o', readSentence pyStr k a s =
      ⟨.ok o', (readSentence pyStr k stages s).outputs⟩ := by
  cases stages with
  | nil => exact .inl rfl
  | cons n ns =>
    simp only [readSentence] at h ⊢
    cases hs : runFirst (F := F) k n s with
    | error e => exact .inl rfl
    | ok o1 =>
      simp only [hs, logged] at h ⊢
      cases ht : o1.str pyStr k with
      | error e => exact .inl rfl
      | ok u =>
        simp only [ht, List.nil_append] at h ⊢
        obtain ⟨a, m, b, rfl, o', hr⟩ := runRest_error ns h
        exact .inr ⟨n :: a, m, b, rfl, o', by simp only [hs, logged, ht, List.nil_append, hr]⟩

end GB
