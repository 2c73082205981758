import Verif.Props.Knowledge
import Verif.Props.Parsing

/-
Property C61: from texts to edges.
-/

namespace GB

variable {F : Type} {norm : Str → Str} {pyStr : Val F → Str}

theorem parsed_unique {d : Doc} {s s' : List (List Tok)} (h : Parsed norm d s) (h' : Parsed norm d s') : s = s' := by
  obtain ⟨h1, h2⟩ := h
  obtain ⟨h1', h2'⟩ := h'
  generalize d.sents = spans at *
  induction spans generalizing s s' with
  | nil =>
    rw [List.eq_nil_of_length_eq_zero h1, List.eq_nil_of_length_eq_zero h1']
  | cons p spans ih =>
    match s, s', h1, h1' with
    | a :: s, a' :: s', h1, h1' =>
      rw [List.zip_cons_cons] at h2 h2'
      have ha := h2 (p, a) (by simp)
      have ha' := h2' (p, a') (by simp)
      have e := mirrorsL_unique a ha ha'
      rw [e, ih (by simpa using h1) (fun p hp => h2 p (List.mem_cons_of_mem _ hp)) (by simpa using h1')
        (fun p hp => h2' p (List.mem_cons_of_mem _ hp))]

theorem extracts_default {s : List Tok} {x : Tok} (hroot : sentenceRoot s = some x) :
    ∃ v : Val F, Extracts x v ∧ ∃ N, ∀ k, N ≤ k → (readSentence pyStr k defaultStages s).result = .ok (.edge v) := by
  obtain ⟨v, ws, d, us, h1, _, _, hp, ho, h2, h3, h4, _, N, hN⟩ := C60_default (pyStr := pyStr) hroot
  refine ⟨v, ⟨hp, ws, _, us, h1, ho, h3, h2, h4⟩, N, fun k hk => ?_⟩
  have := hN k hk
  simp only at this
  rw [this]

theorem readSentences_default : (ss : List (List Tok)) → (∀ s ∈ ss, ∃ x, sentenceRoot s = some x) →
    ∃ os : List (StageOut F), os.length = ss.length ∧
      (∀ p ∈ ss.zip os, ∃ x v, sentenceRoot p.1 = some x ∧ p.2 = .edge v ∧ Extracts x v) ∧
      ∃ N, ∀ k, N ≤ k → readSentences pyStr k defaultStages ss = .ok os
  | [], _ => ⟨[], rfl, by simp, 0, fun _ _ => rfl⟩
  | s :: ss, h => by
    obtain ⟨x, hx⟩ := h s (by simp)
    obtain ⟨v, hv, N1, g1⟩ := extracts_default (F := F) (pyStr := pyStr) hx
    obtain ⟨os, hl, ho, N2, g2⟩ := readSentences_default ss (fun s hs => h s (by simp [hs]))
    refine ⟨.edge v :: os, by simp [hl], ?_, max N1 N2, fun k hk => ?_⟩
    · intro p hp
      rw [List.zip_cons_cons] at hp
      rcases List.mem_cons.mp hp with rfl | hp
      · exact ⟨x, v, hx, rfl, hv⟩
      · exact ho p hp
    · simp only [readSentences, g1 k (by omega), g2 k (by omega)]

/-! ### Roots -/

theorem mirrors_dep {d : Doc} {i : Nat} {t : Tok} {s : SpacyTok} (h : Mirrors norm d i t) (hs : d.toks[i]? = some s) :
    t.info.dep = s.dep := by
  obtain ⟨info, l, r⟩ := t
  obtain ⟨s', hs', _, _, _, h4, _⟩ := h
  rw [hs] at hs'
  cases hs'
  exact h4

theorem mirrorsL_at {d : Doc} : {lo n : Nat} → {ts : List Tok} → MirrorsL norm d (List.range' lo n) ts →
    ts.length = n ∧ ∀ j, j < n → ∃ t, ts[j]? = some t ∧ Mirrors norm d (lo + j) t
  | lo, 0, [], _ => ⟨rfl, fun _ h => by omega⟩
  | lo, 0, t :: ts, h => by obtain ⟨_, _, h1, _⟩ := h; cases h1
  | lo, n + 1, [], h => by cases (show List.range' lo (n + 1) = [] from h)
  | lo, n + 1, t :: ts, h => by
    obtain ⟨j, js, h1, ha, hb⟩ := h
    rw [List.range'_succ] at h1
    cases h1
    obtain ⟨l, g⟩ := mirrorsL_at hb
    refine ⟨by simp [l], fun j hj => ?_⟩
    cases j with
    | zero => exact ⟨t, rfl, ha⟩
    | succ j =>
      obtain ⟨u, hu, hm⟩ := g j (by omega)
      exact ⟨u, hu, by rw [show lo + (j + 1) = lo + 1 + j by omega]; exact hm⟩

theorem root_of_position {d : Doc} {span : Nat × Nat} {ts : List Tok} {j : Nat}
    (hm : MirrorsL norm d (List.range' span.1 (span.2 - span.1)) ts) (hj : RootAt d span j) :
    ∃ x, sentenceRoot ts = some x ∧ Mirrors norm d j x := by
  obtain ⟨h1, h2, ⟨s, hs, hd⟩, h4⟩ := hj
  obtain ⟨hl, g⟩ := mirrorsL_at hm
  obtain ⟨x, hx, hmx⟩ := g (j - span.1) (by omega)
  rw [show span.1 + (j - span.1) = j by omega] at hmx
  refine ⟨x, C53_root.mpr ⟨ts.take (j - span.1), ts.drop (j - span.1 + 1), ?_, (mirrors_dep hmx hs).trans hd, ?_⟩, hmx⟩
  · have hlt : j - span.1 < ts.length := by omega
    rw [List.getElem?_eq_getElem hlt] at hx
    cases hx
    rw [← List.drop_eq_getElem_cons hlt, List.take_append_drop]
  · intro y hy
    obtain ⟨i, hi, he⟩ := List.mem_iff_getElem.mp hy
    have hi' : i < j - span.1 := by
      rw [List.length_take] at hi; omega
    obtain ⟨u, hu, hmu⟩ := g i (by omega)
    rw [List.getElem_take] at he
    have hlt : i < ts.length := by omega
    rw [List.getElem?_eq_getElem hlt] at hu
    cases hu
    subst he
    have hex : ∃ s', d.toks[span.1 + i]? = some s' := by
      generalize ts[i] = w at hmu
      obtain ⟨info, l, r⟩ := w
      obtain ⟨s', hs', _⟩ := hmu
      exact ⟨s', hs'⟩
    obtain ⟨s', hs'⟩ := hex
    rw [mirrors_dep hmu hs']
    exact h4 _ s' (by omega) (by omega) hs'

theorem readText_run {d : Doc} (hd : d.Sound) (hr : ∀ span ∈ d.sents, ∃ j, RootAt d span j) :
    ∃ os : List (StageOut F), os.length = d.sents.length ∧
      (∀ p ∈ d.sents.zip os, ∃ j x v, RootAt d p.1 j ∧ Mirrors norm d j x ∧ p.2 = .edge v ∧ Extracts x v) ∧
      ∃ N, ∀ k, N ≤ k → ∀ tb, TableOk norm d tb → ∃ tb', readText norm pyStr k defaultStages d tb = .ok (os, tb') ∧
        TableOk norm d tb' ∧ Others d tb tb' := by
  obtain ⟨N1, g1⟩ := parseText_run (norm := norm) hd
  obtain ⟨sents, _, _, hp, _⟩ := g1 N1 (Nat.le_refl _) [] (fun _ _ h => by cases h)
  have hroots : ∀ p ∈ d.sents.zip sents, ∃ j x, RootAt d p.1 j ∧ sentenceRoot p.2 = some x ∧ Mirrors norm d j x := by
    intro p hpz
    obtain ⟨j, hj⟩ := hr p.1 (List.of_mem_zip hpz).1
    obtain ⟨x, hx, hmx⟩ := root_of_position (hp.2 p hpz) hj
    exact ⟨j, x, hj, hx, hmx⟩
  have hall : ∀ s ∈ sents, ∃ x, sentenceRoot s = some x := by
    intro s hs
    obtain ⟨i, hi, he⟩ := List.mem_iff_getElem.mp hs
    have hi' : i < d.sents.length := hp.1 ▸ hi
    obtain ⟨j, x, _, hx, _⟩ := hroots (d.sents[i], s) (by
      rw [List.mem_iff_getElem]
      exact ⟨i, by rw [List.length_zip]; omega, by simp [he]⟩)
    exact ⟨x, hx⟩
  obtain ⟨os, hl, ho, N2, g2⟩ := readSentences_default (F := F) (pyStr := pyStr) sents hall
  refine ⟨os, hl.trans hp.1, ?_, max N1 N2, fun k hk tb hok => ?_⟩
  · intro p hpz
    obtain ⟨i, hi, he⟩ := List.mem_iff_getElem.mp hpz
    rw [List.length_zip] at hi
    rw [List.getElem_zip] at he
    subst he
    have hi1 : i < d.sents.length := by omega
    have hi2 : i < os.length := by omega
    have hi3 : i < sents.length := by omega
    obtain ⟨j, x, h1, h2, h3⟩ := hroots (d.sents[i], sents[i]) (by
      rw [List.mem_iff_getElem]; exact ⟨i, by rw [List.length_zip]; omega, by simp⟩)
    obtain ⟨x', v, h4, h5, h6⟩ := ho (sents[i], os[i]) (by
      rw [List.mem_iff_getElem]; exact ⟨i, by rw [List.length_zip]; omega, by simp⟩)
    simp only at h2 h4
    rw [h2] at h4
    cases h4
    exact ⟨j, x, v, h1, h3, h5, h6⟩
  · obtain ⟨sents', tb', r, hp', ok', oth⟩ := g1 k (by omega) tb hok
    have := parsed_unique hp hp'
    subst this
    exact ⟨tb', by simp only [readText, r, g2 k (by omega), Except.map], ok', oth⟩

theorem readAll_run : (ds : List Doc) → (∀ d ∈ ds, d.Sound) → (∀ d ∈ ds, ∀ d' ∈ ds, d.key = d'.key → d = d') →
    (∀ d ∈ ds, ∀ span ∈ d.sents, ∃ j, RootAt d span j) →
    ∃ outs : List (List (StageOut F)), outs.length = ds.length ∧
      (∀ q ∈ ds.zip outs, q.2.length = q.1.sents.length ∧ ∀ p ∈ q.1.sents.zip q.2, ∃ j x v, RootAt q.1 p.1 j ∧
        Mirrors norm q.1 j x ∧ p.2 = .edge v ∧ Extracts x v) ∧
      ∃ N, ∀ k, N ≤ k → ∀ tb, (∀ d ∈ ds, TableOk norm d tb) → ∃ tb', readAll norm pyStr k defaultStages ds tb = .ok (outs, tb')
  | [], _, _, _ => ⟨[], rfl, by simp, 0, fun _ _ tb _ => ⟨tb, rfl⟩⟩
  | d :: ds, hs, hk, hr => by
    obtain ⟨os, hl, ho, N1, g1⟩ := readText_run (F := F) (norm := norm) (pyStr := pyStr) (hs d (by simp)) (hr d (by simp))
    obtain ⟨outs, hl2, ho2, N2, g2⟩ := readAll_run ds (fun d hd => hs d (by simp [hd]))
      (fun d hd d' hd' => hk d (by simp [hd]) d' (by simp [hd'])) (fun d hd => hr d (by simp [hd]))
    refine ⟨os :: outs, by simp [hl2], ?_, max N1 N2, fun k hk' tb hok => ?_⟩
    · intro q hq
      rw [List.zip_cons_cons] at hq
      rcases List.mem_cons.mp hq with rfl | hq
      · exact ⟨hl, ho⟩
      · exact ho2 q hq
    · obtain ⟨tb1, r1, ok1, o1⟩ := g1 k (by omega) tb (hok d (by simp))
      obtain ⟨tb2, r2⟩ := g2 k (by omega) tb1 (fun d' hd' i t ht => by
        by_cases he : d'.key = d.key
        · have := hk d' (by simp [hd']) d (by simp) he
          subst this
          exact ok1 i t ht
        · rw [o1 d'.key i he] at ht
          exact hok d' (by simp [hd']) i t ht)
      exact ⟨tb2, by simp only [readAll, r1, r2]⟩

/-- C61: one extractor with the default stages reads any texts one after the other, each of whose sentences has a root.
Every call returns one edge for each sentence, made of the words below the first root of the sentence, each once, except
punctuation, tokens without relation and what is below them, and perhaps without some articles. -/
theorem C61_read_text (ds : List Doc) (hs : ∀ d ∈ ds, d.Sound) (hk : ∀ d ∈ ds, ∀ d' ∈ ds, d.key = d'.key → d = d')
    (hr : ∀ d ∈ ds, ∀ span ∈ d.sents, ∃ j, RootAt d span j) :
    ∃ outs : List (List (StageOut F)), outs.length = ds.length ∧
      (∀ q ∈ ds.zip outs, q.2.length = q.1.sents.length ∧ ∀ p ∈ q.1.sents.zip q.2, ∃ j x v, RootAt q.1 p.1 j ∧
        Mirrors norm q.1 j x ∧ p.2 = .edge v ∧ Extracts x v) ∧
      ∃ N, ∀ k, N ≤ k → ∃ tb, readAll norm pyStr k defaultStages ds [] = .ok (outs, tb) := by
  obtain ⟨outs, h1, h2, N, g⟩ := readAll_run (F := F) (norm := norm) (pyStr := pyStr) ds hs hk hr
  exact ⟨outs, h1, h2, N, fun k hk => g k hk [] (fun _ _ _ _ h => by cases h)⟩

/-- C61: a sentence without root makes the whole call raise. -/
theorem C61_no_root {k : Nat} {names : List Str} {ss ss' : List (List Tok)} {s : List Tok} {os : List (StageOut F)}
    (h : ∀ y ∈ s, y.info.dep ≠ lit "ROOT") (hb : readSentences pyStr k (lit "alpha" :: names) ss = .ok os) :
    readSentences pyStr k (lit "alpha" :: names) (ss ++ s :: ss') = .error .attributeError := by
  induction ss generalizing os with
  | nil => simp only [List.nil_append, readSentences, C59_no_root h]
  | cons t ss ih =>
    simp only [List.cons_append, readSentences] at hb ⊢
    cases hr : (readSentence pyStr k (lit "alpha" :: names) t).result with
    | error e => rw [hr] at hb; cases hb
    | ok o =>
      rw [hr] at hb
      simp only at hb ⊢
      cases hx : readSentences pyStr k (lit "alpha" :: names) ss with
      | error e => rw [hx] at hb; cases hb
      | ok os' => rw [ih hx]

example : RootAt exDoc (0, 7) 2 := by
  refine ⟨by decide, by decide, ⟨_, rfl, rfl⟩, ?_⟩
  intro i s _ hi hs
  match i, hi, hs with
  | 0, _, hs => cases hs; decide +kernel
  | 1, _, hs => cases hs; decide +kernel

end GB
