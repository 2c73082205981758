import Verif.Proofs.ParserRun
import Verif.Spec.WitnessText

/-
Properties C51 and C52: tokens and the parser.
-/

namespace GB

variable {norm : Str → Str}

/-- The tokens of the text from `lo` to before `hi`. -/
def Doc.phrase (norm : Str → Str) (d : Doc) (lo hi : Nat) : List TokInfo :=
  ((d.toks.drop lo).take (hi - lo)).map (fun s => ⟨norm s.orth, s.lemma, s.pos, s.dep, some s.entType, false⟩)

theorem phrase_of {d : Doc} {lo n : Nat} {ts : List TokInfo}
    (h : ts.map some = (List.range' lo n).map (fun j => d.toks[j]?.map (SpacyTok.info norm))) :
    ts = ((d.toks.drop lo).take n).map (SpacyTok.info norm) := by
  induction n generalizing lo ts with
  | zero => simpa using h
  | succ n ih =>
    rw [List.range'_succ, List.map_cons] at h
    cases ts with
    | nil => cases h
    | cons t ts =>
      simp only [List.map_cons, List.cons.injEq] at h
      obtain ⟨h1, h2⟩ := h
      cases hs : d.toks[lo]? with
      | none => rw [hs] at h1; cases h1
      | some s =>
        rw [hs] at h1
        cases h1
        have hlt : lo < d.toks.length := by
          rw [List.getElem?_eq_some_iff] at hs; exact hs.1
        rw [List.drop_eq_getElem_cons hlt, List.take_succ_cons, List.map_cons, ← ih h2]
        rw [List.getElem?_eq_getElem hlt] at hs
        cases hs
        rfl

/-- C51: where a token is above a stretch of the text, `to_list` gives the tokens of that stretch in the order of the text. -/
theorem C51_to_list {d : Doc} {t : Tok} {i lo hi : Nat} (hm : Mirrors norm d i t) (ha : Above d i lo hi) :
    t.toList = d.phrase norm lo hi := phrase_of (toList_above t hm ha).2.2

/-- C51: and `chunk_str` gives its words that are neither punctuation nor space, with spaces in between. -/
theorem C51_chunk_str {d : Doc} {t : Tok} {i lo hi : Nat} (hm : Mirrors norm d i t) (ha : Above d i lo hi) :
    t.chunkStr = pyJoin (lit " ") (((d.phrase norm lo hi).filter
      (fun w => decide (w.pos ≠ lit "PUNCT") && decide (w.pos ≠ lit "SPACE"))).map TokInfo.word) := by
  have hsep : ∀ w ∈ d.phrase norm lo hi, w.separator = false := by
    intro w hw
    unfold Doc.phrase at hw
    rw [List.mem_map] at hw
    obtain ⟨_, _, rfl⟩ := hw
    rfl
  rw [Tok.chunkStr, Tok.toWordTokenList, C51_to_list hm ha]
  congr 2
  refine List.filter_congr (fun w hw => ?_)
  unfold TokInfo.isWord
  rw [hsep w hw]
  by_cases h1 : w.pos = lit "PUNCT" <;> by_cases h2 : w.pos = lit "SPACE" <;> simp [h1, h2]

/-- What the calls of `parse_text` on one parser return. -/
def parseAll (norm : Str → Str) (k : Nat) : List Doc → TokTable → Except PyErr (List (List (List Tok)) × TokTable)
  | [], tb => .ok ([], tb)
  | d :: ds, tb =>
    match parseText norm k d tb with
    | .error e => .error e
    | .ok (sents, tb1) =>
      match parseAll norm k ds tb1 with
      | .error e => .error e
      | .ok (outs, tb2) => .ok (sents :: outs, tb2)

theorem parseAll_run : (ds : List Doc) → (∀ d ∈ ds, d.Sound) → (∀ d ∈ ds, ∀ d' ∈ ds, d.key = d'.key → d = d') →
    ∃ N, ∀ k, N ≤ k → ∀ tb, (∀ d ∈ ds, TableOk norm d tb) → ∃ outs tb', parseAll norm k ds tb = .ok (outs, tb') ∧
      outs.length = ds.length ∧ ∀ p ∈ ds.zip outs, Parsed norm p.1 p.2
  | [], _, _ => ⟨0, fun _ _ tb _ => ⟨[], tb, rfl, rfl, by simp⟩⟩
  | d :: ds, hs, hk => by
    obtain ⟨N1, g1⟩ := parseText_run (norm := norm) (hs d (by simp))
    obtain ⟨N2, g2⟩ := parseAll_run ds (fun d hd => hs d (by simp [hd])) (fun d hd d' hd' => hk d (by simp [hd]) d' (by simp [hd']))
    refine ⟨max N1 N2, fun k hk' tb hok => ?_⟩
    obtain ⟨sents, tb1, r1, p1, ok1, o1⟩ := g1 k (by omega) tb (hok d (by simp))
    obtain ⟨outs, tb2, r2, l2, p2⟩ := g2 k (by omega) tb1 (fun d' hd' i t ht => by
      by_cases he : d'.key = d.key
      · have := hk d' (by simp [hd']) d (by simp) he
        subst this
        exact ok1 i t ht
      · rw [o1 d'.key i he] at ht
        exact hok d' (by simp [hd']) i t ht)
    refine ⟨sents :: outs, tb2, ?_, by simp [l2], ?_⟩
    · simp only [parseAll, r1, r2]
    · intro p hp
      rw [List.zip_cons_cons] at hp
      rcases List.mem_cons.mp hp with rfl | hp
      · exact p1
      · exact p2 p hp

/-- C52: whatever texts one parser reads, in any order and also several times, each call gives one list for each
sentence: copies of its tokens with all that is below them.  What was read before makes no difference. -/
theorem C52_parse_text (ds : List Doc) (hs : ∀ d ∈ ds, d.Sound) (hk : ∀ d ∈ ds, ∀ d' ∈ ds, d.key = d'.key → d = d') :
    ∃ N, ∀ k, N ≤ k → ∃ outs tb, parseAll norm k ds [] = .ok (outs, tb) ∧ outs.length = ds.length ∧
      ∀ p ∈ ds.zip outs, Parsed norm p.1 p.2 := by
  obtain ⟨N, g⟩ := parseAll_run (norm := norm) ds hs hk
  exact ⟨N, fun k hk => g k hk [] (fun _ _ _ _ h => by cases h)⟩

/-- C52: there is only one such copy. -/
theorem C52_copy_unique {d : Doc} {i : Nat} {t t' : Tok} (h : Mirrors norm d i t) (h' : Mirrors norm d i t') : t = t' :=
  mirrors_unique t h h'

/-! ### An example -/

/-- Lower case and no space around, for the example. -/
def exNorm (s : Str) : Str := if s = lit "Telmo " then lit "telmo" else s

example : Doc.Sound exDoc := by
  refine ⟨⟨fun i => [0, 0, 4, 3, 0, 2, 0].getD i 0, ?_⟩, by decide +kernel⟩
  intro i s hs
  have hi : i < 7 := by
    rw [List.getElem?_eq_some_iff] at hs; exact hs.1
  match i, hi, hs with
  | 0, _, hs => cases hs; decide +kernel
  | 1, _, hs => cases hs; decide +kernel
  | 2, _, hs => cases hs; decide +kernel
  | 3, _, hs => cases hs; decide +kernel
  | 4, _, hs => cases hs; decide +kernel
  | 5, _, hs => cases hs; decide +kernel
  | 6, _, hs => cases hs; decide +kernel

example : (parseText exNorm 9 exDoc []).map (fun p => p.1.map (fun ts => ts.map Tok.chunkStr)) = .ok [
    [lit "telmo", lit "is", lit "telmo is going to the gym", lit "to the gym", lit "the", lit "the gym", []]] := by
  decide +kernel

example : Above exDoc 2 0 7 := by
  have h0 : Above exDoc 0 0 1 := .mk _ _ _ _ rfl (.nil _) (.nil _)
  have h1 : Above exDoc 1 1 2 := .mk _ _ _ _ rfl (.nil _) (.nil _)
  have h4 : Above exDoc 4 4 5 := .mk _ _ _ _ rfl (.nil _) (.nil _)
  have h5 : Above exDoc 5 4 6 := .mk _ _ _ _ rfl (.cons _ _ _ 5 _ h4 (.nil _)) (.nil _)
  have h3 : Above exDoc 3 3 6 := .mk _ _ _ _ rfl (.nil _) (.cons _ _ _ 6 _ h5 (.nil _))
  have h6 : Above exDoc 6 6 7 := .mk _ _ _ _ rfl (.nil _) (.nil _)
  exact .mk _ _ _ _ rfl (.cons _ _ _ 1 _ h0 (.cons _ _ _ 2 _ h1 (.nil _))) (.cons _ _ _ 6 _ h3 (.cons _ _ _ 7 _ h6 (.nil _)))

example : exGoing.chunkStr = lit "telmo is going to the gym" := by decide +kernel

end GB
