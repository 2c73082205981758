import Verif.Model.Display
import Verif.Spec.WitnessText

/-
C64: what is shown of a parsed sentence.
-/

namespace GB

/-! ### Specification -/

mutual
/-- The tree as it should be shown: every token below its head, the left children first. -/
def shown : Tok → Str → Str × LabelDict
  | .mk i l r, pre => (lit "[" ++ pre ++ lit "]" ++ i.str, .mk (showns l (lit "L") ++ showns r (lit "R")))
/-- Several. -/
def showns : List Tok → Str → List (Str × LabelDict)
  | [], _ => []
  | t :: ts, pre => shown t pre :: showns ts pre
end

mutual
/-- No two children on the same side of a token are shown with the same text. -/
def Tok.Distinct : Tok → Prop
  | .mk _ l r => (l.map fun t => t.info.str).Nodup ∧ (r.map fun t => t.info.str).Nodup ∧ distinctL l ∧ distinctL r
/-- For several tokens. -/
def distinctL : List Tok → Prop
  | [] => True
  | t :: ts => t.Distinct ∧ distinctL ts
end

/-- The first occurrences. -/
def firsts : List Str → List Str
  | [] => []
  | x :: xs => x :: (firsts xs).filter (· ≠ x)

/-- These entries are the given ones with one entry for each key: in the order in which the keys come first, each with
its last value. -/
def Merged {α : Type} (given entries : List (Str × α)) : Prop :=
  entries.map Prod.fst = firsts (given.map Prod.fst) ∧
  ∀ k v, (k, v) ∈ entries ↔ ∃ a b, given = a ++ (k, v) :: b ∧ k ∉ b.map Prod.fst

/-! ### dictionaries -/

theorem mem_firsts {x : Str} {xs : List Str} : x ∈ firsts xs ↔ x ∈ xs := by
  induction xs with
  | nil => rfl
  | cons y ys ih =>
    rw [firsts, List.mem_cons, List.mem_cons, List.mem_filter, ih]
    by_cases h : x = y <;> simp [h]

theorem firsts_nodup (xs : List Str) : (firsts xs).Nodup := by
  induction xs with
  | nil => exact .nil
  | cons y ys ih => exact List.nodup_cons.2 ⟨by simp [List.mem_filter], ih.filter _⟩

theorem firsts_snoc (xs : List Str) (x : Str) : firsts (xs ++ [x]) = if x ∈ xs then firsts xs else firsts xs ++ [x] := by
  induction xs with
  | nil => rfl
  | cons y ys ih =>
    rw [List.cons_append, firsts, ih, firsts]
    by_cases hxy : x = y
    · subst hxy
      simp only [List.mem_cons_self, reduceIte]
      split
      · rfl
      · simp
    · by_cases hm : x ∈ ys
      · simp [hm]
      · simp [hm, hxy]

theorem dictSet_new {α : Type} {k : Str} {v : α} {es : List (Str × α)} (h : k ∉ es.map Prod.fst) :
    dictSet k v es = es ++ [(k, v)] := by
  induction es with
  | nil => rfl
  | cons e es ih =>
    obtain ⟨k', v'⟩ := e
    simp only [List.map_cons, List.mem_cons, not_or] at h
    rw [dictSet, if_neg (fun e => h.1 e.symm), ih h.2]
    rfl

theorem dictSet_keys {α : Type} (k : Str) (v : α) (es : List (Str × α)) :
    (dictSet k v es).map Prod.fst = if k ∈ es.map Prod.fst then es.map Prod.fst else es.map Prod.fst ++ [k] := by
  by_cases h : k ∈ es.map Prod.fst
  · rw [if_pos h]
    induction es with
    | nil => simp at h
    | cons e es ih =>
      obtain ⟨k', v'⟩ := e
      rw [dictSet]
      split
      · rfl
      · rename_i hne
        simp only [List.map_cons, List.mem_cons] at h ⊢
        rw [ih (h.resolve_left fun e => hne e.symm)]
  · rw [if_neg h, dictSet_new h]; simp

theorem foldDict_new {α : Type} (ps es : List (Str × α)) (h : (es ++ ps).map Prod.fst |>.Nodup) :
    ps.foldl (fun d p => dictSet p.1 p.2 d) es = es ++ ps := by
  induction ps generalizing es with
  | nil => simp
  | cons p ps ih =>
    have hn : p.1 ∉ es.map Prod.fst := by
      intro hm
      rw [List.map_append, List.map_cons, List.nodup_append] at h
      exact h.2.2 p.1 hm p.1 (by simp) rfl
    rw [List.foldl_cons, dictSet_new hn, ih]
    · simp
    · simpa using h

theorem orderedDict_nodup {α : Type} (ps : List (Str × α)) (h : (ps.map Prod.fst).Nodup) : orderedDict ps = ps := by
  have := foldDict_new ps [] (by simpa using h)
  rwa [List.nil_append] at this

theorem mem_dictSet {α : Type} {k k' : Str} {v v' : α} {es : List (Str × α)} (hn : (es.map Prod.fst).Nodup) :
    (k', v') ∈ dictSet k v es ↔ (k' = k ∧ v' = v) ∨ (k' ≠ k ∧ (k', v') ∈ es) := by
  induction es with
  | nil => simp only [dictSet, List.mem_singleton, Prod.mk.injEq, List.not_mem_nil, and_false, or_false]
  | cons e es ih =>
    obtain ⟨k1, v1⟩ := e
    rw [List.map_cons, List.nodup_cons] at hn
    rw [dictSet]
    split
    · rename_i h
      subst h
      simp only [List.mem_cons, Prod.mk.injEq]
      constructor
      · rintro (h | h)
        · exact .inl h
        · exact .inr ⟨fun e => hn.1 (List.mem_map.2 ⟨_, h, e⟩), .inr h⟩
      · rintro (h | ⟨h1, h | h⟩)
        · exact .inl h
        · exact absurd h.1 h1
        · exact .inr h
    · rename_i h
      simp only [List.mem_cons, Prod.mk.injEq, ih hn.2]
      constructor
      · rintro (⟨rfl, rfl⟩ | h' | h')
        · exact .inr ⟨h, .inl ⟨rfl, rfl⟩⟩
        · exact .inl h'
        · exact .inr ⟨h'.1, .inr h'.2⟩
      · rintro (h' | ⟨h', h'' | h''⟩)
        · exact .inr (.inl h')
        · exact .inl h''
        · exact .inr (.inr ⟨h', h''⟩)

theorem orderedDict_snoc {α : Type} (ps : List (Str × α)) (p : Str × α) :
    orderedDict (ps ++ [p]) = dictSet p.1 p.2 (orderedDict ps) := by
  unfold orderedDict
  rw [List.foldl_append]; rfl

theorem snocInd {α : Type} {P : List α → Prop} (h0 : P []) (h1 : ∀ xs x, P xs → P (xs ++ [x])) (xs : List α) : P xs := by
  rw [← List.reverse_reverse xs]
  induction xs.reverse with
  | nil => exact h0
  | cons x l ih => rw [List.reverse_cons]; exact h1 _ _ ih

theorem orderedDict_merged {α : Type} (ps : List (Str × α)) : Merged ps (orderedDict ps) := by
  induction ps using snocInd with
  | h0 =>
    refine ⟨rfl, fun k v => ⟨fun h => by simp [orderedDict] at h, ?_⟩⟩
    rintro ⟨a, b, h, _⟩
    simp at h
  | h1 ps p ih =>
    obtain ⟨i1, i2⟩ := ih
    have hnd : ((orderedDict ps).map Prod.fst).Nodup := by rw [i1]; exact firsts_nodup _
    rw [orderedDict_snoc]
    refine ⟨?_, fun k v => ?_⟩
    · rw [dictSet_keys, i1, List.map_append, List.map_cons, List.map_nil, firsts_snoc]
      simp only [mem_firsts]
    · rw [mem_dictSet hnd, i2]
      constructor
      · rintro (⟨rfl, rfl⟩ | ⟨hne, a, b, rfl, hb⟩)
        · exact ⟨ps, [], rfl, by simp⟩
        · exact ⟨a, b ++ [p], by simp, by simpa [hb] using hne⟩
      · rintro ⟨a, b, h, hb⟩
        rcases List.eq_nil_or_concat b with rfl | ⟨b', q, rfl⟩
        · have := List.append_inj' h rfl
          obtain ⟨_, h2⟩ := this
          cases h2
          exact .inl ⟨rfl, rfl⟩
        · rw [List.concat_eq_append] at h hb
          have h' : ps ++ [p] = (a ++ (k, v) :: b') ++ [q] := by rw [h]; simp
          obtain ⟨h1, h2⟩ := List.append_inj' h' rfl
          cases h2
          simp only [List.map_append, List.map_cons, List.map_nil, List.mem_append, List.mem_singleton, not_or] at hb
          exact .inr ⟨hb.2, a, b', h1, hb.1⟩

/-! ### labels -/

theorem token2labelTree_fst (t : Tok) (pre : Str) : (token2labelTree t pre).1 = lit "[" ++ pre ++ lit "]" ++ t.info.str := by
  cases t; rfl

theorem tokens2labelTrees_fst (ts : List Tok) (pre : Str) :
    (tokens2labelTrees ts pre).map Prod.fst = ts.map fun t => lit "[" ++ pre ++ lit "]" ++ t.info.str := by
  induction ts with
  | nil => rfl
  | cons t ts ih => rw [tokens2labelTrees, List.map_cons, ih, token2labelTree_fst]; rfl

theorem sides_nodup {l r : List Tok} (hl : (l.map fun t => t.info.str).Nodup) (hr : (r.map fun t => t.info.str).Nodup) :
    ((tokens2labelTrees l (lit "L") ++ tokens2labelTrees r (lit "R")).map Prod.fst).Nodup := by
  rw [List.map_append, tokens2labelTrees_fst, tokens2labelTrees_fst, List.nodup_append]
  refine ⟨?_, ?_, ?_⟩
  · have : (fun t : Tok => lit "[" ++ lit "L" ++ lit "]" ++ t.info.str) = (fun s => lit "[" ++ lit "L" ++ lit "]" ++ s) ∘ fun t => t.info.str := rfl
    rw [this, ← List.map_map]
    exact List.Pairwise.map _ (fun a b h e => h (List.append_cancel_left e)) hl
  · have : (fun t : Tok => lit "[" ++ lit "R" ++ lit "]" ++ t.info.str) = (fun s => lit "[" ++ lit "R" ++ lit "]" ++ s) ∘ fun t => t.info.str := rfl
    rw [this, ← List.map_map]
    exact List.Pairwise.map _ (fun a b h e => h (List.append_cancel_left e)) hr
  · intro a ha b hb e
    obtain ⟨x, _, rfl⟩ := List.mem_map.1 ha
    obtain ⟨y, _, rfl⟩ := List.mem_map.1 hb
    have : some 'L' = some 'R' := congrArg (fun s : Str => s[1]?) e
    exact absurd this (by decide)

mutual
theorem token2labelTree_shown (t : Tok) (h : t.Distinct) (pre : Str) : token2labelTree t pre = shown t pre := by
  cases t with
  | mk i l r =>
    obtain ⟨h1, h2, h3, h4⟩ := h
    rw [token2labelTree, orderedDict_nodup _ (sides_nodup h1 h2), shown, tokens2labelTrees_shown l h3, tokens2labelTrees_shown r h4]
    rfl
theorem tokens2labelTrees_shown (ts : List Tok) (h : distinctL ts) (pre : Str) : tokens2labelTrees ts pre = showns ts pre := by
  cases ts with
  | nil => rfl
  | cons t ts =>
    rw [tokens2labelTrees, showns, token2labelTree_shown t h.1, tokens2labelTrees_shown ts h.2]
end

/-! ### C64 -/

/-- C64: the tree shown for a sentence starts with its root, and below each token are the trees of its left children, then
those of its right children.  Children on the same side that look the same are merged: one entry, in the place of the
first, with what is below the last. -/
theorem C64_merged (i : TokInfo) (l r : List Tok) (pre : Str) :
    ∃ es, token2labelTree (.mk i l r) pre = (lit "[" ++ pre ++ lit "]" ++ i.str, .mk es) ∧
      Merged (l.map (fun t => token2labelTree t (lit "L")) ++ r.map (fun t => token2labelTree t (lit "R"))) es := by
  have h : ∀ (ts : List Tok) pre, tokens2labelTrees ts pre = ts.map (fun t => token2labelTree t pre) := by
    intro ts pre
    induction ts with
    | nil => rfl
    | cons t ts ih => rw [tokens2labelTrees, ih]; rfl
  rw [token2labelTree, h, h]
  exact ⟨_, rfl, orderedDict_merged _⟩

/-- C64: so it has every token, if no two siblings on the same side look the same. -/
theorem C64_tree {s : List Tok} {x : Tok} (hroot : sentenceRoot s = some x) (hd : x.Distinct) :
    labelTree s = .mk [shown x (lit "*")] := by
  unfold labelTree
  rw [hroot]
  simp only [token2labelTree_shown x hd]

/-- C64: otherwise tokens are missing: some token has fewer entries below it than children. -/
theorem C64_missing (i : TokInfo) (l r : List Tok) (pre : Str)
    (h : ¬ (l.map fun t => t.info.str).Nodup ∨ ¬ (r.map fun t => t.info.str).Nodup) :
    (token2labelTree (.mk i l r) pre).2.entries.length < l.length + r.length := by
  obtain ⟨es, e, hm, _⟩ := C64_merged i l r pre
  rw [e]
  show es.length < _
  have fle : ∀ xs : List Str, (firsts xs).length ≤ xs.length ∧ (¬ xs.Nodup → (firsts xs).length < xs.length) := by
    intro xs
    induction xs with
    | nil => simp [firsts]
    | cons x xs ih =>
      have hf := List.length_filter_le (· ≠ x) (firsts xs)
      refine ⟨by simp only [firsts, List.length_cons]; omega, fun hn => ?_⟩
      simp only [firsts, List.length_cons]
      by_cases hx : x ∈ xs
      · have : ((firsts xs).filter (· ≠ x)).length < (firsts xs).length := by
          have := List.length_filter_lt_length_iff_exists (p := fun y => decide (y ≠ x)) (l := firsts xs)
          exact this.2 ⟨x, mem_firsts.2 hx, by simp⟩
        omega
      · have := ih.2 (fun h => hn (List.nodup_cons.2 ⟨hx, h⟩))
        omega
  have hl := congrArg List.length hm
  rw [List.length_map] at hl
  rw [hl]
  have hlen : ((l.map (fun t => token2labelTree t (lit "L")) ++ r.map (fun t => token2labelTree t (lit "R"))).map Prod.fst).length
      = l.length + r.length := by simp
  rw [← hlen]
  refine (fle _).2 fun hn => ?_
  rw [List.map_append, List.map_map, List.map_map, List.nodup_append] at hn
  have key : ∀ (ts : List Tok) (p : Str), (ts.map (Prod.fst ∘ fun t => token2labelTree t p)).Nodup → (ts.map fun t => t.info.str).Nodup := by
    intro ts p h
    have : (Prod.fst ∘ fun t : Tok => token2labelTree t p) = (fun s => lit "[" ++ p ++ lit "]" ++ s) ∘ fun t => t.info.str := by
      funext t; exact token2labelTree_fst t p
    rw [this, ← List.map_map] at h
    exact List.Pairwise.of_map _ (fun a b hab e => hab (by rw [e])) h
  rcases h with h | h
  · exact h (key l _ hn.1)
  · exact h (key r _ hn.2.1)

/-- C64: a sentence without root shows nothing. -/
theorem C64_no_root {s : List Tok} (h : ∀ y ∈ s, y.info.dep ≠ lit "ROOT") : labelTree s = .mk [] := by
  have : sentenceRoot s = none := by
    induction s with
    | nil => rfl
    | cons t ts ih =>
      rw [sentenceRoot, if_neg (h t (by simp)), ih (fun y hy => h y (List.mem_cons_of_mem _ hy))]
  unfold labelTree
  rw [this]

theorem dropWhile_head {p : Char → Bool} (s : Str) : ∀ c, (s.dropWhile p).head? = some c → p c = false := by
  induction s with
  | nil => simp
  | cons x s ih =>
    intro c h
    by_cases hx : p x = true
    · rw [List.dropWhile_cons_of_pos hx] at h; exact ih c h
    · rw [List.dropWhile_cons_of_neg hx] at h
      simp only [List.head?_cons, Option.some.injEq] at h
      rw [← h]; simpa using hx

theorem dropWhile_same {p : Char → Bool} {s : Str} (h : ∀ c, s.head? = some c → p c = false) : s.dropWhile p = s := by
  cases s with
  | nil => rfl
  | cons c s => rw [List.dropWhile_cons_of_neg (by simp [h c rfl])]

theorem dropWhile_suffix' {p : Char → Bool} (s : Str) : ∃ a, s = a ++ s.dropWhile p :=
  ⟨s.takeWhile p, (List.takeWhile_append_dropWhile).symm⟩

theorem pyStrip_twice (s : Str) : pyStrip (pyStrip s) = pyStrip s := by
  have h1 : (pyStrip s).dropWhile isSpace = pyStrip s := by
    apply dropWhile_same
    intro c hc
    obtain ⟨a, ha⟩ := dropWhile_suffix' (p := isSpace) (s.dropWhile isSpace).reverse
    have e : s.dropWhile isSpace = pyStrip s ++ a.reverse := by
      have := congrArg List.reverse ha
      simpa [pyStrip] using this
    apply dropWhile_head (p := isSpace) s
    rw [e]
    cases hp : pyStrip s with
    | nil => rw [hp] at hc; simp at hc
    | cons x xs => rw [hp] at hc; simpa using hc
  have h2 : (pyStrip s).reverse.dropWhile isSpace = (pyStrip s).reverse := by
    apply dropWhile_same
    unfold pyStrip
    rw [List.reverse_reverse]
    exact dropWhile_head _
  rw [pyStrip, h1, h2, List.reverse_reverse]

/-- C64: the text of a sentence is its words with single spaces between them (the parser gives words without white space
around them). -/
theorem C64_text {s : List Tok} (h : ∀ t ∈ s, ∃ w, t.info.word = pyStrip w) :
    sentenceStr s = pyJoin (lit " ") (s.map fun t => t.info.word) := by
  unfold sentenceStr
  congr 1
  refine List.map_congr_left fun t ht => ?_
  obtain ⟨w, hw⟩ := h t ht
  rw [hw, pyStrip_twice]

/-! ### Examples -/

example : sentenceStr exSentence = lit "telmo is going" := by decide +kernel
example : ∀ t ∈ exSentence, ∃ w, t.info.word = pyStrip w := by
  intro t ht
  refine ⟨t.info.word, ?_⟩
  have : ∀ t ∈ exSentence, t.info.word = pyStrip t.info.word := by decide +kernel
  exact this t ht

example : exGoing.Distinct := by
  simp only [exGoing, Tok.Distinct, distinctL]
  decide +kernel

/-- "the the": the second article hides the first. -/
example (t : Tok) : ¬ (([t, t] : List Tok).map fun t => t.info.str).Nodup := by simp

end GB
