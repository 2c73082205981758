import Verif.Model.WikiDump
import Verif.Spec.WikiDump

/-
C63: the filter for dumps of MediaWiki.
-/

namespace GB

theorem reFound_iff (p s : Str) : reFound p s = true ↔ p <:+: s := by
  induction s with
  | nil => simp [reFound, List.infix_nil]
  | cons c s ih =>
    rw [reFound, Bool.or_eq_true, ih, List.isPrefixOf_iff_prefix, List.infix_cons_iff]

theorem titleRest_sound {s t : Str} (h : titleRest s = some t) : ∃ b, s = t ++ lit "</title>" ++ b ∧ '\n' ∉ t := by
  induction s generalizing t with
  | nil => simp [titleRest] at h
  | cons c s ih =>
    rw [titleRest] at h
    by_cases hc : c = '\n'
    · simp only [hc, reduceIte] at h
      rw [hc] 
      split at h
      · rename_i hp
        obtain rfl : [] = t := by simpa using h
        obtain ⟨b, hb⟩ := List.isPrefixOf_iff_prefix.1 hp
        exact ⟨b, by simpa using hb.symm, by simp⟩
      · cases h
    · rw [if_neg hc] at h
      cases hr : titleRest s with
      | some u =>
        rw [hr] at h
        obtain rfl : c :: u = t := by simpa using h
        obtain ⟨b, hb, hn⟩ := ih hr
        refine ⟨b, by rw [hb]; simp, ?_⟩
        simp only [List.mem_cons, not_or]
        exact ⟨fun h => hc h.symm, hn⟩
      | none =>
        rw [hr] at h
        simp only [Option.map_none] at h
        split at h
        · rename_i hp
          obtain rfl : [] = t := by simpa using h
          obtain ⟨b, hb⟩ := List.isPrefixOf_iff_prefix.1 hp
          exact ⟨b, by simpa using hb.symm, by simp⟩
        · cases h

theorem titleRest_long {s u b : Str} (hs : s = u ++ lit "</title>" ++ b) (hu : '\n' ∉ u) :
    ∃ t, titleRest s = some t ∧ u.length ≤ t.length := by
  induction u generalizing s with
  | nil =>
    have hp : (lit "</title>").isPrefixOf s = true := List.isPrefixOf_iff_prefix.2 ⟨b, by simpa using hs.symm⟩
    cases s with
    | nil => exact absurd hp (by decide)
    | cons c s =>
      rw [titleRest]
      split
      · exact ⟨_, rfl, Nat.zero_le _⟩
      · rw [if_pos hp]; exact ⟨_, rfl, Nat.zero_le _⟩
  | cons c u ih =>
    subst hs
    obtain ⟨t, ht, hl⟩ := ih (s := u ++ lit "</title>" ++ b) rfl (fun h => hu (List.mem_cons_of_mem _ h))
    have hc : c ≠ '\n' := fun h => hu (by simp [h])
    refine ⟨c :: t, ?_, by simp only [List.length_cons]; omega⟩
    show titleRest (c :: (u ++ lit "</title>" ++ b)) = _
    rw [titleRest]
    simp only [if_neg hc, ht, Option.map_some]

/-- The part of `titleSearch` that looks at the start only. -/
def titleHere (s : Str) : Option Str := if (lit "<title>").isPrefixOf s then titleRest (s.drop 7) else none

theorem titleSearch_cons (c : Char) (s : Str) : titleSearch (c :: s) = match titleHere (c :: s) with
    | some t => some t
    | none => titleSearch s := rfl

theorem titleHere_some {s t : Str} (h : titleHere s = some t) : (∃ b, TitleAt s [] t b) ∧
    ∀ t' b', TitleAt s [] t' b' → t'.length ≤ t.length := by
  unfold titleHere at h
  split at h
  · rename_i hp
    obtain ⟨r, rfl⟩ := List.isPrefixOf_iff_prefix.1 hp
    have hd : (lit "<title>" ++ r).drop 7 = r := List.drop_left (l₁ := lit "<title>")
    rw [hd] at h
    obtain ⟨b, hb, hn⟩ := titleRest_sound h
    refine ⟨⟨b, by simp [hb], hn⟩, fun t' b' h' => ?_⟩
    have e : r = t' ++ lit "</title>" ++ b' := by
      have := h'.1
      rw [List.nil_append, List.append_assoc, List.append_assoc] at this
      rw [List.append_cancel_left this, List.append_assoc]
    obtain ⟨u, hu, hl⟩ := titleRest_long e h'.2
    rw [h] at hu
    cases hu
    exact hl
  · cases h

theorem titleHere_none {s : Str} (h : titleHere s = none) : ∀ t b, ¬ TitleAt s [] t b := by
  rintro t b ⟨rfl, hn⟩
  unfold titleHere at h
  have hp : (lit "<title>").isPrefixOf ([] ++ lit "<title>" ++ t ++ lit "</title>" ++ b) = true :=
    List.isPrefixOf_iff_prefix.2 ⟨t ++ lit "</title>" ++ b, by simp⟩
  rw [if_pos hp] at h
  have hd : ([] ++ lit "<title>" ++ t ++ lit "</title>" ++ b).drop 7 = t ++ lit "</title>" ++ b := by
    rw [List.nil_append, List.append_assoc, List.append_assoc]
    rw [List.append_assoc]
    exact List.drop_left (l₁ := lit "<title>")
  rw [hd] at h
  obtain ⟨u, hu, _⟩ := titleRest_long rfl hn
  rw [h] at hu
  cases hu

theorem titleAt_cons {c x : Char} {s a t b : Str} : TitleAt (c :: s) (x :: a) t b ↔ c = x ∧ TitleAt s a t b := by
  unfold TitleAt
  simp only [List.cons_append, List.cons.injEq, and_assoc]

theorem titleAt_nil {a t b : Str} : ¬ TitleAt [] a t b := by
  intro h
  have := congrArg List.length h.1
  simp only [List.length_append, List.length_nil] at this
  have h7 : (lit "<title>").length = 7 := rfl
  omega

theorem titleSearch_spec (s : Str) : (titleSearch s = none ∧ NoTitle s) ∨ ∃ t, titleSearch s = some t ∧ HasTitle s t := by
  induction s with
  | nil => exact .inl ⟨rfl, fun _ _ _ => titleAt_nil⟩
  | cons c s ih =>
    rw [titleSearch_cons]
    cases hh : titleHere (c :: s) with
    | some t =>
      obtain ⟨⟨b, hb⟩, hm⟩ := titleHere_some hh
      refine .inr ⟨t, rfl, [], b, hb, fun a' t' b' h' => ?_⟩
      cases a' with
      | nil => exact .inr ⟨rfl, hm t' b' h'⟩
      | cons x a' => exact .inl (by simp)
    | none =>
      have hn := titleHere_none hh
      rcases ih with ⟨h1, h2⟩ | ⟨t, h1, a, b, h2, h3⟩
      · refine .inl ⟨h1, fun a t b h => ?_⟩
        cases a with
        | nil => exact hn t b h
        | cons x a => exact h2 a t b (titleAt_cons.1 h).2
      · refine .inr ⟨t, h1, c :: a, b, titleAt_cons.2 ⟨rfl, h2⟩, fun a' t' b' h' => ?_⟩
        cases a' with
        | nil => exact absurd h' (hn t' b')
        | cons x a' =>
          obtain ⟨rfl, h''⟩ := titleAt_cons.1 h'
          rcases h3 a' t' b' h'' with h | ⟨rfl, h⟩
          · exact .inl (by simpa using h)
          · exact .inr ⟨rfl, h⟩

theorem hasTitle_unique {s t t' : Str} (h : HasTitle s t) (h' : HasTitle s t') : t = t' := by
  obtain ⟨a, b, h1, h2⟩ := h
  obtain ⟨a', b', h1', h2'⟩ := h'
  have e1 := h2 a' t' b' h1'
  have e2 := h2' a t b h1
  have ha : a = a' := by
    rcases e1 with h | ⟨h, _⟩
    · rcases e2 with h' | ⟨h', _⟩
      · omega
      · exact h'
    · exact h.symm
  subst ha
  have hl : t.length = t'.length := by
    rcases e1 with h | ⟨_, h⟩
    · omega
    · rcases e2 with h' | ⟨_, h'⟩ <;> omega
  have := h1.1.symm.trans h1'.1
  simp only [List.append_assoc] at this
  have := List.append_cancel_left (List.append_cancel_left this)
  exact (List.append_inj this hl).1

theorem titleSearch_some {s t : Str} (h : HasTitle s t) : titleSearch s = some t := by
  rcases titleSearch_spec s with ⟨_, h2⟩ | ⟨t', h1, h2⟩
  · obtain ⟨a, b, hb, _⟩ := h
    exact absurd hb (h2 _ _ _)
  · rw [h1, hasTitle_unique h h2]

theorem titleSearch_none {s : Str} (h : NoTitle s) : titleSearch s = none := by
  rcases titleSearch_spec s with ⟨h1, _⟩ | ⟨t', _, a, b, h2, _⟩
  · exact h1
  · exact absurd h2 (h _ _ _)

/-! ### lines -/

theorem fileLines_flatten (s : Str) : (fileLines s).flatten = s := by
  induction s with
  | nil => rfl
  | cons c s ih =>
    rw [fileLines]
    split
    · simp [ih]
    · split
      · rename_i h; rw [h] at ih; simp only [List.flatten_nil] at ih; simp [← ih]
      · rename_i h; rw [h] at ih; simp only [List.flatten_cons] at ih; simp [← ih]

theorem fileLines_line {l : Str} (hl : IsLine l) (s : Str) : fileLines (l ++ s) = l :: fileLines s := by
  obtain ⟨r, rfl, hr⟩ := hl
  induction r with
  | nil => simp [fileLines]
  | cons c r ih =>
    have hc : c ≠ '\n' := fun h => hr (by simp [h])
    show fileLines (c :: (r ++ ['\n'] ++ s)) = _
    rw [fileLines, if_neg hc, ih (fun h => hr (List.mem_cons_of_mem _ h))]
    rfl

theorem fileLines_lines {ls : List Str} (h : ∀ l ∈ ls, IsLine l) (s : Str) :
    fileLines (ls.flatten ++ s) = ls ++ fileLines s := by
  induction ls with
  | nil => rfl
  | cons l ls ih =>
    rw [List.flatten_cons, List.append_assoc, fileLines_line (h l (by simp)), ih (fun x hx => h x (List.mem_cons_of_mem _ hx))]
    rfl

/-! ### the loop -/

theorem wikiLoop_plain {ls : List Str} (h : ∀ l ∈ ls, ¬ lit "<page>" <:+: l) (b : Str) (rest : List Str) :
    wikiLoop .pageSearch b (ls ++ rest) = ls.flatten ++ wikiLoop .pageSearch b rest := by
  induction ls with
  | nil => rfl
  | cons l ls ih =>
    have hl : ¬ reFound (lit "<page>") l = true := by rw [reFound_iff]; exact h l (by simp)
    show wikiLoop .pageSearch b (l :: (ls ++ rest)) = _
    rw [wikiLoop, if_neg hl, ih (fun x hx => h x (List.mem_cons_of_mem _ hx))]
    simp

theorem wikiLoop_head {ls : List Str} (h : ∀ l ∈ ls, NoTitle l) (b : Str) (rest : List Str) :
    wikiLoop .titleSearch b (ls ++ rest) = wikiLoop .titleSearch (b ++ ls.flatten) rest := by
  induction ls generalizing b with
  | nil => simp
  | cons l ls ih =>
    show wikiLoop .titleSearch b (l :: (ls ++ rest)) = _
    rw [wikiLoop, titleSearch_none (h l (by simp))]
    simp only
    rw [ih (fun x hx => h x (List.mem_cons_of_mem _ hx))]
    simp

theorem wikiLoop_drop {ls : List Str} (h : ∀ l ∈ ls, ¬ lit "</page>" <:+: l) (b : Str) (rest : List Str) :
    wikiLoop .closePageSearch b (ls ++ rest) = wikiLoop .closePageSearch b rest := by
  induction ls with
  | nil => rfl
  | cons l ls ih =>
    have hl : ¬ reFound (lit "</page>") l = true := by rw [reFound_iff]; exact h l (by simp)
    show wikiLoop .closePageSearch b (l :: (ls ++ rest)) = _
    rw [wikiLoop, if_neg hl, ih (fun x hx => h x (List.mem_cons_of_mem _ hx))]

/-- The buffer is not used while looking for a page. -/
theorem wikiLoop_buffer (b b' : Str) (ls : List Str) :
    wikiLoop .pageSearch b ls = wikiLoop .pageSearch b' ls ∧ wikiLoop .closePageSearch b ls = wikiLoop .closePageSearch b' ls := by
  induction ls with
  | nil => exact ⟨rfl, rfl⟩
  | cons l ls ih =>
    constructor
    · rw [wikiLoop, wikiLoop, ih.1]
    · rw [wikiLoop, wikiLoop, ih.1, ih.2]

theorem wikiLoop_page {p : WikiPage} (hp : p.Ok) (b : Str) (rest : List Str) :
    wikiLoop .pageSearch b (p.lines ++ rest) =
      (if p.title.contains ':' then [] else p.lines.flatten) ++ wikiLoop .pageSearch [] rest := by
  have hf : reFound (lit "<page>") p.first = true := (reFound_iff _ _).2 hp.first
  have e : p.lines ++ rest = p.first :: (p.head ++ p.titleLine :: (p.body ++ p.last :: rest)) := by
    simp [WikiPage.lines]
  rw [e, wikiLoop, if_pos hf, wikiLoop_head hp.head, wikiLoop, titleSearch_some hp.title]
  simp only
  by_cases hc : p.title.contains ':' = true
  · have hl : reFound (lit "</page>") p.last = true := (reFound_iff _ _).2 hp.last
    rw [if_neg (by simp [checkTitle]; simpa using hc), if_pos hc, List.nil_append]
    rw [wikiLoop_drop (fun l hl => (hp.body l hl).1), wikiLoop, if_pos hl]
  · have hc' : p.title.contains ':' = false := by simpa using hc
    rw [if_pos (by rw [checkTitle, hc']; rfl), if_neg hc]
    have e2 : p.body ++ p.last :: rest = (p.body ++ [p.last]) ++ rest := by simp
    rw [e2, wikiLoop_plain]
    · simp [WikiPage.lines]
    · intro l hl
      rcases List.mem_append.1 hl with h | h
      · exact (hp.body l h).2
      · rw [List.mem_singleton.1 h]; exact hp.lastNew

theorem wikiLoop_dump {d : List WikiItem} (hd : ∀ i ∈ d, i.Ok) (b : Str) (rest : List Str) :
    wikiLoop .pageSearch b ((d.map WikiItem.lines).flatten ++ rest) =
      dumpText (d.filter WikiItem.Wanted) ++ wikiLoop .pageSearch [] rest := by
  induction d generalizing b with
  | nil => exact (wikiLoop_buffer b [] rest).1
  | cons i d ih =>
    have ih := ih (fun x hx => hd x (List.mem_cons_of_mem _ hx))
    have hi := hd i (by simp)
    rw [List.map_cons, List.flatten_cons, List.append_assoc]
    cases i with
    | line l =>
      rw [show (WikiItem.line l).lines = [l] from rfl, wikiLoop_plain (by simpa using hi.2), ih]
      simp [dumpText, List.filter, WikiItem.Wanted, WikiItem.lines]
    | page p =>
      rw [show (WikiItem.page p).lines = p.lines from rfl, wikiLoop_page hi, ih]
      cases hc : p.title.contains ':'
      · have hw : (WikiItem.page p).Wanted = true := by simp only [WikiItem.Wanted, hc]; rfl
        rw [List.filter_cons_of_pos hw]
        simp only [dumpText, List.map_cons, List.flatten_cons, List.append_assoc, Bool.false_eq_true, reduceIte]
        rfl
      · have hw : ¬ (WikiItem.page p).Wanted = true := by simp only [WikiItem.Wanted, hc]; decide
        rw [List.filter_cons_of_neg hw]
        simp

theorem WikiItem.isLine {i : WikiItem} (h : i.Ok) : ∀ l ∈ i.lines, IsLine l := by
  cases i with
  | line l => intro x hx; rw [List.mem_singleton.1 hx]; exact h.1
  | page p => exact h.isLine

theorem dumpText_lines {d : List WikiItem} (hd : ∀ i ∈ d, i.Ok) (tail : Str) :
    fileLines (dumpText d ++ tail) = (d.map WikiItem.lines).flatten ++ fileLines tail := by
  have : dumpText d = ((d.map WikiItem.lines).flatten).flatten := by
    unfold dumpText
    rw [List.flatten_flatten, List.map_map]; rfl
  rw [this, fileLines_lines]
  intro l hl
  obtain ⟨ls, h1, h2⟩ := List.mem_flatten.1 hl
  obtain ⟨i, hi, rfl⟩ := List.mem_map.1 h1
  exact WikiItem.isLine (hd i hi) l h2

/-! ### C63 -/

/-- C63: from every dump, the filter removes exactly the pages that have a colon in the title. -/
theorem C63_filter (d : List WikiItem) (hd : ∀ i ∈ d, i.Ok) : wikiMain (dumpText d) = dumpText (d.filter WikiItem.Wanted) := by
  have := dumpText_lines hd []
  simp only [List.append_nil] at this
  unfold wikiMain
  rw [this, wikiLoop_dump hd]
  exact List.append_nil _

/-- C63: at the end of a dump that was cut off before a title, that page is lost, whatever its title. -/
theorem C63_cut (d : List WikiItem) (hd : ∀ i ∈ d, i.Ok) (first : Str) (head : List Str) (hf : lit "<page>" <:+: first)
    (hl : ∀ l ∈ first :: head, IsLine l) (hh : ∀ l ∈ head, NoTitle l) :
    wikiMain (dumpText d ++ (first :: head).flatten) = dumpText (d.filter WikiItem.Wanted) := by
  have h1 : fileLines (first :: head).flatten = first :: head := by
    have := fileLines_lines hl []
    simpa [fileLines] using this
  unfold wikiMain
  rw [dumpText_lines hd, wikiLoop_dump hd, h1, wikiLoop, if_pos ((reFound_iff _ _).2 hf)]
  have := wikiLoop_head hh first []
  rw [List.append_nil] at this
  rw [this]
  exact List.append_nil _

/-! ### any text -/

/-- Lines, and perhaps a last one without newline. -/
def FileLike (ls : List Str) : Prop := ∃ ms t, ls = ms ++ t ∧ (∀ l ∈ ms, IsLine l) ∧ (t = [] ∨ ∃ l, t = [l] ∧ l ≠ [] ∧ '\n' ∉ l)

theorem fileLines_like (s : Str) : FileLike (fileLines s) := by
  induction s with
  | nil => exact ⟨[], [], rfl, by simp, .inl rfl⟩
  | cons c s ih =>
    obtain ⟨ms, t, e, h1, h2⟩ := ih
    rw [fileLines]
    split
    · rename_i hc
      refine ⟨[c] :: ms, t, by simp [e], ?_, h2⟩
      intro l hl
      rcases List.mem_cons.1 hl with rfl | hl
      · exact ⟨[], by simp [hc], by simp⟩
      · exact h1 l hl
    · rename_i hc
      have hc' : ¬ '\n' = c := fun h => hc h.symm
      cases ms with
      | nil =>
        rcases h2 with rfl | ⟨l, rfl, hl, hn⟩
        · rw [e]
          exact ⟨[], [[c]], rfl, by simp, .inr ⟨[c], rfl, by simp, by simpa using hc'⟩⟩
        · rw [e]
          exact ⟨[], [c :: l], rfl, by simp, .inr ⟨c :: l, rfl, by simp, by simp [hc', hn]⟩⟩
      | cons m ms =>
        rw [e]
        refine ⟨(c :: m) :: ms, t, rfl, ?_, h2⟩
        intro l hl
        rcases List.mem_cons.1 hl with rfl | hl
        · obtain ⟨r, rfl, hr⟩ := h1 m (by simp)
          exact ⟨c :: r, rfl, by simp [hc', hr]⟩
        · exact h1 l (List.mem_cons_of_mem _ hl)

theorem FileLike.sublist {ls ls' : List Str} (h : FileLike ls) (hs : ls'.Sublist ls) : FileLike ls' := by
  obtain ⟨ms, t, rfl, h1, h2⟩ := h
  obtain ⟨a, b, rfl, ha, hb⟩ := List.sublist_append_iff.1 hs
  refine ⟨a, b, rfl, fun l hl => h1 l (ha.subset hl), ?_⟩
  rcases h2 with rfl | ⟨l, rfl, hl⟩
  · exact .inl (List.sublist_nil.1 hb)
  · cases hb with
    | cons _ h => rw [List.sublist_nil.1 h]; exact .inl rfl
    | cons_cons _ h => rw [List.sublist_nil.1 h]; exact .inr ⟨l, rfl, hl⟩

theorem fileLines_partial {l : Str} (hl : l ≠ []) (hn : '\n' ∉ l) : fileLines l = [l] := by
  induction l with
  | nil => exact absurd rfl hl
  | cons c l ih =>
    have hc : c ≠ '\n' := fun h => hn (by simp [h])
    rw [fileLines, if_neg hc]
    cases l with
    | nil => rfl
    | cons d l => rw [ih (by simp) (fun h => hn (List.mem_cons_of_mem _ h))]

theorem FileLike.lines {ls : List Str} (h : FileLike ls) : fileLines ls.flatten = ls := by
  obtain ⟨ms, t, rfl, h1, h2⟩ := h
  rw [List.flatten_append, fileLines_lines h1]
  rcases h2 with rfl | ⟨l, rfl, hl, hn⟩
  · rfl
  · rw [show [l].flatten = l by simp, fileLines_partial hl hn]

/-- What is written: lines of the input, and the same is written if it is the input. -/
theorem wikiLoop_any (ls : List Str) :
    (∀ b, ∃ os, wikiLoop .pageSearch b ls = os.flatten ∧ os.Sublist ls ∧ wikiLoop .pageSearch [] os = os.flatten) ∧
    (∀ b, ∃ os, wikiLoop .closePageSearch b ls = os.flatten ∧ os.Sublist ls ∧ wikiLoop .pageSearch [] os = os.flatten) ∧
    (∀ f hs, reFound (lit "<page>") f = true → (∀ h ∈ hs, NoTitle h) → ∃ os,
      wikiLoop .titleSearch (f :: hs).flatten ls = os.flatten ∧ os.Sublist (f :: hs ++ ls) ∧
      wikiLoop .pageSearch [] os = os.flatten) := by
  induction ls with
  | nil => exact ⟨fun _ => ⟨[], rfl, .slnil, rfl⟩, fun _ => ⟨[], rfl, .slnil, rfl⟩, fun _ _ _ _ => ⟨[], rfl, List.nil_sublist _, rfl⟩⟩
  | cons l ls ih =>
    obtain ⟨ih1, ih2, ih3⟩ := ih
    refine ⟨fun b => ?_, fun b => ?_, fun f hs hf hh => ?_⟩
    · rw [wikiLoop]
      split
      · rename_i hl
        obtain ⟨os, h1, h2, h3⟩ := ih3 l [] hl (by simp)
        exact ⟨os, by simpa using h1, by simpa using h2, h3⟩
      · rename_i hl
        obtain ⟨os, h1, h2, h3⟩ := ih1 b
        exact ⟨l :: os, by simp [h1], h2.cons_cons l, by rw [wikiLoop, if_neg hl, h3]; simp⟩
    · rw [wikiLoop]
      split
      · obtain ⟨os, h1, h2, h3⟩ := ih1 b
        exact ⟨os, h1, h2.cons l, h3⟩
      · obtain ⟨os, h1, h2, h3⟩ := ih2 b
        exact ⟨os, h1, h2.cons l, h3⟩
    · rw [wikiLoop]
      rcases titleSearch_spec l with ⟨e, hn⟩ | ⟨t, e, ht⟩
      · rw [e]
        obtain ⟨os, h1, h2, h3⟩ := ih3 f (hs ++ [l]) hf (by
          intro h hm
          rcases List.mem_append.1 hm with h' | h'
          · exact hh h h'
          · rw [List.mem_singleton.1 h']; exact hn)
        exact ⟨os, by simpa using h1, by simpa using h2, h3⟩
      · rw [e]
        simp only
        split
        · rename_i hc
          obtain ⟨os, h1, h2, h3⟩ := ih1 []
          refine ⟨f :: hs ++ l :: os, by rw [h1]; simp, (List.Sublist.refl _).append (h2.cons_cons l), ?_⟩
          show wikiLoop .pageSearch [] (f :: (hs ++ l :: os)) = _
          rw [wikiLoop, if_pos hf, wikiLoop_head hh, wikiLoop, e]
          simp only [hc, reduceIte, h3]
          simp
        · obtain ⟨os, h1, h2, h3⟩ := ih2 []
          exact ⟨os, h1, (h2.cons l).trans (List.sublist_append_right _ _), h3⟩

/-- C63: of any text, what is written is some of its lines, in order and unchanged. -/
theorem C63_lines (text : Str) : ∃ ls : List Str, ls.Sublist (fileLines text) ∧ wikiMain text = ls.flatten := by
  obtain ⟨os, h1, h2, _⟩ := (wikiLoop_any (fileLines text)).1 []
  exact ⟨os, h2, h1⟩

/-- C63: filtering any text again changes nothing. -/
theorem C63_twice (text : Str) : wikiMain (wikiMain text) = wikiMain text := by
  obtain ⟨os, h1, h2, h3⟩ := (wikiLoop_any (fileLines text)).1 []
  have : wikiMain text = os.flatten := h1
  rw [this]
  unfold wikiMain
  rw [((fileLines_like text).sublist h2).lines, h3]

/-! ### Examples -/

/-- A page of the main namespace. -/
def exPage : WikiPage := ⟨lit "<page>\n", [lit " <id>1</id>\n"], lit " <title>Sky</title>\n", lit "Sky", [lit "blue\n"], lit "</page>\n"⟩
/-- A page of another one. -/
def exTalk : WikiPage := ⟨lit "<page>\n", [], lit " <title>Talk:Sky</title>\n", lit "Talk:Sky", [lit "grey\n"], lit "</page>\n"⟩
/-- A dump with both. -/
def exDump : List WikiItem := [.line (lit "<mediawiki>\n"), .page exPage, .page exTalk, .line (lit "</mediawiki>\n")]

theorem hasTitle_of {s t : Str} (h : titleSearch s = some t) : HasTitle s t := by
  rcases titleSearch_spec s with ⟨h1, _⟩ | ⟨t', h1, h2⟩
  · rw [h1] at h; cases h
  · rw [h1] at h; cases h; exact h2

theorem noTitle_of {s : Str} (h : titleSearch s = none) : NoTitle s := by
  rcases titleSearch_spec s with ⟨_, h2⟩ | ⟨t', h1, _⟩
  · exact h2
  · rw [h1] at h; cases h

theorem isLine_of {l : Str} (h : l.getLast? = some '\n') (hn : '\n' ∉ l.dropLast) : IsLine l := by
  obtain ⟨m, rfl⟩ := List.getLast?_eq_some_iff.1 h
  exact ⟨m, rfl, by simpa using hn⟩

example : ∀ i ∈ exDump, i.Ok := by
  intro i hi
  simp only [exDump, List.mem_cons, List.not_mem_nil, or_false] at hi
  rcases hi with rfl | rfl | rfl | rfl
  · exact ⟨isLine_of (by decide) (by decide), fun h => absurd ((reFound_iff _ _).2 h) (by decide +kernel)⟩
  · refine ⟨?_, (reFound_iff _ _).1 (by decide +kernel), ?_, hasTitle_of (by decide +kernel), ?_,
      (reFound_iff _ _).1 (by decide +kernel), fun h => absurd ((reFound_iff _ _).2 h) (by decide +kernel)⟩
    · intro l hl
      simp only [exPage, WikiPage.lines, List.cons_append, List.nil_append, List.mem_cons, List.not_mem_nil, or_false] at hl
      rcases hl with rfl | rfl | rfl | rfl | rfl <;> exact isLine_of (by decide +kernel) (by decide +kernel)
    · intro l hl
      rw [List.mem_singleton.1 hl]
      exact noTitle_of (by decide +kernel)
    · intro l hl
      rw [List.mem_singleton.1 hl]
      exact ⟨fun h => absurd ((reFound_iff _ _).2 h) (by decide +kernel), fun h => absurd ((reFound_iff _ _).2 h) (by decide +kernel)⟩
  · refine ⟨?_, (reFound_iff _ _).1 (by decide +kernel), by simp [exTalk], hasTitle_of (by decide +kernel), ?_,
      (reFound_iff _ _).1 (by decide +kernel), fun h => absurd ((reFound_iff _ _).2 h) (by decide +kernel)⟩
    · intro l hl
      simp only [exTalk, WikiPage.lines, List.cons_append, List.nil_append, List.mem_cons, List.not_mem_nil, or_false] at hl
      rcases hl with rfl | rfl | rfl | rfl <;> exact isLine_of (by decide +kernel) (by decide +kernel)
    · intro l hl
      rw [List.mem_singleton.1 hl]
      exact ⟨fun h => absurd ((reFound_iff _ _).2 h) (by decide +kernel), fun h => absurd ((reFound_iff _ _).2 h) (by decide +kernel)⟩
  · exact ⟨isLine_of (by decide) (by decide), fun h => absurd ((reFound_iff _ _).2 h) (by decide +kernel)⟩

example : wikiMain (dumpText exDump) =
    lit "<mediawiki>\n<page>\n <id>1</id>\n <title>Sky</title>\nblue\n</page>\n</mediawiki>\n" := by decide +kernel

end GB
