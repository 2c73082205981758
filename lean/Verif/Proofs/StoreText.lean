import Verif.Spec.StoreText
import Verif.Spec.Pipeline
import Verif.Spec.Witness
import Verif.Spec.History

/-
The edges read from a text are well-formed.
-/

namespace GB

variable {F : Type} [PyFloat F]

theorem digits_no_slash {s : Str} (h : IsDigits s) : '/' ∉ s := by
  intro hm
  have := (h _ hm).1
  revert this
  decide

theorem wfStr_slash (a : Str) (c : Char) (ha : PlainWord a) (hc : isSpace c = false) (hp : c ≠ ')') :
    WfStr (a ++ ['/', c]) where
  ne := by simp
  noSpace := by
    intro d hd
    simp only [List.mem_append, List.mem_cons, List.not_mem_nil, or_false] at hd
    rcases hd with h | rfl | rfl
    · exact ha.1 d h
    · decide
    · exact hc
  noOpen := by
    cases a with
    | nil => simp
    | cons x a => simpa using ha.2
  noClose := by
    rw [List.getLast?_append]
    simpa using hp
  notInt := by
    rintro ⟨sgn, ds, h1, h2, h3⟩
    have : '/' ∈ sgn ++ ds := by rw [← h3]; simp
    rcases List.mem_append.mp this with h | h
    · rcases h1 with rfl | rfl <;> simp at h
    · exact digits_no_slash h2 h
  notDec := by
    rintro ⟨sgn, ds, fs, h1, h2, h3, h4⟩
    have : '/' ∈ sgn ++ ds ++ ['.'] ++ fs := by rw [← h4]; simp
    simp only [List.mem_append, List.mem_singleton] at this
    rcases this with ((h | h) | h) | h
    · rcases h1 with rfl | rfl <;> simp at h
    · exact digits_no_slash h2 h
    · exact absurd h (by decide)
    · exact digits_no_slash h3 h

theorem plain_slash (a : Str) (c : Char) (ha : PlainWord a) (hc : isSpace c = false) (hp : c ≠ ')')
    (hl : c.toNat ≠ 0x10FFFF ∧ c.toNat ≠ 0xD7FF) : PlainVocab (.str (a ++ ['/', c]) : Val F) := by
  refine ⟨.str (wfStr_slash a c ha hc hp), by simp [NoFloat], ?_⟩
  rintro ⟨s, d, h, hd⟩
  injection h with h
  have h' : (a ++ ['/']) ++ [c] = s ++ [d] := by simpa using h
  obtain ⟨_, e⟩ := List.append_inj' h' rfl
  have e : c = d := by simpa using e
  subst e
  exact hd.elim hl.1 hl.2

theorem plainWord_join : ∀ ws : List Str, (∀ w ∈ ws, PlainWord w) → PlainWord (pyJoin (lit "_") ws)
  | [], _ => by simp [pyJoin, PlainWord]
  | [w], h => by simpa [pyJoin] using h w (by simp)
  | w :: w' :: ws, h => by
    have h1 := h w (by simp)
    have h2 := plainWord_join (w' :: ws) (fun x hx => h x (by simp [hx]))
    have e : pyJoin (lit "_") (w :: w' :: ws) = w ++ '_' :: pyJoin (lit "_") (w' :: ws) := by
      simp [pyJoin, lit]
    rw [e]
    refine ⟨?_, ?_⟩
    · intro c hc
      simp only [List.mem_append, List.mem_cons] at hc
      rcases hc with hc | rfl | hc
      · exact h1.1 c hc
      · decide
      · exact h2.1 c hc
    · cases w with
      | nil => simp
      | cons x w => simpa using h1.2

/-- An edge over plain words is well-formed if every tuple in it has two elements. -/
theorem plain_covers {v : Val F} {ws : List Word} (h : Covers v ws) : (∀ w ∈ ws, w.1 = some (lit "1")) →
    (∀ w ∈ ws, PlainWord w.2.word) →
    (∀ b xs, v = .seq b xs → b = false ∧ (pairedL xs → ∀ x ∈ xs, PlainVocab x)) ∧
      ((∀ b xs, v ≠ .seq b xs) → PlainVocab v) := by
  induction h with
  | word ns t =>
    intro h1 h2
    have e : ns = lit "1" := by simpa using h1 (some ns, t) (by simp)
    subst e
    refine ⟨fun b xs h => (by cases h), fun _ => ?_⟩
    have e : (wordSymbol (lit "1") t : Val F) = .str (t.word ++ ['/', '1']) := by simp [wordSymbol, lit]
    rw [e]
    exact plain_slash _ _ (h2 (some (lit "1"), t) (by simp)) (by decide) (by decide) (by decide)
  | name ws hne =>
    intro h1 h2
    refine ⟨fun b xs h => (by cases h), fun _ => ?_⟩
    have e : (nameSymbol (ws.map Prod.snd) : Val F) =
        .str (pyJoin (lit "_") ((ws.map Prod.snd).map TokInfo.word) ++ ['/', '?']) := by simp [nameSymbol, lit]
    rw [e]
    refine plain_slash _ _ (plainWord_join _ ?_) (by decide) (by decide) (by decide)
    intro w hw
    simp only [List.mem_map] at hw
    obtain ⟨t, ⟨p, hp, rfl⟩, rfl⟩ := hw
    exact h2 p hp
  | nil =>
    intro _ _
    refine ⟨fun b xs h => ?_, fun h => absurd rfl (h false [])⟩
    cases h
    exact ⟨rfl, fun _ x hx => by cases hx⟩
  | cons v ws vs us hv hvs ih1 ih2 =>
    intro h1 h2
    have i1 := ih1 (fun w hw => h1 w (by simp [hw])) (fun w hw => h2 w (by simp [hw]))
    have i2 := ih2 (fun w hw => h1 w (by simp [hw])) (fun w hw => h2 w (by simp [hw]))
    refine ⟨fun b xs h => ?_, fun h => absurd rfl (h false (v :: vs))⟩
    cases h
    refine ⟨rfl, fun hp x hx => ?_⟩
    rw [pairedL] at hp
    rcases List.mem_cons.mp hx with rfl | hx
    · cases hx' : x with
      | seq b ys =>
        subst hx'
        obtain ⟨rfl, g⟩ := i1.1 b ys rfl
        have g := g hp.1.2
        refine ⟨.tup hp.1.1 fun y hy => (g y hy).1, ?_, ?_⟩
        · rw [NoFloat]
          have : ∀ ys : List (Val F), (∀ y ∈ ys, PlainVocab y) → NoFloats ys := by
            intro ys
            induction ys with
            | nil => intro _; trivial
            | cons y ys ih => intro h; exact ⟨(h y (by simp)).2.1, ih fun z hz => h z (by simp [hz])⟩
          exact this ys g
        · rintro ⟨s, c, h, _⟩; cases h
      | str s => rw [← hx']; exact i1.2 (fun b xs h => by rw [hx'] at h; cases h)
      | int i => rw [← hx']; exact i1.2 (fun b xs h => by rw [hx'] at h; cases h)
      | flt i => rw [← hx']; exact i1.2 (fun b xs h => by rw [hx'] at h; cases h)
      | none => rw [← hx']; exact i1.2 (fun b xs h => by rw [hx'] at h; cases h)
    · exact (i2.1 false vs rfl).2 hp.2 x hx

theorem noFloats_plain : ∀ ys : List (Val F), (∀ y ∈ ys, PlainVocab y) → NoFloats ys
  | [], _ => trivial
  | y :: ys, h => ⟨(h y (by simp)).2.1, noFloats_plain ys fun z hz => h z (by simp [hz])⟩

theorem plain_extracts {x : Tok} {v : Val F} (h : Extracts x v) (hx : PlainSentence x) : PlainVocab v := by
  obtain ⟨hp, ws, as, us, h1, h2, h3, h4, h5⟩ := h
  have hw : ∀ w ∈ ws, PlainWord w.2.word := by
    intro w hw
    have : w.2 ∈ us := h5.mem_iff.mpr (List.mem_map_of_mem hw)
    exact hx _ (h3.mem_iff.mp (h4.1.subset this))
  obtain ⟨a, b⟩ := plain_covers h1 h2 hw
  by_cases hs : ∃ b xs, v = .seq b xs
  · obtain ⟨c, xs, rfl⟩ := hs
    obtain ⟨rfl, g⟩ := a c xs rfl
    rw [Paired] at hp
    have g := g hp.2
    refine ⟨.tup hp.1 fun y hy => (g y hy).1, ?_, ?_⟩
    · rw [NoFloat]; exact noFloats_plain xs g
    · rintro ⟨s, c, h, _⟩; cases h
  · exact b fun c xs e => hs ⟨c, xs, e⟩

/-- If it starts with a symbol, it is an edge that can be stored. -/
theorem edgeOver_extracts {x : Tok} {v : Val F} (h : Extracts x v) (hx : PlainSentence x) (hs : StartsWithSymbol v) :
    EdgeOver PlainVocab v := by
  obtain ⟨s, t, rfl⟩ := hs
  have hp := h.1
  obtain ⟨_, ws, as, us, h1, h2, h3, h4, h5⟩ := h
  have hw : ∀ w ∈ ws, PlainWord w.2.word := by
    intro w hw
    have : w.2 ∈ us := h5.mem_iff.mpr (List.mem_map_of_mem hw)
    exact hx _ (h3.mem_iff.mp (h4.1.subset this))
  obtain ⟨a, _⟩ := plain_covers h1 h2 hw
  have g := (a false _ rfl).2
  have hp' : 2 ≤ (Val.str s :: t).length ∧ pairedL (Val.str s :: t) := hp
  refine ⟨.str s, t, rfl, ?_, rfl, g hp'.2⟩
  intro e
  subst e
  simp at hp'

end GB
