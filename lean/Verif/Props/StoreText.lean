import Verif.Proofs.StoreText
import Verif.Proofs.StoreHead
import Verif.Props.ReadText
import Verif.Props.Rearrange
import Verif.Props.History
import Verif.Props.Text

/-
Property C84: what is read from a text can be stored and found.
-/

namespace GB

variable {F : Type} [PyFloat F] [DecidableEq F] {norm : Str → Str} {pyStr : Val F → Str}

/-- C84: texts whose sentences have roots and whose words are plain give well-formed edges, each of which is read back
from its text; each starts with a symbol, or starts with an edge, or is a single symbol. -/
theorem C84_read_text (ds : List Doc) (hs : ∀ d ∈ ds, d.Sound) (hk : ∀ d ∈ ds, ∀ d' ∈ ds, d.key = d'.key → d = d')
    (hr : ∀ d ∈ ds, ∀ span ∈ d.sents, ∃ j, RootAt d span j)
    (hw : ∀ d ∈ ds, ∀ span ∈ d.sents, ∀ j x, RootAt d span j → Mirrors norm d j x → PlainSentence x) :
    ∃ outs : List (List (StageOut F)), outs.length = ds.length ∧
      (∀ q ∈ ds.zip outs, q.2.length = q.1.sents.length ∧ ∀ o ∈ q.2, ∃ v, o = .edge v ∧ WfVal v ∧
        str2edge (edge2str v) = .ok v ∧
        ((StartsWithSymbol v ∧ EdgeOver PlainVocab v) ∨ (∃ xs t, v = .tup (.tup xs :: t)) ∨ ∃ s, v = .str s)) ∧
      ∃ N, ∀ k, N ≤ k → ∃ tb, readAll norm pyStr k defaultStages ds [] = .ok (outs, tb) := by
  obtain ⟨outs, h1, h2, h3⟩ := C61_read_text (F := F) (norm := norm) (pyStr := pyStr) ds hs hk hr
  refine ⟨outs, h1, fun q hq => ⟨(h2 q hq).1, fun o ho => ?_⟩, h3⟩
  have hd : q.1 ∈ ds := (List.of_mem_zip hq).1
  obtain ⟨i, hi, rfl⟩ := List.mem_iff_getElem.mp ho
  have hi' : i < q.1.sents.length := by rw [← (h2 q hq).1]; exact hi
  have hm : (q.1.sents[i], q.2[i]) ∈ q.1.sents.zip q.2 := by
    rw [← List.getElem_zip (h := by simp; omega)]
    exact List.getElem_mem _
  obtain ⟨j, x, v, a1, a2, a3, a4⟩ := (h2 q hq).2 _ hm
  have hx : PlainSentence x := hw _ hd _ (List.getElem_mem _) j x a1 a2
  have hp := plain_extracts a4 hx
  refine ⟨v, a3, hp.1, C01_roundtrip v hp.1, ?_⟩
  cases hp.1 with
  | str h => exact .inr (.inr ⟨_, rfl⟩)
  | int => exact absurd a4.2 (by rintro ⟨_, _, _, h, _⟩; cases h)
  | flt h => exact absurd hp.2.1 (by simp [NoFloat])
  | tup h2 hxs =>
    rename_i xs
    match xs, h2, hxs, a4, hp with
    | .str s :: t, _, _, a4, _ => exact .inl ⟨⟨s, t, rfl⟩, edgeOver_extracts a4 hx ⟨s, t, rfl⟩⟩
    | .seq b ys :: t, _, hxs, _, _ =>
      have := hxs (.seq b ys) (by simp)
      cases this with
      | tup _ _ => exact .inr (.inl ⟨ys, t, rfl⟩)
    | .int i :: t, _, _, a4, _ =>
      obtain ⟨_, _, _, _, h, _⟩ := a4
      cases h with
      | cons _ _ _ _ h _ => cases h
    | .flt i :: t, _, _, a4, _ =>
      obtain ⟨_, _, _, _, h, _⟩ := a4
      cases h with
      | cons _ _ _ _ h _ => cases h
    | .none :: t, _, hxs, _, _ => exact absurd (hxs .none (by simp)) (by intro h; cases h)

/-- C84: in any graph over plain values, the edges that are read from sentences and start with a symbol can be added in
one call; afterwards each exists and is found from each of its symbols, and each of its symbols from its root; other
edges are as before. -/
theorem C84_store (ops : List (Op F)) (hops : ∀ op ∈ ops, op.Over PlainVocab) (auto : Bool) (s : St)
    (hs : runOps ops (St.new auto) = (.ok (), s)) (es : List (Val F)) (hne : es ≠ [])
    (hes : ∀ e ∈ es, StartsWithSymbol e ∧ ∃ x, PlainSentence x ∧ Extracts x e) (ts : Int) :
    ∃ s', hgAdd (.seq true es) ts s = (.ok (.seq true es), s') ∧
      (∀ e ∈ es, hgExists e s' = (.ok true, s') ∧
        (∀ c ∈ e.elems, c.isAtom = true → ∃ r, hgStar c s' = (.ok r, s') ∧ e ∈ r) ∧
        (∀ r t, Val.str t ∈ e.elems → (r ++ lit "/") <+: t → ∃ ss, hgSymbolsWithRoot r s' = (.ok ss, s') ∧ t ∈ ss)) ∧
      ∀ e, EdgeOver PlainVocab e → e ∉ es → (hgExists e s').1 = (hgExists e s).1 := by
  have hov : ∀ e ∈ es, EdgeOver PlainVocab e := by
    intro e he
    obtain ⟨h1, x, h2, h3⟩ := hes e he
    exact edgeOver_extracts h3 h2 h1
  obtain ⟨A, hA⟩ := after_of plainVocab hops hs
  obtain ⟨s', e1, _, _, _⟩ := addMany_run plainVocab hA.ok (b := true) hne hov ts hA.idle hA.work
  have hops' : ∀ op ∈ ops ++ [Op.addMany es ts], op.Over PlainVocab := by
    intro op ho
    rcases List.mem_append.1 ho with h | h
    · exact hops op h
    · simp only [List.mem_singleton] at h; subst h; exact ⟨hne, hov⟩
  have hs' : runOps (ops ++ [Op.addMany es ts]) (St.new auto) = (.ok (), s') := by
    rw [runOps_append hs]
    show ((do let _ ← hgAdd (.seq true es) ts) >>= fun _ => forEach Op.run []) s = _
    have : ((do let _ ← hgAdd (.seq true es) ts) : M Unit) s = (.ok (), s') := by
      rw [bind_run _ _ _ (show hgAdd (.seq true es) ts s = _ from e1)]; rfl
    rw [bind_run _ _ _ this]
    rfl
  have hpres : ∀ e, (Spec.after (ops ++ [Op.addMany es ts])).Present e ↔ e ∈ es ∨ (Spec.after ops).Present e := by
    intro e
    rw [Spec.after_append]
    show (es.foldl (fun S e => S.add e ts) (Spec.after ops)).Present e ↔ _
    rw [Spec.foldAdd_present (fun S e => S.add e ts) (fun a x => x = a) (fun S a x => Spec.add_present S a x ts)]
    simp
  refine ⟨s', e1, fun e he => ⟨?_, ?_, ?_⟩, fun e he hn => ?_⟩
  · have h := C13_exists plainVocab _ hops' auto s' hs' e (hov e he)
    rw [h, show ((Spec.after (ops ++ [Op.addMany es ts])).created e).isSome = true from (hpres e).2 (.inl he)]
  · intro c hc hat
    have hcv : PlainVocab c := by
      obtain ⟨h, t, rfl, _, _, g⟩ := hov e he
      exact g c hc
    obtain ⟨r, g1, _, g2⟩ := C19_star plainVocab _ hops' auto s' hs' c hcv hat
    exact ⟨r, g1, (g2 e).2 ⟨(hpres e).2 (.inl he), hc⟩⟩
  · intro r t ht hpre
    have hw : WfStr t := by
      obtain ⟨h, tl, rfl, _, _, g⟩ := hov e he
      cases (g _ ht).1 with
      | str h => exact h
    obtain ⟨u, hu⟩ := hpre
    obtain ⟨ss, g1, _, g2⟩ := C21_symbols plainVocab _ hops' auto s' hs' r
      (fun c hc => hw.noSpace c (by rw [← hu]; simp [hc]))
      (by
        intro h
        apply hw.noOpen
        rw [← hu]
        cases r with
        | nil => cases h
        | cons a r => simpa using h)
    exact ⟨ss, g1, (g2 t).2 ⟨⟨u, hu⟩, e, (hpres e).2 (.inl he), ht⟩⟩
  · have h1 := C13_exists plainVocab _ hops' auto s' hs' e he
    have h2 := C13_exists plainVocab _ hops auto s hs e he
    rw [h1, h2]
    show Except.ok _ = Except.ok _
    have := hpres e
    simp only [hn, false_or] at this
    unfold Spec.Present at this
    exact congrArg _ (Bool.eq_iff_iff.mpr this)

/-- C84: an edge that starts with an edge is taken for a collection: whatever `add` does, and whether or not it raises,
the time stamp and the degree of the edge are as before. -/
theorem C84_head_edge (ops : List (Op F)) (V : Val F → Prop) (hV : Vocab V) (hops : ∀ op ∈ ops, op.Over V) (auto : Bool)
    (s : St) (hs : runOps ops (St.new auto) = (.ok (), s)) (xs t : List (Val F)) (ts : Int) :
    (hgTimestamp (.tup (.tup xs :: t)) (hgAdd (.tup (.tup xs :: t)) ts s).2).1 = (hgTimestamp (.tup (.tup xs :: t)) s).1 ∧
    (hgDegree (.tup (.tup xs :: t)) (hgAdd (.tup (.tup xs :: t)) ts s).2).1 = (hgDegree (.tup (.tup xs :: t)) s).1 := by
  obtain ⟨A, hA⟩ := after_of hV hops hs
  have h0 : Rests (edge2str (.tup (.tup xs :: t) : Val F)) (s.work.selectVertex (edge2str (.tup (.tup xs :: t) : Val F))) s :=
    ⟨rfl, by rw [hA.idle]; simp⟩
  have h1 := rests_add (b := false) (xs := Val.tup xs :: t) ⟨false, xs, t, rfl⟩ ts s h0
  exact ⟨rests_timestamp h1 h0, rests_degree h1 h0⟩

/-! ### Examples -/

/-- The edge of a sentence to which `C71_default` applies is the one that the other theorems speak about. -/
theorem extracts_headed {s : List Tok} {x : Tok} (hroot : sentenceRoot s = some x) (hh : ((alphaTree x).beta.gamma).headed = true)
    {v : Val F} (he : (alphaTree x).beta.gamma.delta.edge = .ok v) : Extracts x v := by
  obtain ⟨v1, e1, N1, h1⟩ := C71_default (F := F) (pyStr := fun _ => []) hroot hh
  obtain ⟨v2, e2, N2, h2⟩ := extracts_default (F := F) (pyStr := fun _ => []) hroot
  have h1 := h1 (max N1 N2) (by omega)
  have h2 := h2 (max N1 N2) (by omega)
  have h1 : (readSentence (F := F) (fun _ => []) (max N1 N2) defaultStages s).result = _ := congrArg Reading.result h1
  rw [h1] at h2
  rw [he] at e1
  cases h2
  cases e1
  exact e2

/-- "Telmo is going to the gym." -/
def exGoingEdge : HVal := .tup [sy "is_going_to/?", sy "telmo/1", sy "gym/1"]

theorem exGoing_plain : PlainSentence exGoing := by
  have : ∀ t ∈ exGoing.kept, (t.word.all fun c => !isSpace c) = true ∧ t.word.head? ≠ some '(' := by
    simp only [exGoing, Tok.kept, keptL]
    decide +kernel
  intro t ht
  exact ⟨fun c hc => by simpa using List.all_eq_true.mp (this t ht).1 c hc, (this t ht).2⟩

theorem exGoing_extracts : Extracts exGoing exGoingEdge :=
  extracts_headed (s := exSentence) rfl (by decide +kernel) (by decide +kernel)

theorem exDoc_going : Mirrors exNorm exDoc 2 exGoing := by
  have hw : ∀ w : Str, w ≠ lit "Telmo " → w = exNorm w := fun w h => by rw [exNorm, if_neg h]
  have h1 : MirrorsL exNorm exDoc [0, 1] [.mk (exInfo "telmo" "telmo" "PROPN" "nsubj" "PERSON") [] [], .mk (exInfo "is" "be" "VERB" "aux") [] []] :=
    ⟨0, _, rfl, ⟨_, rfl, by decide +kernel, rfl, rfl, rfl, rfl, rfl, rfl, rfl⟩, 1, _, rfl,
      ⟨_, rfl, hw _ (by decide +kernel), rfl, rfl, rfl, rfl, rfl, rfl, rfl⟩, rfl⟩
  have h4 : Mirrors exNorm exDoc 4 (.mk (exInfo "the" "the" "DET" "det") [] []) :=
    ⟨_, rfl, hw _ (by decide +kernel), rfl, rfl, rfl, rfl, rfl, rfl, rfl⟩
  have h5 : Mirrors exNorm exDoc 5 (.mk (exInfo "gym" "gym" "NOUN" "pobj") [.mk (exInfo "the" "the" "DET" "det") [] []] []) :=
    ⟨_, rfl, hw _ (by decide +kernel), rfl, rfl, rfl, rfl, rfl, ⟨4, _, rfl, h4, rfl⟩, rfl⟩
  exact ⟨_, rfl, hw _ (by decide +kernel), rfl, rfl, rfl, rfl, rfl, h1,
    ⟨3, _, rfl, ⟨_, rfl, hw _ (by decide +kernel), rfl, rfl, rfl, rfl, rfl, rfl, ⟨5, _, rfl, h5, rfl⟩⟩, 6, _, rfl,
      ⟨_, rfl, hw _ (by decide +kernel), rfl, rfl, rfl, rfl, rfl, rfl, rfl⟩, rfl⟩⟩

/-- The last hypothesis of `C84_read_text` is met by this text; the others are met as in C61. -/
example : ∀ span ∈ exDoc.sents, ∀ j x, RootAt exDoc span j → Mirrors exNorm exDoc j x → PlainSentence x := by
  intro span hs j x hr hm
  have : span = (0, 7) := by simpa [exDoc] using hs
  subst this
  obtain ⟨_, hj, ⟨t, ht, hd⟩, _⟩ := hr
  have hj2 : j = 2 := by
    have hj : j < 7 := hj
    match j, hj, ht with
    | 0, _, ht => cases ht; exact absurd hd (by decide +kernel)
    | 1, _, ht => cases ht; exact absurd hd (by decide +kernel)
    | 2, _, _ => rfl
    | 3, _, ht => cases ht; exact absurd hd (by decide +kernel)
    | 4, _, ht => cases ht; exact absurd hd (by decide +kernel)
    | 5, _, ht => cases ht; exact absurd hd (by decide +kernel)
    | 6, _, ht => cases ht; exact absurd hd (by decide +kernel)
  subst hj2
  rw [mirrors_unique x hm exDoc_going]
  exact exGoing_plain

/-- The hypotheses of `C84_store` are met by the edge of this sentence, in a graph with other edges. -/
example (s : St) (hs : runOps exOps (St.new false) = (.ok (), s)) :
    ∃ s', hgAdd (.seq true [exGoingEdge]) 7 s = (.ok (.seq true [exGoingEdge]), s') ∧ hgExists exGoingEdge s' = (.ok true, s') ∧
      ∃ r, hgStar (sy "gym/1" : HVal) s' = (.ok r, s') ∧ exGoingEdge ∈ r := by
  obtain ⟨s', h1, h2, _⟩ := C84_store exOps exOps_over false s hs [exGoingEdge] (by simp)
    (by intro e he
        have : e = exGoingEdge := by simpa using he
        subst this
        exact ⟨⟨_, _, rfl⟩, exGoing, exGoing_plain, exGoing_extracts⟩) 7
  obtain ⟨a, b, _⟩ := h2 exGoingEdge (by simp)
  exact ⟨s', h1, a, b (sy "gym/1") (by simp [exGoingEdge, Val.elems, Val.tup]) rfl⟩

/-- "X is Y of Z." -/
def exOf : Tok := .mk (exInfo "is" "be" "VERB" "ROOT") [.mk (exInfo "x" "x" "PROPN" "nsubj") [] []]
  [.mk (exInfo "y" "y" "NOUN" "attr") [] [.mk (exInfo "of" "of" "ADP" "prep") [] [.mk (exInfo "z" "z" "NOUN" "pobj") [] []]]]

/-- Its edge starts with an edge. -/
def exOfEdge : HVal := .tup [.tup [sy "is/1", sy "of/1"], sy "x/1", sy "y/1", sy "z/1"]

theorem exOf_extracts : Extracts exOf exOfEdge :=
  extracts_headed (s := [exOf]) rfl (by decide +kernel) (by decide +kernel)

/-- C84: the restriction to edges that start with a symbol is necessary: after `add` of the edge of this sentence it does
not exist; its first element does, and so does an edge of the characters of its second element. -/
theorem C84_head_edge_lost : Extracts exOf exOfEdge ∧
    ((hgAdd exOfEdge 7 >>= fun v => hgExists exOfEdge >>= fun a => hgExists (.tup [sy "is/1", sy "of/1"] : HVal) >>= fun b =>
      hgExists (.tup [sy "x", sy "/", .int 1] : HVal) >>= fun c => Pure.pure (v, a, b, c)) (St.new false)).1 =
      .ok (exOfEdge, false, true, true) :=
  ⟨exOf_extracts, by decide +kernel⟩

/-- C84: a sentence of one word gives a symbol, which `add` stores as the edge of its characters. -/
theorem C84_one_word : Extracts (.mk (exInfo "go" "go" "VERB" "ROOT") [] []) (sy "go/1" : HVal) ∧
    ((hgAdd (sy "go/1" : HVal) 7 >>= fun v => hgExists (.tup [sy "g", sy "o", sy "/", .int 1] : HVal) >>= fun a =>
      Pure.pure (v, a)) (St.new false)).1 = .ok (sy "go/1", true) :=
  ⟨extracts_headed (s := [.mk (exInfo "go" "go" "VERB" "ROOT") [] []]) rfl (by decide +kernel) (by decide +kernel), by decide +kernel⟩

end GB
