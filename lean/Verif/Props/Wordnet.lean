import Verif.Proofs.Wordnet
import Verif.Proofs.View
import Verif.Spec.WitnessHist
import Verif.Props.Buffer

/-
Property C50: the WordNet reader.
-/

set_option linter.unusedSectionVars false
set_option linter.unusedVariables false

namespace GB

variable {F : Type} [PyFloat F] [DecidableEq F] {V : Val F → Prop}

/-- All statements of a database, in order. -/
def dbStatements (db : List WSynset) : List (Val F) := db.flatMap synStatements

theorem mem_dbStatements {db : List WSynset} {e : Val F} : e ∈ dbStatements db ↔ Stated db e := by
  unfold dbStatements Stated
  rw [List.mem_flatMap]
  constructor
  · rintro ⟨s, hs, he⟩
    cases hl : s.lemmas with
    | nil => unfold synStatements at he; rw [hl] at he; simp at he
    | cons root rest => exact ⟨s, hs, root, rest, hl, (mem_synStatements hl).1 he⟩
  · rintro ⟨s, hs, root, rest, hl, he⟩
    exact ⟨s, hs, (mem_synStatements hl).2 he⟩

theorem length_dbStatements {db : List WSynset} (h : HasLemmas db) :
    (dbStatements (F := F) db).length = (db.map WSynset.count).sum := by
  unfold dbStatements
  induction db with
  | nil => rfl
  | cons s db ih =>
    rw [List.flatMap_cons, List.length_append, ih fun t ht => h t (by simp [ht]),
      length_synStatements (h s (by simp)).1 (h s (by simp)).2]
    rfl

theorem mem_addAll {A : Abs F} {ts : Int} {l : List (Val F)} {e : Val F} :
    e ∈ (A.addAll ts l).edges ↔ e ∈ A.edges ∨ e ∈ l := by
  induction l generalizing A with
  | nil => simp [Abs.addAll]
  | cons x l ih =>
    have : A.addAll ts (x :: l) = (A.add x ts).addAll ts l := rfl
    rw [this, ih]
    have hx : e ∈ (A.add x ts).edges ↔ e ∈ A.edges ∨ e = x := by
      unfold Abs.add
      split
      · rename_i hx
        constructor
        · exact .inl
        · rintro (h | rfl)
          · exact h
          · exact hx
      · simp
    rw [hx, List.mem_cons, or_assoc]

/-- The reader's run, and what it leaves. -/
theorem wnRead_run (hV : Vocab V) {A : Abs F} (hA : AbsOk V A) {s : St} (hc : Clean A s) {db : List WSynset}
    (hdb : HasLemmas db) (hok : ∀ e, Stated db e → BeliefOver V theWordnet e) (buf : List (Val F)) :
    ∃ b', wnRead db ⟨s, buf⟩ = (if 501 ∣ (db.map WSynset.count).sum then .error .indexError else .ok (), b') ∧
      b'.buffer = [] ∧
      Clean (A.addAll (-1) ((dbStatements db).flatMap fun e => [e, support e theWordnet])) b'.base := by
  have hB : Beliefs (F := F) 1000 (Call.forEach (processSynset 1000) db) (dbStatements db) :=
    Beliefs.forEach fun t ht => Beliefs.synset 1000 t (hdb t ht).1 (hdb t ht).2
  obtain ⟨b1, h1, hB1, hl⟩ := beliefs_buffer hV hA (dbStatements db) (total := []) (b := ⟨s, []⟩) 0
    ⟨by simp, [], rfl, hc⟩ rfl (by omega) (fun e he => hok e (mem_dbStatements.1 he))
  rw [List.nil_append] at hB1
  rw [Nat.zero_add, length_dbStatements hdb] at hl
  have hrun : wnRead db ⟨s, buf⟩ = bhFlush (-1) b1 := by
    unfold wnRead Call.bind
    rw [hB, h1]
  rw [hrun]
  by_cases hd : 501 ∣ (db.map WSynset.count).sum
  · rw [if_pos hd]
    have h0 : b1.buffer = [] := by
      rw [Nat.mod_eq_zero_of_dvd hd] at hl
      exact List.eq_nil_of_length_eq_zero hl
    refine ⟨b1, ?_, h0, ?_⟩
    · obtain ⟨s1, buf1⟩ := b1
      dsimp only at h0
      subst h0
      rfl
    · obtain ⟨_, done, ht, hcl⟩ := hB1
      rw [h0, List.append_nil] at ht
      rw [ht]; exact hcl
  · rw [if_neg hd]
    have h0 : b1.buffer ≠ [] := by
      intro h0
      rw [h0] at hl
      have : (db.map WSynset.count).sum % 501 = 0 := by simp at hl; omega
      exact hd (Nat.dvd_of_mod_eq_zero this)
    obtain ⟨b2, e2, hB2, hemp, _⟩ := flush_run hV hA hB1 h0
    refine ⟨b2, e2, hemp, ?_⟩
    obtain ⟨_, done, ht, hcl⟩ := hB2
    rw [hemp, List.append_nil] at ht
    rw [ht]; exact hcl

/-- C50: reading any lexical database, into a graph with any history.  The reader returns, except that it raises
IndexError at the very end when the number of statements is a multiple of 501 (in particular 0); in both cases nothing
stays in the buffer, and the graph then contains exactly what it contained before, the statements of the database, and
for each of them the fact that WordNet supports it. -/
theorem C50_contents (hV : Vocab V) (ops : List (Op F)) (hops : ∀ op ∈ ops, op.Over V) (auto : Bool) (s : St)
    (hs : runOps ops (St.new auto) = (.ok (), s)) (db : List WSynset) (hdb : HasLemmas db)
    (hok : ∀ e, Stated db e → BeliefOver V theWordnet e) (buf : List (Val F)) :
    ∃ b', wnRead db ⟨s, buf⟩ = (if 501 ∣ (db.map WSynset.count).sum then .error .indexError else .ok (), b') ∧
      b'.buffer = [] ∧ b'.base.disk = b'.base.work ∧
      ∀ e, EdgeOver V e → ∃ r, hgExists e b'.base = (.ok r, b'.base) ∧
        (r = true ↔ (Spec.after ops).Present e ∨ Stated db e ∨ ∃ f, Stated db f ∧ e = support f theWordnet) := by
  obtain ⟨A, hA, hR, hc⟩ := clean_of hV hops hs
  obtain ⟨b', e', hemp, hcl⟩ := wnRead_run hV hA hc hdb hok buf
  refine ⟨b', e', hemp, hcl.disk, ?_⟩
  intro e he
  have hA' := hA.addAll hV (-1) ((dbStatements db).flatMap fun e => [e, support e theWordnet]) (by
    intro x hx
    rw [List.mem_flatMap] at hx
    obtain ⟨f, hf, hx⟩ := hx
    exact BOp.edges_over (o := .addBelief theWordnet f) (hok f (mem_dbStatements.1 hf)) x hx)
  refine ⟨_, existsM_run hV hA' he (St.usable_of_none hcl.cur) hcl.work, ?_⟩
  rw [decide_eq_true_iff, mem_addAll, ← hR.present, List.mem_flatMap]
  apply or_congr Iff.rfl
  constructor
  · rintro ⟨f, hf, hx⟩
    rw [mem_dbStatements] at hf
    simp only [List.mem_cons, List.not_mem_nil, or_false] at hx
    rcases hx with rfl | rfl
    · exact .inl hf
    · exact .inr ⟨f, hf, rfl⟩
  · rintro (h | ⟨f, hf, rfl⟩)
    · exact ⟨e, mem_dbStatements.2 h, by simp⟩
    · exact ⟨f, mem_dbStatements.2 hf, by simp⟩

/-- C50: and `sources` of every statement then lists WordNet, whether or not the reader raised. -/
theorem C50_sources (hV : Vocab V) (ops : List (Op F)) (hops : ∀ op ∈ ops, op.Over V) (auto : Bool) (s : St)
    (hs : runOps ops (St.new auto) = (.ok (), s)) (db : List WSynset) (hdb : HasLemmas db)
    (hok : ∀ e, Stated db e → BeliefOver V theWordnet e) (buf : List (Val F)) (f : Val F) (hf : Stated db f) :
    ∃ res, hgSources f (wnRead db ⟨s, buf⟩).2.base = (.ok res, (wnRead db ⟨s, buf⟩).2.base) ∧ theWordnet ∈ res := by
  obtain ⟨A, hA, hR, hc⟩ := clean_of hV hops hs
  obtain ⟨b', e', hemp, hcl⟩ := wnRead_run hV hA hc hdb hok buf
  rw [e']
  have hA' := hA.addAll hV (-1) ((dbStatements db).flatMap fun e => [e, support e theWordnet]) (by
    intro x hx
    rw [List.mem_flatMap] at hx
    obtain ⟨f, hf, hx⟩ := hx
    exact BOp.edges_over (o := .addBelief theWordnet f) (hok f (mem_dbStatements.1 hf)) x hx)
  obtain ⟨res, h1, _, h2⟩ := sources_run hV hA' (hok f hf).srcConst (hok f hf).fact
    (St.usable_of_none hcl.cur) hcl.work
  refine ⟨res, h1, ?_⟩
  rw [h2, mem_addAll, List.mem_flatMap]
  exact .inr ⟨f, mem_dbStatements.2 hf, by simp⟩

theorem getLast_append_ne {α : Type} {xs ys : List α} (h : ys ≠ []) : (xs ++ ys).getLast? = ys.getLast? := by
  rw [List.getLast?_append, List.getLast?_eq_some_getLast h]; rfl

theorem lemma_plain {l : WLemma} (h : l.Clean) : PlainVocab (l.sym : Val F) := by
  have hsym : (l.sym : Val F) = .str (l.name ++ '/' :: (lit "wn." ++ l.synset)) := by
    simp [WLemma.sym, lit]
  rw [hsym]
  have hslash : '/' ∈ l.name ++ '/' :: (lit "wn." ++ l.synset) := by simp
  have hlast : (l.name ++ '/' :: (lit "wn." ++ l.synset)).getLast? = l.synset.getLast? := by
    have e1 : l.name ++ '/' :: (lit "wn." ++ l.synset) = (l.name ++ '/' :: lit "wn.") ++ l.synset := by simp
    rw [e1]; exact getLast_append_ne h.nonempty
  refine ⟨.str ⟨by simp, ?_, ?_, ?_, ?_, ?_⟩, trivial, ?_⟩
  · intro c hc
    simp only [List.mem_append, List.mem_cons] at hc
    rcases hc with hc | rfl | hc | hc
    · exact h.name c hc
    · decide
    · simp [lit] at hc
      rcases hc with rfl | rfl | rfl <;> decide
    · exact h.synset c hc
  · cases hn : l.name with
    | nil => simp
    | cons c cs => have := h.first; rw [hn] at this; simpa using this
  · rw [hlast]
    intro hx
    exact (h.last _ hx).1 rfl
  · rintro ⟨sgn, ds, hsgn, hds, heq⟩
    rw [heq] at hslash
    rcases List.mem_append.1 hslash with hm | hm
    · rcases hsgn with rfl | rfl <;> simp at hm
    · exact absurd (hds _ hm) (by decide)
  · rintro ⟨sgn, ds, fs, hsgn, hds, hfs, heq⟩
    rw [heq] at hslash
    simp only [List.mem_append, List.mem_singleton] at hslash
    rcases hslash with ((hm | hm) | hm) | hm
    · rcases hsgn with rfl | rfl <;> simp at hm
    · exact absurd (hds _ hm) (by decide)
    · exact absurd hm (by decide)
    · exact absurd (hfs _ hm) (by decide)
  · rintro ⟨s', c, heq, hc⟩
    have : (l.name ++ '/' :: (lit "wn." ++ l.synset)) = s' ++ [c] := by simpa using heq
    rw [this, getLast_append_ne (by simp)] at hlast
    have := h.last c (by rw [← hlast]; rfl)
    omega

theorem str_plain {s : Str} (h : wfStrB s = true) (hl : lastOkB (.str s : HVal) = true) :
    PlainVocab (.str s : Val F) :=
  ⟨.str (wfStr_of h), trivial, lastOk_of (by simpa [lastOkB] using hl)⟩

theorem plain_triple {a b c : Val F} (ha : PlainVocab a) (hb : PlainVocab b) (hc : PlainVocab c)
    (hat : a.isAtom = true) : BeliefOver PlainVocab theWordnet (.tup [a, b, c]) := by
  have hall : ∀ x ∈ [a, b, c], PlainVocab x := by
    intro x hx
    simp only [List.mem_cons, List.not_mem_nil, or_false] at hx
    rcases hx with rfl | rfl | rfl <;> assumption
  refine ⟨str_plain (by decide +kernel) (by decide +kernel), str_plain (by decide +kernel) (by decide +kernel),
    ⟨.tup (by simp) (fun x hx => (hall x hx).1), ?_, ?_⟩, ⟨a, [b, c], rfl, by simp, hat, hall⟩⟩
  · exact ⟨ha.2.1, hb.2.1, hc.2.1, trivial⟩
  · rintro ⟨_, _, h, _⟩; cases h

/-- C50: the hypotheses of the theorems above hold for every clean lexical database. -/
theorem C50_clean (db : List WSynset) (h : CleanDb db) (e : Val F) (he : Stated db e) :
    BeliefOver PlainVocab theWordnet e := by
  obtain ⟨s, hs, root, rest, hl, he⟩ := he
  have hent : ∀ l ∈ root :: rest, l.lemma.Clean := fun l hm => h.entry s hs l (by rw [hl]; exact hm)
  cases he with
  | pos =>
    refine plain_triple (str_plain (by decide +kernel) (by decide +kernel)) (lemma_plain (hent _ (by simp))) ?_ rfl
    have := h.pos s hs
    simp only [List.map_cons, List.map_nil, List.mem_cons, List.not_mem_nil, or_false] at this
    rcases this with e | e | e | e | e <;> rw [e] <;>
      exact str_plain (by decide +kernel) (by decide +kernel)
  | synonym hm =>
    exact plain_triple (str_plain (by decide +kernel) (by decide +kernel)) (lemma_plain (hent _ (by simp)))
      (lemma_plain (hent _ (by simp [hm]))) rfl
  | @synset rel ss l ls h1 h2 =>
    refine plain_triple ?_ (lemma_plain (hent _ (by simp))) (lemma_plain (h.synset s hs rel ss h1 _ h2 l (by simp))) rfl
    simp only [WSynset.related, List.mem_cons, Prod.mk.injEq, List.not_mem_nil, or_false] at h1
    rcases h1 with ⟨rfl, _⟩ | ⟨rfl, _⟩ | ⟨rfl, _⟩ | ⟨rfl, _⟩ | ⟨rfl, _⟩ | ⟨rfl, _⟩ | ⟨rfl, _⟩ | ⟨rfl, _⟩ | ⟨rfl, _⟩ <;>
      exact str_plain (by decide +kernel) (by decide +kernel)
  | @«lemma» rel ls l m h1 h2 h3 =>
    refine plain_triple ?_ (lemma_plain (hent _ h1))
      (lemma_plain (h.related s hs l (by rw [hl]; exact h1) rel ls h2 m h3)) rfl
    simp only [WEntry.related, List.mem_cons, Prod.mk.injEq, List.not_mem_nil, or_false] at h2
    rcases h2 with ⟨rfl, _⟩ | ⟨rfl, _⟩ | ⟨rfl, _⟩ <;> exact str_plain (by decide +kernel) (by decide +kernel)

/-- C50, counterexample: a part of speech that is none of WordNet's five becomes a missing element. -/
theorem C50_pos_counterexample (pos : Str) (h : pos ∉ ["n", "v", "a", "s", "r"].map lit) :
    (pos2symbol pos : Val F) = .none := by
  simp only [List.map_cons, List.map_nil, List.mem_cons, List.not_mem_nil, or_false, not_or] at h
  unfold pos2symbol
  rw [if_neg h.1, if_neg h.2.1, if_neg (by simp [h.2.2.1, h.2.2.2.1]), if_neg h.2.2.2.2]

/-- dog/canis synset with a hypernym and an antonym. -/
def exSynset : WSynset :=
  { pos := lit "n"
    lemmas := [⟨⟨lit "dog", lit "dog.n.01"⟩, [⟨lit "cat", lit "cat.n.01"⟩], [], []⟩,
      ⟨⟨lit "domestic_dog", lit "dog.n.01"⟩, [], [], []⟩]
    hypernyms := [[⟨lit "canine", lit "canine.n.02"⟩, ⟨lit "canid", lit "canine.n.02"⟩]]
    instanceHypernyms := [], memberMeronyms := [], attributes := [], entailments := [], causes := [],
    alsoSees := [], verbGroups := [], similarTos := [] }

example : exSynset.count = 4 ∧ ¬ 501 ∣ ([exSynset].map WSynset.count).sum := by decide +kernel

example : Stated [exSynset] (.tup [sy "hypernym/gb", sy "dog/wn.dog.n.01", sy "canine/wn.canine.n.02"] : HVal) :=
  ⟨exSynset, by simp, ⟨⟨lit "dog", lit "dog.n.01"⟩, [⟨lit "cat", lit "cat.n.01"⟩], [], []⟩, _, rfl,
    .synset (s := exSynset) (rel := "hypernym/gb") (ss := exSynset.hypernyms)
      (l := ⟨lit "canine", lit "canine.n.02"⟩) (ls := [⟨lit "canid", lit "canine.n.02"⟩])
      (by simp [WSynset.related]) (by simp [exSynset])⟩

example : (wnRead [exSynset] (⟨St.new false, []⟩ : BSt Half)).1.isOk = true ∧
    (hgExists (F := Half) (.tup [sy "antonym/gb", sy "dog/wn.dog.n.01", sy "cat/wn.cat.n.01"])
      (wnRead [exSynset] (⟨St.new false, []⟩ : BSt Half)).2.base).1 = .ok true := by
  decide +kernel

example : HasLemmas [exSynset] ∧ HasLemmas [] := by
  refine ⟨?_, by simp [HasLemmas]⟩
  intro s hs
  have := List.mem_singleton.1 hs
  subst this
  refine ⟨by simp [exSynset], ?_⟩
  intro rel ss h
  simp only [WSynset.related, exSynset, List.mem_cons, Prod.mk.injEq, List.not_mem_nil, or_false] at h
  rcases h with ⟨_, rfl⟩ | ⟨_, rfl⟩ | ⟨_, rfl⟩ | ⟨_, rfl⟩ | ⟨_, rfl⟩ | ⟨_, rfl⟩ | ⟨_, rfl⟩ | ⟨_, rfl⟩ | ⟨_, rfl⟩ <;> simp

theorem clean_lemma {l : WLemma} (h : (l.name.all (fun c => !isSpace c) && l.name.head? != some '(' &&
    l.synset.all (fun c => !isSpace c) && l.synset != [] &&
    match l.synset.getLast? with | some c => c != ')' && c.toNat != 0x10FFFF && c.toNat != 0xD7FF | none => true) = true) :
    l.Clean := by
  simp only [Bool.and_eq_true, List.all_eq_true, Bool.not_eq_true', bne_iff_ne] at h
  obtain ⟨⟨⟨⟨h1, h2⟩, h3⟩, h4⟩, h5⟩ := h
  refine ⟨h1, h2, h3, h4, ?_⟩
  intro c hc
  rw [hc] at h5
  simp only [Bool.and_eq_true, bne_iff_ne] at h5
  exact ⟨h5.1.1, h5.1.2, h5.2⟩

theorem exSynset_clean : CleanDb [exSynset] := by
  refine ⟨?_, ?_, ?_, ?_⟩ <;> intro s hs <;> have := List.mem_singleton.1 hs <;> subst this
  · decide +kernel
  · intro l hl
    simp only [exSynset, List.mem_cons, List.not_mem_nil, or_false] at hl
    rcases hl with rfl | rfl <;> exact clean_lemma (by decide +kernel)
  · intro rel ss h ls hls l hl
    simp only [WSynset.related, exSynset, List.mem_cons, Prod.mk.injEq, List.not_mem_nil, or_false] at h
    rcases h with ⟨_, rfl⟩ | ⟨_, rfl⟩ | ⟨_, rfl⟩ | ⟨_, rfl⟩ | ⟨_, rfl⟩ | ⟨_, rfl⟩ | ⟨_, rfl⟩ | ⟨_, rfl⟩ | ⟨_, rfl⟩ <;>
      simp only [List.mem_cons, List.not_mem_nil, or_false] at hls
    subst hls
    simp only [List.mem_cons, List.not_mem_nil, or_false] at hl
    rcases hl with rfl | rfl <;> exact clean_lemma (by decide +kernel)
  · intro l hl rel ls h m hm
    simp only [exSynset, List.mem_cons, List.not_mem_nil, or_false] at hl
    rcases hl with rfl | rfl <;>
      simp only [WEntry.related, List.mem_cons, Prod.mk.injEq, List.not_mem_nil, or_false] at h <;>
      rcases h with ⟨_, rfl⟩ | ⟨_, rfl⟩ | ⟨_, rfl⟩ <;> simp only [List.mem_cons, List.not_mem_nil, or_false] at hm
    subst hm
    exact clean_lemma (by decide +kernel)

end GB
