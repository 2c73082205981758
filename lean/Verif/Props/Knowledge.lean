import Verif.Py.Half
import Verif.Proofs.PipelineRun
import Verif.Proofs.ExtractorErr
import Verif.Spec.WitnessText

/-
Properties C53 to C60: from a parsed sentence to an edge.
-/

namespace GB

variable {F : Type}

/-! ### alpha -/

/-- The root of a sentence is its first token with the relation `ROOT`. -/
theorem C53_root {s : List Tok} {x : Tok} : sentenceRoot s = some x ↔
    ∃ a b, s = a ++ x :: b ∧ x.info.dep = lit "ROOT" ∧ ∀ y ∈ a, y.info.dep ≠ lit "ROOT" := by
  induction s with
  | nil => simp [sentenceRoot]
  | cons t s ih =>
    rw [sentenceRoot]
    split
    · rename_i ht
      constructor
      · intro h
        cases h
        exact ⟨[], s, rfl, ht, by simp⟩
      · rintro ⟨a, b, h1, h2, h3⟩
        cases a with
        | nil => cases h1; rfl
        | cons y a => cases h1; exact absurd ht (h3 _ (by simp))
    · rename_i ht
      rw [ih]
      constructor
      · rintro ⟨a, b, rfl, h2, h3⟩
        refine ⟨t :: a, b, rfl, h2, ?_⟩
        intro y hy
        rcases List.mem_cons.mp hy with rfl | hy
        · exact ht
        · exact h3 y hy
      · rintro ⟨a, b, h1, h2, h3⟩
        cases a with
        | nil => cases h1; exact absurd h2 ht
        | cons y a => cases h1; exact ⟨a, b, rfl, h2, fun y hy => h3 y (by simp [hy])⟩

/-- C53: the first stage gives a tree in which every token of the sentence is exactly once, except punctuation, tokens
without relation and what is below them; nodes have at least two elements; nothing is shared, and no element is marked. -/
theorem C53_words {s : List Tok} {x : Tok} (hroot : sentenceRoot s = some x) :
    ∃ h t, Yields (fun k => alphaStage k s SemTree.new) (.ok ((), h)) ∧ Stands h t ∧
      t.leaves.Perm x.kept ∧ t.Branching ∧ t.Bare := by
  obtain ⟨N, hN⟩ := alphaStage_run hroot
  obtain ⟨h0, run, st⟩ := hN N (Nat.le_refl _) SemTree.new
  obtain ⟨a, h', ⟨M, hM⟩, hq⟩ := settles_of (Q := fun _ h' => Stands h' (alphaTree x))
    (fun k => alphaStage_more k s) run st
  exact ⟨h', alphaTree x, ⟨M, hM⟩, hq, alphaTree_perm x, alphaTree_branching x, alphaTree_bare x⟩

/-- C53: without a root it raises `AttributeError`. -/
theorem C53_no_root {s : List Tok} (h : ∀ y ∈ s, y.info.dep ≠ lit "ROOT") (k : Nat) (g : SemTree) :
    alphaStage k s g = .error .attributeError := by
  refine alphaStage_noroot ?_ k g
  cases hx : sentenceRoot s with
  | none => rfl
  | some x =>
    obtain ⟨a, b, rfl, h1, _⟩ := C53_root.mp hx
    exact absurd h1 (h x (by simp))

/-- C54: which tree it is, as a function of the parse, and its text. -/
theorem C54_tree {s : List Tok} {x : Tok} (hroot : sentenceRoot s = some x) :
    ∃ h, Yields (fun k => alphaStage k s SemTree.new) (.ok ((), h)) ∧ Stands h (alphaTree x) ∧
      Yields (fun k => treeStr k h) (.ok ((alphaTree x).text, h)) := by
  obtain ⟨N, hN⟩ := alphaStage_run hroot
  obtain ⟨h0, run, st⟩ := hN N (Nat.le_refl _) SemTree.new
  obtain ⟨a, h', ⟨M, hM⟩, hq⟩ := settles_of (Q := fun _ h' => Stands h' (alphaTree x))
    (fun k => alphaStage_more k s) run st
  exact ⟨h', ⟨M, hM⟩, hq, ⟨_, treeStr_holds hq.holds⟩⟩

/-- C54: a sentence of one word gives that word. -/
theorem C54_one_word {i : TokInfo} : alphaTree (.mk i [] []) = .leaf none i := rfl

/-! ### beta -/

/-- C55: the second stage keeps the tree, gives every element the namespace 1 and marks each node by `Compound`. -/
theorem C55_beta {h : SemTree} {t : STree} (hs : Stands h t) (hb : t.Branching) :
    ∃ h', Yields (fun k => betaStage k h) (.ok ((), h')) ∧ Stands h' t.beta := by
  obtain ⟨N, hN⟩ := betaStage_run hs hb
  obtain ⟨h0, run, st⟩ := hN N (Nat.le_refl _)
  obtain ⟨a, h', ⟨M, hM⟩, hq⟩ := settles_of (Q := fun _ h' => Stands h' t.beta) betaStage_more run st
  exact ⟨h', ⟨M, hM⟩, hq⟩

/-- C55: the mark. -/
theorem C55_mark (ns : Option Str) (c : Bool) (ts : List STree) :
    (STree.node ns c ts).beta.terminal = true ↔ Compound ts := compoundB_iff ts

/-- C55: the words are the same, in the same order, with the namespace 1. -/
theorem C55_words (t : STree) : t.beta.words = t.words.map (fun w => (some (lit "1"), w.2)) := beta_words t

/-- C55: doing it twice changes nothing. -/
theorem C55_twice (t : STree) : t.beta.beta = t.beta := by
  have comp : ∀ ts : List STree, compoundB (betaL ts) = compoundB ts := by
    intro ts
    have h1 : leavesL (betaL ts) = leavesL ts := by
      rw [← wordsL_leaves, ← wordsL_leaves, betaL_words, List.map_map]; rfl
    have h2 : ∀ et, (betaL ts).all (STree.hasType et) = ts.all (STree.hasType et) := by
      intro et
      rw [betaL_map, List.all_map]
      congr 1
      funext t
      cases t <;> rfl
    have h3 : sameEntityB (betaL ts) = sameEntityB ts := by
      cases ts with
      | nil => rfl
      | cons t ts =>
        have := h2
        cases t with
        | leaf ns tok =>
          simp only [betaL, STree.beta, sameEntityB]
          cases tok.entityType with
          | none => rfl
          | some et =>
            have := h2 et
            simp only [betaL, STree.beta] at this
            simp only [this]
        | node ns b us => rfl
    simp only [compoundB, h1, h3]
  exact STree.rec (motive_1 := fun t => t.beta.beta = t.beta) (motive_2 := fun ts => betaL (betaL ts) = betaL ts)
    (fun _ _ => rfl) (fun _ _ ts ih => by simp only [STree.beta, comp, ih]) rfl
    (fun t ts h1 h2 => by simp only [betaL, h1, h2]) t

/-! ### gamma -/

/-- C56: the third stage computes `gamma`. -/
theorem C56_gamma {h : SemTree} {t : STree} (hs : Stands h t) (hb : t.Branching) :
    ∃ h', Yields (fun k => gammaStage k h) (.ok ((), h')) ∧ Stands h' t.gamma := by
  obtain ⟨N, hN⟩ := gammaStage_run hb
  obtain ⟨h0, run, st⟩ := hN N (Nat.le_refl _) h hs
  obtain ⟨a, h', ⟨M, hM⟩, hq⟩ := settles_of (Q := fun _ h' => Stands h' t.gamma) gammaStage_more run st
  exact ⟨h', ⟨M, hM⟩, hq⟩

/-- C56: it only drops some articles; the other words stay, in the same order; and every node still has at least two
elements. -/
theorem C56_words {t : STree} (hb : t.Branching) :
    Thinned t.leaves t.gamma.leaves ∧ t.gamma.words.Sublist t.words ∧ t.gamma.Branching :=
  ⟨gamma_leaves t hb, gamma_words t, gamma_branching t hb⟩

/-! ### delta -/

/-- C57: the fourth stage keeps the words, each exactly as often as before.  Verbs, adverbs, adpositions and particles
may move; all other words stay in the same order.  If the tree is one word or name, or does not start with a relation,
it stays the same object; otherwise what it gives starts with a relation again.  If every node has at least two
elements, this is still so. -/
theorem C57_delta {h : SemTree} {t : STree} (hs : Holds h t) (hf : t.Full) :
    ∃ h' t', Yields (fun k => deltaStage k h) (.ok ((), h')) ∧ Holds h' t' ∧ t'.Full ∧
      (t.Branching → t'.Branching) ∧ Reorders t.words t'.words ∧
      (t.terminal = true ∨ t.leads = false → h' = h) ∧ (t.terminal = false → t.leads = true → t'.leads = true) := by
  obtain ⟨a, h', ⟨N, hN⟩, t', h1, h2, h3, h4, h5⟩ := deltaStage_settles (two := t.Branching) hs ⟨hf, id⟩
  exact ⟨h', t', ⟨N, hN⟩, h1, h2.1, h2.2, h3, h4, h5⟩

/-! ### epsilon -/

/-- C58: the fifth stage gives the edge of the tree, or its error, and changes nothing. -/
theorem C58_epsilon {h : SemTree} {t : STree} (hs : Holds h t) :
    Yields (fun k => epsilonStage (F := F) k h) (match t.edge with
      | .ok v => .ok (v, h)
      | .error e => .error e) := by
  refine ⟨t.depth + 1, fun k hk => ?_⟩
  have := epsilonStage_holds (F := F) hs k (by omega)
  simp only [this, keeps]
  cases t.edge (F := F) <;> rfl

/-- C58: the edge is made of the words of the tree, each once and in this order. -/
theorem C58_covers {t : STree} {v : Val F} (hf : t.Full) (h : t.edge = .ok v) : Covers v t.words := edge_covers t hf h

/-- C58: it raises nothing if all words have a namespace. -/
theorem C58_named {t : STree} (h : ∀ w ∈ t.words, w.1 ≠ none) : ∃ v, t.edge (F := F) = .ok v := edge_named t h

mutual
/-- Some word outside of all names has no namespace. -/
def STree.Unnamed : STree → Prop
  | .leaf ns _ => ns = none
  | .node _ c ts => c = false ∧ unnamedL ts
/-- The same for several trees. -/
def unnamedL : List STree → Prop
  | [] => False
  | t :: ts => t.Unnamed ∨ unnamedL ts
end

mutual
theorem edge_unnamed {F : Type} : (t : STree) → (t.Unnamed ↔ t.edge (F := F) = .error .typeError) ∧
    (∀ e, t.edge (F := F) = .error e → e = .typeError)
  | .leaf none _ => by simp [STree.Unnamed, STree.edge]
  | .leaf (some _) _ => by simp [STree.Unnamed, STree.edge]
  | .node _ true _ => by simp [STree.Unnamed, STree.edge]
  | .node _ false ts => by
    have := edgeL_unnamed (F := F) ts
    rw [STree.Unnamed, STree.edge, this.1]
    cases hx : edgeL (F := F) ts with
    | ok vs => simp [Except.map]
    | error e => simp [Except.map, this.2 e hx]
theorem edgeL_unnamed {F : Type} : (ts : List STree) → (unnamedL ts ↔ edgeL (F := F) ts = .error .typeError) ∧
    (∀ e, edgeL (F := F) ts = .error e → e = .typeError)
  | [] => by simp [unnamedL, edgeL]
  | t :: ts => by
    have h1 := edge_unnamed (F := F) t
    have h2 := edgeL_unnamed (F := F) ts
    rw [unnamedL, edgeL, h1.1, h2.1]
    cases hx : t.edge (F := F) with
    | error e => simp [h1.2 e hx]
    | ok v =>
      cases hy : edgeL (F := F) ts with
      | error e => simp [h2.2 e hy]
      | ok vs => simp
end

/-- C58: exactly when a word outside of all names has no namespace, it raises `TypeError`; it raises nothing else. -/
theorem C58_raises {t : STree} : (t.Unnamed ↔ t.edge (F := F) = .error .typeError) ∧
    (∀ e, t.edge (F := F) = .error e → e = .typeError) := edge_unnamed t

/-! ### The extractor -/

variable {pyStr : Val F → Str}

/-- C59: `read_sentence` only returns if `alpha` comes first and nowhere else, `epsilon` at the end or not at all, and
all names are known; then there is one text for each stage, and it returns a tree, or an edge after `epsilon`. -/
theorem C59_returns {k : Nat} {stages : List Str} {s : List Tok} {o : StageOut F}
    (h : (readSentence pyStr k stages s).result = .ok o) :
    (readSentence pyStr k stages s).outputs.length = stages.length ∧ GoodStages stages ∧
      ((∃ v, o = .edge v) ↔ stages.getLast? = some (lit "epsilon")) := by
  obtain ⟨h1, mid, h2, h3⟩ := read_ok h
  refine ⟨h1, ⟨mid, h2, h3.imp (·.1) (·.1)⟩, ?_⟩
  rcases h3 with ⟨rfl, t, rfl⟩ | ⟨rfl, v, rfl⟩
  · constructor
    · rintro ⟨v, hv⟩; cases hv
    · intro hl
      cases mid with
      | nil => exact absurd (Option.some.inj hl) (by decide)
      | cons m mid =>
        rw [List.getLast?_cons_cons] at hl
        have hm := List.mem_of_getLast? hl
        rcases h2 _ hm with h | h | h <;> exact absurd h (by decide)
  · exact ⟨fun _ => by rw [List.getLast?_append]; rfl, fun _ => ⟨v, rfl⟩⟩

/-- C59: no stages. -/
theorem C59_empty {k : Nat} {s : List Tok} : (readSentence pyStr k [] s).result = .error .indexError := rfl

/-- C59: another first stage. -/
theorem C59_first {k : Nat} {n : Str} {ns : List Str} {s : List Tok} (h : n ≠ lit "alpha") :
    readSentence pyStr k (n :: ns) s = ⟨.error (if n ∈ stageNames then .attributeError else .runtimeError), []⟩ := by
  simp only [readSentence, runFirst, if_neg h]
  split <;> rfl

/-- C59: an unknown stage later on: what the stages before it gave stays in `outputs`. -/
theorem C59_unknown {k : Nat} {n m : Str} {a b : List Str} {s : List Tok} {o : StageOut F}
    (ho : (readSentence pyStr k (n :: a) s).result = .ok o) (hm : m ∉ stageNames) :
    readSentence pyStr k (n :: a ++ m :: b) s = ⟨.error .runtimeError, (readSentence pyStr k (n :: a) s).outputs⟩ := by
  rw [read_append]
  simp only [ho]
  exact runRest_fail (runStage_unknown hm)

/-- C59: a second `alpha`. -/
theorem C59_alpha {k : Nat} {n : Str} {a b : List Str} {s : List Tok} {o : StageOut F}
    (ho : (readSentence pyStr k (n :: a) s).result = .ok o) :
    readSentence pyStr k (n :: a ++ lit "alpha" :: b) s = ⟨.error .attributeError, (readSentence pyStr k (n :: a) s).outputs⟩ := by
  rw [read_append]
  simp only [ho]
  exact runRest_fail runStage_alpha

/-- C59: anything after `epsilon`. -/
theorem C59_after_epsilon {k : Nat} {n m : Str} {a b : List Str} {s : List Tok} {v : Val F}
    (ho : (readSentence pyStr k (n :: a) s).result = .ok (.edge v)) (hm : m ∈ stageNames) :
    readSentence pyStr k (n :: a ++ m :: b) s = ⟨.error .attributeError, (readSentence pyStr k (n :: a) s).outputs⟩ := by
  rw [read_append]
  simp only [ho]
  exact runRest_fail (runStage_edge hm)

/-- C59: after an exception, `outputs` is what it is after running only the stages before the one that failed. -/
theorem C59_outputs {k : Nat} {stages : List Str} {s : List Tok} {e : PyErr}
    (h : (readSentence pyStr k stages s).result = .error e) :
    (readSentence pyStr k stages s).outputs = [] ∨ ∃ a n b, stages = a ++ n :: b ∧ ∃ o', readSentence pyStr k a s =
      ⟨.ok o', (readSentence pyStr k stages s).outputs⟩ := read_error h

/-- C59: a sentence without root. -/
theorem C59_no_root {k : Nat} {ns : List Str} {s : List Tok} (h : ∀ y ∈ s, y.info.dep ≠ lit "ROOT") :
    readSentence pyStr k (lit "alpha" :: ns) s = ⟨.error .attributeError, []⟩ := by
  simp only [readSentence, runFirst, reduceIte, C53_no_root h, Except.map, logged]

/-! ### From the sentence to the edge -/

/-- C60: `alpha`, then `beta` and `gamma` in any order and number, then any number of `delta`, then `epsilon`: the texts
of the trees, and the edge at the end.  `ts` are the trees after each `delta`. -/
theorem C60_stages {s : List Tok} {x : Tok} (hroot : sentenceRoot s = some x) (ms : List Str)
    (hm : ∀ n ∈ ms, n = lit "beta" ∨ n = lit "gamma") (d : Nat) :
    ∃ (ts : List STree) (t : STree), ts.length = d ∧ (ts = [] → t = midTree ms (alphaTree x)) ∧
      (∀ l, ts.getLast? = some l → l = t) ∧
      (∀ u ∈ ts, u.Branching ∧ Reorders (midTree ms (alphaTree x)).words u.words) ∧ t.Branching ∧
      Reorders (midTree ms (alphaTree x)).words t.words ∧
      Yields (fun k => readSentence pyStr k (lit "alpha" :: ms ++ List.replicate d (lit "delta") ++ [lit "epsilon"]) s)
        (match t.edge with
          | .ok v => ⟨.ok (.edge v), (alphaTree x).text :: midTexts ms (alphaTree x) ++ ts.map STree.text ++ [pyStr v]⟩
          | .error e => ⟨.error e, (alphaTree x).text :: midTexts ms (alphaTree x) ++ ts.map STree.text⟩) := by
  obtain ⟨h1, s1, N1, g1⟩ := read_alpha pyStr hroot
  obtain ⟨h2, s2, N2, g2⟩ := rest_mid pyStr ms hm s1 (alphaTree_branching x)
  have hf := mid_branching ms _ (alphaTree_branching x)
  obtain ⟨h3, ts, t, a1, a2, a3, a4, a5, a6, a7, N3, g3⟩ := rest_delta pyStr d s2.holds hf
  obtain ⟨N4, g4⟩ := rest_epsilon pyStr a1
  refine ⟨ts, t, a4, a5, a6, a7, a2, a3, max (max N1 N2) (max N3 N4), fun k hk => ?_⟩
  show readSentence pyStr k (lit "alpha" :: (ms ++ List.replicate d (lit "delta")) ++ [lit "epsilon"]) s = _
  rw [List.cons_append, g1 k (by omega), List.append_assoc, g2 k (by omega), g3 k (by omega), g4 k (by omega)]
  cases t.edge (F := F) <;> simp

/-- C60: the default stages, on every sentence with a root: an edge is returned; it is made of words, each once, that
are the words of the sentence except punctuation, tokens without relation and what is below them, and perhaps without
some articles; all have the namespace 1; every tuple has at least two elements; and the five texts. -/
theorem C60_default {s : List Tok} {x : Tok} (hroot : sentenceRoot s = some x) :
    ∃ (v : Val F) (ws : List Word) (d : STree) (us : List TokInfo), Covers v ws ∧ d.words = ws ∧ d.edge = .ok v ∧
      Paired v ∧ (∀ w ∈ ws, w.1 = some (lit "1")) ∧
      Thinned (alphaTree x).leaves us ∧ (alphaTree x).leaves.Perm x.kept ∧ us.Perm (ws.map Prod.snd) ∧
      us.filter (fun w => !w.relates) = (ws.map Prod.snd).filter (fun w => !w.relates) ∧
      Yields (fun k => readSentence pyStr k defaultStages s)
        ⟨.ok (.edge v), [(alphaTree x).text, (alphaTree x).beta.text, (alphaTree x).beta.gamma.text, d.text, pyStr v]⟩ := by
  have hms : ∀ n ∈ [lit "beta", lit "gamma"], n = lit "beta" ∨ n = lit "gamma" := by simp
  obtain ⟨ts, t, b1, b2, b3, b4, b5, b6, b7⟩ := C60_stages (pyStr := pyStr) hroot [lit "beta", lit "gamma"] hms 1
  have hmid : midTree [lit "beta", lit "gamma"] (alphaTree x) = (alphaTree x).beta.gamma := by
    simp [midTree, show ¬ lit "gamma" = lit "beta" by decide]
  have htx : midTexts [lit "beta", lit "gamma"] (alphaTree x) = [(alphaTree x).beta.text, (alphaTree x).beta.gamma.text] := by
    simp [midTexts, show ¬ lit "gamma" = lit "beta" by decide]
  match ts, b1 with
  | [u], _ =>
    have hu : u = t := b3 u rfl
    subst hu
    have hones : Ones (midTree [lit "beta", lit "gamma"] (alphaTree x)) := mid_ones _ _ (by simp)
    have hone : ∀ w ∈ u.words, w.1 = some (lit "1") := fun w hw => hones w (b6.1.mem_iff.mpr hw)
    have hnamed : ∀ w ∈ u.words, w.1 ≠ none := by
      intro w hw
      rw [hone w hw]
      simp
    obtain ⟨v, hv⟩ := edge_named (F := F) u hnamed
    rw [hv, htx] at b7
    refine ⟨v, u.words, u, (midTree [lit "beta", lit "gamma"] (alphaTree x)).leaves, edge_covers u (full_of_branching u b5) hv, rfl, hv,
      edge_paired u b5 hv, hone,
      mid_thinned _ _ (alphaTree_branching x), alphaTree_perm x, ?_, ?_, b7⟩
    · rw [← words_leaves]
      exact b6.1.map _
    · rw [← words_leaves, List.filter_map, List.filter_map]
      exact congrArg (List.map Prod.snd) b6.2

/-! ### Examples -/

/-- `str` of an edge, for the examples. -/
def exStr : Val Nat → Str
  | .str s => s
  | _ => lit "?"

example : sentenceRoot exSentence = some exGoing := rfl

example : exGoing.kept.map TokInfo.word = [lit "telmo", lit "is", lit "going", lit "to", lit "the", lit "gym"] := by
  simp only [exGoing, Tok.kept, keptL]
  decide +kernel

example : (alphaTree exGoing).text = lit "(is (going telmo (to (the gym))))" := by decide +kernel
example : (alphaTree exGoing).beta.text = lit "(is (going telmo (to (the gym))))" := by decide +kernel
example : (alphaTree exGoing).beta.gamma.text = lit "(is_going telmo (to gym))" := by decide +kernel

/-- C55, C56: a tree object that stands for the tree of the example, and each stage after it. -/
example : ∃ h, Stands h (alphaTree exGoing) ∧ (alphaTree exGoing).Branching ∧ (alphaTree exGoing).leaves.length = 6 := by
  obtain ⟨h, _, st, _⟩ := C54_tree (s := exSentence) (x := exGoing) rfl
  exact ⟨h, st, alphaTree_branching _, by decide +kernel⟩
example : ∃ h, Stands h (alphaTree exGoing).beta ∧ (alphaTree exGoing).beta.Branching := by
  obtain ⟨h, _, st, _⟩ := C54_tree (s := exSentence) (x := exGoing) rfl
  obtain ⟨h', _, st'⟩ := C55_beta st (alphaTree_branching _)
  exact ⟨h', st', beta_branching _ (alphaTree_branching _)⟩
/-- C57, C58: the tree that `delta` gets; it starts with a relation, so it is not left as it is. -/
example : ∃ h, Holds h (alphaTree exGoing).beta.gamma ∧ (alphaTree exGoing).beta.gamma.Full ∧
    (alphaTree exGoing).beta.gamma.terminal = false ∧ (alphaTree exGoing).beta.gamma.leads = true := by
  obtain ⟨h, _, st, _⟩ := C54_tree (s := exSentence) (x := exGoing) rfl
  obtain ⟨h', _, st'⟩ := C55_beta st (alphaTree_branching _)
  have hb := beta_branching _ (alphaTree_branching exGoing)
  obtain ⟨h'', _, st''⟩ := C56_gamma st' hb
  exact ⟨h'', st''.holds, full_of_branching _ (gamma_branching _ hb), by decide +kernel, by decide +kernel⟩
/-- C58: a tree with a name of two words and a nested node, and its edge; without namespace there is none. -/
example (a b c d : TokInfo) : (STree.node none false [.node none true [.leaf (some (lit "1")) a, .leaf none b],
      .node none false [.leaf (some (lit "1")) c, .leaf (some (lit "1")) d]]).edge (F := Half) =
    .ok (.seq false [nameSymbol [a, b], .seq false [wordSymbol (lit "1") c, wordSymbol (lit "1") d]]) := rfl
example (a b c : TokInfo) : (STree.node none false [.node none true [.leaf none a, .leaf none b],
      .leaf none c]).edge (F := Half) = .error .typeError := rfl
/-- C59: the default stages return, on the example. -/
example (pyStr : Val Half → Str) : ∃ k v, (readSentence pyStr k defaultStages exSentence).result = .ok (.edge v) := by
  obtain ⟨v, _, _, _, _, _, _, _, _, _, _, _, _, N, hN⟩ := C60_default (F := Half) (pyStr := pyStr) (s := exSentence) (x := exGoing) rfl
  exact ⟨N, v, congrArg Reading.result (hN N (Nat.le_refl _))⟩

end GB
