import Verif.Proofs.CandStage
import Verif.Props.Knowledge
import Verif.Props.Choice

/-
Property C71: the fourth stage as a function of trees.
-/

namespace GB

variable {F : Type} {pyStr : Val F → Str}

/-- C71: the search finds exactly the rearrangements of a tidy tree, in this order, and the tree is as before. -/
theorem C71_found {h : SemTree} {t : STree} {i r : Nat} (hr : Reads h t (i : Int)) (ht : h.table[i]? = some r)
    (htd : t.tidy = true) :
    ∃ rs h', Yields (fun k => findCandidates k r h) (.ok (rs, h')) ∧ RefsR h' t.rearranged rs ∧ Reads h' t (i : Int) ∧
      h'.rootId = h.rootId := by
  obtain ⟨rs, h', hy, hk, hrefs⟩ := find_reads t htd hr ht
  exact ⟨rs, h', hy, hrefs, hr.keep hk, hk.root⟩

/-- C71: the stage makes `t.delta` of a tidy tree `t`. -/
theorem C71_delta {h : SemTree} {t : STree} (hs : Holds h t) (htd : t.tidy = true) :
    ∃ h', Yields (fun k => deltaStage k h) (.ok ((), h')) ∧ Holds h' t.delta := delta_reads hs htd

/-- C71: `t.delta` is the first of the rearrangements that fit best. -/
theorem C71_best {t : STree} (htd : t.tidy = true) (hn : t.terminal = false) (hl : t.leads = true) :
    ∃ a b, t.rearranged = a ++ t.delta :: b ∧ (∀ y ∈ a, t.fit y < t.fit t.delta) ∧ ∀ y ∈ b, t.fit y ≤ t.fit t.delta := by
  cases hc : t.rearranged with
  | nil =>
    exact absurd hc (rearranged_ne t htd)
  | cons c cs =>
    obtain ⟨a, x, d, h1, h2, h3, h4⟩ := pickBest_spec t cs c
    have hd : t.delta = x := by
      rw [STree.delta, if_neg (by simp [hn, hl]), hc]
      exact h2
    rw [hd]
    exact ⟨a, d, h1, h3, h4⟩

/-- C71: other trees stay as they are. -/
theorem C71_rest {t : STree} (h : t.terminal = true ∨ t.leads = false) : t.delta = t := by
  rw [STree.delta, if_pos]
  rcases h with h | h <;> simp [h]

/-- C71: a word stays, and the tree itself, up to the namespaces of nodes, is one of the rearrangements of a node. -/
theorem C71_itself {t : STree} (htd : t.tidy = true) (hn : t.terminal = false) : ∃ c ∈ t.rearranged, c.copy = t.copy := by
  cases t with
  | leaf _ _ => cases hn
  | node ns b ts =>
    cases (show b = false from hn)
    exact rearranged_same htd

/-- C71: the stage never makes the fit worse. -/
theorem C71_fit {t : STree} (htd : t.tidy = true) : t.fit t ≤ t.fit t.delta := delta_fit htd

/-- C71: the default stages as a function, for sentences whose tree before the fourth stage has a word or a name as the
first element of every node. -/
theorem C71_default {s : List Tok} {x : Tok} (hroot : sentenceRoot s = some x)
    (hh : ((alphaTree x).beta.gamma).headed = true) :
    ∃ v : Val F, (alphaTree x).beta.gamma.delta.edge = .ok v ∧
      Yields (fun k => readSentence pyStr k defaultStages s) ⟨.ok (.edge v), [(alphaTree x).text, (alphaTree x).beta.text,
        (alphaTree x).beta.gamma.text, (alphaTree x).beta.gamma.delta.text, pyStr v]⟩ := by
  have hms : ∀ n ∈ [lit "beta", lit "gamma"], n = lit "beta" ∨ n = lit "gamma" := by simp
  have hmid : midTree [lit "beta", lit "gamma"] (alphaTree x) = (alphaTree x).beta.gamma := by
    simp [midTree, show ¬ lit "gamma" = lit "beta" by decide]
  have htx : midTexts [lit "beta", lit "gamma"] (alphaTree x) = [(alphaTree x).beta.text, (alphaTree x).beta.gamma.text] := by
    simp [midTexts, show ¬ lit "gamma" = lit "beta" by decide]
  obtain ⟨h1, s1, N1, g1⟩ := read_alpha pyStr hroot
  obtain ⟨h2, s2, N2, g2⟩ := rest_mid pyStr [lit "beta", lit "gamma"] hms s1 (alphaTree_branching x)
  rw [hmid] at s2
  obtain ⟨h3, a1, N3, g3⟩ := read_delta pyStr s2.holds (extracted_tidy x hh)
  obtain ⟨N4, g4⟩ := rest_epsilon pyStr a1
  have hones : Ones (midTree [lit "beta", lit "gamma"] (alphaTree x)) := mid_ones _ _ (by simp)
  rw [hmid] at hones
  obtain ⟨v, hv⟩ : ∃ v, (alphaTree x).beta.gamma.delta.edge (F := F) = .ok v := by
    obtain ⟨h', t', hy, hh', _, _, hre, _⟩ := C57_delta s2.holds (tidy_full _ (extracted_tidy x hh))
    obtain ⟨h'', hy', hh''⟩ := C71_delta s2.holds (extracted_tidy x hh)
    obtain ⟨M, hM⟩ := hy
    obtain ⟨M', hM'⟩ := hy'
    have e := (hM (max M M') (by omega)).symm.trans (hM' (max M M') (by omega))
    cases e
    obtain ⟨i, hr1, hr2⟩ := hh'
    obtain ⟨i', hr1', hr2'⟩ := hh''
    rw [hr1] at hr1'
    cases hr1'
    rw [← reads_unique _ _ hr2 hr2']
    refine edge_named t' (fun w hw => ?_)
    rw [hones w (hre.1.mem_iff.mpr hw)]
    simp
  refine ⟨v, hv, max (max N1 N2) (max N3 N4), fun k hk => ?_⟩
  show readSentence pyStr k (lit "alpha" :: ([lit "beta", lit "gamma"] ++ (lit "delta" :: [lit "epsilon"]))) s = _
  rw [g1 k (by omega), g2 k (by omega), g3 k (by omega), g4 k (by omega), hv, htx]
  rfl

/-! ### Examples -/

/-- The sentence "Telmo is going to the gym.": its tree before the stage meets the condition, has three rearrangements,
and becomes the first of the two that fit best. -/
example : (alphaTree exGoing).beta.gamma.headed = true := by decide +kernel
example : (alphaTree exGoing).beta.gamma.rearranged.map STree.text =
    [lit "(is_going_to telmo gym)", lit "((is_going to) telmo gym)", lit "(is_going telmo (to gym))"] := by decide +kernel
example : (alphaTree exGoing).beta.gamma.rearranged.map (alphaTree exGoing).beta.gamma.fit = [1000, 100, 1000] := by decide +kernel
example : (alphaTree exGoing).beta.gamma.delta.text = lit "(is_going_to telmo gym)" := by decide +kernel

/-- The hypotheses of `C71_delta` and `C71_best` are met by a tree object for this sentence. -/
example : ∃ h, Holds h (alphaTree exGoing).beta.gamma ∧ (alphaTree exGoing).beta.gamma.tidy = true ∧
    (alphaTree exGoing).beta.gamma.terminal = false ∧ (alphaTree exGoing).beta.gamma.leads = true := by
  obtain ⟨h, _, st, _⟩ := C54_tree (s := exSentence) (x := exGoing) rfl
  obtain ⟨h', _, st'⟩ := C55_beta st (alphaTree_branching _)
  have hb := beta_branching _ (alphaTree_branching exGoing)
  obtain ⟨h'', _, st''⟩ := C56_gamma st' hb
  exact ⟨h'', st''.holds, by decide +kernel, by decide +kernel, by decide +kernel⟩

/-- A tree object in which the first element of the root is not a name: `((v to) (to a) (in b))`. -/
def exUntidy : SemTree :=
  ⟨some 9, List.range 10, [⟨0, some (lit "1"), .leaf (exInfo "v" "v" "VERB" "")⟩, ⟨1, some (lit "1"), .leaf (exInfo "to" "to" "ADP" "")⟩,
    ⟨2, none, .node 0 [] (-1) false⟩, ⟨3, some (lit "1"), .leaf (exInfo "to" "to" "ADP" "")⟩,
    ⟨4, some (lit "1"), .leaf (exInfo "a" "a" "NOUN" "")⟩, ⟨5, none, .node 1 [] (-1) false⟩,
    ⟨6, some (lit "1"), .leaf (exInfo "in" "in" "ADP" "")⟩, ⟨7, some (lit "1"), .leaf (exInfo "b" "b" "NOUN" "")⟩,
    ⟨8, none, .node 2 [] (-1) false⟩, ⟨9, none, .node 3 [] (-1) false⟩], [[0, 1], [3, 4], [6, 7], [2, 5, 8]]⟩

/-- The tree it stands for. -/
def exUntidyTree : STree :=
  .node none false [.node none false [exWord "v" "VERB", exWord "to" "ADP"], .node none false [exWord "to" "ADP", exWord "a" "NOUN"],
    .node none false [exWord "in" "ADP", exWord "b" "NOUN"]]

/-- The text of the tree after the stage. -/
def deltaText (h : SemTree) : Except PyErr Str :=
  match deltaStage 40 h with
  | .error e => .error e
  | .ok ((), h') => (treeStr 40 h').map Prod.fst

/-- Without the condition the result can be another one: the candidates share the first element of the original, and
one of them marks it as part of a name while others are still to be looked at. -/
example : deltaText exUntidy = .ok (lit "(v_to_to_in a b)") ∧ exUntidyTree.delta.text = lit "((to v to) a (in b))" := by
  decide +kernel
example : exUntidyTree.tidy = false := by decide +kernel
example : Holds exUntidy exUntidyTree :=
  ⟨9, rfl, 9, 9, 3, [], -1, _, rfl, rfl, rfl, rfl,
    _, _, rfl, ⟨2, 2, 0, [], -1, _, rfl, rfl, rfl, rfl, _, _, rfl, ⟨0, 0, rfl, rfl, rfl⟩, _, _, rfl, ⟨1, 1, rfl, rfl, rfl⟩, rfl⟩,
    _, _, rfl, ⟨5, 5, 1, [], -1, _, rfl, rfl, rfl, rfl, _, _, rfl, ⟨3, 3, rfl, rfl, rfl⟩, _, _, rfl, ⟨4, 4, rfl, rfl, rfl⟩, rfl⟩,
    _, _, rfl, ⟨8, 8, 2, [], -1, _, rfl, rfl, rfl, rfl, _, _, rfl, ⟨6, 6, rfl, rfl, rfl⟩, _, _, rfl, ⟨7, 7, rfl, rfl, rfl⟩, rfl⟩,
    rfl⟩

end GB
