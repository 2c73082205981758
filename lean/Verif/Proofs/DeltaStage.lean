import Verif.Proofs.DeltaRun
import Verif.Proofs.StageRead

/-
The delta stage as a whole.
-/

namespace GB

/-! ### Trees read from the heap -/

mutual
theorem reads_unique {h : SemTree} : (t t' : STree) → {i : Int} → Reads h t i → Reads h t' i → t = t'
  | .leaf ns tok, .leaf ns' tok', i, h1, h2 => by
    obtain ⟨n, r, hi, ht, ho⟩ := h1
    obtain ⟨n', r', hi', ht', ho'⟩ := h2
    obtain rfl : n = n' := by omega
    obtain rfl := some_eq ht ht'
    have := some_eq ho ho'
    simp only [Elem.mk.injEq, Body.leaf.injEq] at this
    rw [this.2.1, this.2.2]
  | .leaf ns tok, .node ns' c' ts', i, h1, h2 => by
    obtain ⟨n, r, hi, ht, ho⟩ := h1
    obtain ⟨n', r', l, lids, lid, ids, hi', ht', ho', _⟩ := h2
    obtain rfl : n = n' := by omega
    obtain rfl := some_eq ht ht'
    have := some_eq ho ho'
    simp at this
  | .node ns c ts, .leaf ns' tok', i, h1, h2 => by
    obtain ⟨n', r', l, lids, lid, ids, hi', ht', ho', _⟩ := h1
    obtain ⟨n, r, hi, ht, ho⟩ := h2
    obtain rfl : n = n' := by omega
    obtain rfl := some_eq ht ht'
    have := some_eq ho ho'
    simp at this
  | .node ns c ts, .node ns' c' ts', i, h1, h2 => by
    obtain ⟨n, r, l, lids, lid, ids, hi, ht, ho, hl, hs⟩ := h1
    obtain ⟨n', r', l', lids', lid', ids', hi', ht', ho', hl', hs'⟩ := h2
    obtain rfl : n = n' := by omega
    obtain rfl := some_eq ht ht'
    have := some_eq ho ho'
    simp only [Elem.mk.injEq, Body.node.injEq, true_and] at this
    obtain ⟨rfl, rfl, rfl, rfl, rfl⟩ := this
    obtain rfl := some_eq hl hl'
    rw [readsL_unique ts ts' hs hs']
theorem readsL_unique {h : SemTree} : (ts ts' : List STree) → {ids : List Int} → ReadsL h ts ids → ReadsL h ts' ids → ts = ts'
  | [], [], _, _, _ => rfl
  | [], t' :: ts', ids, h1, h2 => by
    cases (show ids = [] from h1)
    obtain ⟨i, is, heq, _⟩ := h2
    cases heq
  | t :: ts, [], ids, h1, h2 => by
    cases (show ids = [] from h2)
    obtain ⟨i, is, heq, _⟩ := h1
    cases heq
  | t :: ts, t' :: ts', ids, h1, h2 => by
    obtain ⟨i, is, rfl, ha, hb⟩ := h1
    obtain ⟨i', is', heq, ha', hb'⟩ := h2
    cases heq
    rw [reads_unique t t' ha ha', readsL_unique ts ts' hb hb']
end

mutual
theorem reads_of_rep {h : SemTree} : (t : STree) → {i : Int} → {F : List Loc} → Rep h t i F → Reads h t i
  | .leaf ns tok, i, F, hr => by
    obtain ⟨n, r, hi, ht, ho, _⟩ := hr
    exact ⟨n, r, hi, ht, ho⟩
  | .node ns c ts, i, F, hr => by
    obtain ⟨n, r, l, ids, Fs, hi, ht, ho, hl, hs, _⟩ := hr
    exact ⟨n, r, l, [], -1, ids, hi, ht, ho, hl, readsL_of_reps ts hs⟩
theorem readsL_of_reps {h : SemTree} : (ts : List STree) → {ids : List Int} → {F : List Loc} → Reps h ts ids F → ReadsL h ts ids
  | [], _, _, hr => hr.1
  | t :: ts, ids, F, hr => by
    obtain ⟨i, is, F1, F2, rfl, ha, hb, _⟩ := hr
    exact ⟨i, is, rfl, reads_of_rep t ha, readsL_of_reps ts hb⟩
end

mutual
theorem reads_root {h : SemTree} {x : Option Nat} : (t : STree) → {i : Int} → Reads h t i → Reads { h with rootId := x } t i
  | .leaf _ _, _, hr => hr
  | .node _ _ ts, _, hr => by
    obtain ⟨n, r, l, lids, lid, ids, hi, ht, ho, hl, hs⟩ := hr
    exact ⟨n, r, l, lids, lid, ids, hi, ht, ho, hl, readsL_root ts hs⟩
theorem readsL_root {h : SemTree} {x : Option Nat} : (ts : List STree) → {ids : List Int} → ReadsL h ts ids →
    ReadsL { h with rootId := x } ts ids
  | [], _, hr => hr
  | t :: ts, _, hr => by
    obtain ⟨i, is, he, ha, hb⟩ := hr
    exact ⟨i, is, he, reads_root t ha, readsL_root ts hb⟩
end

/-- A tree that stands alone can be read. -/
theorem Stands.holds {h : SemTree} {t : STree} (hs : Stands h t) : Holds h t := by
  obtain ⟨i, F, hr, hrep, _⟩ := hs
  exact ⟨i, hr, reads_of_rep t hrep⟩

mutual
theorem full_of_branching : (t : STree) → t.Branching → t.Full
  | .leaf _ _, _ => trivial
  | .node _ _ ts, hb => ⟨by rintro rfl; simp [STree.Branching] at hb, fullL_of_branching ts hb.2⟩
theorem fullL_of_branching : (ts : List STree) → branchingL ts → fullL ts
  | [], _ => trivial
  | t :: ts, hb => ⟨full_of_branching t hb.1, fullL_of_branching ts hb.2⟩
end

mutual
theorem words_leaves : (t : STree) → t.words.map Prod.snd = t.leaves
  | .leaf _ _ => rfl
  | .node _ _ ts => wordsL_leaves ts
theorem wordsL_leaves : (ts : List STree) → (wordsL ts).map Prod.snd = leavesL ts
  | [] => rfl
  | t :: ts => by simp [wordsL, leavesL, words_leaves t, wordsL_leaves ts]
end

theorem wordsL_eq : (ts : List STree) → wordsL ts = (ts.map STree.words).flatten
  | [] => rfl
  | t :: ts => by simp [wordsL, wordsL_eq ts]

/-- No node is empty, and if `two`, every node has at least two children. -/
def STree.Ok (two : Prop) (t : STree) : Prop := t.Full ∧ (two → t.Branching)

/-- The same for several trees. -/
def okL (two : Prop) (ts : List STree) : Prop := fullL ts ∧ (two → branchingL ts)

theorem okL_cons {two : Prop} {t : STree} {ts : List STree} : okL two (t :: ts) ↔ t.Ok two ∧ okL two ts := by
  simp only [okL, STree.Ok, fullL, branchingL]
  constructor
  · rintro ⟨⟨a, b⟩, c⟩
    exact ⟨⟨a, fun x => (c x).1⟩, b, fun x => (c x).2⟩
  · rintro ⟨⟨a, b⟩, c, d⟩
    exact ⟨⟨a, c⟩, fun x => ⟨b x, d x⟩⟩

theorem ok_node {two : Prop} {ns : Option Str} {c : Bool} {ts : List STree} :
    (STree.node ns c ts).Ok two ↔ (ts ≠ [] ∧ (two → 2 ≤ ts.length)) ∧ okL two ts := by
  simp only [okL, STree.Ok, STree.Full, STree.Branching]
  constructor
  · rintro ⟨⟨a, b⟩, c⟩
    exact ⟨⟨a, fun x => (c x).1⟩, b, fun x => (c x).2⟩
  · rintro ⟨⟨a, b⟩, c, d⟩
    exact ⟨⟨a, c⟩, fun x => ⟨b x, d x⟩⟩

theorem STree.Full.ok {t : STree} (hf : t.Full) : t.Ok False := ⟨hf, False.elim⟩

theorem readsL_size {h : SemTree} : {ts : List STree} → {ids : List Int} → ReadsL h ts ids → ts.length = ids.length
  | [], ids, hr => by cases (show ids = [] from hr); rfl
  | t :: ts, ids, hr => by
    obtain ⟨i, is, rfl, _, hb⟩ := hr
    simp [readsL_size hb]

theorem STree.Ok.iff {p q : Prop} (hpq : p ↔ q) {t : STree} (h : t.Ok q) : t.Ok p := ⟨h.1, fun x => h.2 (hpq.mp x)⟩

/-! ### The world of a heap -/

open Classical in
/-- Everything that reads as a tree is visible. -/
noncomputable def SemTree.world (h : SemTree) (two : Prop) : World where
  ty := fun m => if hx : ∃ t, Reads h t (m : Int) ∧ t.Ok two then some (hx.choose.words, hx.choose.depth) else none
  own := fun l => l < h.lists.length
  two := two

theorem world_ty {h : SemTree} {m : Nat} {t : STree} {two : Prop} (hr : Reads h t (m : Int)) (hf : t.Ok two) :
    (h.world two).ty m = some (t.words, t.depth) := by
  have hx : ∃ t, Reads h t (m : Int) ∧ t.Ok two := ⟨t, hr, hf⟩
  have heq : hx.choose = t := reads_unique _ _ hx.choose_spec.1 hr
  simp only [SemTree.world, hx, dif_pos, heq]

theorem ty_world {h : SemTree} {m : Nat} {ls : List Word} {ρ : Nat} {two : Prop} (hm : (h.world two).ty m = some (ls, ρ)) :
    ∃ t, Reads h t (m : Int) ∧ t.Ok two ∧ ls = t.words ∧ ρ = t.depth := by
  unfold SemTree.world at hm
  dsimp only at hm
  split at hm
  · rename_i hx
    cases hm
    exact ⟨_, hx.choose_spec.1, hx.choose_spec.2, rfl, rfl⟩
  · cases hm

theorem readsL_kids {h : SemTree} {two : Prop} {n : Nat} : (ts : List STree) → {ids : List Int} → ReadsL h ts ids → okL two ts → depthL ts < n →
    (h.world two).Kids n ids (ts.map STree.words)
  | [], ids, hr, _, _ => by
    cases (show ids = [] from hr)
    rfl
  | t :: ts, ids, hr, hf, hd => by
    obtain ⟨i, is, rfl, ha, hb⟩ := hr
    simp only [depthL] at hd
    obtain ⟨m, rfl⟩ : ∃ m : Nat, i = (m : Int) := by
      cases t with
      | leaf _ _ => obtain ⟨m, _, h1, _⟩ := ha; exact ⟨m, h1⟩
      | node _ _ _ => obtain ⟨m, _, _, _, _, _, h1, _⟩ := ha; exact ⟨m, h1⟩
    exact ⟨_, _, rfl, ⟨m, t.depth, rfl, world_ty ha (okL_cons.mp hf).1, by omega⟩,
      readsL_kids ts hb (okL_cons.mp hf).2 (by omega)⟩

theorem wf_world (h : SemTree) (two : Prop) : WF h (h.world two) where
  good := by
    intro m ls ρ hm
    obtain ⟨t, hr, hf, rfl, rfl⟩ := ty_world hm
    cases t with
    | leaf ns tok =>
      obtain ⟨n, r, hi, ht, ho⟩ := hr
      obtain rfl : m = n := by omega
      exact ⟨r, _, ht, ho, rfl, .inl ⟨tok, rfl, rfl⟩⟩
    | node ns c ts =>
      obtain ⟨n, r, l, lids, lid, ids, hi, ht, ho, hl, hs⟩ := hr
      obtain rfl : m = n := by omega
      refine ⟨r, _, ht, ho, rfl, .inr ⟨l, lids, lid, c, ids, ts.map STree.words, rfl, some_lt hl, hl, ?_,
        readsL_kids ts hs (ok_node.mp hf).2 (by simp [STree.depth]), by rw [STree.words, wordsL_eq]⟩⟩
      have hlen := readsL_size hs
      obtain ⟨⟨h1, h2⟩, _⟩ := ok_node.mp hf
      exact ⟨fun h0 => h1 (List.length_eq_zero_iff.mp (by simpa [h0] using hlen)), fun x => hlen ▸ h2 x⟩
  own := fun _ hl => hl

theorem wide_reads {h : SemTree} {Ψ : World} {ids : List Int} {ts : List STree} (hw : Ψ.Wide ids) (hr : ReadsL h ts ids) :
    ts ≠ [] ∧ (Ψ.two → 2 ≤ ts.length) := by
  have hlen := readsL_size hr
  exact ⟨fun h0 => hw.1 (List.length_eq_zero_iff.mp (by simpa [h0] using hlen.symm)), fun x => hlen ▸ hw.2 x⟩

mutual
/-- A visible id reads as a tree with its words. -/
theorem child_reads {h : SemTree} {Ψ : World} (hw : WF h Ψ) : (n : Nat) → {i : Int} → {ls : List Word} → Ψ.Child n i ls →
    ∃ t, Reads h t i ∧ t.Ok Ψ.two ∧ t.words = ls
  | 0, i, ls, hc => by
    obtain ⟨_, _, _, _, h0⟩ := hc
    omega
  | n + 1, i, ls, hc => by
    obtain ⟨m, ρ, rfl, hm, hlt⟩ := hc
    obtain ⟨r, e, ht, ho, hi, hbody⟩ := hw.good m ls ρ hm
    obtain ⟨id, ns, body⟩ := e
    simp only at hi hbody
    subst hi
    rcases hbody with ⟨tok, rfl, rfl⟩ | ⟨l, lids, lid, c, ids, lss, rfl, hown, hl, hne, hk, rfl⟩
    · exact ⟨.leaf ns tok, ⟨_, r, rfl, ht, ho⟩, ⟨trivial, fun _ => trivial⟩, rfl⟩
    · obtain ⟨ts, hr, hf, hws⟩ := kids_reads hw n (hk.le (.refl Ψ) (show ρ ≤ n by omega))
      refine ⟨.node ns c ts, ⟨_, r, l, lids, lid, ids, rfl, ht, ho, hl, hr⟩, ok_node.mpr ⟨wide_reads hne hr, hf⟩, ?_⟩
      · rw [STree.words, wordsL_eq, hws]
  termination_by n => (n, 0)
theorem kids_reads {h : SemTree} {Ψ : World} (hw : WF h Ψ) : (n : Nat) → {is : List Int} → {lss : List (List Word)} →
    Ψ.Kids n is lss → ∃ ts, ReadsL h ts is ∧ okL Ψ.two ts ∧ ts.map STree.words = lss
  | n, [], lss, hk => by
    cases (show lss = [] from hk)
    exact ⟨[], rfl, ⟨trivial, fun _ => trivial⟩, rfl⟩
  | n, i :: is, lss, hk => by
    obtain ⟨ls, lss', rfl, hc, hk⟩ := hk
    obtain ⟨t, h1, h2, h3⟩ := child_reads hw n hc
    obtain ⟨ts, h4, h5, h6⟩ := kids_reads hw n hk
    exact ⟨t :: ts, ⟨i, is, rfl, h1, h4⟩, okL_cons.mpr ⟨h2, h5⟩, by simp [h3, h6]⟩
  termination_by n is => (n, is.length + 1)
end

/-- A candidate reads as a tree with its words. -/
theorem Hid.reads {h : SemTree} {Ψ : World} (hw : WF h Ψ) {r : Nat} {ids : List Int} {lss : List (List Word)}
    (hh : Hid h Ψ r ids lss) (hwd : Ψ.Wide ids) : ∃ (w : Nat) (ns : Option Str) (c : Bool) (ts : List STree), elemId r h = .ok (w, h) ∧ Reads h (.node ns c ts) (w : Int) ∧
      (STree.node ns c ts).Ok Ψ.two ∧ ts.map STree.words = lss := by
  obtain ⟨w, e, l, lids, lid, c, n, ht, ho, hi, hb, hl, hne, hwn, hk⟩ := hh
  obtain ⟨ts, h1, h2, h3⟩ := kids_reads hw n hk
  have heid := elemId_run ho
  obtain ⟨id, ns, body⟩ := e
  simp only at hi hb
  subst hi hb
  refine ⟨_, ns, c, ts, heid, ⟨_, r, l, lids, lid, ids, rfl, ht, ho, hl, h1⟩, ok_node.mpr ⟨wide_reads hwd h1, h2⟩, h3⟩

/-! ### The best candidate -/

theorem bestCandidate_settles {h : SemTree} {Ψ : World} (hw : WF h Ψ) {entity no : Nat} (hs : Seen h Ψ no entity) :
    (cs : List Nat) → (best : Option Nat) → (bestFit : Int) → (∀ c ∈ cs, ∃ ls, Cand h Ψ c ls) →
    ((cs ≠ [] ∧ bestFit < 0) ∨ best ≠ none) →
    Settles (fun k => bestCandidate k entity cs best bestFit) h
      (fun o h' => h' = h ∧ ∃ b, o = some b ∧ (b ∈ cs ∨ best = some b))
  | [], best, bestFit, _, hor => by
    cases best with
    | none => simp at hor
    | some b => exact Settles.pure ⟨rfl, b, rfl, .inr rfl⟩
  | c :: cs, best, bestFit, hc, hor => by
    obtain ⟨ls, hcand⟩ := hc c (by simp)
    refine Settles.bind (nodeFit_settles hw hcand hs) ?_
    rintro fit h1 rfl
    refine Settles.ite (fun hgt => ?_) (fun hle => ?_)
    · refine (bestCandidate_settles hw hs cs (some c) fit (fun x hx => hc x (by simp [hx])) (.inr (by simp))).mono ?_
      rintro o h2 ⟨rfl, b, rfl, hb⟩
      refine ⟨rfl, b, rfl, .inl ?_⟩
      rcases hb with hb | hb
      · simp [hb]
      · cases hb; simp
    · have hbest : best ≠ none := by
        rcases hor with ⟨_, hlt⟩ | hne
        · omega
        · exact hne
      refine (bestCandidate_settles hw hs cs best bestFit (fun x hx => hc x (by simp [hx])) (.inr hbest)).mono ?_
      rintro o h2 ⟨rfl, b, rfl, hb⟩
      refine ⟨rfl, b, rfl, ?_⟩
      rcases hb with hb | hb
      · exact .inl (by simp [hb])
      · exact .inr hb

/-! ### The stage -/

theorem relates_words (t : STree) : t.words.all wordRelates = t.relates := by
  rw [STree.relates, ← words_leaves t, List.all_map]
  rfl

theorem deltaStage_settles {h : SemTree} {t : STree} {two : Prop} (hh : Holds h t) (hf : t.Ok two) :
    Settles deltaStage h (fun _ h' => ∃ t', Holds h' t' ∧ t'.Ok two ∧ Reorders t.words t'.words ∧
      (t.terminal = true ∨ t.leads = false → h' = h) ∧ (t.terminal = false → t.leads = true → t'.leads = true)) := by
  obtain ⟨i, hroot, hr⟩ := hh
  have hw := wf_world h two
  have hm := world_ty hr hf
  obtain ⟨r, e, ht, ho, hi, hbody⟩ := hw.good i _ _ hm
  show Settles (fun k => rootIdM >>= fun (j : Nat) => deltaEntity k (j : Int) >>= setRootId) h _
  refine Settles.step (a := i) (h1 := h) (fun _ => by simp [rootIdM, hroot]) ?_
  refine Settles.bind (P := fun id h' => ∃ (w : Nat) (t' : STree), id = (w : Int) ∧ Reads h' t' (w : Int) ∧ t'.Ok two ∧
    Reorders t.words t'.words ∧ (t.terminal = true ∨ t.leads = false → h' = h ∧ w = i) ∧
    (t.terminal = false → t.leads = true → t'.leads = true)) ?_ ?_
  · refine Settles.step (fun _ => treeGet_run ht) ?_
    refine Settles.step (fun _ => deref_run ho) ?_
    have hterm : e.isTerminal = t.terminal := by
      cases t with
      | leaf ns tok =>
        obtain ⟨n', r', h1, h2, h3⟩ := hr
        obtain rfl : i = n' := by omega
        obtain rfl := some_eq ht h2
        rw [some_eq ho h3]; rfl
      | node ns c ts =>
        obtain ⟨n', r', l, lids, lid, ids, h1, h2, h3, _⟩ := hr
        obtain rfl : i = n' := by omega
        obtain rfl := some_eq ht h2
        rw [some_eq ho h3]; rfl
    refine Settles.ite (fun h1 => ?_) (fun h1 => ?_)
    · exact Settles.pure ⟨i, t, rfl, hr, hf, .refl _, fun _ => ⟨rfl, rfl⟩, fun h2 => by rw [hterm, h2] at h1; cases h1⟩
    · have hterm' : t.terminal = false := by
        rw [← hterm]
        simpa using h1
      cases t with
      | leaf ns tok => cases hterm'
      | node ns c ts =>
        have hr0 := hr
        obtain ⟨n', r', l, lids, lid, ids, h1, h2, h3, hl, hs⟩ := hr
        obtain rfl : i = n' := by omega
        obtain rfl := some_eq ht h2
        obtain rfl := some_eq ho h3
        cases ts with
        | nil => exact absurd rfl hf.1.1
        | cons t0 ts =>
          obtain ⟨j, js, rfl, ha, hbs⟩ := hs
          refine Settles.step (fun _ => childId_run ho rfl hl (i := 0) (y := j) rfl) ?_
          have hkids := readsL_kids (n := depthL (t0 :: ts) + 1) (t0 :: ts) (ids := j :: js) ⟨j, js, rfl, ha, hbs⟩ (ok_node.mp hf).2 (by omega)
          obtain ⟨l0, lss', heq, hc0, _⟩ := hkids
          cases heq
          refine Settles.bind (isRel_settles hw _ hc0) ?_
          rintro b _ ⟨hb, rfl⟩
          rw [relates_words] at hb
          refine Settles.ite (fun hnr => ?_) (fun hrel => ?_)
          · refine Settles.pure ⟨i, _, rfl, hr0, hf, .refl _,
              fun _ => ⟨rfl, rfl⟩, fun _ h2 => ?_⟩
            have h2' : t0.relates = true := h2
            rw [hb, h2'] at hnr
            cases hnr
          · have hrel' : t0.relates = true := by
              rw [← hb]
              cases b with
              | true => rfl
              | false => exact absurd rfl hrel
            refine Settles.bind (findOk _ _ _ i r _ _ hw hm (Nat.lt_succ_self _) ht) ?_
            rintro cands h4 ⟨hne, Ψ4, s4, hcs⟩
            have hs4 : Seen h4 Ψ4 _ r := ⟨i, _, _, s4.table _ _ ht, s4.le.ty _ _ hm, Nat.lt_succ_self _⟩
            refine Settles.bind (bestCandidate_settles s4.wf hs4 cands none (-1)
              (fun c hc => by obtain ⟨ls, h5, _⟩ := hcs c hc; exact ⟨ls, h5⟩) (.inl ⟨hne, by omega⟩)) ?_
            rintro _ _ ⟨rfl, b, rfl, hb | hb⟩
            · obtain ⟨ls, hcand, hre, hfirst⟩ := hcs b hb
              obtain ⟨i1, is1, l1, ls1, hhid, hall⟩ := hfirst ⟨_, l, lids, lid, c, j, js, _, _, ho, rfl, hl, hc0,
                (relates_words t0).trans hrel'⟩
              have hls : ls = (l1 :: ls1).flatten ∧ Ψ4.Wide (i1 :: is1) := by
                rcases hcand with ⟨m', ρ', e', h5, h6, h7, h8, h9⟩ | ⟨ids', lss', hh', hwd', hls'⟩
                · obtain ⟨e'', h10, h11⟩ := hhid.notLeaf
                  rw [some_eq h6 h10, h11] at h8
                  cases h8
                · have h12 := hh'.ids
                  rw [hhid.ids] at h12
                  cases h12
                  obtain ⟨n5, hk5⟩ := hh'.kids
                  obtain ⟨n6, hk6⟩ := hhid.kids
                  exact ⟨by rw [hls', hk5.unique hk6], hwd'⟩
              obtain ⟨hls, hwd⟩ := hls
              obtain ⟨w, ns', c', ts', heid, hreads, hfull, hwords⟩ := hhid.reads s4.wf hwd
              have hfull := STree.Ok.iff s4.le.two.symm hfull
              refine Settles.step (fun _ => heid) (Settles.pure ⟨w, _, rfl, hreads, hfull, ?_, ?_, ?_⟩)
              · rw [STree.words, STree.words, wordsL_eq, wordsL_eq, hwords, ← hls, ← wordsL_eq]
                exact hre
              · rintro (h5 | h5)
                · rw [hterm'] at h5; cases h5
                · have h5' : t0.relates = false := h5
                  rw [hrel'] at h5'
                  cases h5'
              · intro _ _
                cases ts' with
                | nil => cases hwords
                | cons t1 ts1 =>
                  simp only [List.map_cons, List.cons.injEq] at hwords
                  show t1.relates = true
                  rw [← relates_words, hwords.1]
                  exact hall
            · cases hb
  · rintro id h' ⟨w, t', rfl, h1, h2, h3, h4, h5⟩
    refine Settles.of_eq (fun _ => rfl) ⟨t', ⟨w, by simp, reads_root t' h1⟩, h2, h3, ?_, h5⟩
    intro h6
    obtain ⟨rfl, rfl⟩ := h4 h6
    simp [← hroot]

end GB
