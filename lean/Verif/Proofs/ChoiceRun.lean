import Verif.Proofs.DeltaStage
import Verif.Proofs.FitRun

/-
Which candidate the delta stage takes.
-/

namespace GB

/-- `c` is the first of the best: all before it fit less, and none after it fits better. -/
theorem best_reads {h : SemTree} {o : STree} {no ro : Nat} (hro : Reads h o (no : Int)) (hto : h.table[no]? = some ro)
    (hfo : o.Full) : (cs : List STree) → {rs : List Nat} → (best : Option Nat) → (bestFit : Int) → RefsR h cs rs → fullL cs →
    ∃ x, (∀ k, o.depth + depthL cs ≤ k → bestCandidate k ro rs best bestFit h = .ok (x, h)) ∧
      ((x = best ∧ ∀ c ∈ cs, (o.fit c : Int) ≤ bestFit) ∨
       ∃ a c b r n, cs = a ++ c :: b ∧ x = some r ∧ h.table[n]? = some r ∧ Reads h c ((n : Nat) : Int) ∧ bestFit < (o.fit c : Int) ∧
        (∀ y ∈ a, o.fit y < o.fit c) ∧ ∀ y ∈ b, o.fit y ≤ o.fit c)
  | [], rs, best, bestFit, hr, _ => by
    cases (show rs = [] from hr)
    exact ⟨best, fun _ _ => rfl, .inl ⟨rfl, by simp⟩⟩
  | c :: cs, rs, best, bestFit, hr, hf => by
    obtain ⟨r, rs', n, rfl, ht, ha, hb⟩ := hr
    have hfit : ∀ k, o.depth + depthL (c :: cs) ≤ k → nodeFit k r ro h = .ok (o.fit c, h) := by
      intro k hk
      simp only [depthL] at hk
      exact nodeFit_reads hro hto hfo ha ht hf.1 (k := k) (by omega)
    by_cases hgt : (o.fit c : Int) > bestFit
    · obtain ⟨x, hx, hor⟩ := best_reads hro hto hfo cs (some r) (o.fit c : Int) hb hf.2
      refine ⟨x, fun k hk => ?_, .inr ?_⟩
      · have := hfit k hk
        simp only [depthL] at hk
        simp only [bestCandidate, tm_bind, this, if_pos hgt, hx k (by omega)]
      rcases hor with ⟨rfl, hall⟩ | ⟨a, c', b, r', n', rfl, rfl, h1, h2, h3, h4, h5⟩
      · exact ⟨[], c, cs, r, n, rfl, rfl, ht, ha, hgt, by simp, fun y hy => by have := hall y hy; omega⟩
      · refine ⟨c :: a, c', b, r', n', rfl, rfl, h1, h2, by omega, ?_, h5⟩
        intro y hy
        rcases List.mem_cons.mp hy with rfl | hy
        · omega
        · exact h4 y hy
    · obtain ⟨x, hx, hor⟩ := best_reads hro hto hfo cs best bestFit hb hf.2
      refine ⟨x, fun k hk => ?_, ?_⟩
      · have := hfit k hk
        simp only [depthL] at hk
        simp only [bestCandidate, tm_bind, this, if_neg hgt, hx k (by omega)]
      rcases hor with ⟨rfl, hall⟩ | ⟨a, c', b, r', n', rfl, rfl, h1, h2, h3, h4, h5⟩
      · refine .inl ⟨rfl, fun y hy => ?_⟩
        rcases List.mem_cons.mp hy with rfl | hy
        · omega
        · exact hall y hy
      · refine .inr ⟨c :: a, c', b, r', n', rfl, rfl, h1, h2, h3, ?_, h5⟩
        intro y hy
        rcases List.mem_cons.mp hy with rfl | hy
        · omega
        · exact h4 y hy

/-- A candidate reads as a tree. -/
theorem Cand.reads {h : SemTree} {Ψ : World} (hw : WF h Ψ) {r : Nat} {ls : List Word} (hc : Cand h Ψ r ls) :
    ∃ (n : Nat) (t : STree), h.table[n]? = some r ∧ Reads h t (n : Int) ∧ t.Ok Ψ.two ∧ t.words = ls := by
  rcases hc with ⟨m, ρ, e, ht, ho, hi, hb, hm⟩ | ⟨ids, lss, hh, hwd, rfl⟩
  · obtain ⟨t, h1, h2, h3⟩ := child_reads hw (ρ + 1) (i := (m : Int)) (ls := ls) ⟨m, ρ, rfl, hm, Nat.lt_succ_self _⟩
    exact ⟨m, t, ht, h1, h2, h3⟩
  · obtain ⟨w, e, l, lids, lid, c, n, ht, ho, hi, hb, hl, hne, hwn, hk⟩ := hh
    obtain ⟨ts, h1, h2, h3⟩ := kids_reads hw n hk
    obtain ⟨id, ns, body⟩ := e
    simp only at hi hb
    subst hi hb
    refine ⟨_, .node ns c ts, ht, ⟨_, r, l, lids, lid, ids, rfl, ht, ho, hl, h1⟩, ok_node.mpr ⟨wide_reads hwd h1, h2⟩, ?_⟩
    · rw [STree.words, wordsL_eq, h3]

theorem cands_reads {h : SemTree} {Ψ : World} (hw : WF h Ψ) {p : Prop} {target : List Word} : (rs : List Nat) →
    (∀ c ∈ rs, Fits h Ψ p target c) → ∃ cs, RefsR h cs rs ∧ fullL cs ∧ ∀ c ∈ cs, Reorders target c.words
  | [], _ => ⟨[], rfl, trivial, by simp⟩
  | r :: rs, hall => by
    obtain ⟨cs, h1, h2, h3⟩ := cands_reads hw rs (fun c hc => hall c (by simp [hc]))
    obtain ⟨ls, hc, hre, _⟩ := hall r (by simp)
    obtain ⟨n, t, ht, hr, hf, rfl⟩ := hc.reads hw
    refine ⟨t :: cs, ⟨r, rs, n, rfl, ht, hr, h1⟩, ⟨hf.1, h2⟩, ?_⟩
    intro c hc
    rcases List.mem_cons.mp hc with rfl | hc
    · exact hre
    · exact h3 c hc

/-- The id of an element of the table that reads as a tree. -/
theorem elemId_reads {h : SemTree} {t : STree} {n r : Nat} (hr : Reads h t (n : Int)) (ht : h.table[n]? = some r) :
    elemId r h = .ok (n, h) := by
  cases t with
  | leaf ns tok => exact elemId_run (reads_leaf hr ht)
  | node ns c ts =>
    obtain ⟨l, lids, lid, ids, ho, hl, hs⟩ := reads_node hr ht
    exact elemId_run ho

theorem choice_reads {h : SemTree} {t : STree} {i r : Nat} (hroot : h.rootId = some i) (hr : Reads h t (i : Int))
    (ht : h.table[i]? = some r) (hf : t.Full) (hn : t.terminal = false) (hlead : t.leads = true) :
    ∃ rs h1 o cs, (∃ N, ∀ k, N ≤ k → findCandidates k r h = .ok (rs, h1)) ∧ Reads h1 o (i : Int) ∧ o.words = t.words ∧
      RefsR h1 cs rs ∧ (∀ c ∈ cs, Reorders t.words c.words) ∧
      ∃ a c b h2, cs = a ++ c :: b ∧ (∀ y ∈ a, o.fit y < o.fit c) ∧ (∀ y ∈ b, o.fit y ≤ o.fit c) ∧
        (∃ N, ∀ k, N ≤ k → deltaStage k h = .ok ((), h2)) ∧ Holds h2 c := by
  cases t with
  | leaf ns tok => cases hn
  | node ns c0 ts =>
    cases c0 with
    | true => cases hn
    | false =>
    cases ts with
    | nil => cases hlead
    | cons t0 ts =>
      have hw := wf_world h False
      have hm := world_ty hr hf.ok
      obtain ⟨rs, h1, ⟨N, hN⟩, hne, Ψ1, s1, hcs⟩ := findOk _ _ _ i r _ _ hw hm (Nat.lt_succ_self _) ht
      obtain ⟨o, hro, hfo, hwo⟩ := child_reads s1.wf (_ + 1) (i := (i : Int))
        ⟨i, _, rfl, s1.le.ty _ _ hm, Nat.lt_succ_self _⟩
      have hto := s1.table _ _ ht
      obtain ⟨cs, hrefs, hfull, hwords⟩ := cands_reads s1.wf rs hcs
      obtain ⟨x, hx, hor⟩ := best_reads hro hto hfo.1 cs none (-1) hrefs hfull
      rcases hor with ⟨_, hall⟩ | ⟨a, c, b, r', n', hsplit, rfl, h2, h3, _, h4, h5⟩
      · cases cs with
        | nil => exact absurd hrefs hne
        | cons c cs =>
          have := hall c (by simp)
          omega
      · refine ⟨rs, h1, o, cs, ⟨N, hN⟩, hro, hwo, hrefs, hwords, a, c, b, { h1 with rootId := some n' }, hsplit, h4, h5, ?_,
          ⟨n', rfl, reads_root c h3⟩⟩
        obtain ⟨l, lids, lid, ids, ho, hl, hs⟩ := reads_node hr ht
        obtain ⟨j, js, rfl, ha, hbs⟩ := hs
        refine ⟨N + o.depth + depthL cs + (STree.node ns false (t0 :: ts)).depth, fun k hk => ?_⟩
        simp only [STree.depth, depthL] at hk
        have hT : ¬ (⟨i, ns, .node l lids lid false⟩ : Elem).isTerminal = true := by simp [Elem.isTerminal]
        have hrel := isRel_reads t0 ha (k := k) (by omega)
        have hlead' : t0.relates = true := hlead
        have hN' := hN k (by omega)
        have hx' := hx k (by omega)
        have hi := elemId_reads h3 h2
        simp only [deltaStage, deltaEntity, tm_bind, rootIdM, hroot, treeGet_run ht, deref_run ho, if_neg hT,
          childId_run ho rfl hl (i := 0) (y := j) rfl, hrel, hlead', Bool.not_true, Bool.false_eq_true, if_false]
        have hN'' : findCandidates k r h = .ok (rs, h1) := hN'
        simp only [tm_bind, hN'', hx', hi, tm_pure]
        rfl

end GB
