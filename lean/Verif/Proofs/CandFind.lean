import Verif.Proofs.CandRun

/-
The search of the delta stage finds the rearrangements of a tidy tree, continued: the recursion.
-/

namespace GB

variable {h : SemTree} {q x j child : Nat} {r f : STree} {as bs ts : List STree}
variable {build : Nat → Int → TM (List Nat)} {G : STree → List STree}

theorem newRels_eq (alone : Bool) (r f : STree) : newRels alone r f =
    (((if alone then [STree.node none false [f, r]] else []) ++
      (if r.terminal && f.terminal then [STree.node none true [r.copy, f]] else [])) ++
      (if r.terminal && f.terminal then [] else [centered r f])) ++ (if f.terminal then [extended r f] else []) := rfl

/-- The merges with a candidate of a child that starts with words that relate. -/
theorem mergeCandidates_reads (hw : Working h q x r as) (hwk : Work r as) (hc : ChildR h child j f bs) (hlevel : f.level)
    (hb : f.relates = true → BuildsV h build G (newRels as.isEmpty r f)) :
    Settles (fun k => mergeCandidates k (build k) q child) h (fun rs h' => Saves Every h h' ∧
      RefsR h' (if f.relates then (newRels as.isEmpty r f).flatMap G else []) rs) := by
  have hw0 := hw
  have hc0 := hc
  obtain ⟨w0, l0, lids0, lid0, is, ht, ho, hl, hrr, hs, hne⟩ := hw
  obtain ⟨n, l, ns, c, lids, lid, js, htc, hoc, hlc, hrf, hsb⟩ := hc
  refine Settles.step (fun _ => deref_run hoc) ?_
  refine Settles.ite (fun h0 => by simp [Elem.isLeaf] at h0) (fun _ => ?_)
  refine Settles.step (fun _ => childId_run hoc rfl hlc (i := 0) rfl) ?_
  refine Settles.bind (P := fun b h' => b = f.relates ∧ h' = h) ⟨_, h, ⟨f.depth, fun k hk => isRel_reads f hrf hk⟩, rfl, rfl⟩ ?_
  rintro b h1 ⟨rfl, rfl⟩
  cases hrel : f.relates with
  | false =>
    refine Settles.ite (fun _ => Settles.pure ⟨.refl _ h1, rfl⟩) (fun h0 => by simp at h0)
  | true =>
    refine Settles.ite (fun h0 => by simp at h0) (fun _ => ?_)
    simp only [if_true]
    have hb := hb hrel
    obtain ⟨x0, rx, hx0, htx, hgx⟩ := hrr.entry
    obtain rfl : x = x0 := by omega
    obtain ⟨j0, rj, hj0, htj, hgj⟩ := hrf.entry
    obtain rfl : j = j0 := by omega
    refine Settles.step (fun _ => childId_run ho rfl hl (i := 0) rfl) ?_
    refine Settles.step (fun _ => hgx) ?_
    refine Settles.step (fun _ => childId_run hoc rfl hlc (i := 0) rfl) ?_
    refine Settles.step (fun _ => hgj) ?_
    rw [newRels_eq] at hb ⊢
    refine Settles.bind (insertBefore_reads hw0 hc0 (hb.sub (by simp +contextual))) ?_
    rintro c1 h2 ⟨k2, hc1⟩
    refine Settles.bind (makeCompound_reads (hw0.keep k2) (hc0.keep k2) hwk.rel hlevel ((hb.sub (by simp +contextual)).keep k2)
      (k2.table _ _ htx) (k2.table _ _ htj)) ?_
    rintro c2 h3 ⟨k3, hc2⟩
    have k3' := k2.and k3
    refine Settles.bind (mergeCenter_reads (hw0.keep k3') (hc0.keep k3') hwk.rel hlevel ((hb.sub (by simp +contextual)).keep k3')
      (k3'.table _ _ htx) (k3'.table _ _ htj)) ?_
    rintro c3 h4 ⟨k4, hc3⟩
    have k4' := k3'.and k4
    refine Settles.bind (addToFirst_reads (hw0.keep k4') (hc0.keep k4') ((hb.sub (by simp +contextual)).keep k4')
      (k4'.table _ _ htj)) ?_
    rintro c4 h5 ⟨k5, hc4⟩
    refine Settles.pure ⟨k4'.and k5, ?_⟩
    rw [List.flatMap_append, List.flatMap_append, List.flatMap_append]
    exact ((((hc1.keep k3).keep k4).keep k5).append ((hc2.keep k4).keep k5)).append (hc3.keep k5) |>.append hc4

/-- What the search over the remaining arguments guarantees. -/
def SearchV (ts : List STree) : Prop :=
  ∀ (h : SemTree) (q x : Nat) (r : STree) (as : List STree) (tp : List Int), Working h q x r as → Work r as → ReadsL h ts tp →
    (as ≠ [] ∨ ts ≠ []) →
    Settles (fun k => findCandidatesR k q tp) h (fun rs h' => Saves (fun m => m ≠ x ∨ r.level) h h' ∧
      RefsR h' (rearrangedFrom ts (r :: as)) rs)

theorem buildCandidate_reads (ih : SearchV ts) {tp : List Int} (hts : ReadsL h ts tp) (hw : Working h q x r as) (hwk : Work r as)
    (hc : ChildR h child j f bs) (hf : f.level) (hbs : tidyL bs = true) (hbne : bs ≠ []) :
    BuildsV h (fun k relId => buildCandidate k q relId child tp) (fun rel => rearrangedFrom ts (rel :: copyL as ++ bs))
      (newRels as.isEmpty r f) := by
  intro h1 y rel k1 hy hrel hmem
  have hw1 := hw.keep k1
  obtain ⟨w, l, lids, lid, is, ht, ho, hl, hrr, hs, hne⟩ := hw
  obtain ⟨l1, ho1, hl1⟩ := k1.node w q none l lids lid false _ trivial ht ho hl
  have hs1 : ReadsPL h1 (fun m => m ≠ y) Every as is :=
    (hs.bound (Q := fun m => m ≠ y) (M := Every) (fun n hn _ => by omega) (fun _ _ h => h)).keep k1 (fun _ _ => trivial) as
  have hylt : y < h1.table.length := by
    obtain ⟨n, r', he, ht', _⟩ := hrel.entry
    have := some_lt ht'
    omega
  refine Settles.succ (f := fun k => buildCandidate k q (y : Int) child tp) (fun k => by rw [buildCandidate]) ?_
  refine Settles.bind (Working.clone ho1 hl1 (hrr.keep k1) hs1 (fun m hm => by omega) (fun _ _ => trivial)) ?_
  rintro q' hA ⟨h2, x', is', e2, rfl, rfl, _, hs2, _⟩
  refine Settles.step (fun _ => setFirst_addNodeC _ _ _ _ _) ?_
  obtain ⟨n, lc, ns, c, lidsc, lidc, js, htc, hoc, hlc, hrf, hsb⟩ := hc
  have hsb1 : ReadsPL h1 (fun m => m ≠ y) Every bs js :=
    (hsb.readsP (P := fun m => m ≠ y) (L := Every) (fun n hn => by omega) (fun _ _ => trivial) bs).keep k1 (fun _ _ => trivial) bs
  obtain ⟨lc1, hoc1, hlc1⟩ := k1.node n child ns lc lidsc lidc c _ trivial htc hoc hlc
  have eA := e2.trans (ext_addNodeC h2 ((y : Int) :: is') false)
  refine Settles.step (fun _ => childrenIds_run (eA.objs _ _ hoc1) rfl (eA.lists _ _ hlc1)) ?_
  refine Settles.step (fun _ => extend_addNodeC _ _ _ _) ?_
  have eB := e2.trans (ext_addNodeC h2 ((y : Int) :: (is' ++ js)) false)
  have hw3 : Working (h2.addNodeC ((y : Int) :: (is' ++ js)) false) h2.objs.length y rel (copyL as ++ bs) := by
    refine Working.of_addNodeC (hrel.keep (e2.saves _)) ?_
    exact (hs2.bound (Q := fun m => m ≠ y ∨ rel.level) (M := Every) (fun _ _ h => .inl h.1) (fun _ _ h => h)).append
      ((hsb1.bound (Q := fun m => m ≠ y ∨ rel.level) (M := Every) (fun _ _ h => .inl h) (fun _ _ h => h)).ext e2)
  refine (ih _ _ y rel (copyL as ++ bs) tp hw3 (hwk.merge hf hbs hbne hmem) ((hts.keep k1).keep (eB.saves _)) (.inl (by simp [hbne]))).mono ?_
  rintro rs h4 ⟨k4, hrs⟩
  exact ⟨(eB.saves _).trans k4 (fun n hn _ => .inl hn), hrs⟩

/-- The rearrangements for one candidate of the next argument. -/
def stepOf (t : STree) (ts w : List STree) (c : STree) : List STree :=
  (merged w c).flatMap (fun w' => rearrangedFrom ts w') ++ rearrangedFrom ts (copyL w ++ [t])

theorem candidatesFor_reads (ih : SearchV ts) {tp : List Int} (hts : ReadsL h ts tp) (hw : Working h q x r as) (hwk : Work r as)
    {t : STree} {i0 : Int} (htd : t.tidy = true) (hti : Reads h t i0) {c : STree} (hd : Done c) {nc cr : Nat} (htc : h.table[nc]? = some cr)
    (hrc : Reads h c (nc : Int)) :
    Settles (fun k => candidatesFor k q i0 tp cr) h (fun rs h' => Saves Every h h' ∧ RefsR h' (stepOf t ts (r :: as) c) rs) := by
  refine Settles.succ (fun k => by rw [candidatesFor]) ?_
  refine Settles.bind (P := fun rs h' => Saves Every h h' ∧ RefsR h' ((merged (r :: as) c).flatMap (fun w' => rearrangedFrom ts w')) rs) ?_ ?_
  · rcases hd with ⟨ns, tok, rfl⟩ | ⟨f, bs, rfl, hf, hbs, hbne⟩
    · have ho := reads_leaf hrc htc
      refine Settles.step (fun _ => deref_run ho) ?_
      refine Settles.ite (fun _ => Settles.pure ⟨.refl _ h, rfl⟩) (fun h0 => absurd rfl h0)
    · obtain ⟨l, lids, lid, ids, ho, hl, hs⟩ := reads_node hrc htc
      obtain ⟨i, js, rfl, hrf, hsb⟩ := hs
      obtain ⟨j, rj, rfl, htj, _⟩ := hrf.entry
      have hch : ChildR h cr j f bs := ⟨nc, l, none, false, lids, lid, js, htc, ho, hl, hrf, hsb⟩
      refine (mergeCandidates_reads hw hwk hch hf (fun _ => buildCandidate_reads ih hts hw hwk hch hf hbs hbne)).mono ?_
      rintro rs h' ⟨k, hrs⟩
      refine ⟨k, ?_⟩
      rw [merged]
      cases hrel : f.relates with
      | true =>
        rw [hrel] at hrs
        simp only [if_true] at hrs ⊢
        rw [List.flatMap_map]
        exact hrs
      | false =>
        rw [hrel] at hrs
        exact hrs
  · rintro ms h1 ⟨k1, hms⟩
    have hw1 := hw.keep k1
    have hts1 := hts.keep k1
    have hti1 := hti.keep k1
    obtain ⟨w, l, lids, lid, is, ht, ho, hl, hrr, hs, hne⟩ := hw1
    refine Settles.bind (Working.clone ho hl hrr (hs.bound (Q := Every) (M := Every) (fun _ _ _ => trivial) (fun _ _ _ => trivial))
      (fun _ _ => trivial) (fun _ _ => trivial)) ?_
    rintro q' hA ⟨h2, x', is', e2, rfl, rfl, hr2, hs2, hfr⟩
    refine Settles.step (fun _ => extend_addNodeC _ _ _ _) ?_
    have hone : ReadsPL h2 (fun m => m ≠ x' ∨ r.copy.level) Every [t] [i0] := ⟨i0, [], rfl,
      (hti1.readsP (P := fun m => m ≠ x' ∨ r.copy.level) (L := Every) (fun n hn => hfr.imp (fun h => by omega) id) (fun _ _ => trivial) t).ext e2 t, rfl⟩
    have hw3 : Working (h2.addNodeC ((x' : Int) :: (is' ++ [i0])) false) h2.objs.length x' r.copy (copyL as ++ [t]) :=
      Working.of_addNodeC hr2 ((hs2.bound (Q := fun m => m ≠ x' ∨ r.copy.level) (M := Every) (fun _ _ h => h.2) (fun _ _ h => h)).append hone)
    have e3 := e2.trans (ext_addNodeC h2 ((x' : Int) :: (is' ++ [i0])) false)
    refine Settles.bind (ih _ _ x' r.copy (copyL as ++ [t]) tp hw3 (hwk.copy htd) (hts1.keep (e3.saves _)) (.inl (by simp))) ?_
    rintro cs h4 ⟨k4, hcs⟩
    have k4' : Saves Every h1 h4 := (e3.saves Every).trans k4 (fun n _ hn => hfr.imp (fun h => by omega) id)
    exact Settles.pure ⟨k1.and k4', (hms.keep k4').append hcs⟩

theorem candidatesLoop_reads (ih : SearchV ts) {tp : List Int} {t : STree} {i0 : Int} (htd : t.tidy = true) (hwk : Work r as) : (cs : List STree) →
    {h : SemTree} → {rs : List Nat} → ReadsL h ts tp → Working h q x r as → Reads h t i0 → (∀ c ∈ cs, Done c) → RefsR h cs rs →
    Settles (fun k => TM.mapM (candidatesFor k q i0 tp) rs) h (fun parts h' => Saves Every h h' ∧
      RefsR h' (cs.flatMap (stepOf t ts (r :: as))) parts.flatten)
  | [], h, rs, hts, hw, hti, hd, hr => by
    cases (show rs = [] from hr)
    exact Settles.pure ⟨.refl _ h, rfl⟩
  | c :: cs, h, rs, hts, hw, hti, hd, hr => by
    obtain ⟨cr, rs, nc, rfl, htc, hrc, hrs⟩ := hr
    refine Settles.bind (candidatesFor_reads ih hts hw hwk htd hti (hd c (by simp)) htc hrc) ?_
    rintro p h1 ⟨k1, hp⟩
    refine Settles.bind (candidatesLoop_reads ih htd hwk cs (hts.keep k1) (hw.keep k1) (hti.keep k1) (fun c hc => hd c (by simp [hc]))
      (hrs.keep k1)) ?_
    rintro ps h2 ⟨k2, hps⟩
    exact Settles.pure ⟨k1.and k2, (hp.keep k2).append hps⟩

mutual
/-- The search from an element finds the rearrangements of its tree. -/
theorem find_reads : (t : STree) → t.tidy = true → ∀ {h : SemTree} {n q : Nat}, Reads h t (n : Int) → h.table[n]? = some q →
    Settles (fun k => findCandidates k q) h (fun rs h' => Saves Every h h' ∧ RefsR h' t.rearranged rs)
  | .leaf ns tok, _, h, n, q, hr, ht => by
    refine Settles.succ (fun k => by rw [findCandidates]) ?_
    refine Settles.step (fun _ => deref_run (reads_leaf hr ht)) ?_
    refine Settles.ite (fun _ => Settles.pure ⟨.refl _ h, q, [], n, rfl, ht, hr, rfl⟩) (fun h0 => absurd rfl h0)
  | .node ns b [], htd, h, n, q, hr, ht => by simp [STree.tidy] at htd
  | .node ns b (r :: ts), htd, h, n, q, hr, ht => by
    simp only [STree.tidy, Bool.and_eq_true, decide_eq_true_eq] at htd
    obtain ⟨⟨hlen, hn⟩, htd⟩ := htd
    have hrn : r.named = true := by
      cases b
      · simpa [namedL] using hn
      · simp only [if_true, namedL, Bool.and_eq_true] at hn
        exact hn.1
    simp only [tidyL, Bool.and_eq_true] at htd
    obtain ⟨l, lids, lid, ids, ho, hl, hs⟩ := reads_node hr ht
    obtain ⟨i, is, rfl, hr0, hs0⟩ := hs
    obtain ⟨x, rx, rfl, htx, _⟩ := hr0.entry
    refine Settles.succ (fun k => by rw [findCandidates]) ?_
    refine Settles.step (fun _ => deref_run ho) ?_
    refine Settles.ite (fun h0 => by simp [Elem.isLeaf] at h0) (fun _ => ?_)
    refine Settles.step (fun _ => childrenIds_run ho rfl hl) ?_
    refine Settles.step (fun _ => createNode_run _ _) ?_
    rw [addNode_eq]
    have e1 := ext_addNodeC h [(x : Int)] false
    refine (search_reads ts htd.2 (h.addNodeC [(x : Int)] false) h.objs.length x r [] is (.of_addNodeC hr0 rfl)
      ⟨.inl (.inl hrn), rfl, fun _ => hrn⟩ (hs0.keep (e1.saves _)) (.inr ?_)).mono ?_
    · rintro rfl
      simp at hlen
    · rintro rs h' ⟨k, hrs⟩
      exact ⟨(e1.saves _).trans k (fun _ _ _ => .inr (.inl hrn)), hrs⟩
/-- The search over the remaining arguments. -/
theorem search_reads : (ts : List STree) → tidyL ts = true → SearchV ts
  | [], _ => by
    intro h q x r as tp hw hwk hts _
    cases (show tp = [] from hts)
    obtain ⟨w, l, lids, lid, is, ht, ho, hl, hrr, hs, hne⟩ := hw
    obtain ⟨x0, rx, hx0, htx, hg⟩ := hrr.entry
    obtain rfl : x = x0 := by omega
    refine Settles.succ (fun k => by rw [findCandidatesR]) ?_
    refine Settles.step (fun _ => (tm_bind_ok (childId_run ho rfl hl (i := 0) rfl)).trans hg) ?_
    refine Settles.bind (flatten_loose hrr htx hwk.rel) ?_
    rintro _ h1 ⟨k1, hr1⟩
    obtain ⟨l1, ho1, hl1⟩ := k1.node w q none l lids lid false _ (.inl hne) ht ho hl
    refine Settles.pure ⟨k1, q, [], w, rfl, k1.table _ _ ht, ?_, rfl⟩
    exact ⟨w, q, l1, lids, lid, _, rfl, k1.table _ _ ht, ho1, hl1, _, _, rfl, hr1, (hs.keep k1 (fun _ h => h) as).reads as⟩
  | t :: ts, htd => by
    intro h q x r as tp hw hwk hts _
    simp only [tidyL, Bool.and_eq_true] at htd
    obtain ⟨i, is, rfl, hti, hts⟩ := hts
    obtain ⟨n, qt, rfl, htt, hg⟩ := hti.entry
    refine Settles.succ (fun k => by rw [findCandidatesR]) ?_
    refine Settles.step (fun _ => hg) ?_
    refine Settles.bind (find_reads t htd.1 hti htt) ?_
    rintro cands h1 ⟨k1, hcs⟩
    refine Settles.bind (candidatesLoop_reads (search_reads ts htd.2) htd.1 hwk t.rearranged (hts.keep k1) (hw.keep k1) (hti.keep k1)
      (rearranged_done t htd.1) hcs) ?_
    rintro parts h2 ⟨k2, hps⟩
    refine Settles.pure ⟨(k1.and k2).weaken (fun _ _ _ => trivial), ?_⟩
    rw [rearrangedFrom]
    exact hps
end

end GB
