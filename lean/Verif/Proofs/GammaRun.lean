import Verif.Proofs.BetaRun

/-
The gamma stage on the heap.
-/

namespace GB

/-- A call gave the id of a tree: no sharing, and nothing outside `F` changed. -/
structure Turn (h : SemTree) (F : List Loc) (h' : SemTree) (j : Nat) (t : STree) (F' : List Loc) : Prop where
  rep : Rep h' t (j : Int) F'
  nodup : F'.Nodup
  keeps : Keeps h h' F
  within : Within h F F'

theorem Turn.of_step {h h' : SemTree} {e : Nat} {t : STree} {F F' : List Loc} (s : LStep h e t [] F h' F') :
    Turn h F h' e t F' := ⟨own_nil.mp s.own, s.nodup, s.keeps, s.within⟩

theorem Turn.of_redo {h h' : SemTree} {n : Nat} {t : STree} {F : List Loc} (s : Redo h (n : Int) F h' t) (hn : F.Nodup) :
    Turn h F h' n t F := ⟨s.rep, hn, s.keeps, fun _ hx => .inl hx⟩

theorem Turn.refl {h : SemTree} {n : Nat} {t : STree} {F : List Loc} (hr : Rep h t (n : Int) F) (hn : F.Nodup) :
    Turn h F h n t F := ⟨hr, hn, (Keeps.refl h).mono (by simp), fun _ hx => .inl hx⟩

theorem Turn.trans {h h1 h2 : SemTree} {i j : Nat} {t u : STree} {F F1 F2 : List Loc} (a : Turn h F h1 i t F1)
    (b : Turn h1 F1 h2 j u F2) : Turn h F h2 j u F2 :=
  ⟨b.rep, b.nodup, a.keeps.trans b.keeps (fun _ hx => hx) a.within, a.within.trans b.within a.keeps.grow⟩

/-! ### Combining relationships -/

theorem rep_ref {h : SemTree} {t : STree} {n : Nat} {F : List Loc} (hr : Rep h t (n : Int) F) :
    ∃ r e, h.table[n]? = some r ∧ h.objs[r]? = some e ∧ e.id = n ∧ e.isNode = t.isNode ∧ e.isTerminal = t.terminal := by
  obtain ⟨n', r, hi, ht, _, _, e, ho, h1, h2, h3⟩ := hr.entry
  obtain rfl : n = n' := by omega
  exact ⟨r, e, ht, ho, h1, h2, h3⟩

theorem terminal_join {g : STree} (f : STree) (hg : g.terminal = true) (pos : Position) :
    g.join f pos = .node none false (place pos [g] f) := by
  cases g with
  | leaf _ _ => rfl
  | node ns b ts =>
    have : b = true := hg
    subst this
    rfl

theorem combine_terminal {f g : STree} {ns : Option Str} {b : Bool} {us : List STree} (hg : g.terminal = true) :
    f.combine (.node ns b (g :: us)) = .node ns b ((g.join f .left).mark true :: us) := by
  rw [terminal_join f hg]
  cases g with
  | leaf _ _ => rw [STree.combine]; rfl
  | node ns' b' ts =>
    have : b' = true := hg
    subst this
    rw [STree.combine]; rfl

theorem combine_run {f : STree} : (k : Nat) → {h : SemTree} → {ns : Option Str} → {b : Bool} → {ts : List STree} →
    {m n : Nat} → {Ff Fs : List Loc} → Rep h (.node ns b ts) (n : Int) Fs → Rep h f (m : Int) Ff → (Fs ++ Ff).Nodup →
    (STree.node ns b ts).Branching → f.depth + (STree.node ns b ts).depth + 1 ≤ k →
    ∃ h' F', combineRelationships k (m : Int) (n : Int) h = .ok ((n : Int), h') ∧
      Turn h (Fs ++ Ff) h' n (f.combine (.node ns b ts)) F'
  | 0, _, _, _, _, _, _, _, _, _, _, _, _, hk => by omega
  | k + 1, h, ns, b, [], m, n, Ff, Fs, hs, hf, hn, hb, hk => by
    have := hb.1
    simp at this
  | k + 1, h, ns, b, g :: us, m, n, Ff, Fs, hs, hf, hn, hb, hk => by
    obtain ⟨rf, ef, htf, hof, hidf, _, _⟩ := rep_ref hf
    obtain ⟨rs, es, hts, hos, hids, _, _⟩ := rep_ref hs
    obtain ⟨l, ids, Gs, ho, hl, hrs, rfl⟩ := rep_node hs hts
    have hes : es = ⟨n, ns, .node l [] (-1) b⟩ := some_eq hos ho
    subst hes
    have hrs0 := hrs
    obtain ⟨i, is, G1, G2, rfl, hg, hu, rfl⟩ := hrs
    obtain ⟨q, _, rfl, _⟩ := hg.entry
    obtain ⟨rg, eg, htg, hog, hidg, hgn, hgt⟩ := rep_ref hg
    simp only [STree.depth, depthL] at hk
    have hnS := (nodup_split hn).1
    have hnG12 : (G1 ++ G2).Nodup := by simp only [List.nodup_cons] at hnS; exact hnS.2.2.2
    have start : combineRelationships (k + 1) (m : Int) (n : Int) h = (do
        if eg.isNode && !eg.isTerminal then
          let _ ← combineRelationships k (m : Int) (q : Int)
          TM.pure ((← elemId rs : Nat) : Int)
        else
          addToFirstChild rs (m : Int) .left
          let firstChild' ← treeGet (← childId rs 0)
          setCompound k true firstChild'
          TM.pure ((← elemId rs : Nat) : Int) : TM Int) h := by
      simp only [combineRelationships, tm_bind, treeGet_run htf, treeGet_run hts,
        childId_run ho rfl hl (show ((q : Int) :: is)[0]? = some (q : Int) from rfl), treeGet_run htg, deref_run hog]
      split
      · simp only [elemId_run hof, elemId_run hog, hidf, hidg, tm_bind]
      · simp only [elemId_run hof, hidf, tm_bind]
    rw [start, hgn, hgt]
    by_cases hterm : g.terminal = true
    · -- it joins the first element
      have hcond : (g.isNode && !g.terminal) = false := by simp [hterm]
      have hown : Own h n (.node ns b (g :: us)) [] (.id n :: .obj rs :: .lst l :: (G1 ++ G2)) := own_nil.mpr hs
      obtain ⟨h1, F1, run1, st1, ht1⟩ := addFirst_node .left hown hf hn hts
      have tu1 := Turn.of_step st1
      have run1' : addToFirstChild rs (m : Int) .left h = .ok ((), h1) := by
        change (asNode rs >>= _) h = _
        rw [tm_bind_ok (asNode_node hown hts)]
        exact run1
      obtain ⟨l1, ids1, Gs1, ho1, hl1, hrs1, rfl⟩ := rep_node tu1.rep ht1
      obtain ⟨i1, is1, G3, G4, rfl, hg1, hu1, rfl⟩ := hrs1
      obtain ⟨q1, _, rfl, _⟩ := hg1.entry
      obtain ⟨rg1, eg1, htg1, _⟩ := rep_ref hg1
      have hn1 := tu1.nodup
      have hn1' : (G3 ++ G4).Nodup := by simp only [List.nodup_cons] at hn1; exact hn1.2.2.2
      obtain ⟨hnG3, hnG4, hd34⟩ := nodup_split hn1'
      have hdep : (g.join f .left).depth ≤ k := by
        rw [terminal_join f hterm]
        simp only [STree.depth, place, depthL]
        omega
      rw [terminal_join f hterm] at hg1 hdep
      obtain ⟨h2, run2, re2, tab2⟩ := setCompound_run (b := true) k htg1 hg1 hnG3 hdep
      rw [← terminal_join f hterm] at re2
      have redo : RedoL h1 ((q1 : Int) :: is1) (G3 ++ G4) h2 ((g.join f .left).mark true :: us) :=
        ⟨Reps.cons re2.rep (re2.keeps.reps hu1 (fun x hx hx' => hd34 x hx' hx)), re2.keeps.mono (by simp +contextual)⟩
      have re3 := redo_children ht1 ho1 hl1 hn1 redo
      have ho2 : h2.objs[rs]? = some ⟨n, ns, .node l1 [] (-1) b⟩ := by
        have hn1c := hn1
        simp only [List.nodup_cons, List.mem_cons, List.mem_append, not_or] at hn1c
        exact (re2.keeps.agree (.obj rs) (some_lt ho1) hn1c.2.1.2.1).trans ho1
      refine ⟨h2, .id n :: .obj rs :: .lst l1 :: (G3 ++ G4), ?_, ?_⟩
      · simp only [hcond, Bool.false_eq_true, reduceIte, tm_bind, run1',
          childId_run ho1 rfl hl1 (show ((q1 : Int) :: is1)[0]? = some (q1 : Int) from rfl), treeGet_run htg1, run2,
          elemId_run ho2, tm_pure]
      · rw [combine_terminal hterm]
        exact tu1.trans (Turn.of_redo re3 hn1)
    · -- below
      cases g with
      | leaf _ _ => exact absurd rfl hterm
      | node ns' b' ts' =>
        have hb' : b' = false := by simpa [STree.terminal] using hterm
        subst hb'
        have hn' := hn
        have hdis : ∀ x ∈ G1 ++ Ff, x ∉ Loc.id n :: .obj rs :: .lst l :: G2 := by
          obtain ⟨_, _, hd⟩ := nodup_split hn
          obtain ⟨_, _, hd12⟩ := nodup_split hnG12
          simp only [List.nodup_cons, List.mem_cons, List.mem_append, not_or] at hnS
          intro x hx hx2
          simp only [List.mem_cons] at hx2
          rcases List.mem_append.mp hx with h1 | h1
          · rcases hx2 with rfl | rfl | rfl | h2
            · exact hnS.1.2.2.1 h1
            · exact hnS.2.1.2.1 h1
            · exact hnS.2.2.1.1 h1
            · exact hd12 x h1 h2
          · refine hd x ?_ h1
            simp only [List.mem_cons, List.mem_append]
            rcases hx2 with rfl | rfl | rfl | h2
            · simp
            · simp
            · simp
            · simp [h2]
        have hnGf : (G1 ++ Ff).Nodup := by
          obtain ⟨_, hnf, hd⟩ := nodup_split hn
          exact nodup_of (nodup_split hnG12).1 hnf (fun x hx => hd x (by simp [hx]))
        obtain ⟨h1, F1, run1, tu1⟩ := combine_run k hg hf hnGf hb.2.1 (by simp only [STree.depth] at hk ⊢; omega)
        have hag : ∀ x ∈ Loc.id n :: .obj rs :: .lst l :: G2, Agree h h1 x := by
          intro x hx
          refine tu1.keeps.agree x ?_ (fun hx' => hdis x hx' hx)
          have hv := hs.valid
          exact hv x (by
            simp only [List.mem_cons, List.mem_append] at hx ⊢
            rcases hx with rfl | rfl | rfl | h2
            · simp
            · simp
            · simp
            · simp [h2])
        have ho1 : h1.objs[rs]? = some ⟨n, ns, .node l [] (-1) b⟩ := (hag (.obj rs) (by simp)).trans ho
        refine ⟨h1, .id n :: .obj rs :: .lst l :: (F1 ++ G2), ?_, ?_⟩
        · simp only [STree.isNode, STree.terminal, Bool.not_false, Bool.and_self, reduceIte, tm_bind, run1, elemId_run ho1,
            tm_pure]
        · rw [STree.combine]
          have hdF1 : ∀ x ∈ F1, x ∉ Loc.id n :: .obj rs :: .lst l :: G2 := by
            intro x hx hx2
            rcases tu1.within x hx with h3 | h3
            · exact hdis x h3 hx2
            · refine h3 (hs.valid _ x ?_)
              simp only [List.mem_cons, List.mem_append] at hx2 ⊢
              rcases hx2 with rfl | rfl | rfl | h2
              · simp
              · simp
              · simp
              · simp [h2]
          refine ⟨⟨n, rs, l, (q : Int) :: is, F1 ++ G2, rfl, (hag (.id n) (by simp)).trans hts, ho1,
            (hag (.lst l) (by simp)).trans hl, Reps.cons tu1.rep (Reps.frame _ hu (fun x hx => hag x (by simp [hx]))), rfl⟩,
            ?_, ?_, ?_⟩
          · simp only [List.nodup_cons, List.mem_cons, List.mem_append, not_or] at hnS ⊢
            refine ⟨⟨hnS.1.1, hnS.1.2.1, fun hx => hdF1 _ hx (by simp), hnS.1.2.2.2⟩,
              ⟨hnS.2.1.1, fun hx => hdF1 _ hx (by simp), hnS.2.1.2.2⟩, ⟨fun hx => hdF1 _ hx (by simp), hnS.2.2.1.2⟩, ?_⟩
            exact nodup_of tu1.nodup (nodup_split hnG12).2.1 (fun x hx hx' => hdF1 x hx (by simp [hx']))
          · refine tu1.keeps.mono (fun x hx => ?_)
            simp only [List.mem_append, List.mem_cons] at hx ⊢
            rcases hx with h1 | h1 <;> simp [h1]
          · intro x hx
            simp only [List.mem_cons, List.mem_append] at hx
            rcases hx with rfl | rfl | rfl | h2 | h2
            · exact .inl (by simp)
            · exact .inl (by simp)
            · exact .inl (by simp)
            · rcases tu1.within x h2 with h3 | h3
              · refine .inl ?_
                simp only [List.mem_append, List.mem_cons] at h3 ⊢
                rcases h3 with h3 | h3 <;> simp [h3]
              · exact .inr h3
            · exact .inl (by simp [h2])

/-! ### One step -/

theorem article_eq (t : TokInfo) (ns : Option Str) : t.isArticle = (STree.leaf ns t).article := by
  simp [TokInfo.isArticle, STree.article, Bool.or_assoc]

theorem gamma1_all {ns : Option Str} {b : Bool} {ts : List STree} (h : ts.all STree.relWord = true) :
    (STree.node ns b ts).gamma1 = (STree.node ns b ts).mark true := by
  simp [STree.gamma1, h]

theorem gamma1_pair {ns : Option Str} {b : Bool} {f s : STree} (h : ¬ [f, s].all STree.relWord = true) :
    (STree.node ns b [f, s]).gamma1 = if f.article then s
      else if s.opensWith STree.relates && f.relates then f.combine s else .node ns b [f, s] := by
  simp only [STree.gamma1, h, Bool.false_eq_true, reduceIte]

theorem gamma1_other {ns : Option Str} {b : Bool} {ts : List STree} (h : ¬ ts.all STree.relWord = true)
    (hl : ts.length ≠ 2) : (STree.node ns b ts).gamma1 = .node ns b ts := by
  match ts, hl with
  | [], _ => simp at h
  | [_], _ => simp only [STree.gamma1, h, Bool.false_eq_true, reduceIte]
  | [_, _], h => exact absurd rfl h
  | _ :: _ :: _ :: _, _ => simp only [STree.gamma1, h, Bool.false_eq_true, reduceIte]

/-- One step of the gamma stage. -/
theorem gamma1_run {k : Nat} {h : SemTree} {t : STree} {n : Nat} {F : List Loc} (hr : Rep h t (n : Int) F) (hn : F.Nodup)
    (hb : t.Branching) (hk : 2 * t.depth + 1 ≤ k) :
    ∃ (h' : SemTree) (j : Nat) (F' : List Loc), gammaEntity1 k (n : Int) h = .ok ((j : Int), h') ∧ Turn h F h' j t.gamma1 F' := by
  obtain ⟨r, e, ht, hoe, hid, hnode, hterm⟩ := rep_ref hr
  cases t with
  | leaf ns tok =>
    refine ⟨h, n, F, ?_, Turn.refl hr hn⟩
    have hl : e.isLeaf = true := by simpa [Elem.isNode, STree.isNode] using hnode
    simp only [gammaEntity1, tm_bind, treeGet_run ht, deref_run hoe, hl, reduceIte, tm_pure]
  | node ns b ts =>
    obtain ⟨l, ids, Fs, ho, hl, hs, rfl⟩ := rep_node hr ht
    have hee := some_eq hoe ho
    subst hee
    have hsh := gammaIsRel_shallow (k := k) hr (by omega)
    by_cases hall : ts.all STree.relWord = true
    · obtain ⟨h', run, re, _⟩ := setCompound_run (b := true) k ht hr hn (by omega)
      rw [gamma1_all hall]
      refine ⟨h', n, _, ?_, Turn.of_redo re hn⟩
      simp only [gammaEntity1, tm_bind, treeGet_run ht, deref_run ho, isLeaf_of_node, Bool.false_eq_true, reduceIte, hsh,
        hall, run, tm_pure]
    · have hlen := hs.length
      have start : gammaEntity1 k (n : Int) h = (if ids.length = 2 then (do
          let first ← getChild r 0
          let second ← getChild r 1
          let ef ← deref first
          let es ← deref second
          let article := match ef.body with
            | .leaf t => t.isArticle
            | .node _ _ _ _ => false
          if article then TM.pure (es.id : Int)
          else if es.isNode && !es.isTerminal then do
            if (← gammaIsRel k false 0 (ef.id : Int)) then
              if (← gammaIsRel k false 0 (← childId second 0)) then
                combineRelationships k (ef.id : Int) (es.id : Int)
              else TM.pure (n : Int)
            else TM.pure (n : Int)
          else TM.pure (n : Int) : TM Int) else TM.pure (n : Int)) h := by
        simp only [gammaEntity1, tm_bind, treeGet_run ht, deref_run ho, isLeaf_of_node, Bool.false_eq_true, reduceIte, hsh,
          hall, childrenIds_run ho rfl hl]
        split
        · rfl
        · rfl
      rw [start]
      clear start
      by_cases h2 : ids.length = 2
      · rw [if_pos h2]
        match ts, hs, hlen, hb, hk, hall, hr with
        | [], _, hlen, _, _, _, _ => simp [h2] at hlen
        | [_], _, hlen, _, _, _, _ => simp [h2] at hlen
        | _ :: _ :: _ :: _, _, hlen, _, _, _, _ => simp only [h2, List.length_cons] at hlen; omega
        | [f, s], hs, _, hb, hk, hall, hr =>
          obtain ⟨i, is, Ff, F2, rfl, hf, hs2, rfl⟩ := hs
          obtain ⟨j, js, Fs, F3, rfl, hsr, hs3, rfl⟩ := hs2
          obtain ⟨rfl, rfl⟩ := hs3
          simp only [List.append_nil] at hn hr ⊢
          rw [gamma1_pair hall]
          obtain ⟨m, _, rfl, _⟩ := hf.entry
          obtain ⟨q, _, rfl, _⟩ := hsr.entry
          obtain ⟨rf, ef, htf, hof, hidf, _, _⟩ := rep_ref hf
          obtain ⟨rs, es, hts, hos, hids, hsn, hst⟩ := rep_ref hsr
          have hnFs : (Ff ++ Fs).Nodup := by simp only [List.nodup_cons] at hn; exact hn.2.2.2
          simp only [STree.depth, depthL] at hk
          have hart : (match ef.body with | .leaf t => t.isArticle | .node _ _ _ _ => false) = f.article := by
            cases f with
            | leaf nsf tokf =>
              obtain ⟨hof', _⟩ := rep_leaf hf htf
              have := some_eq hof hof'
              subst this
              exact article_eq tokf nsf
            | node nsf bf tsf =>
              obtain ⟨_, _, _, hof', _⟩ := rep_node hf htf
              have := some_eq hof hof'
              subst this
              rfl
          have g0 : getChild r 0 h = .ok (rf, h) := getChild_run ho rfl hl (by simp) htf
          have g1 : getChild r 1 h = .ok (rs, h) := getChild_run ho rfl hl (by simp) hts
          simp only [tm_bind, g0, g1, deref_run hof, deref_run hos, hids, hidf, hsn, hst]
          have same : ∃ (h' : SemTree) (j : Nat) (F' : List Loc), (TM.pure (n : Int) : TM Int) h = .ok ((j : Int), h') ∧
              Turn h (.id n :: .obj r :: .lst l :: (Ff ++ Fs)) h' j (.node ns b [f, s]) F' :=
            ⟨h, n, _, rfl, Turn.refl hr hn⟩
          by_cases ha : f.article = true
          · simp only [hart, ha, reduceIte]
            refine ⟨h, q, Fs, rfl, hsr, (nodup_split hnFs).2.1, (Keeps.refl h).mono (by simp), fun x hx => .inl ?_⟩
            simp [hx]
          · simp only [hart, ha, Bool.false_eq_true, reduceIte]
            match s, hsr, hsn, hst, hb, hk, same, hr with
            | .leaf _ _, _, _, _, _, _, same, _ =>
              simpa [STree.opensWith, STree.isNode] using same
            | .node _ true _, _, _, _, _, _, same, _ =>
              simpa [STree.opensWith, STree.isNode, STree.terminal] using same
            | .node _ false [], _, _, _, hb, _, _, _ =>
              have := hb.2.2.1.1
              simp at this
            | .node ns' false (g :: us), hsr, _, _, hb, hk, same, hr =>
              obtain ⟨l', ids', Fs', ho', hl', hs', rfl⟩ := rep_node hsr hts
              have hs0 := hs'
              obtain ⟨i', is', G1, G2, rfl, hg, hu, rfl⟩ := hs'
              obtain ⟨p, _, rfl, _⟩ := hg.entry
              simp only [STree.isNode, STree.terminal, Bool.not_false, Bool.and_self, reduceIte, STree.opensWith, tm_bind]
              rw [gammaIsRel_deep k 0 hf (by omega)]
              simp only []
              by_cases hfr : f.relates = true
              · simp only [hfr, reduceIte, tm_bind, Bool.and_true]
                rw [childId_run ho' rfl hl' (show ((p : Int) :: is')[0]? = some (p : Int) from rfl)]
                simp only []
                rw [gammaIsRel_deep k 0 hg (by simp only [STree.depth, depthL] at hk; omega)]
                simp only []
                by_cases hgr : g.relates = true
                · simp only [hgr, reduceIte]
                  have hperm := (List.Perm.nodup_iff (List.perm_append_comm (l₁ := Ff))).mp hnFs
                  obtain ⟨h', F', run, tu⟩ := combine_run k hsr hf hperm hb.2.2.1 (by simp only [STree.depth] at hk ⊢; omega)
                  refine ⟨h', q, F', run, tu.rep, tu.nodup, tu.keeps.mono ?_, ?_⟩
                  · intro x hx
                    simp only [List.mem_append, List.mem_cons] at hx ⊢
                    rcases hx with h1 | h1 <;> simp [h1]
                  · intro x hx
                    rcases tu.within x hx with h1 | h1
                    · refine .inl ?_
                      simp only [List.mem_append, List.mem_cons] at h1 ⊢
                      rcases h1 with h1 | h1 <;> simp [h1]
                    · exact .inr h1
                · simpa [hgr] using same
              · simpa [hfr] using same
      · rw [if_neg h2]
        rw [gamma1_other hall (by omega)]
        exact ⟨h, n, _, rfl, Turn.refl hr hn⟩

/-! ### The children -/

theorem gammaChildren_run {process : Int → TM Int} {g : STree → STree} {ns : Option Str} {c : Bool} {n r l : Nat} :
    (todo : List STree) → {h : SemTree} → {done : List STree} → {idsD idsT : List Int} → {FD FT : List Loc} →
    h.table[n]? = some r → h.objs[r]? = some ⟨n, ns, .node l [] (-1) c⟩ → h.lists[l]? = some (idsD ++ idsT) →
    Reps h done idsD FD → Reps h todo idsT FT → (Loc.id n :: .obj r :: .lst l :: (FD ++ FT)).Nodup →
    (∀ t ∈ todo, ∀ (h : SemTree) (m : Nat) (G : List Loc), Rep h t (m : Int) G → G.Nodup →
      ∃ (h' : SemTree) (j : Nat) (G' : List Loc), process (m : Int) h = .ok ((j : Int), h') ∧ Turn h G h' j (g t) G') →
    ∃ h' F', gammaChildren process r idsD.length todo.length h = .ok ((), h') ∧ h'.table[n]? = some r ∧
      Turn h (.id n :: .obj r :: .lst l :: (FD ++ FT)) h' n (.node ns c (done ++ todo.map g)) F'
  | [], h, done, idsD, idsT, FD, FT, ht, ho, hl, hD, hT, hn, hp => by
    obtain ⟨rfl, rfl⟩ := hT
    refine ⟨h, _, rfl, ht, Turn.refl (n := n) ?_ hn⟩
    simp only [List.map_nil, List.append_nil] at hl ⊢
    exact ⟨n, r, l, idsD, FD, rfl, ht, ho, hl, hD, rfl⟩
  | t :: todo, h, done, idsD, idsT, FD, FT, ht, ho, hl, hD, hT, hn, hp => by
    obtain ⟨i, is, F1, F2, rfl, ha, hb, rfl⟩ := hT
    obtain ⟨m, _, rfl, _⟩ := ha.entry
    have hnc := hn
    simp only [List.nodup_cons, List.mem_cons, List.mem_append, not_or] at hnc
    obtain ⟨c1, c2, c3, c4⟩ := hnc
    obtain ⟨n1, n2, n3⟩ := nodup_split c4
    obtain ⟨n4, n5, n6⟩ := nodup_split n2
    obtain ⟨h1, j, G1, run1, tu1⟩ := hp t (by simp) h m F1 ha n4
    -- everything but `F1` is as before
    have ag1 : ∀ x ∈ Loc.id n :: .obj r :: .lst l :: (FD ++ F2), Agree h h1 x ∧ x.valid h ∧ x ∉ F1 := by
      intro x hx
      simp only [List.mem_cons, List.mem_append] at hx
      have h3 : x.valid h ∧ x ∉ F1 := by
        rcases hx with rfl | rfl | rfl | h3 | h3
        · exact ⟨some_lt ht, c1.2.2.2.1⟩
        · exact ⟨some_lt ho, c2.2.2.1⟩
        · exact ⟨some_lt hl, c3.2.1⟩
        · exact ⟨Reps.valid _ hD x h3, fun h4 => n3 x h3 (by simp [h4])⟩
        · exact ⟨Reps.valid _ hb x h3, fun h4 => n6 x h4 h3⟩
      exact ⟨tu1.keeps.agree x h3.1 h3.2, h3⟩
    have hdG : ∀ x ∈ G1, x ∉ Loc.id n :: .obj r :: .lst l :: (FD ++ F2) := by
      intro x hx hx2
      obtain ⟨_, h4, h5⟩ := ag1 x hx2
      rcases tu1.within x hx with h3 | h3
      · exact h5 h3
      · exact h3 h4
    have ht1 : h1.table[n]? = some r := (ag1 (.id n) (by simp)).1.trans ht
    have ho1 : h1.objs[r]? = _ := (ag1 (.obj r) (by simp)).1.trans ho
    have hl1 : h1.lists[l]? = _ := (ag1 (.lst l) (by simp)).1.trans hl
    have hD1 : Reps h1 done idsD FD := Reps.frame _ hD (fun x hx => (ag1 x (by simp [hx])).1)
    have hb1 : Reps h1 todo is F2 := Reps.frame _ hb (fun x hx => (ag1 x (by simp [hx])).1)
    have key := keeps_write h1 l (idsD ++ (j : Int) :: is)
    have notl : ∀ x, x ∈ FD ++ F2 ∨ x ∈ G1 → x ∉ [Loc.lst l] := by
      intro x hx hx2
      simp only [List.mem_cons, List.not_mem_nil, or_false] at hx2
      subst hx2
      rcases hx with hx | hx
      · rcases List.mem_append.mp hx with h3 | h3
        · exact c3.1 h3
        · exact c3.2.2 h3
      · exact hdG _ hx (by simp)
    have hD2 := key.reps hD1 (fun x hx => notl x (.inl (by simp [hx])))
    have hb2 := key.reps hb1 (fun x hx => notl x (.inl (by simp [hx])))
    have ha2 := key.rep tu1.rep (fun x hx => notl x (.inr hx))
    have hn2 : (Loc.id n :: .obj r :: .lst l :: ((FD ++ G1) ++ F2)).Nodup := by
      simp only [List.nodup_cons, List.mem_cons, List.mem_append, not_or]
      refine ⟨⟨by simp, by simp, ⟨c1.2.2.1, fun hx => hdG _ hx (by simp)⟩, c1.2.2.2.2⟩,
        ⟨by simp, ⟨c2.2.1, fun hx => hdG _ hx (by simp)⟩, c2.2.2.2⟩, ⟨⟨c3.1, fun hx => hdG _ hx (by simp)⟩, c3.2.2⟩, ?_⟩
      refine nodup_of (nodup_of n1 tu1.nodup (fun x hx hx' => hdG x hx' (by simp [hx]))) n5 (fun x hx hx' => ?_)
      rcases List.mem_append.mp hx with h3 | h3
      · exact n3 x h3 (by simp [hx'])
      · exact hdG x h3 (by simp [hx'])
    obtain ⟨h3, F3, run3, ht3, tu3⟩ := gammaChildren_run todo (done := done ++ [g t]) (idsD := idsD ++ [(j : Int)])
      (h := { h1 with lists := h1.lists.set l (idsD ++ (j : Int) :: is) }) ht1 ho1
      (by simp [some_lt hl1]) (hD2.append (Reps.one ha2)) hb2 (by simpa using hn2) (fun u hu => hp u (by simp [hu]))
    refine ⟨h3, F3, ?_, ht3, ?_⟩
    · have e1 : (idsD ++ (m : Int) :: is)[idsD.length]? = some (m : Int) := by simp
      have e2 : (idsD ++ (m : Int) :: is).set idsD.length (j : Int) = idsD ++ (j : Int) :: is := by simp
      simp only [List.length_cons, gammaChildren, tm_bind, childId_run ho rfl hl e1, run1, setChild,
        childrenRef_run ho1 rfl, readList_run hl1, writeList_run, e2]
      simpa using run3
    · have tu3' : Turn { h1 with lists := h1.lists.set l (idsD ++ (j : Int) :: is) }
        (Loc.id n :: .obj r :: .lst l :: ((FD ++ G1) ++ F2)) h3 n (.node ns c (done ++ (t :: todo).map g)) F3 := by
        simpa using tu3
      have sub : ∀ x ∈ Loc.id n :: .obj r :: .lst l :: ((FD ++ G1) ++ F2),
          x ∈ Loc.id n :: .obj r :: .lst l :: (FD ++ (F1 ++ F2)) ∨ ¬ x.valid h := by
        intro x hx
        simp only [List.mem_cons, List.mem_append] at hx ⊢
        rcases hx with rfl | rfl | rfl | (h4 | h4) | h4
        · simp
        · simp
        · simp
        · simp [h4]
        · rcases tu1.within x h4 with h5 | h5
          · simp [h5]
          · exact .inr h5
        · simp [h4]
      have k1 : Keeps h { h1 with lists := h1.lists.set l (idsD ++ (j : Int) :: is) }
          (Loc.id n :: .obj r :: .lst l :: (FD ++ (F1 ++ F2))) :=
        tu1.keeps.trans key (by simp +contextual) (fun x hx => .inl (by
          simp only [List.mem_cons, List.not_mem_nil, or_false] at hx
          simp [hx]))
      refine ⟨tu3'.rep, tu3'.nodup, k1.trans tu3'.keeps (fun _ hx => hx) sub, ?_⟩
      intro x hx
      rcases tu3'.within x hx with h4 | h4
      · exact sub x h4
      · exact .inr (fun hv => h4 (k1.grow x hv))

/-! ### Shape and words -/

theorem combine_branching {f : STree} (hf : f.Branching) : (t : STree) → t.Branching → (f.combine t).Branching
  | .leaf _ _, h => h
  | .node _ _ [], h => by rw [STree.combine]; exact h
  | .node _ _ (.leaf _ _ :: us), h => by
    rw [STree.combine]
    exact ⟨h.1, ⟨by simp, mark_branching _ _ hf, trivial, trivial⟩, h.2.2⟩
  | .node _ _ (.node ns' true ts :: us), h => by
    rw [STree.combine]
    exact ⟨h.1, ⟨by simp, mark_branching _ _ hf, mark_branching true (.node ns' true ts) h.2.1, trivial⟩, h.2.2⟩
  | .node _ _ (.node ns' false ts :: us), h => by
    rw [STree.combine]
    exact ⟨h.1, combine_branching hf _ h.2.1, h.2.2⟩

theorem gamma1_branching {t : STree} (h : t.Branching) : t.gamma1.Branching := by
  cases t with
  | leaf ns tok => exact h
  | node ns b ts =>
    by_cases hall : ts.all STree.relWord = true
    · rw [gamma1_all hall]; exact mark_branching _ _ h
    · by_cases hl : ts.length = 2
      · match ts, hl with
        | [f, s], _ =>
          rw [gamma1_pair hall]
          split
          · exact h.2.2.1
          · split
            · exact combine_branching h.2.1 s h.2.2.1
            · exact h
      · rw [gamma1_other hall hl]; exact h

mutual
theorem gamma_branching : (t : STree) → t.Branching → t.gamma.Branching
  | .leaf _ _, h => h
  | .node ns b ts, h => by
    rw [STree.gamma]
    refine gamma1_branching ⟨?_, gammaL_branching ts h.2⟩
    have : (gammaL ts).length = ts.length := by
      clear h
      induction ts with
      | nil => rfl
      | cons t ts ih => simp [gammaL, ih]
    rw [this]; exact h.1
theorem gammaL_branching : (ts : List STree) → branchingL ts → branchingL (gammaL ts)
  | [], _ => trivial
  | t :: ts, h => ⟨gamma_branching t h.1, gammaL_branching ts h.2⟩
end

theorem leavesL_append (ts us : List STree) : leavesL (ts ++ us) = leavesL ts ++ leavesL us := by
  induction ts with
  | nil => rfl
  | cons t ts ih => simp [leavesL, ih]

theorem combine_leaves {f : STree} : (t : STree) → t.Branching → t.isNode = true → (f.combine t).leaves = f.leaves ++ t.leaves
  | .leaf _ _, _, h => by cases h
  | .node _ _ [], h, _ => by
    have := h.1
    simp at this
  | .node _ _ (.leaf _ _ :: us), h, _ => by
    rw [STree.combine]
    simp [STree.leaves, leavesL, mark_leaves]
  | .node _ _ (.node ns' true ts :: us), h, _ => by
    rw [STree.combine]
    simp [STree.leaves, leavesL, mark_leaves, markL_leaves, STree.mark]
  | .node _ _ (.node ns' false ts :: us), h, _ => by
    rw [STree.combine]
    have := combine_leaves (f := f) (.node ns' false ts) h.2.1 rfl
    simp only [STree.leaves, leavesL] at this ⊢
    rw [this]
    simp

theorem opens_node {p : STree → Bool} {s : STree} (h : s.opensWith p = true) : s.isNode = true := by
  cases s with
  | leaf _ _ => cases h
  | node _ _ _ => rfl

theorem Thinned.refl (xs : List TokInfo) : Thinned xs xs := ⟨List.Sublist.refl _, rfl⟩

theorem Thinned.trans {xs ys zs : List TokInfo} (a : Thinned xs ys) (b : Thinned ys zs) : Thinned xs zs :=
  ⟨b.1.trans a.1, b.2.trans a.2⟩

theorem Thinned.append {xs ys us vs : List TokInfo} (a : Thinned xs ys) (b : Thinned us vs) : Thinned (xs ++ us) (ys ++ vs) :=
  ⟨a.1.append b.1, by simp only [List.filter_append, a.2, b.2]⟩

theorem gamma1_leaves {t : STree} (h : t.Branching) : Thinned t.leaves t.gamma1.leaves := by
  cases t with
  | leaf ns tok => exact Thinned.refl _
  | node ns b ts =>
    by_cases hall : ts.all STree.relWord = true
    · rw [gamma1_all hall, mark_leaves]; exact Thinned.refl _
    · by_cases hl : ts.length = 2
      · match ts, hl with
        | [f, s], _ =>
          rw [gamma1_pair hall]
          split
          · rename_i ha
            cases f with
            | node _ _ _ => cases ha
            | leaf nsf tok =>
              have hd : tok.droppable = true := ha
              refine ⟨?_, ?_⟩
              · simp only [STree.leaves, leavesL, List.append_nil]
                exact List.sublist_append_right [tok] s.leaves
              · simp [STree.leaves, leavesL, hd]
          · split
            · rename_i hc
              simp only [Bool.and_eq_true] at hc
              rw [combine_leaves s h.2.2.1 (opens_node hc.1)]
              simp only [STree.leaves, leavesL, List.append_nil]
              exact Thinned.refl _
            · exact Thinned.refl _
      · rw [gamma1_other hall hl]; exact Thinned.refl _

mutual
theorem gamma_leaves : (t : STree) → t.Branching → Thinned t.leaves t.gamma.leaves
  | .leaf _ _, _ => Thinned.refl _
  | .node ns b ts, h => by
    rw [STree.gamma]
    have hb : (STree.node ns b (gammaL ts)).Branching := by
      refine ⟨?_, gammaL_branching ts h.2⟩
      have : (gammaL ts).length = ts.length := by
        clear h
        induction ts with
        | nil => rfl
        | cons t ts ih => simp [gammaL, ih]
      rw [this]; exact h.1
    refine Thinned.trans ?_ (gamma1_leaves hb)
    simp only [STree.leaves]
    exact gammaL_leaves ts h.2
theorem gammaL_leaves : (ts : List STree) → branchingL ts → Thinned (leavesL ts) (leavesL (gammaL ts))
  | [], _ => Thinned.refl _
  | t :: ts, h => by
    simp only [gammaL, leavesL]
    exact (gamma_leaves t h.1).append (gammaL_leaves ts h.2)
end

/-! ### The stage -/

theorem gammaL_map : (ts : List STree) → gammaL ts = ts.map STree.gamma
  | [] => rfl
  | t :: ts => by simp [gammaL, gammaL_map ts]

/-- Processing the tree is fine with this budget. -/
def GammaOk (k : Nat) (t : STree) : Prop := ∀ (h : SemTree) (m : Nat) (G : List Loc), Rep h t (m : Int) G → G.Nodup →
  ∃ (h' : SemTree) (j : Nat) (G' : List Loc), gammaEntity k (m : Int) h = .ok ((j : Int), h') ∧ Turn h G h' j t.gamma G'

mutual
theorem gammaEntity_run : (t : STree) → t.Branching → ∃ N, ∀ k, N ≤ k → GammaOk k t
  | .leaf ns tok, hb => by
    refine ⟨4, fun k hk h m G hr hn => ?_⟩
    obtain ⟨k, rfl⟩ : ∃ k', k = k' + 1 := ⟨k - 1, by omega⟩
    obtain ⟨r, e, ht, ho, hid, hnode, _⟩ := rep_ref hr
    obtain ⟨h', j, G', run, tu⟩ := gamma1_run (k := k) hr hn hb (by simp only [STree.depth]; omega)
    refine ⟨h', j, G', ?_, tu⟩
    have : e.isNode = false := hnode
    simp only [gammaEntity, tm_bind, treeGet_run ht, deref_run ho, this, Bool.false_eq_true, reduceIte]
    exact run
  | .node ns b ts, hb => by
    obtain ⟨N, g⟩ := gammaEntityL_run ts hb.2
    have hb' : (STree.node ns b (gammaL ts)).Branching :=
      ⟨by rw [gammaL_map, List.length_map]; exact hb.1, gammaL_branching ts hb.2⟩
    refine ⟨max N (2 * (STree.node ns b (gammaL ts)).depth + 1) + 1, fun k hk h m G hr hn => ?_⟩
    obtain ⟨k, rfl⟩ : ∃ k', k = k' + 1 := ⟨k - 1, by omega⟩
    obtain ⟨r, e, ht, hoe, hid, hnode, _⟩ := rep_ref hr
    obtain ⟨l, ids, Fs, ho, hl, hs, rfl⟩ := rep_node hr ht
    obtain ⟨h1, F1, run1, ht1, tu1⟩ := gammaChildren_run (process := gammaEntity k) (g := STree.gamma) (done := [])
      (idsD := []) (FD := []) ts ht ho hl ⟨rfl, rfl⟩ hs (by simpa using hn)
      (fun t htm h m G hr hG => g k (by omega) t htm h m G hr hG)
    rw [List.nil_append, List.nil_append, ← gammaL_map] at tu1
    obtain ⟨h2, j, F2, run2, tu2⟩ := gamma1_run (k := k) tu1.rep tu1.nodup hb' (by omega)
    refine ⟨h2, j, F2, ?_, ?_⟩
    · have : e.isNode = true := hnode
      have hlen := hs.length
      simp only [gammaEntity, tm_bind, treeGet_run ht, deref_run hoe, this, reduceIte, childrenIds_run ho rfl hl, hlen]
      simp only [List.length_nil] at run1
      rw [run1]
      exact run2
    · rw [STree.gamma]
      exact tu1.trans tu2
theorem gammaEntityL_run : (ts : List STree) → branchingL ts → ∃ N, ∀ k, N ≤ k → ∀ t ∈ ts, GammaOk k t
  | [], _ => ⟨0, fun _ _ t ht => by cases ht⟩
  | t :: ts, hb => by
    obtain ⟨N1, g1⟩ := gammaEntity_run t hb.1
    obtain ⟨N2, g2⟩ := gammaEntityL_run ts hb.2
    refine ⟨max N1 N2, fun k hk u hu => ?_⟩
    rcases List.mem_cons.mp hu with rfl | hu
    · exact g1 k (by omega)
    · exact g2 k (by omega) u hu
end

/-- The gamma stage. -/
theorem gammaStage_run {t : STree} (hb : t.Branching) :
    ∃ N, ∀ k, N ≤ k → ∀ h, Stands h t → ∃ h', gammaStage k h = .ok ((), h') ∧ Stands h' t.gamma := by
  obtain ⟨N, g⟩ := gammaEntity_run t hb
  refine ⟨N, fun k hk h hs => ?_⟩
  obtain ⟨i, F, hroot, hr, hn⟩ := hs
  obtain ⟨h1, j, F1, run, tu⟩ := g k hk h i F hr hn
  refine ⟨{ h1 with rootId := some j }, ?_, ⟨j, F1, rfl, tu.rep.frame _ (fun y _ => by cases y <;> rfl), tu.nodup⟩⟩
  simp only [gammaStage, tm_bind, rootIdM, hroot, run, setRootId, Int.toNat_natCast]

end GB
