import Verif.Proofs.AlphaHeap

/-
Layers on the heap: nesting and applying.
-/

namespace GB

theorem LReps.keeps {h h' : SemTree} {Ls : List Layer} {is : List Nat} {F G : List Loc} (hr : LReps h Ls is F)
    (k : Keeps h h' G) (hd : ∀ x ∈ F, x ∉ G) : LReps h' Ls is F :=
  hr.frame fun x hx => k.agree x (hr.valid x hx) (hd x hx)

/-- Nesting, on a node. -/
theorem nest_node {h : SemTree} {e r : Nat} {ns : Option Str} {b : Bool} {ts : List STree} {Ls : List Layer}
    {c : STree} {i : Int} {F G : List Loc} (ho : Own h e (.node ns b ts) Ls G) (hc : Rep h c i F)
    (hne : ∀ ns b, c ≠ .node ns b []) (hn : (F ++ G).Nodup) (ht : h.table[e]? = some r) :
    ∃ h1 h' F', nest r i h = .ok ((), h1) ∧ h1.table[e]? = some r ∧ newLayer r h1 = .ok ((), h') ∧
      LStep h e (.node ns b ts) (Ls ++ [c.layer]) (F ++ G) h' F' := by
  obtain ⟨hnF, hnG, hd⟩ := nodup_split hn
  have hasn := asNode_node ho ht
  obtain ⟨r0, l, ids, lids, F1, F2, ht0, ho0, hl, h1, h2, rfl⟩ := ho
  obtain rfl := some_eq ht ht0
  have hrr := some_lt ho0
  -- the ids of the new layer
  have hlay : ∃ (j : Int) (js : List Int) (A B : List Loc), Rep h c.layer.1 j A ∧ Reps h c.layer.2 js B ∧
      (A ++ B).Nodup ∧ (∀ x ∈ A ++ B, x ∈ F) ∧
      nest r i h = (do
        let layer ← createNode (j :: -1 :: js)
        let layerId ← elemId layer
        let e ← deref r
        match e.body with
        | .node l lids _ c => setObj r { e with body := .node l lids (layerId : Int) c }
        | .leaf _ => TM.raise .attributeError : TM Unit) h := by
    cases c with
    | leaf ns' tok =>
      refine ⟨i, [], F, [], hc, ⟨rfl, rfl⟩, by simpa using hnF, by simp, ?_⟩
      obtain ⟨n, rc, rfl, htc, hoc, _⟩ := hc
      change (asNode r >>= _) h = _
      rw [tm_bind_ok hasn]
      simp [tm_bind, treeGet_run htc, deref_run hoc, Elem.isLeaf, tm_pure]
      rfl
    | node ns' b' us =>
      cases us with
      | nil => exact absurd rfl (hne _ _)
      | cons u us =>
        obtain ⟨n, rc, lc, idc, Fs, rfl, htc, hoc, hlc, ⟨j, js, A, B, rfl, ha, hb, rfl⟩, rfl⟩ := hc
        refine ⟨j, js, A, B, ha, hb, ?_, ?_, ?_⟩
        · simp only [List.nodup_cons] at hnF
          exact hnF.2.2.2
        · intro x hx
          simp only [List.mem_cons]
          exact .inr (.inr (.inr hx))
        · change (asNode r >>= _) h = _
          rw [tm_bind_ok hasn]
          simp [tm_bind, treeGet_run htc, deref_run hoc, Elem.isLeaf, tm_pure, childrenIds_run hoc rfl hlc]
          rfl
  obtain ⟨j, js, A, B, hA, hB, hnAB, hABF, hrun⟩ := hlay
  have k1 := keeps_addNode h (j :: -1 :: js)
  have hobj1 : (h.addNode (j :: -1 :: js)).objs[r]? = some ⟨e, ns, .node l lids (-1) b⟩ := by
    simp only [SemTree.addNode]
    rw [List.getElem?_append_left hrr]; exact ho0
  have hnewobj : (h.addNode (j :: -1 :: js)).objs[h.objs.length]? =
      some ⟨h.table.length, none, .node h.lists.length [] (-1) false⟩ := by
    simp [SemTree.addNode]
  have k2 := keeps_setObj (h.addNode (j :: -1 :: js)) r ⟨e, ns, .node l lids (h.table.length : Int) b⟩
  have hh1 : nest r i h = .ok ((), { h.addNode (j :: -1 :: js) with
      objs := (h.addNode (j :: -1 :: js)).objs.set r ⟨e, ns, .node l lids (h.table.length : Int) b⟩ }) := by
    rw [hrun]
    simp only [tm_bind, createNode_run, elemId_run hnewobj, deref_run hobj1, setObj_run]
  have hr1 : r < (h.addNode (j :: -1 :: js)).objs.length := some_lt hobj1
  have ke : Keeps h { h.addNode (j :: -1 :: js) with
      objs := (h.addNode (j :: -1 :: js)).objs.set r ⟨e, ns, .node l (lids ++ [h.table.length]) (-1) b⟩ } [.obj r] :=
    k1.trans (keeps_setObj _ r _) (by simp) (fun x hx => .inl hx)
  refine ⟨_, { h.addNode (j :: -1 :: js) with
      objs := (h.addNode (j :: -1 :: js)).objs.set r ⟨e, ns, .node l (lids ++ [h.table.length]) (-1) b⟩ },
    .id e :: .obj r :: .lst l :: (F1 ++ (F2 ++
      (.id h.table.length :: .obj h.objs.length :: .lst h.lists.length :: (A ++ B)))), hh1, ?_, ?_, ?_⟩
  · simp only [SemTree.addNode]
    rw [List.getElem?_append_left (some_lt ht)]; exact ht
  · have : newLayer r { h.addNode (j :: -1 :: js) with
        objs := (h.addNode (j :: -1 :: js)).objs.set r ⟨e, ns, .node l lids (h.table.length : Int) b⟩ } =
        .ok ((), { h.addNode (j :: -1 :: js) with
          objs := ((h.addNode (j :: -1 :: js)).objs.set r ⟨e, ns, .node l lids (h.table.length : Int) b⟩).set r
            ⟨e, ns, .node l (lids ++ [h.table.length]) (-1) b⟩ }) := by
      have hd' : deref r { h.addNode (j :: -1 :: js) with
        objs := (h.addNode (j :: -1 :: js)).objs.set r ⟨e, ns, .node l lids (h.table.length : Int) b⟩ } =
        .ok (⟨e, ns, .node l lids (h.table.length : Int) b⟩, _) := deref_run (by simp [hr1])
      have hge : (h.table.length : Int) ≥ 0 := by omega
      simp only [newLayer, tm_bind, hd', hge, if_true, setObj_run, Int.toNat_natCast]
    rw [this]
    simp
  · have dAB : ∀ x ∈ A ++ B, x ∉ (Loc.id e :: .obj r :: .lst l :: (F1 ++ F2)) := fun x hx => hd x (hABF x hx)
    have vAB : ∀ x ∈ A ++ B, x.valid h := fun x hx => hc.valid _ x (hABF x hx)
    have hnG' := hnG
    simp only [List.nodup_cons, List.mem_cons, List.mem_append, not_or] at hnG'
    have notr : ∀ (X : List Loc), Loc.obj r ∉ X → ∀ x ∈ X, x ∉ [Loc.obj r] := by
      intro X hX x hx hm
      simp only [List.mem_cons, List.not_mem_nil, or_false] at hm
      subst hm; exact hX hx
    have rAB : Loc.obj r ∉ A ++ B := fun hm => dAB _ hm (by simp)
    have hl3 : (h.addNode (j :: -1 :: js)).lists[h.lists.length]? = some (j :: -1 :: js) := by simp [SemTree.addNode]
    refine ⟨⟨r, l, ids, lids ++ [h.table.length], F1, _, ?_, ?_, ?_, ke.reps h1 (notr _ hnG'.2.1.2.1),
      (h2.keeps ke (notr _ hnG'.2.1.2.2)).append ⟨h.table.length, [], _, [], rfl,
        ⟨h.objs.length, h.lists.length, j, js, A, B, ?_, ?_, ?_, ke.rep hA (notr _ (fun hm => rAB (by simp [hm]))),
          ke.reps hB (notr _ (fun hm => rAB (by simp [hm]))), rfl⟩, ⟨rfl, rfl⟩, by simp⟩, rfl⟩, ?_, ?_, ?_⟩
    · simp only [SemTree.addNode]
      rw [List.getElem?_append_left (some_lt ht)]; exact ht
    · simp [hr1]
    · simp only [SemTree.addNode]
      rw [List.getElem?_append_left (some_lt hl)]; exact hl
    · simp [SemTree.addNode]
    · have : r ≠ h.objs.length := by omega
      simp [SemTree.addNode, this]
    · simp [SemTree.addNode]
    · -- no sharing
      have vG : ∀ x ∈ Loc.id e :: .obj r :: .lst l :: (F1 ++ F2), x.valid h := by
        intro x hx
        simp only [List.mem_cons, List.mem_append] at hx
        rcases hx with rfl | rfl | rfl | hx | hx
        · exact some_lt ht
        · exact some_lt ho0
        · exact some_lt hl
        · exact Reps.valid _ h1 x hx
        · exact h2.valid x hx
      have hnew : (Loc.id h.table.length :: .obj h.objs.length :: .lst h.lists.length :: (A ++ B)).Nodup := by
        have o1 : Loc.obj h.objs.length ∉ A ++ B := fun hm => by have := vAB _ hm; simp [Loc.valid] at this
        have o2 : Loc.lst h.lists.length ∉ A ++ B := fun hm => by have := vAB _ hm; simp [Loc.valid] at this
        have o3 : Loc.id h.table.length ∉ A ++ B := fun hm => by have := vAB _ hm; simp [Loc.valid] at this
        exact List.nodup_cons.mpr ⟨by simpa using o3, List.nodup_cons.mpr ⟨by simpa using o1, List.nodup_cons.mpr ⟨o2, hnAB⟩⟩⟩
      have : ((Loc.id e :: .obj r :: .lst l :: (F1 ++ F2)) ++
          (Loc.id h.table.length :: .obj h.objs.length :: .lst h.lists.length :: (A ++ B))).Nodup := by
        refine nodup_of hnG hnew (fun x hx hm => ?_)
        simp only [List.mem_cons] at hm
        have hv := vG x hx
        rcases hm with rfl | rfl | rfl | hm
        · simp [Loc.valid] at hv
        · simp [Loc.valid] at hv
        · simp [Loc.valid] at hv
        · exact dAB x hm hx
      simpa using this
    · exact ke.mono (by simp)
    · intro x hx
      simp only [List.mem_cons, List.mem_append] at hx ⊢
      rcases hx with rfl | rfl | rfl | hx | hx | rfl | rfl | rfl | hx
      · simp
      · simp
      · simp
      · simp [hx]
      · simp [hx]
      · right; simp [Loc.valid]
      · right; simp [Loc.valid]
      · right; simp [Loc.valid]
      · left; left; exact hABF x (List.mem_append.mpr hx)

/-- `self.tree.get(root_id).nest(child_id)` and `self.tree.get(root_id).new_layer()`. -/
theorem nest_rep {h : SemTree} {e : Nat} {t : STree} {Ls : List Layer} {c : STree} {i : Int} {F G : List Loc}
    (ho : Own h e t Ls G) (hc : Rep h c i F) (hne : ∀ ns b, c ≠ .node ns b []) (hn : (F ++ G).Nodup) :
    ∃ h' F', (do
        nest (← treeGet (e : Int)) i
        newLayer (← treeGet (e : Int)) : TM Unit) h = .ok ((), h') ∧
      LStep h e t.touch (Ls ++ [c.layer]) (F ++ G) h' F' := by
  obtain ⟨r, x, ht, _⟩ := ho.entry
  have hn' : (G ++ F).Nodup := (List.Perm.nodup_iff List.perm_append_comm).mp hn
  obtain ⟨r1, h1, F1, ha, ht1, ha1, s1⟩ := asNode_rep ho (nodup_split hn').1 ht
  have hc1 := s1.other hn' hc
  have hn2 := s1.nodup_append hn' (hc.valid _)
  have hn3 : (F ++ F1).Nodup := (List.Perm.nodup_iff List.perm_append_comm).mp hn2
  have e1 : nest r i h = nest r1 i h1 := by
    change (asNode r >>= _) h = (asNode r1 >>= _) h1
    rw [tm_bind_ok ha, tm_bind_ok ha1]
  have fin : ∃ h' F', (do
        nest (← treeGet (e : Int)) i
        newLayer (← treeGet (e : Int)) : TM Unit) h = .ok ((), h') ∧
      LStep h1 e t.touch (Ls ++ [c.layer]) (F ++ F1) h' F' := by
    cases t with
    | leaf ns tok =>
      obtain ⟨h2, h', F', hr1, ht2, hr2, st⟩ := nest_node s1.own hc1 hne hn3 ht1
      refine ⟨h', F', ?_, st⟩
      simp only [tm_bind, treeGet_run ht, e1, hr1, treeGet_run ht2, hr2]
    | node ns b ts =>
      obtain ⟨h2, h', F', hr1, ht2, hr2, st⟩ := nest_node s1.own hc1 hne hn3 ht1
      refine ⟨h', F', ?_, st⟩
      simp only [tm_bind, treeGet_run ht, e1, hr1, treeGet_run ht2, hr2]
  obtain ⟨h', F', hrun, st⟩ := fin
  refine ⟨h', F', hrun, ?_⟩
  have st2 : LStep h1 e t.touch (Ls ++ [c.layer]) (F1 ++ F) h' F' := st.mono (by simp [or_comm])
  exact (s1.trans st2).mono (by simp [or_comm])


/-! ### Applying layers -/

theorem isLeaf_node {i : Nat} {ns : Option Str} {l : Nat} {lids : List Nat} {lid : Int} {c : Bool} :
    Elem.isLeaf ⟨i, ns, .node l lids lid c⟩ = false := by simp [Elem.isLeaf]

theorem isLeaf_leaf {i : Nat} {ns : Option Str} {t : TokInfo} : Elem.isLeaf ⟨i, ns, .leaf t⟩ = true := by simp [Elem.isLeaf]

theorem Reps.get {h : SemTree} : {ts : List STree} → {is : List Int} → {F : List Loc} → Reps h ts is F → {j : Nat} →
    {t : STree} → ts[j]? = some t → ∃ i G, is[j]? = some i ∧ Rep h t i G ∧ ∀ x ∈ G, x ∈ F
  | [], is, F, hr, j, t, hj => by simp at hj
  | u :: us, is, F, hr, j, t, hj => by
    obtain ⟨i, is', F1, F2, rfl, h1, h2, rfl⟩ := hr
    cases j with
    | zero =>
      simp only [List.getElem?_cons_zero, Option.some.injEq] at hj
      subst hj
      exact ⟨i, F1, by simp, h1, fun x hx => by simp [hx]⟩
    | succ j =>
      simp only [List.getElem?_cons_succ] at hj
      obtain ⟨i', G, hi, hr, hs⟩ := Reps.get h2 hj
      exact ⟨i', G, by simpa using hi, hr, fun x hx => by simp [hs x hx]⟩

theorem depthL_le : {ts : List STree} → {t : STree} → t ∈ ts → t.depth ≤ depthL ts
  | u :: us, t, hm => by
    rw [depthL]
    rcases List.mem_cons.mp hm with rfl | hm
    · omega
    · have := depthL_le hm
      omega

/-- A tree without a gap takes no layer. -/
theorem applyLayer_false {h : SemTree} (entity : Nat) : (k : Nat) → {t : STree} → {i : Int} → {F : List Loc} →
    {n r : Nat} → Rep h t i F → i = (n : Int) → h.table[n]? = some r → t.depth ≤ k →
    applyLayer k entity r h = .ok (false, h)
  | 0, t, i, F, n, r, hr, hi, ht, hk => by cases t <;> simp [STree.depth] at hk
  | k + 1, t, i, F, n, r, hr, hi, ht, hk => by
    cases t with
    | leaf ns tok =>
      obtain ⟨n', r', hi', ht', ho, _⟩ := hr
      obtain rfl : n = n' := by omega
      obtain rfl := some_eq ht ht'
      simp [applyLayer, tm_bind, deref_run ho, Elem.isLeaf, tm_pure]
    | node ns c ts =>
      obtain ⟨n', r', l, ids, Fs, hi', ht', ho, hl, hs, _⟩ := hr
      obtain rfl : n = n' := by omega
      obtain rfl := some_eq ht ht'
      simp only [STree.depth] at hk
      have loop : ∀ m j, j + m = ts.length → applyLayerLoop k entity r j m h = .ok (false, h) := by
        intro m
        induction m with
        | zero => intro j hj; simp [applyLayerLoop, tm_pure]
        | succ m ih =>
          intro j hj
          have hlt : j < ts.length := by omega
          obtain ⟨i2, G, hi2, hr2, _⟩ := hs.get (List.getElem?_eq_getElem hlt)
          have hdep : ts[j].depth ≤ depthL ts := depthL_le (List.getElem_mem hlt)
          obtain ⟨n2, r2, rfl, ht2, _⟩ := hr2.entry
          have hc : childId r j h = .ok ((n2 : Int), h) := childId_run ho rfl hl hi2
          have hneg : ¬ ((n2 : Int) < 0) := by omega
          simp only [applyLayerLoop, tm_bind, hc, hneg, if_false, getChild_run ho rfl hl hi2 ht2,
            applyLayer_false entity k hr2 rfl ht2 (by omega)]
          exact ih (j + 1) (by omega)
      simp only [applyLayer, tm_bind, deref_run ho, isLeaf_node, Bool.false_eq_true, reduceIte, childrenIds_run ho rfl hl, hs.length]
      exact loop ts.length 0 (by omega)

theorem wrap_ne {ts : List STree} (h : ts.length ≠ 1) : wrap ts = .node none false ts := by
  match ts with
  | [] => rfl
  | [_] => simp at h
  | _ :: _ :: _ => rfl

/-- One layer. -/
theorem applyLayer_rep {h : SemTree} {L : Layer} {lid rl : Nat} {prev lp : Nat} {xp : Elem} {plids : List Nat}
    {plid : Int} {pc : Bool} {ids : List Int} {ts : List STree} {FL Fp : List Loc} {k : Nat}
    (hL : LRep h L lid FL) (htl : h.table[lid]? = some rl) (hxp : h.objs[prev]? = some xp)
    (hbp : xp.body = .node lp plids plid pc) (hlp : h.lists[lp]? = some ids) (hts : Reps h ts ids Fp)
    (hn : (FL ++ (.lst lp :: Fp)).Nodup) (hk : L.1.depth + 1 ≤ k) :
    ∃ h' ll ids' F', applyLayer k prev rl h = .ok (true, h') ∧
      (∃ x, h'.objs[rl]? = some x ∧ x.body = .node ll [] (-1) false) ∧ h'.lists[ll]? = some ids' ∧
      Reps h' (L.1 :: wrap ts :: L.2) ids' F' ∧ (Loc.lst ll :: F').Nodup ∧
      Keeps h h' [.lst ll] ∧ Loc.lst ll ∈ FL ∧
      Within h (FL ++ (.lst lp :: Fp)) (.lst ll :: F') := by
  obtain ⟨r, ll, i, is, F1, F2, ht, ho, hl, h1, h2, rfl⟩ := hL
  obtain rfl := some_eq htl ht
  obtain ⟨n1, r1, rfl, ht1, _⟩ := h1.entry
  have hllt := some_lt hl
  have hneq : ll ≠ lp := by
    rintro rfl
    exact (nodup_split hn).2.2 (.lst ll) (by simp) (by simp)
  obtain ⟨hnL, hnP, hdis⟩ := nodup_split hn
  simp only [List.nodup_cons, List.mem_cons, List.mem_append, not_or] at hnL
  simp only [List.nodup_cons] at hnP
  -- the new child
  have ka := keeps_addNodeWith h lp
  have hcl : (h.addNodeWith lp).objs[h.objs.length]? = some ⟨h.table.length, none, .node lp [] (-1) false⟩ := by
    simp [SemTree.addNodeWith]
  have hlp' : (h.addNodeWith lp).lists[lp]? = some ids := hlp
  have hl' : (h.addNodeWith lp).lists[ll]? = some ((n1 : Int) :: -1 :: is) := hl
  have ho' : (h.addNodeWith lp).objs[rl]? = some ⟨lid, none, .node ll [] (-1) false⟩ := by
    simp only [SemTree.addNodeWith]; rw [List.getElem?_append_left (some_lt ho)]; exact ho
  -- the id that is written, and what it stands for
  have hw : ∃ (cid : Int) (Fw : List Loc), gapId h.objs.length (h.addNodeWith lp) = .ok (cid, h.addNodeWith lp) ∧
      Rep (h.addNodeWith lp) (wrap ts) cid Fw ∧ Fw.Nodup ∧ Within h (.lst lp :: Fp) Fw := by
    have hts' := ka.reps hts (fun x _ => by simp)
    by_cases h1' : ts.length = 1
    · obtain ⟨t, rfl⟩ := List.length_eq_one_iff.mp h1'
      obtain ⟨c, is', A, B, rfl, hr, ⟨rfl, rfl⟩, rfl⟩ := hts'
      refine ⟨c, A, ?_, hr, by simpa using hnP.2, fun x hx => .inl (by simp [hx])⟩
      simp only [gapId, tm_bind, childrenIds_run hcl rfl hlp', tm_pure]
    · have hlen : ids.length ≠ 1 := by rw [hts.length]; exact h1'
      rw [wrap_ne h1']
      refine ⟨(h.table.length : Int), .id h.table.length :: .obj h.objs.length :: .lst lp :: Fp, ?_,
        ⟨h.table.length, h.objs.length, lp, ids, Fp, rfl, by simp [SemTree.addNodeWith], hcl, hlp', hts', rfl⟩, ?_, ?_⟩
      · simp only [gapId, tm_bind, childrenIds_run hcl rfl hlp']
        match ids, hlen with
        | [], _ => simp only [tm_bind, elemId_run hcl, tm_pure]
        | _ :: _ :: _, _ => simp only [tm_bind, elemId_run hcl, tm_pure]
      · have v1 := Reps.valid _ hts
        have o1 : Loc.obj h.objs.length ∉ Fp := fun hm => by have := v1 _ hm; simp [Loc.valid] at this
        have o3 : Loc.id h.table.length ∉ Fp := fun hm => by have := v1 _ hm; simp [Loc.valid] at this
        exact List.nodup_cons.mpr ⟨by simpa using o3, List.nodup_cons.mpr ⟨by simpa using o1, List.nodup_cons.mpr ⟨hnP.1, hnP.2⟩⟩⟩
      · intro x hx
        simp only [List.mem_cons] at hx
        rcases hx with rfl | rfl | rfl | hx
        · right; simp [Loc.valid]
        · right; simp [Loc.valid]
        · left; simp
        · left; simp [hx]
  obtain ⟨cid, Fw, hcid, hrw, hnw, hww⟩ := hw
  have kw := keeps_write (h.addNodeWith lp) ll ((n1 : Int) :: cid :: is)
  have kall : Keeps h { h.addNodeWith lp with lists := (h.addNodeWith lp).lists.set ll ((n1 : Int) :: cid :: is) }
      [.lst ll] := ka.trans kw (by simp) (fun x hx => .inl hx)
  have notl : ∀ (X : List Loc), Loc.lst ll ∉ X → ∀ x ∈ X, x ∉ [Loc.lst ll] := by
    intro X hX x hx hm
    simp only [List.mem_cons, List.not_mem_nil, or_false] at hm
    subst hm; exact hX hx
  have hllw : Loc.lst ll ∉ Fw := fun hm => by
    rcases hww _ hm with h3 | h3
    · exact hdis (.lst ll) (by simp) h3
    · exact h3 (by simpa [Loc.valid] using hllt)
  refine ⟨{ h.addNodeWith lp with lists := (h.addNodeWith lp).lists.set ll ((n1 : Int) :: cid :: is) }, ll,
    (n1 : Int) :: cid :: is, F1 ++ (Fw ++ F2), ?_, ⟨_, ho', rfl⟩, ?_, ?_, ?_, kall, by simp, ?_⟩
  · obtain ⟨k, rfl⟩ : ∃ k', k = k' + 1 := ⟨k - 1, by omega⟩
    have hneg : ¬ ((n1 : Int) < 0) := by omega
    have e0 : childId rl 0 h = .ok ((n1 : Int), h) := childId_run ho rfl hl (by simp)
    have e1 : childId rl 1 h = .ok (-1, h) := childId_run ho rfl hl (by simp)
    have eg : getChild rl 0 h = .ok (r1, h) := getChild_run ho rfl hl (by simp) ht1
    have hset : setChild rl 1 cid (h.addNodeWith lp) = .ok ((), { h.addNodeWith lp with lists := (h.addNodeWith lp).lists.set ll ((n1 : Int) :: cid :: is) }) := by
      simp [setChild, tm_bind, childrenRef_run ho' rfl, readList_run hl', writeList_run]
    have lenEq : ((n1 : Int) :: -1 :: is).length = is.length + 1 + 1 := by simp
    simp only [applyLayer, tm_bind, deref_run ho, isLeaf_node, Bool.false_eq_true, reduceIte, childrenIds_run ho rfl hl, lenEq]
    simp only [applyLayerLoop, tm_bind, e0, hneg, if_false, eg, applyLayer_false prev k h1 rfl ht1 (by omega)]
    have hn1 : (-1 : Int) < 0 := by omega
    simp only [Bool.false_eq_true, if_false, applyLayerLoop, tm_bind, Nat.zero_add, e1, hn1, if_true, childrenRef_run hxp hbp, createNodeWith_run]
    simp only [hcid, hset, tm_pure]
  · simp [SemTree.addNodeWith, hllt]
  · refine Reps.cons (kall.rep h1 (notl _ hnL.2.2.1.1)) (Reps.cons (kw.rep hrw (notl _ hllw)) (kall.reps h2 (notl _ hnL.2.2.1.2)))
  · have hn12 : (F1 ++ F2).Nodup := hnL.2.2.2
    obtain ⟨a1, a2, a3⟩ := nodup_split hn12
    have hdw : ∀ x ∈ F1 ++ F2, x ∉ Fw := fun x hx hm => by
      rcases hww x hm with h3 | h3
      · refine hdis x ?_ h3
        simp only [List.mem_cons]
        exact .inr (.inr (.inr hx))
      · refine h3 ?_
        rcases List.mem_append.mp hx with h4 | h4
        · exact h1.valid _ x h4
        · exact Reps.valid _ h2 x h4
    refine List.nodup_cons.mpr ⟨?_, nodup_of a1 (nodup_of hnw a2 fun x hx hm => hdw x (by simp [hm]) hx) ?_⟩
    · simp only [List.mem_append, not_or]
      exact ⟨hnL.2.2.1.1, hllw, hnL.2.2.1.2⟩
    · intro x hx hm
      rcases List.mem_append.mp hm with h3 | h3
      · exact hdw x (by simp [hx]) h3
      · exact a3 x hx h3
  · intro x hx
    simp only [List.mem_cons, List.mem_append] at hx
    rcases hx with rfl | hx | hx | hx
    · left; simp
    · left; simp [hx]
    · rcases hww x hx with h3 | h3
      · left; rw [List.mem_append]; exact .inr h3
      · exact .inr h3
    · left; simp [hx]


theorem applyLayersLoop_rep {k : Nat} : (Ls : List Layer) → {h : SemTree} → {lids : List Nat} → {prev lp : Nat} →
    {xp : Elem} → {plids : List Nat} → {plid : Int} → {pc : Bool} → {ids : List Int} → {ts : List STree} →
    {FL Fp : List Loc} → LReps h Ls lids FL → h.objs[prev]? = some xp → xp.body = .node lp plids plid pc →
    h.lists[lp]? = some ids → Reps h ts ids Fp → (FL ++ (.lst lp :: Fp)).Nodup →
    (∀ L ∈ Ls, L.1.depth + 1 ≤ k) →
    ∃ h' prev' l' x' lids' lid' c' ids' F', applyLayersLoop k lids prev h = .ok (prev', h') ∧
      h'.objs[prev']? = some x' ∧ x'.body = .node l' lids' lid' c' ∧ h'.lists[l']? = some ids' ∧
      Reps h' (applyL ts Ls) ids' F' ∧ (Loc.lst l' :: F').Nodup ∧ Keeps h h' FL ∧
      Within h (FL ++ (.lst lp :: Fp)) (.lst l' :: F')
  | [], h, lids, prev, lp, xp, plids, plid, pc, ids, ts, FL, Fp, hL, hx, hb, hl, hts, hn, hk => by
    obtain ⟨rfl, rfl⟩ := hL
    exact ⟨h, prev, lp, xp, plids, plid, pc, ids, Fp, rfl, hx, hb, hl, hts, by simpa using hn, Keeps.refl h,
      fun x hx => .inl (by simpa using hx)⟩
  | L :: Ls, h, lids, prev, lp, xp, plids, plid, pc, ids, ts, FL, Fp, hL, hx, hb, hl, hts, hn, hk => by
    obtain ⟨lid, lids', F1, F2, rfl, h1, h2, rfl⟩ := hL
    obtain ⟨rl, ht⟩ : ∃ rl, h.table[lid]? = some rl := by
      obtain ⟨r, _, _, _, _, _, ht, _⟩ := h1
      exact ⟨r, ht⟩
    have hn' : (F2 ++ (F1 ++ (.lst lp :: Fp))).Nodup := by
      refine (List.Perm.nodup_iff ?_).mp hn
      rw [List.append_assoc, ← List.append_assoc, ← List.append_assoc]
      exact List.Perm.append_right _ List.perm_append_comm
    obtain ⟨hnF2, hn1, hd2⟩ := nodup_split hn'
    obtain ⟨h', ll, ids1, F1', hrun, ⟨x1, hx1, hb1⟩, hl1, hts1, hnd1, hk1, hm1, hw1⟩ :=
      applyLayer_rep h1 ht hx hb hl hts hn1 (hk L (by simp))
    have h2' : LReps h' Ls lids' F2 := h2.keeps hk1 (fun x hx hm => by
      simp only [List.mem_cons, List.not_mem_nil, or_false] at hm
      subst hm
      exact hd2 _ hx (by simp [hm1]))
    have hn2 : (F2 ++ (.lst ll :: F1')).Nodup := by
      refine nodup_of hnF2 hnd1 (fun x hx hm => ?_)
      rcases hw1 x hm with h3 | h3
      · exact hd2 x hx h3
      · exact h3 (h2.valid x hx)
    obtain ⟨h'', prev', l', x', lids'', lid', c', ids', F', hrun2, hx', hb', hl', hts', hnd', hk', hw'⟩ :=
      applyLayersLoop_rep Ls h2' hx1 hb1 hl1 hts1 hn2 (fun L' hL' => hk L' (by simp [hL']))
    refine ⟨h'', prev', l', x', lids'', lid', c', ids', F', ?_, hx', hb', hl', hts', hnd', ?_, ?_⟩
    · simp only [applyLayersLoop, tm_bind, treeGet_run ht, hrun]
      exact hrun2
    · refine hk1.trans hk' (fun x hx => ?_) (fun x hx => .inl (by simp [hx]))
      simp only [List.mem_cons, List.not_mem_nil, or_false] at hx
      subst hx
      simp [hm1]
    · intro x hx
      rcases hw' x hx with h3 | h3
      · rcases List.mem_append.mp h3 with h4 | h4
        · left; simp [h4]
        · rcases hw1 x h4 with h5 | h5
          · left
            rcases List.mem_append.mp h5 with h6 | h6
            · simp [h6]
            · rw [List.mem_append]; exact .inr h6
          · exact .inr h5
      · exact .inr (fun hv => h3 (hk1.grow x hv))

theorem LReps.reverse {h : SemTree} : {Ls : List Layer} → {is : List Nat} → {F : List Loc} → LReps h Ls is F →
    ∃ F', LReps h Ls.reverse is.reverse F' ∧ F'.Perm F
  | [], _, _, hr => by
    obtain ⟨rfl, rfl⟩ := hr
    exact ⟨[], ⟨rfl, rfl⟩, .refl _⟩
  | L :: Ls, is, F, hr => by
    obtain ⟨i, is', F1, F2, rfl, h1, h2, rfl⟩ := hr
    obtain ⟨F', h3, hp⟩ := LReps.reverse h2
    refine ⟨F' ++ (F1 ++ []), ?_, ?_⟩
    · rw [List.reverse_cons, List.reverse_cons]
      exact h3.append ⟨i, [], F1, [], rfl, h1, ⟨rfl, rfl⟩, rfl⟩
    · rw [List.append_nil]
      exact (hp.append_right F1).trans List.perm_append_comm

/-- `apply_layers`. -/
theorem applyLayers_rep {h : SemTree} {e r k : Nat} {t : STree} {Ls : List Layer} {F : List Loc}
    (ho : Own h e t Ls F) (hn : F.Nodup) (ht : h.table[e]? = some r) (hk : ∀ L ∈ Ls, L.1.depth + 1 ≤ k) :
    ∃ h' F', applyLayers k r h = .ok ((), h') ∧ LStep h e (t.apply Ls) [] F h' F' := by
  cases t with
  | leaf ns tok =>
    have ho' := ho
    obtain ⟨rfl, n, r', hi, ht', hob, rfl⟩ := ho
    obtain rfl : e = n := by omega
    obtain rfl := some_eq ht ht'
    exact ⟨h, _, by simp [applyLayers, tm_bind, deref_run hob, tm_pure], ho', hn, (Keeps.refl h).mono (by simp),
      fun x hx => .inl hx⟩
  | node ns c ts =>
    obtain ⟨r', l, ids, lids, F1, F2, ht', hob, hl, h1, h2, rfl⟩ := ho
    obtain rfl := some_eq ht ht'
    obtain ⟨F3, h3, hp⟩ := h2.reverse
    have hn0 := hn
    simp only [List.nodup_cons, List.mem_cons, List.mem_append, not_or] at hn0
    have hnl : (F3 ++ (.lst l :: F1)).Nodup := by
      have : ((.lst l :: F1) ++ F2).Nodup := by
        simp only [List.nodup_cons] at hn
        simpa using hn.2.2
      refine (List.Perm.nodup_iff ?_).mp this
      exact List.perm_append_comm.trans (hp.symm.append_right _)
    obtain ⟨h', prev', l', x', lids', lid', c', ids', F', hrun, hx', hb', hl', hts', hnd', hk', hw'⟩ :=
      applyLayersLoop_rep (k := k) Ls.reverse h3 hob rfl hl h1 hnl (fun L hL => hk L (by simpa using hL))
    have mem3 : ∀ {x}, x ∈ F3 ↔ x ∈ F2 := hp.mem_iff
    have hob' : h'.objs[r]? = some ⟨e, ns, .node l lids (-1) c⟩ := by
      have := hk'.agree (.obj r) (some_lt hob) (fun hm => hn0.2.1.2.2 (mem3.mp hm))
      simp only [Agree] at this
      rw [this]; exact hob
    have htab' : h'.table[e]? = some r := by
      have := hk'.agree (.id e) (some_lt ht) (fun hm => hn0.1.2.2.2 (mem3.mp hm))
      simp only [Agree] at this
      rw [this]; exact ht
    have hrr := some_lt hob'
    have ks := keeps_setObj h' r ⟨e, ns, .node l' [] (-1) c⟩
    have hrF : Loc.obj r ∉ F' := fun hm => by
      rcases hw' (.obj r) (by simp [hm]) with h4 | h4
      · simp only [List.mem_append, List.mem_cons] at h4
        rcases h4 with h4 | h4 | h4
        · exact hn0.2.1.2.2 (mem3.mp h4)
        · simp at h4
        · exact hn0.2.1.2.1 h4
      · exact h4 (some_lt hob)
    have heF : Loc.id e ∉ F' := fun hm => by
      rcases hw' (.id e) (by simp [hm]) with h4 | h4
      · simp only [List.mem_append, List.mem_cons] at h4
        rcases h4 with h4 | h4 | h4
        · exact hn0.1.2.2.2 (mem3.mp h4)
        · simp at h4
        · exact hn0.1.2.2.1 h4
      · exact h4 (some_lt ht)
    refine ⟨{ h' with objs := h'.objs.set r ⟨e, ns, .node l' [] (-1) c⟩ }, .id e :: .obj r :: .lst l' :: (F' ++ []), ?_,
      ⟨⟨r, l', ids', [], F', [], htab', ?_, hl', ks.reps hts' ?_, ⟨rfl, rfl⟩, rfl⟩, ?_, ?_, ?_⟩⟩
    · simp only [applyLayers, tm_bind, deref_run hob, hrun, childrenRef_run hx' hb', deref_run hob', setObj_run]
    · simp [hrr]
    · intro x hx hm
      simp only [List.mem_cons, List.not_mem_nil, or_false] at hm
      subst hm
      exact hrF hx
    · rw [List.append_nil]
      exact List.nodup_cons.mpr ⟨by simpa using heF, List.nodup_cons.mpr ⟨by simpa using hrF, hnd'⟩⟩
    · refine hk'.trans ks (fun x hx => ?_) (fun x hx => ?_)
      · have := mem3.mp hx
        simp [this]
      · simp only [List.mem_cons, List.not_mem_nil, or_false] at hx
        subst hx
        left; simp
    · intro x hx
      rw [List.append_nil] at hx
      simp only [List.mem_cons] at hx
      rcases hx with rfl | rfl | hx
      · left; simp
      · left; simp
      · rcases hw' x (by simpa using hx) with h4 | h4
        · left
          simp only [List.mem_append, List.mem_cons] at h4 ⊢
          rcases h4 with h4 | h4 | h4
          · simp [mem3.mp h4]
          · simp [h4]
          · simp [h4]
        · exact .inr h4

/-! ### Looking for a part of speech -/

/-- The refs of several trees. -/
inductive Refs (h : SemTree) : List STree → List Nat → Prop where
  | nil : Refs h [] []
  | cons {t : STree} {r : Nat} {ts : List STree} {rs : List Nat}
      (h1 : ∃ (n : Nat) (G : List Loc), h.table[n]? = some r ∧ Rep h t (n : Int) G) (h2 : Refs h ts rs) :
      Refs h (t :: ts) (r :: rs)

theorem refs_of {h : SemTree} : {ts : List STree} → {ids : List Int} → {F : List Loc} → Reps h ts ids F →
    ∃ rs, TM.mapM treeGet ids h = .ok (rs, h) ∧ Refs h ts rs
  | [], ids, F, hr => by
    obtain ⟨rfl, rfl⟩ := hr
    exact ⟨[], rfl, .nil⟩
  | t :: ts, ids, F, hr => by
    obtain ⟨i, is, F1, F2, rfl, h1, h2, rfl⟩ := hr
    obtain ⟨n, r, rfl, ht, _⟩ := h1.entry
    obtain ⟨rs, hrun, hall⟩ := refs_of h2
    exact ⟨r :: rs, by simp only [TM.mapM, tm_bind, treeGet_run ht, hrun, tm_pure], .cons ⟨n, F1, ht, h1⟩ hall⟩

mutual
theorem hasPos_run {h : SemTree} {pos : Str} : (t : STree) → {n r k : Nat} → {F : List Loc} → Rep h t (n : Int) F →
    h.table[n]? = some r → t.depth ≤ k → hasPos k pos r h = .ok (t.leaves.any (fun x => decide (x.pos = pos)), h)
  | .leaf ns tok, n, r, k, F, hr, ht, hk => by
    obtain ⟨n', r', hi, ht', ho, _⟩ := hr
    obtain rfl : n = n' := by omega
    obtain rfl := some_eq ht ht'
    obtain ⟨k, rfl⟩ : ∃ k', k = k' + 1 := ⟨k - 1, by simp [STree.depth] at hk; omega⟩
    simp [hasPos, tm_bind, deref_run ho, tm_pure, STree.leaves]
  | .node ns c ts, n, r, k, F, hr, ht, hk => by
    obtain ⟨n', r', l, ids, Fs, hi, ht', ho, hl, hs, _⟩ := hr
    obtain rfl : n = n' := by omega
    obtain rfl := some_eq ht ht'
    simp only [STree.depth] at hk
    obtain ⟨k, rfl⟩ : ∃ k', k = k' + 1 := ⟨k - 1, by omega⟩
    obtain ⟨rs, hrun, hrefs⟩ := refs_of hs
    simp only [hasPos, tm_bind, deref_run ho, readList_run hl, hrun, STree.leaves]
    exact hasPosL_run ts hrefs (by omega)
theorem hasPosL_run {h : SemTree} {pos : Str} : (ts : List STree) → {rs : List Nat} → {k : Nat} → Refs h ts rs →
    depthL ts ≤ k → TM.anyM (hasPos k pos) rs h = .ok ((leavesL ts).any (fun x => decide (x.pos = pos)), h)
  | [], rs, k, hr, hk => by cases hr; rfl
  | t :: ts, rs, k, hr, hk => by
    cases hr with
    | cons h1 h2 =>
      obtain ⟨n, G, ht, hrep⟩ := h1
      simp only [depthL] at hk
      have e1 := hasPos_run t hrep ht (k := k) (pos := pos) (by omega)
      have e2 := hasPosL_run ts h2 (k := k) (pos := pos) (by omega)
      simp only [TM.anyM, tm_bind, e1, leavesL, List.any_append]
      cases hp : t.leaves.any (fun x => decide (x.pos = pos)) with
      | true => simp [tm_pure]
      | false => simpa using e2
end

theorem hasPos_own {h : SemTree} {pos : Str} {t : STree} {Ls : List Layer} {e r k : Nat} {F : List Loc}
    (ho : Own h e t Ls F) (ht : h.table[e]? = some r) (hk : t.depth ≤ k) :
    hasPos k pos r h = .ok (t.leaves.any (fun x => decide (x.pos = pos)), h) := by
  cases t with
  | leaf ns tok => exact hasPos_run _ ho.2 ht hk
  | node ns c ts =>
    obtain ⟨r', l, ids, lids, F1, F2, ht', hob, hl, h1, h2, rfl⟩ := ho
    obtain rfl := some_eq ht ht'
    simp only [STree.depth] at hk
    obtain ⟨k, rfl⟩ : ∃ k', k = k' + 1 := ⟨k - 1, by omega⟩
    obtain ⟨rs, hrun, hrefs⟩ := refs_of h1
    simp only [hasPos, tm_bind, deref_run hob, readList_run hl, hrun, STree.leaves]
    exact hasPosL_run ts hrefs (by omega)

end GB
