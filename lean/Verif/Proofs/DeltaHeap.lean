import Verif.Proofs.World
import Verif.Model.Stages

/-
The calls of the delta stage that change the heap: marking, flattening, cloning.
-/

namespace GB

theorem World.Kids.unique {Ψ : World} {n n' : Nat} : {is : List Int} → {l1 l2 : List (List Word)} → Ψ.Kids n is l1 →
    Ψ.Kids n' is l2 → l1 = l2
  | [], l1, l2, h1, h2 => by
    cases (show l1 = [] from h1)
    cases (show l2 = [] from h2)
    rfl
  | i :: is, l1, l2, h1, h2 => by
    obtain ⟨a, as, rfl, ⟨m, ρ, rfl, ht, _⟩, h1⟩ := h1
    obtain ⟨b, bs, rfl, ⟨m', ρ', hm, ht', _⟩, h2⟩ := h2
    obtain rfl : m = m' := by omega
    rw [ht] at ht'
    cases ht'
    rw [h1.unique h2]

/-- Giving a visible node another list with the same words. -/
theorem Moves.setNode {h0 h : SemTree} {Ψ0 Ψ : World} (s : Moves h0 Ψ0 h Ψ) {m r l ρ : Nat} {ls : List Word} {e : Elem}
    {lids : List Nat} {lid : Int} {c : Bool} {ids : List Int} {lss : List (List Word)} (hm : Ψ0.ty m = some (ls, ρ))
    (ht : h.table[m]? = some r) (ho : h.objs[r]? = some e) (hi : e.id = m) (hnode : e.isLeaf = false)
    (hl : h.lists[l]? = some ids) (hne : Ψ.Wide ids) (hk : Ψ.Kids ρ ids lss) (hls : ls = lss.flatten)
    (hown : Ψ.own l ∨ h0.lists.length ≤ l) :
    Moves h0 Ψ0 { h with objs := h.objs.set r { e with body := .node l lids lid c } }
      ⟨Ψ.ty, fun i => i = l ∨ Ψ.own i, Ψ.two⟩ := by
  have hle : Ψ.Le ⟨Ψ.ty, fun i => i = l ∨ Ψ.own i, Ψ.two⟩ := ⟨fun _ _ h => h, fun _ h => .inr h, Iff.rfl⟩
  have hr := some_lt ho
  exact
  { s with
    wf :=
      { good := by
          intro i ls' ρ' hx
          by_cases him : i = m
          · subst him
            have := s.le.ty _ _ hm
            rw [show Ψ.ty i = some (ls', ρ') from hx] at this
            cases this
            exact ⟨r, { e with body := .node l lids lid c }, ht, by simp [hr], hi, .inr ⟨l, lids, lid, c, ids, lss, rfl, .inl rfl, hl, hne,
              hk.le hle (Nat.le_refl _), hls⟩⟩
          · refine (s.wf.good i ls' ρ' hx).frame hle (fun _ h => h) (fun _ _ _ h => h) ?_
            intro r' e' ht' ho' hi'
            have hrr : r ≠ r' := by
              rintro rfl
              rw [ho] at ho'
              cases ho'
              exact him (hi'.symm.trans hi)
            exact ⟨e', by simp [hrr, ho'], rfl, rfl, fun _ h => h, fun l lids lid c h => ⟨lids, lid, c, h⟩⟩
        own := by
          rintro i (rfl | hi)
          · exact some_lt hl
          · exact s.wf.own i hi }
    le := s.le.trans hle
    tyNew := s.tyNew
    ownNew := by
      rintro i (rfl | hi)
      · rcases hown with h | h
        · exact s.ownNew i h
        · exact .inr h
      · exact s.ownNew i hi
    objLen := by simpa using s.objLen
    kind := by
      intro r' e' ho'
      obtain ⟨e2, h2, k2⟩ := s.kind r' e' ho'
      by_cases hrr : r = r'
      · subst hrr
        rw [ho] at h2
        cases h2
        exact ⟨_, by simp [hr]; rfl, by rw [← k2, hnode]; rfl⟩
      · exact ⟨e2, by simp [hrr, h2], k2⟩
    leaf := by
      intro r' e' ho' hk'
      have h2 := s.leaf r' e' ho' hk'
      by_cases hrr : r = r'
      · subst hrr
        rw [ho] at h2
        cases h2
        rw [hnode] at hk'
        cases hk'
      · simp [hrr, h2]
    frozen := by
      intro w r' e' ht' ho' hi' hn'
      have h2 := s.frozen w r' e' ht' ho' hi' hn'
      by_cases hrr : r = r'
      · subst hrr
        rw [ho] at h2
        cases h2
        rw [← hi', hi, hm] at hn'
        cases hn'
      · simp [hrr, h2] }

/-- References to the children of a node. -/
def KidRefs (h : SemTree) (Ψ : World) (n : Nat) : List Nat → List (List Word) → Prop
  | [], lss => lss = []
  | r :: rs, lss => ∃ ls lss' m ρ, lss = ls :: lss' ∧ h.table[m]? = some r ∧ Ψ.ty m = some (ls, ρ) ∧ ρ < n ∧
      KidRefs h Ψ n rs lss'

theorem KidRefs.mem {h : SemTree} {Ψ : World} {n : Nat} : {rs : List Nat} → {lss : List (List Word)} → KidRefs h Ψ n rs lss →
    ∀ r ∈ rs, ∃ ls m ρ, h.table[m]? = some r ∧ Ψ.ty m = some (ls, ρ) ∧ ρ < n
  | [], _, _, r, hr => by cases hr
  | q :: rs, lss, hk, r, hr => by
    obtain ⟨ls, lss', m, ρ, rfl, ha, hb, hc, hd⟩ := hk
    rcases List.mem_cons.mp hr with rfl | hr
    · exact ⟨ls, m, ρ, ha, hb, hc⟩
    · exact hd.mem r hr

theorem kidRefs_run {h : SemTree} {Ψ : World} (hw : WF h Ψ) {n : Nat} : {is : List Int} → {lss : List (List Word)} →
    Ψ.Kids n is lss → ∃ rs, TM.mapM treeGet is h = .ok (rs, h) ∧ KidRefs h Ψ n rs lss
  | [], lss, hk => ⟨[], rfl, hk⟩
  | i :: is, lss, hk => by
    obtain ⟨ls, lss', rfl, ⟨m, ρ, rfl, ht, hr⟩, hb⟩ := hk
    obtain ⟨rs, h1, h2⟩ := kidRefs_run hw hb
    obtain ⟨r, e, htab, _⟩ := hw.good m ls ρ ht
    refine ⟨r :: rs, ?_, ls, lss', m, ρ, rfl, htab, ht, hr, h2⟩
    simp only [TM.mapM, tm_bind, treeGet_run htab, h1, tm_pure]

/-- The mark of a visible node and of all nodes below it. -/
theorem setCompound_moves (b : Bool) : (n : Nat) → {h : SemTree} → {Ψ : World} → {m r ρ : Nat} → {ls : List Word} →
    {e : Elem} → WF h Ψ → Ψ.ty m = some (ls, ρ) → ρ < n → h.table[m]? = some r → h.objs[r]? = some e → e.isLeaf = false →
    Settles (fun k => setCompound k b r) h (fun _ h' => ∃ Ψ', Moves h Ψ h' Ψ')
  | 0, _, _, _, _, _, _, _, _, _, hlt, _, _, _ => by omega
  | n + 1, h, Ψ, m, r, ρ, ls, e, hw, hm, hlt, ht, ho, hleaf => by
    obtain ⟨r', e', ht', ho', hi, hbody⟩ := hw.good m ls ρ hm
    obtain rfl := some_eq ht ht'
    obtain rfl := some_eq ho ho'
    rcases hbody with ⟨tok, hb, _⟩ | ⟨l, lids, lid, c, ids, lss, hb, hown, hl, hne, hk, hls⟩
    · rw [Elem.isLeaf, hb] at hleaf
      cases hleaf
    · refine Settles.succ (fun k => by rw [setCompound]) ?_
      refine Settles.step (fun _ => deref_run ho) ?_
      simp only [hb]
      refine Settles.step (fun _ => setObj_run _ _ _) ?_
      have s1 := (Moves.refl hw).setNode (lids := lids) (lid := lid) (c := b) hm ht ho hi hleaf hl hne hk hls (.inl hown)
      have hk1 := hk.le s1.le (Nat.le_refl _)
      obtain ⟨rs, hc1, hrefs⟩ := kidRefs_run s1.wf hk1
      refine Settles.step (a := rs) (h1 := { h with objs := h.objs.set r { e with body := .node l lids lid b } })
        (fun _ => ?_) ?_
      · refine (tm_bind_ok (childrenIds_run (h := { h with objs := h.objs.set r { e with body := .node l lids lid b } })
          (x := { e with body := .node l lids lid b }) ?_ rfl hl)).trans hc1
        simp [some_lt ho]
      · refine Settles.forEach (I := fun h' => ∃ Ψ', Moves h Ψ h' Ψ') rs _ ⟨_, s1⟩ ?_
        rintro q h2 hq ⟨Ψ2, s2⟩
        obtain ⟨lq, mq, ρq, htq, hmq, hρq⟩ := hrefs.mem q hq
        have htq2 := s2.table mq q (by simpa using htq)
        have hmq2 : Ψ2.ty mq = some (lq, ρq) := s2.le.ty mq _ hmq
        obtain ⟨q', eq, htq', hoq, hiq, _⟩ := s2.wf.good mq lq ρq hmq2
        obtain rfl := some_eq htq2 htq'
        refine Settles.step (fun _ => deref_run hoq) ?_
        cases hleafq : eq.isLeaf with
        | true =>
          simp only [Elem.isNode, hleafq, Bool.not_true, Bool.false_eq_true, if_false]
          exact Settles.pure ⟨Ψ2, s2⟩
        | false =>
          simp only [Elem.isNode, hleafq, Bool.not_false, if_true]
          refine (setCompound_moves b n s2.wf hmq2 (by omega) htq2 hoq hleafq).mono ?_
          rintro _ h3 ⟨Ψ3, s3⟩
          exact ⟨Ψ3, s2.trans s3⟩

theorem newList_run (h : SemTree) (xs : List Int) :
    newList xs h = .ok (h.lists.length, { h with lists := h.lists ++ [xs] }) := rfl

theorem ext_newList (h : SemTree) (xs : List Int) : Ext h { h with lists := h.lists ++ [xs] } :=
  ⟨rfl, fun _ _ e => e, fun _ _ e => e, fun _ _ e => get_append e⟩

/-- Flattening a visible element. -/
theorem flatten_moves : (n : Nat) → {h : SemTree} → {Ψ : World} → {m r ρ : Nat} → {ls : List Word} →
    WF h Ψ → Ψ.ty m = some (ls, ρ) → ρ < n → h.table[m]? = some r →
    Settles (fun k => flatten k r) h (fun _ h' => ∃ Ψ', Moves h Ψ h' Ψ')
  | 0, _, _, _, _, _, _, _, _, hlt, _ => by omega
  | n + 1, h, Ψ, m, r, ρ, ls, hw, hm, hlt, ht => by
    obtain ⟨r', e, ht', ho, hi, hbody⟩ := hw.good m ls ρ hm
    obtain rfl := some_eq ht ht'
    refine Settles.succ (fun k => by rw [flatten]) ?_
    refine Settles.step (fun _ => deref_run ho) ?_
    rcases hbody with ⟨tok, hb, _⟩ | ⟨l, lids, lid, c, ids, lss, hb, hown, hl, hne, hk, hls⟩
    · simp only [hb]
      exact Settles.pure ⟨Ψ, .refl hw⟩
    · simp only [hb]
      refine Settles.step (fun _ => readList_run hl) ?_
      refine Settles.bind (Settles.mapM
        (I := fun done parts h' => ∃ Ψ' lssD lssP, Moves h Ψ h' Ψ' ∧ Ψ.Kids ρ done lssD ∧
          Ψ'.Kids ρ parts.flatten lssP ∧ lssP.flatten = lssD.flatten ∧ done.length ≤ parts.flatten.length)
        ids [] [] h ⟨Ψ, [], [], .refl hw, rfl, rfl, rfl, Nat.le_refl _⟩ ?_) ?_
      · rintro done x parts h1 hx ⟨Ψ1, lssD, lssP, s1, hD, hP, heq, hnp⟩
        obtain ⟨lx, hcx⟩ := hk.mem x hx
        have hcx0 := hcx
        obtain ⟨mx, ρx, rfl, hmx, hρx⟩ := hcx
        have hmx1 := s1.le.ty mx _ hmx
        obtain ⟨rx, ex, htx, _⟩ := s1.wf.good mx lx ρx hmx1
        refine Settles.step (fun _ => treeGet_run htx) ?_
        refine Settles.bind (flatten_moves n s1.wf hmx1 (by omega) htx) ?_
        rintro _ h2 ⟨Ψ2, s2⟩
        have hmx2 := s2.le.ty mx _ hmx1
        obtain ⟨rx', ex, htx', hox, hix, hbx⟩ := s2.wf.good mx lx ρx hmx2
        obtain rfl := some_eq (s2.table _ _ htx) htx'
        refine Settles.step (fun _ => deref_run hox) ?_
        have hP2 := hP.le s2.le (Nat.le_refl ρ)
        refine Settles.ite ?_ ?_
        · intro hterm
          refine Settles.pure ⟨Ψ2, lssD ++ [lx], lssP ++ [lx], s1.trans s2, hD.append (.one hcx0), ?_, by simp [heq], by simpa using hnp⟩
          have : Ψ2.Kids ρ [(ex.id : Int)] [lx] := .one ⟨mx, ρx, by rw [hix], hmx2, hρx⟩
          simpa using hP2.append this
        · intro hterm
          rcases hbx with ⟨tok, hb', _⟩ | ⟨l', lids', lid', c', ids', lss', hb', hown', hl', hne', hk', hls'⟩
          · simp [Elem.isTerminal, hb'] at hterm
          · refine Settles.of_eq (fun _ => childrenIds_run hox hb' hl') ?_
            refine ⟨Ψ2, lssD ++ [lx], lssP ++ lss', s1.trans s2, hD.append (.one hcx0), ?_, by simp [heq, hls'], by
              have := List.length_pos_iff.mpr hne'.1
              simp only [List.flatten_append, List.flatten_cons, List.flatten_nil, List.append_nil, List.length_append, List.length_cons, List.length_nil]
              omega⟩
            have := hk'.le (.refl Ψ2) (Nat.le_of_lt hρx)
            simpa using hP2.append this
      · rintro parts h1 ⟨Ψ1, lssD, lssP, s1, hD, hP, heq, hnp⟩
        simp only [List.nil_append] at hD hP hnp
        obtain rfl := hk.unique hD
        refine Settles.step (fun _ => newList_run _ _) ?_
        obtain ⟨e1, ho1, hk1⟩ := s1.kind r e ho
        have hm1 := s1.le.ty m _ hm
        obtain ⟨r1, e1', ht1, ho1', hi1, _⟩ := s1.wf.good m ls ρ hm1
        obtain rfl := some_eq (s1.table m r ht) ht1
        obtain rfl := some_eq ho1 ho1'
        refine Settles.step (a := e1) (fun _ => deref_run ho1) ?_
        have hleaf1 : e1.isLeaf = false := by rw [hk1, Elem.isLeaf, hb]
        have s2 := s1.trans ((ext_newList h1 parts.flatten).step' s1.wf)
        cases hb1 : e1.body with
        | leaf tok => simp [Elem.isLeaf, hb1] at hleaf1
        | node l1 lids1 lid1 c1 =>
          refine Settles.of_eq (fun _ => setObj_run _ _ _) ?_
          refine ⟨_, s2.setNode (l := h1.lists.length) (ids := parts.flatten) hm ht1 ho1 hi1 hleaf1 (by simp)
            (((World.Wide.of_le hne hnp).le s1.le)) hP (hls.trans heq.symm) (.inr s1.listsLen)⟩

theorem setMark_run {h : SemTree} (ids : List Int) (c : Bool) :
    setObj h.objs.length ⟨h.table.length, none, .node h.lists.length [] (-1) c⟩ (h.addNodeC ids false)
      = .ok ((), h.addNodeC ids c) := by
  simp [setObj, SemTree.addNodeC]

mutual
/-- Cloning a visible element: the clone is visible, with the same words and rank. -/
theorem clone_typed : (n : Nat) → {h : SemTree} → {Ψ : World} → {m r ρ : Nat} → {ls : List Word} →
    WF h Ψ → Ψ.ty m = some (ls, ρ) → ρ < n → h.table[m]? = some r →
    Settles (fun k => clone k r) h (fun q h' => ∃ Ψ' w e, Ext h h' ∧ Moves h Ψ h' Ψ' ∧ h'.table[w]? = some q ∧
      h'.objs[q]? = some e ∧ e.id = w ∧ Ψ'.ty w = some (ls, ρ) ∧
      ∀ e0, h.objs[r]? = some e0 → e.isTerminal = e0.isTerminal)
  | 0, _, _, _, _, _, _, _, _, hlt, _ => by omega
  | n + 1, h, Ψ, m, r, ρ, ls, hw, hm, hlt, ht => by
    obtain ⟨r', e, ht', ho, hi, hbody⟩ := hw.good m ls ρ hm
    obtain rfl := some_eq ht ht'
    rcases hbody with ⟨tok, hb, _⟩ | ⟨l, lids, lid, c, ids, lss, hb, hown, hl, hne, hk, hls⟩
    · refine Settles.succ (fun k => by rw [clone]) ?_
      refine Settles.step (fun _ => deref_run ho) ?_
      simp only [hb]
      exact Settles.pure ⟨Ψ, m, e, .refl h, .refl hw, ht, ho, hi, hm, fun e0 h0 => by rw [some_eq ho h0]⟩
    · refine (clone_node n hw (by omega) ho hb hl hk).mono ?_
      rintro q h' ⟨h1, Ψ1, ids', x1, s1, hk1, hlen, rfl, rfl⟩
      have s2 := s1.trans ((ext_addNodeC h1 ids' c).step' s1.wf)
      refine ⟨_, h1.table.length, _, x1.trans (ext_addNodeC h1 ids' c), s2.show (s1.wf.fresh (Nat.le_refl _))
        s1.tableLen s1.listsLen (addNodeC_table h1 ids' c) (addNodeC_obj h1 ids' c) rfl rfl (addNodeC_list h1 ids' c) ?_ hk1,
        addNodeC_table h1 ids' c, addNodeC_obj h1 ids' c, rfl, ?_, ?_⟩
      · exact (hne.of_le (Nat.le_of_eq hlen.symm)).le s1.le
      · simp [World.show, hls]
      · intro e0 h0
        obtain rfl := some_eq ho h0
        simp [Elem.isTerminal, hb]
  termination_by n => 2 * n
/-- Cloning a node whose children are visible: the clone is not visible, its children are. -/
theorem clone_node : (n : Nat) → {h : SemTree} → {Ψ : World} → {r l ρ : Nat} → {e : Elem} → {lids : List Nat} → {lid : Int} →
    {c : Bool} → {ids : List Int} → {lss : List (List Word)} → WF h Ψ → ρ ≤ n → h.objs[r]? = some e →
    e.body = .node l lids lid c → h.lists[l]? = some ids → Ψ.Kids ρ ids lss →
    Settles (fun k => clone k r) h (fun q h' => ∃ h1 Ψ1 ids', Ext h h1 ∧ Moves h Ψ h1 Ψ1 ∧ Ψ1.Kids ρ ids' lss ∧
      ids'.length = ids.length ∧ q = h1.objs.length ∧ h' = h1.addNodeC ids' c)
  | n, h, Ψ, r, l, ρ, e, lids, lid, c, ids, lss, hw, hlt, ho, hb, hl, hk => by
    refine Settles.succ (fun k => by rw [clone]) ?_
    refine Settles.step (fun _ => deref_run ho) ?_
    simp only [hb]
    refine Settles.step (fun _ => readList_run hl) ?_
    refine Settles.bind (Settles.mapM
      (I := fun done ids' h' => ∃ Ψ' lssD, Ext h h' ∧ Moves h Ψ h' Ψ' ∧ Ψ.Kids ρ done lssD ∧ Ψ'.Kids ρ ids' lssD ∧
        ids'.length = done.length)
      ids [] [] h ⟨Ψ, [], .refl h, .refl hw, rfl, rfl, rfl⟩ ?_) ?_
    · rintro done x ids1 h1 hx ⟨Ψ1, lssD, x1, s1, hD, hP, hlen⟩
      obtain ⟨lx, hcx⟩ := hk.mem x hx
      have hcx0 := hcx
      obtain ⟨mx, ρx, rfl, hmx, hρx⟩ := hcx
      have hmx1 := s1.le.ty mx _ hmx
      obtain ⟨rx, ex, htx, _⟩ := s1.wf.good mx lx ρx hmx1
      refine Settles.step (fun _ => treeGet_run htx) ?_
      refine Settles.bind (clone_typed n s1.wf hmx1 (by omega) htx) ?_
      rintro q h2 ⟨Ψ2, w, e2, x2, s2, ht2, ho2, hi2, hm2, _⟩
      refine Settles.step (fun _ => elemId_run ho2) ?_
      refine Settles.pure ⟨Ψ2, lssD ++ [lx], x1.trans x2, s1.trans s2, hD.append (.one hcx0), ?_, by simp [hlen]⟩
      exact (hP.le s2.le (Nat.le_refl _)).append (.one ⟨w, ρx, by rw [hi2], hm2, hρx⟩)
    · rintro ids' h1 ⟨Ψ1, lssD, x1, s1, hD, hP, hlen⟩
      simp only [List.nil_append] at hD hP hlen
      obtain rfl := hk.unique hD
      refine Settles.step (fun _ => createNode_run _ _) ?_
      rw [addNode_eq]
      refine Settles.step (a := e) (fun _ => deref_run ((ext_addNodeC h1 ids' false).objs r e (x1.objs r e ho))) ?_
      simp only [hb]
      refine Settles.step (fun _ => deref_run (addNodeC_obj h1 ids' false)) ?_
      refine Settles.step (fun _ => setMark_run ids' c) ?_
      exact Settles.pure ⟨h1, Ψ1, ids', x1, s1, hP, hlen, rfl, rfl⟩
  termination_by n => 2 * n + 1
end

end GB
