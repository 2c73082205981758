import Verif.Proofs.DeltaRead
import Verif.Spec.Delta

/-
The search for candidates of the delta stage.
-/

namespace GB

theorem Reorders.refl (xs : List Word) : Reorders xs xs := ⟨.refl xs, rfl⟩

theorem Reorders.trans {xs ys zs : List Word} (a : Reorders xs ys) (b : Reorders ys zs) : Reorders xs zs :=
  ⟨a.1.trans b.1, a.2.trans b.2⟩

theorem Reorders.append {xs ys xs' ys' : List Word} (a : Reorders xs ys) (b : Reorders xs' ys') :
    Reorders (xs ++ xs') (ys ++ ys') :=
  ⟨a.1.append b.1, by rw [List.filter_append, List.filter_append, a.2, b.2]⟩

theorem filter_rel {xs : List Word} (h : xs.all wordRelates = true) : xs.filter (fun w => !w.2.relates) = [] := by
  rw [List.filter_eq_nil_iff]
  intro w hw
  have := List.all_eq_true.mp h w hw
  simpa [wordRelates] using this

/-- Words that relate may move anywhere. -/
theorem Reorders.swap {xs ys : List Word} (h : ys.all wordRelates = true) : Reorders (xs ++ ys) (ys ++ xs) :=
  ⟨List.perm_append_comm, by simp [filter_rel h]⟩

/-- The first element of the node has only words that relate. -/
def RelFirst (h : SemTree) (Ψ : World) (r : Nat) : Prop :=
  ∃ i is l ls, Hid h Ψ r (i :: is) (l :: ls) ∧ l.all wordRelates = true

theorem RelFirst.moves {h h' : SemTree} {Ψ Ψ' : World} {r : Nat} (hr : RelFirst h Ψ r) (s : Moves h Ψ h' Ψ') :
    RelFirst h' Ψ' r := by
  obtain ⟨i, is, l, ls, hh, ha⟩ := hr
  exact ⟨i, is, l, ls, hh.moves s, ha⟩

/-- A candidate with the words of `target`; if `p`, its first element has only words that relate. -/
def Fits (h : SemTree) (Ψ : World) (p : Prop) (target : List Word) (c : Nat) : Prop :=
  ∃ ls, Cand h Ψ c ls ∧ Reorders target ls ∧ (p → RelFirst h Ψ c)

theorem Fits.moves {h h' : SemTree} {Ψ Ψ' : World} {p : Prop} {target : List Word} {c : Nat} (hf : Fits h Ψ p target c)
    (s : Moves h Ψ h' Ψ') : Fits h' Ψ' p target c := by
  obtain ⟨ls, h1, h2, h3⟩ := hf
  exact ⟨ls, h1.moves s, h2, fun hp => (h3 hp).moves s⟩

theorem Fits.of {h : SemTree} {Ψ : World} {p q : Prop} {t1 t2 : List Word} {c : Nat} (hf : Fits h Ψ p t1 c)
    (hr : Reorders t2 t1) (hq : q → p) : Fits h Ψ q t2 c := by
  obtain ⟨ls, h1, h2, h3⟩ := hf
  exact ⟨ls, h1, hr.trans h2, fun x => h3 (hq x)⟩

/-- What the search guarantees: the heap moves to another one, and all that is found fits. -/
def Found (h : SemTree) (Ψ : World) (p : Prop) (target : List Word) (cs : List Nat) (h' : SemTree) : Prop :=
  ∃ Ψ', Moves h Ψ h' Ψ' ∧ ∀ c ∈ cs, Fits h' Ψ' p target c

theorem Found.nil {h h' : SemTree} {Ψ Ψ' : World} {p : Prop} {target : List Word} (s : Moves h Ψ h' Ψ') :
    Found h Ψ p target [] h' :=
  ⟨Ψ', s, fun _ hc => by cases hc⟩

/-- What the blocks need from `build`: given a relation with the right words, it finds candidates. -/
def Builds (h : SemTree) (Ψ : World) (build : Nat → Int → TM (List Nat)) (words : List Word) (p : Prop) (target : List Word) :
    Prop :=
  ∀ h1 Ψ1 i lr n, Moves h Ψ h1 Ψ1 → Ψ1.Child n i lr → Reorders words lr →
    Settles (fun k => build k i) h1 (fun cs h2 => Found h1 Ψ1 p target cs h2)

theorem Builds.moves {h h1 : SemTree} {Ψ Ψ1 : World} {build : Nat → Int → TM (List Nat)} {words target : List Word} {p : Prop}
    (hb : Builds h Ψ build words p target) (s : Moves h Ψ h1 Ψ1) : Builds h1 Ψ1 build words p target :=
  fun h2 Ψ2 i lr n s2 => hb h2 Ψ2 i lr n (s.trans s2)

theorem Builds.run {h h1 : SemTree} {Ψ Ψ1 : World} {build : Nat → Int → TM (List Nat)} {words target lr : List Word}
    {i : Int} {n : Nat} {p : Prop} (hb : Builds h Ψ build words p target) (s : Moves h Ψ h1 Ψ1) (hc : Ψ1.Child n i lr)
    (hr : Reorders words lr) : Settles (fun k => build k i) h1 (fun cs h2 => Found h Ψ p target cs h2) := by
  refine (hb h1 Ψ1 i lr n s hc hr).mono ?_
  rintro cs h2 ⟨Ψ2, s2, hcs⟩
  exact ⟨Ψ2, s.trans s2, hcs⟩

/-- A new node that becomes visible at once. -/
theorem Moves.addShown {h0 h : SemTree} {Ψ0 Ψ : World} (s : Moves h0 Ψ0 h Ψ) {ids : List Int} {lss : List (List Word)} {n : Nat}
    (c : Bool) (hne : Ψ.Wide ids) (hk : Ψ.Kids n ids lss) :
    Moves h0 Ψ0 (h.addNodeC ids c) (Ψ.show h.table.length h.lists.length lss.flatten n) :=
  (s.trans ((ext_addNodeC h ids c).step' s.wf)).show (s.wf.fresh (Nat.le_refl _)) s.tableLen s.listsLen
    (addNodeC_table h ids c) (addNodeC_obj h ids c) rfl rfl (addNodeC_list h ids c) hne hk

/-- Reading a hidden node. -/
theorem Hid.head {h : SemTree} {Ψ : World} {r : Nat} {i : Int} {ids : List Int} {lss : List (List Word)}
    (hh : Hid h Ψ r (i :: ids) lss) : childId r 0 h = .ok (i, h) := by
  obtain ⟨w, e, l, lids, lid, c, n, ht, ho, hi, hb, hl, hne, hw, hk⟩ := hh
  exact childId_run ho hb hl (i := 0) rfl

theorem Hid.ids {h : SemTree} {Ψ : World} {r : Nat} {ids : List Int} {lss : List (List Word)}
    (hh : Hid h Ψ r ids lss) : childrenIds r h = .ok (ids, h) := by
  obtain ⟨w, e, l, lids, lid, c, n, ht, ho, hi, hb, hl, hne, hw, hk⟩ := hh
  exact childrenIds_run ho hb hl

theorem Hid.kids {h : SemTree} {Ψ : World} {r : Nat} {ids : List Int} {lss : List (List Word)}
    (hh : Hid h Ψ r ids lss) : ∃ n, Ψ.Kids n ids lss := by
  obtain ⟨w, e, l, lids, lid, c, n, ht, ho, hi, hb, hl, hne, hw, hk⟩ := hh
  exact ⟨n, hk⟩

theorem Hid.first {h : SemTree} {Ψ : World} {r : Nat} {i : Int} {ids : List Int} {ls : List Word} {lss : List (List Word)}
    (hh : Hid h Ψ r (i :: ids) (ls :: lss)) : ∃ n, Ψ.Child n i ls := by
  obtain ⟨n, ls', lss', heq, hc, _⟩ := hh.kids
  cases heq
  exact ⟨n, hc⟩

theorem Hid.rest {h : SemTree} {Ψ : World} {r : Nat} {i : Int} {ids : List Int} {ls : List Word} {lss : List (List Word)}
    (hh : Hid h Ψ r (i :: ids) (ls :: lss)) : ∃ n, Ψ.Kids n ids lss := by
  obtain ⟨n, ls', lss', heq, hc, hk⟩ := hh.kids
  cases heq
  exact ⟨n, hk⟩

theorem Hid.notLeaf {h : SemTree} {Ψ : World} {r : Nat} {ids : List Int} {lss : List (List Word)}
    (hh : Hid h Ψ r ids lss) : ∃ e, h.objs[r]? = some e ∧ e.isLeaf = false := by
  obtain ⟨w, e, l, lids, lid, c, n, ht, ho, hi, hb, hl, hne, hw, hk⟩ := hh
  exact ⟨e, ho, by simp [Elem.isLeaf, hb]⟩

/-- Cloning a hidden node. -/
theorem Hid.clone {h : SemTree} {Ψ : World} (hw : WF h Ψ) {r : Nat} {ids : List Int} {lss : List (List Word)}
    (hh : Hid h Ψ r ids lss) : Settles (fun k => clone k r) h (fun q h' => ∃ h1 Ψ1 ids' c n, Moves h Ψ h1 Ψ1 ∧
      Ψ1.Kids n ids' lss ∧ ids' ≠ [] ∧ q = h1.objs.length ∧ h' = h1.addNodeC ids' c) := by
  obtain ⟨w, e, l, lids, lid, c, n, ht, ho, hi, hb, hl, hne, hwn, hk⟩ := hh
  refine (clone_node n hw (Nat.le_refl _) ho hb hl hk).mono ?_
  rintro q h' ⟨h1, Ψ1, ids', x1, s1, hk1, hlen, hq, hh'⟩
  refine ⟨h1, Ψ1, ids', c, n, s1, hk1, ?_, hq, hh'⟩
  intro h0
  rw [h0] at hlen
  exact hne (List.length_eq_zero_iff.mp (hlen.symm.trans rfl))

/-- The new node of a clone is hidden. -/
theorem hid_addNodeC {h : SemTree} {Ψ : World} (hw : WF h Ψ) {ids : List Int} {lss : List (List Word)} {n : Nat} (c : Bool)
    (hne : ids ≠ []) (hk : Ψ.Kids n ids lss) : Hid (h.addNodeC ids c) Ψ h.objs.length ids lss :=
  ⟨h.table.length, _, h.lists.length, [], -1, c, n, addNodeC_table h ids c, addNodeC_obj h ids c, rfl, rfl,
    addNodeC_list h ids c, hne, hw.fresh (Nat.le_refl _), hk⟩

theorem childrenIds_addNodeC (h : SemTree) (ids : List Int) (c : Bool) :
    childrenIds h.objs.length (h.addNodeC ids c) = .ok (ids, h.addNodeC ids c) :=
  childrenIds_run (addNodeC_obj h ids c) rfl (addNodeC_list h ids c)

theorem extend_addNodeC (h : SemTree) (ids xs : List Int) (c : Bool) :
    extendChildren h.objs.length xs (h.addNodeC ids c) = .ok ((), h.addNodeC (ids ++ xs) c) := by
  simp only [extendChildren, tm_bind, childrenRef_run (addNodeC_obj h ids c) rfl, readList_run (addNodeC_list h ids c),
    writeList_addNodeC]

theorem setFirst_addNodeC (h : SemTree) (i j : Int) (ids : List Int) (c : Bool) :
    setFirst h.objs.length j (h.addNodeC (i :: ids) c) = .ok ((), h.addNodeC (j :: ids) c) := by
  simp only [setFirst, setChild, tm_bind, childrenRef_run (addNodeC_obj h _ c) rfl, readList_run (addNodeC_list h _ c),
    writeList_addNodeC, List.set_cons_zero]

theorem addChild_addNodeC (h : SemTree) (i : Int) (ids : List Int) (c : Bool) :
    addChild h.objs.length i (h.addNodeC ids c) = .ok ((), h.addNodeC (ids ++ [i]) c) := by
  have h0 : (do if (← deref h.objs.length).isLeaf then enclose h.objs.length else TM.pure h.objs.length : TM Nat)
      (h.addNodeC ids c) = .ok (h.objs.length, h.addNodeC ids c) :=
    tm_bind_ok (deref_run (addNodeC_obj h ids c))
  refine (tm_bind_ok h0).trans ?_
  refine (tm_bind_ok (childrenRef_run (addNodeC_obj h ids c) rfl)).trans ?_
  refine (tm_bind_ok (readList_run (addNodeC_list h ids c))).trans ?_
  exact writeList_addNodeC h ids (ids ++ [i]) c

/-! ### The four ways of merging -/

variable {h : SemTree} {Ψ : World} {build : Nat → Int → TM (List Nat)} {p : Prop} {target lw0 lc0 : List Word}
  {working child : Nat} {i0 j0 : Int} {is js : List Int} {lws lcs : List (List Word)}

theorem insertBefore_settles (hw : WF h Ψ) (hwk : Hid h Ψ working (i0 :: is) (lw0 :: lws))
    (hch : Hid h Ψ child (j0 :: js) (lc0 :: lcs)) (hrel : lc0.all wordRelates = true)
    (hb : Builds h Ψ build (lw0 ++ lc0) p target) :
    Settles (fun k => insertBefore (build k) working child) h (fun cs h' => Found h Ψ p target cs h') := by
  refine Settles.step (fun _ => hwk.ids) ?_
  refine Settles.ite (fun _ => ?_) (fun _ => Settles.pure (.nil (.refl hw)))
  refine Settles.step (fun _ => hch.head) ?_
  refine Settles.step (fun _ => hwk.head) ?_
  refine Settles.step (fun _ => createNode_run _ _) ?_
  obtain ⟨n1, hc1⟩ := hwk.first
  obtain ⟨n2, hc2⟩ := hch.first
  have hk : Ψ.Kids (max n1 n2) [j0, i0] [lc0, lw0] :=
    ⟨_, _, rfl, hc2.le (.refl Ψ) (by omega), .one (hc1.le (.refl Ψ) (by omega))⟩
  have s := (Moves.refl hw).addShown false (Ψ.wide_two _ _) hk
  refine Settles.step (fun _ => elemId_run (addNodeC_obj h [j0, i0] false)) ?_
  refine hb.run s World.child_show ?_
  simpa using Reorders.swap hrel

theorem makeCompound_settles (hw : WF h Ψ) (hwk : Hid h Ψ working (i0 :: is) (lw0 :: lws))
    (hch : Hid h Ψ child (j0 :: js) (lc0 :: lcs)) (hb : Builds h Ψ build (lw0 ++ lc0) p target) {relLeft relRight : Nat}
    (hL : treeGet i0 h = .ok (relLeft, h)) (hR : treeGet j0 h = .ok (relRight, h)) :
    Settles (fun k => makeCompound k (build k) relLeft relRight child) h (fun cs h' => Found h Ψ p target cs h') := by
  obtain ⟨nL, mL, ρL, rfl, hmL, hρL⟩ := hwk.first
  obtain ⟨nR, mR, ρR, rfl, hmR, hρR⟩ := hch.first
  obtain ⟨rL, eL, htL, hoL, hiL, _⟩ := hw.good mL lw0 ρL hmL
  obtain ⟨rR, eR, htR, hoR, hiR, _⟩ := hw.good mR lc0 ρR hmR
  rw [treeGet_run htL] at hL
  rw [treeGet_run htR] at hR
  cases hL
  cases hR
  refine Settles.step (fun _ => deref_run hoL) ?_
  refine Settles.step (fun _ => deref_run hoR) ?_
  refine Settles.ite (fun hterm => ?_) (fun _ => Settles.pure (.nil (.refl hw)))
  have htermL : eL.isTerminal = true := by
    simp only [Bool.and_eq_true] at hterm
    exact hterm.1
  refine Settles.bind (clone_typed (ρL + 1) hw hmL (by omega) htL) ?_
  rintro q h1 ⟨Ψ1, w, e, x1, s1, ht1, ho1, hi1, hm1, hflag⟩
  have hq : e.isTerminal = true := (hflag eL hoL).trans htermL
  refine Settles.step (a := h1.objs.length) (h1 := h1.addNodeC [(w : Int)] false) (fun _ => ?_) ?_
  · rw [tm_bind_ok (deref_run ho1)]
    simp only [hq, if_true]
    rw [tm_bind_ok (elemId_run ho1), hi1]
    exact createNode_run _ _
  · have s2 := s1.trans ((ext_addNodeC h1 [(w : Int)] false).step' s1.wf)
    refine Settles.step (fun _ => (hch.moves s2).head) ?_
    refine Settles.step (fun _ => addChild_addNodeC _ _ _ _) ?_
    obtain ⟨n2, hc2⟩ := (hch.moves s1).first
    have hk : Ψ1.Kids (max (ρL + 1) n2) ([(w : Int)] ++ [(mR : Int)]) [lw0, lc0] :=
      ⟨_, _, rfl, ⟨w, ρL, rfl, hm1, by omega⟩, .one (hc2.le (.refl Ψ1) (by omega))⟩
    have s3 := s1.addShown false (Ψ1.wide_two _ _) hk
    have hty := (World.child_show (Ψ := Ψ1) (m := h1.table.length) (l := h1.lists.length)
      (ls := [lw0, lc0].flatten) (n := max (ρL + 1) n2))
    have hty0 : (Ψ1.show h1.table.length h1.lists.length [lw0, lc0].flatten (max (ρL + 1) n2)).ty h1.table.length
        = some ([lw0, lc0].flatten, max (ρL + 1) n2) := by simp [World.show]
    refine Settles.bind (setCompound_moves true (max (ρL + 1) n2 + 1) s3.wf hty0 (by omega)
      (addNodeC_table h1 ([(w : Int)] ++ [(mR : Int)]) false) (addNodeC_obj h1 ([(w : Int)] ++ [(mR : Int)]) false) rfl) ?_
    rintro _ h4 ⟨Ψ4, s4⟩
    have hm4 := s4.le.ty _ _ hty0
    obtain ⟨r4, e4, ht4, ho4, hi4, _⟩ := s4.wf.good _ _ _ hm4
    obtain rfl := some_eq (s4.table _ _ (addNodeC_table h1 ([(w : Int)] ++ [(mR : Int)]) false)) ht4
    refine Settles.step (fun _ => elemId_run ho4) ?_
    rw [hi4]
    refine hb.run (s3.trans s4) (hty.le s4.le (Nat.le_refl _)) ?_
    simpa using Reorders.refl _

theorem splitLeft_run (hw : WF h Ψ) {m ρ r : Nat} {ls : List Word} (hm : Ψ.ty m = some (ls, ρ)) (ht : h.table[m]? = some r) :
    ∃ la lb lA lB n, splitLeft r h = .ok ((la, lb), h) ∧ Ψ.Kids n la lA ∧ Ψ.Child n lb lB ∧ lA.flatten ++ lB = ls ∧
      ∀ e, h.objs[r]? = some e → e.isTerminal = false → Ψ.two → 1 ≤ la.length := by
  obtain ⟨r', e, ht', ho, hi, hbody⟩ := hw.good m ls ρ hm
  obtain rfl := some_eq ht ht'
  cases hterm : e.isTerminal with
  | true =>
    refine ⟨[], (e.id : Int), [], ls, ρ + 1, ?_, rfl, ⟨m, ρ, by rw [hi], hm, by omega⟩, rfl,
      fun e' ho' ht' _ => by rw [← some_eq ho ho', hterm] at ht'; cases ht'⟩
    simp [splitLeft, tm_bind, deref_run ho, hterm, tm_pure]
  | false =>
    rcases hbody with ⟨tok, hb, _⟩ | ⟨l, lids, lid, c, ids, lss, hb, hown, hl, hne, hk, hls⟩
    · simp [Elem.isTerminal, hb] at hterm
    · have htwo := hne.2
      have hne := hne.1
      have hsplit : ids = ids.dropLast ++ [ids.getLast hne] := (List.dropLast_concat_getLast hne).symm
      rw [hsplit] at hk
      obtain ⟨l1, l2, rfl, h1, h2⟩ := hk.split
      obtain ⟨lB, lss', rfl, hc, h3⟩ := h2
      cases (show lss' = [] from h3)
      refine ⟨ids.dropLast, ids.getLast hne, l1, lB, ρ, ?_, h1, hc, by simp [hls], fun _ _ _ x => by
        have := htwo x
        rw [List.length_dropLast]
        omega⟩
      simp [splitLeft, tm_bind, deref_run ho, hterm, childrenIds_run ho hb hl, List.getLast?_eq_some_getLast hne, tm_pure]

theorem splitRight_run (hw : WF h Ψ) {m ρ r : Nat} {ls : List Word} (hm : Ψ.ty m = some (ls, ρ)) (ht : h.table[m]? = some r) :
    ∃ ra rb lA lB n, splitRight r h = .ok ((ra, rb), h) ∧ Ψ.Child n ra lA ∧ Ψ.Kids n rb lB ∧ lA ++ lB.flatten = ls ∧
      ∀ e, h.objs[r]? = some e → e.isTerminal = false → Ψ.two → 1 ≤ rb.length := by
  obtain ⟨r', e, ht', ho, hi, hbody⟩ := hw.good m ls ρ hm
  obtain rfl := some_eq ht ht'
  cases hterm : e.isTerminal with
  | true =>
    refine ⟨(e.id : Int), [], ls, [], ρ + 1, ?_, ⟨m, ρ, by rw [hi], hm, by omega⟩, rfl, by simp,
      fun e' ho' ht' _ => by rw [← some_eq ho ho', hterm] at ht'; cases ht'⟩
    simp [splitRight, tm_bind, deref_run ho, hterm, tm_pure]
  | false =>
    rcases hbody with ⟨tok, hb, _⟩ | ⟨l, lids, lid, c, ids, lss, hb, hown, hl, hne, hk, hls⟩
    · simp [Elem.isTerminal, hb] at hterm
    · cases ids with
      | nil => exact absurd rfl hne.1
      | cons a as =>
        obtain ⟨lA, lss', rfl, hc, h3⟩ := hk
        refine ⟨a, as, lA, lss', ρ, ?_, hc, h3, by simp [hls], fun _ _ _ x => by have := hne.2 x; simpa using this⟩
        simp [splitRight, tm_bind, deref_run ho, hterm, childrenIds_run ho hb hl, tm_pure]

theorem mergeCenter_settles (hw : WF h Ψ) (hwk : Hid h Ψ working (i0 :: is) (lw0 :: lws))
    (hch : Hid h Ψ child (j0 :: js) (lc0 :: lcs)) (hb : Builds h Ψ build (lw0 ++ lc0) p target) {relLeft relRight : Nat}
    (hL : treeGet i0 h = .ok (relLeft, h)) (hR : treeGet j0 h = .ok (relRight, h)) :
    Settles (fun k => mergeCenter k (build k) relLeft relRight) h (fun cs h' => Found h Ψ p target cs h') := by
  obtain ⟨nL, mL, ρL, rfl, hmL, hρL⟩ := hwk.first
  obtain ⟨nR, mR, ρR, rfl, hmR, hρR⟩ := hch.first
  obtain ⟨rL, eL, htL, hoL, hiL, _⟩ := hw.good mL lw0 ρL hmL
  obtain ⟨rR, eR, htR, hoR, hiR, _⟩ := hw.good mR lc0 ρR hmR
  rw [treeGet_run htL] at hL
  rw [treeGet_run htR] at hR
  cases hL
  cases hR
  refine Settles.step (fun _ => deref_run hoL) ?_
  refine Settles.step (fun _ => deref_run hoR) ?_
  refine Settles.ite (fun hnt => ?_) (fun _ => Settles.pure (.nil (.refl hw)))
  obtain ⟨la, lb, lA, lB, n1, hl1, hkA, hcB, heqL, hlong1⟩ := splitLeft_run hw hmL htL
  obtain ⟨ra, rb, rA, rB, n2, hr1, hcA, hkB, heqR, hlong2⟩ := splitRight_run hw hmR htR
  refine Settles.step (fun _ => hl1) ?_
  refine Settles.step (fun _ => hr1) ?_
  refine Settles.step (fun _ => createNode_run _ _) ?_
  rw [addNode_eq]
  have hk : Ψ.Kids (max n1 n2) [lb, ra] [lB, rA] :=
    ⟨_, _, rfl, hcB.le (.refl Ψ) (by omega), .one (hcA.le (.refl Ψ) (by omega))⟩
  have s1 := (Moves.refl hw).addShown false (Ψ.wide_two _ _) hk
  have hty := (World.child_show (Ψ := Ψ) (m := h.table.length) (l := h.lists.length)
    (ls := [lB, rA].flatten) (n := max n1 n2))
  have hty0 : (Ψ.show h.table.length h.lists.length [lB, rA].flatten (max n1 n2)).ty h.table.length
      = some ([lB, rA].flatten, max n1 n2) := by simp [World.show]
  refine Settles.bind (setCompound_moves true (max n1 n2 + 1) s1.wf hty0 (by omega)
    (addNodeC_table h [lb, ra] false) (addNodeC_obj h [lb, ra] false) rfl) ?_
  rintro _ h2 ⟨Ψ2, s2⟩
  have hm2 := s2.le.ty _ _ hty0
  obtain ⟨r2, e2, ht2, ho2, hi2, _⟩ := s2.wf.good _ _ _ hm2
  obtain rfl := some_eq (s2.table _ _ (addNodeC_table h [lb, ra] false)) ht2
  refine Settles.step (fun _ => elemId_run ho2) ?_
  rw [hi2]
  refine Settles.step (fun _ => createNode_run _ _) ?_
  rw [addNode_eq]
  have s12 := s1.trans s2
  have hk2 : Ψ2.Kids (max n1 n2 + 1) (la ++ [(h.table.length : Int)] ++ rb) (lA ++ [[lB, rA].flatten] ++ rB) :=
    ((hkA.le s12.le (by omega)).append (.one (hty.le s2.le (Nat.le_refl _)))).append (hkB.le s12.le (by omega))
  have hwide : Ψ2.Wide (la ++ [(h.table.length : Int)] ++ rb) := by
    refine ⟨by simp, fun x => ?_⟩
    have x' := s12.le.two.mp x
    simp only [List.length_append, List.length_cons, List.length_nil]
    cases hl : eL.isTerminal with
    | false => have := hlong1 eL hoL hl x'; omega
    | true =>
      cases hr : eR.isTerminal with
      | false => have := hlong2 eR hoR hr x'; omega
      | true => simp [hl, hr] at hnt
  have s3 := s12.addShown false hwide hk2
  refine Settles.step (fun _ => elemId_run (addNodeC_obj h2 (la ++ [(h.table.length : Int)] ++ rb) false)) ?_
  refine hb.run s3 World.child_show ?_
  rw [← heqL, ← heqR]
  simpa using Reorders.refl _

/-- The relation that `addToFirst` extends: a new node that is not visible, with the words of the relation of the
working node. -/
theorem newRel_settles (hw : WF h Ψ) {m ρ r : Nat} {ls : List Word} (hm : Ψ.ty m = some (ls, ρ)) (ht : h.table[m]? = some r) :
    Settles (fun k => do
      let e ← deref r
      if !e.isTerminal then clone k r else createNode [(e.id : Int)]) h
      (fun q h' => ∃ h1 Ψ1 ids lss n, Moves h Ψ h1 Ψ1 ∧ Ψ1.Kids n ids lss ∧ ids ≠ [] ∧ lss.flatten = ls ∧
        q = h1.objs.length ∧ h' = h1.addNodeC ids false) := by
  obtain ⟨r', e, ht', ho, hi, hbody⟩ := hw.good m ls ρ hm
  obtain rfl := some_eq ht ht'
  refine Settles.step (fun _ => deref_run ho) ?_
  cases hterm : e.isTerminal with
  | true =>
    simp only [Bool.not_true, Bool.false_eq_true, if_false]
    refine Settles.of_eq (fun _ => createNode_run _ _) ?_
    exact ⟨h, Ψ, [(e.id : Int)], [ls], ρ + 1, .refl hw, .one ⟨m, ρ, by rw [hi], hm, by omega⟩, by simp, by simp, rfl, rfl⟩
  | false =>
    simp only [Bool.not_false, if_true]
    rcases hbody with ⟨tok, hb, _⟩ | ⟨l, lids, lid, c, ids, lss, hb, hown, hl, hne, hk, hls⟩
    · simp [Elem.isTerminal, hb] at hterm
    · have hc : c = false := by simpa [Elem.isTerminal, hb] using hterm
      subst hc
      refine (clone_node ρ hw (Nat.le_refl _) ho hb hl hk).mono ?_
      rintro q h' ⟨h1, Ψ1, ids', x1, s1, hk1, hlen, hq, hh'⟩
      refine ⟨h1, Ψ1, ids', lss, ρ, s1, hk1, ?_, hls.symm, hq, hh'⟩
      intro h0
      rw [h0] at hlen
      exact hne.1 (List.length_eq_zero_iff.mp (hlen.symm.trans rfl))

/-- `add_to_first_child` of a node whose first child is a node without mark. -/
theorem addToFirstChild_plain {h : SemTree} {r q m l l' : Nat} {e e' : Elem} {rest ids' : List Int} {lids lids' : List Nat}
    {lid lid' : Int} {c : Bool} (i : Int) (ho : h.objs[r]? = some e) (hb : e.body = .node l lids lid c)
    (hl : h.lists[l]? = some ((m : Int) :: rest)) (ht : h.table[m]? = some q) (ho' : h.objs[q]? = some e')
    (hb' : e'.body = .node l' lids' lid' false) (hl' : h.lists[l']? = some ids') :
    addToFirstChild r i .right h = .ok ((), { h with lists := h.lists.set l' (ids' ++ [i]) }) := by
  have hleaf : e.isLeaf = false := by simp [Elem.isLeaf, hb]
  have hterm : e'.isTerminal = false := by simp [Elem.isTerminal, hb']
  have h0 : (do if (← deref r).isLeaf then enclose r else TM.pure r : TM Nat) h = .ok (r, h) := by
    refine (tm_bind_ok (deref_run ho)).trans ?_
    simp only [hleaf, Bool.false_eq_true, if_false]
    rfl
  have hg : getChild r 0 h = .ok (q, h) :=
    (tm_bind_ok (childId_run ho hb hl (i := 0) (y := (m : Int)) rfl)).trans (treeGet_run ht)
  refine (tm_bind_ok h0).trans ?_
  refine (tm_bind_ok (childrenIds_run ho hb hl)).trans ?_
  refine (tm_bind_ok hg).trans ?_
  refine (tm_bind_ok (deref_run ho')).trans ?_
  simp only [hterm, Bool.false_eq_true, if_false]
  refine (tm_bind_ok hg).trans ?_
  refine (tm_bind_ok (childrenRef_run ho' hb')).trans ?_
  refine (tm_bind_ok (readList_run hl')).trans ?_
  rfl

theorem addToFirst_settles (hw : WF h Ψ) (hwk : Hid h Ψ working (i0 :: is) (lw0 :: lws))
    (hch : Hid h Ψ child (j0 :: js) (lc0 :: lcs)) (hb : Builds h Ψ build (lw0 ++ lc0) p target) {relRight : Nat}
    (hR : treeGet j0 h = .ok (relRight, h)) :
    Settles (fun k => addToFirst k (build k) relRight working child) h (fun cs h' => Found h Ψ p target cs h') := by
  obtain ⟨nR, hcR⟩ := hch.first
  obtain ⟨rR, hR', hsR⟩ := Seen.of_child hw hcR
  obtain ⟨eR, hoR, _⟩ := hsR.cases hw
  rw [hR] at hR'
  cases hR'
  refine Settles.step (fun _ => deref_run hoR) ?_
  refine Settles.ite (fun _ => ?_) (fun _ => Settles.pure (.nil (.refl hw)))
  refine Settles.bind (hwk.clone hw) ?_
  rintro q hA ⟨h1, Ψ1, ids', c, n1, s1, hk1, hne1, rfl, rfl⟩
  obtain ⟨i1, is1, rfl⟩ : ∃ i is, ids' = i :: is := by
    cases ids' with
    | nil => exact absurd rfl hne1
    | cons i is => exact ⟨i, is, rfl⟩
  have sA := s1.trans ((ext_addNodeC h1 (i1 :: is1) c).step' s1.wf)
  have hwkA := hwk.moves sA
  refine Settles.step (fun _ => hwkA.head) ?_
  obtain ⟨nL, mL, ρL, rfl, hmL, hρL⟩ := hwkA.first
  obtain ⟨rL, eL, htL, hoL, hiL, _⟩ := sA.wf.good mL lw0 ρL hmL
  refine Settles.step (fun _ => treeGet_run htL) ?_
  refine Settles.bind (newRel_settles sA.wf hmL htL) ?_
  rintro q hB ⟨h2, Ψ2, idsR, lssR, n2, s2, hk2, hne2, hlr, rfl, rfl⟩
  have hN := (hid_addNodeC s1.wf c hne1 hk1).moves s2
  -- the new node, in the heap with the new relation
  have hoN : (h2.addNodeC idsR false).objs[h1.objs.length]? = some ⟨h1.table.length, none, .node h1.lists.length [] (-1) c⟩ :=
    (ext_addNodeC h2 idsR false).objs _ _
      (s2.frozen h1.table.length _ _ (addNodeC_table _ _ _) (addNodeC_obj _ _ _) rfl (s1.wf.fresh (Nat.le_refl _)))
  have hlN : (h2.addNodeC idsR false).lists[h1.lists.length]? = some (i1 :: is1) :=
    (ext_addNodeC h2 idsR false).lists _ _ (s2.lists _ _ (addNodeC_list _ _ _))
  have hlt : h1.lists.length < h2.lists.length := some_lt (s2.lists _ _ (addNodeC_list h1 (i1 :: is1) c))
  have hnotown : ¬ Ψ2.own h1.lists.length := by
    intro ho
    rcases s2.ownNew _ ho with h3 | h3
    · have := s1.wf.own _ h3
      omega
    · simp [SemTree.addNodeC] at h3
      omega
  refine Settles.step (fun _ => elemId_run (addNodeC_obj h2 idsR false)) ?_
  have hset : setFirst h1.objs.length (h2.table.length : Int) (h2.addNodeC idsR false) = .ok ((),
      { h2.addNodeC idsR false with
        lists := (h2.addNodeC idsR false).lists.set h1.lists.length ((h2.table.length : Int) :: is1) }) := by
    refine (tm_bind_ok (childrenRef_run hoN rfl)).trans ?_
    refine (tm_bind_ok (readList_run hlN)).trans ?_
    rfl
  refine Settles.step (fun _ => hset) ?_
  have s3 := sA.trans s2
  have s4 := s3.trans ((ext_addNodeC h2 idsR false).step' s3.wf)
  have s5 := s4.write hnotown s1.listsLen ((h2.table.length : Int) :: is1)
  refine Settles.step (fun _ => (hch.moves s5).head) ?_
  have hne : ¬ h1.lists.length = h2.lists.length := by omega
  have hlen2 : h1.lists.length < (h2.addNodeC idsR false).lists.length := some_lt hlN
  have hadd := addToFirstChild_plain (h := { h2.addNodeC idsR false with
        lists := (h2.addNodeC idsR false).lists.set h1.lists.length ((h2.table.length : Int) :: is1) })
    (r := h1.objs.length) (m := h2.table.length) (ids' := idsR) (rest := is1) j0 hoN rfl
    (by simp [hlen2]) (addNodeC_table h2 idsR false) (addNodeC_obj h2 idsR false) rfl
    (by
      have := addNodeC_list h2 idsR false
      simp [List.getElem?_set, hne, this])
  refine Settles.step (fun _ => hadd) ?_
  have hnotown2 : ¬ Ψ2.own h2.lists.length := by
    intro ho
    have := s2.wf.own _ ho
    omega
  have s6 := s5.write hnotown2 s3.listsLen (idsR ++ [j0])
  refine Settles.step (a := (h2.table.length : Int)) (fun _ => childId_run hoN rfl (xs := (h2.table.length : Int) :: is1) ?_ rfl) ?_
  · have : ¬ h2.lists.length = h1.lists.length := by omega
    simp [List.getElem?_set, this, hlen2]
  · obtain ⟨nC, hcC⟩ := (hch.moves s3).first
    have hk3 : Ψ2.Kids (max n2 nC) (idsR ++ [j0]) (lssR ++ [lc0]) :=
      (hk2.le (.refl Ψ2) (by omega)).append (.one (hcC.le (.refl Ψ2) (by omega)))
    have s7 := s6.show (m := h2.table.length) (l := h2.lists.length) (ids := idsR ++ [j0]) (s2.wf.fresh (Nat.le_refl _)) s3.tableLen
      s3.listsLen (addNodeC_table h2 idsR false) (addNodeC_obj h2 idsR false) rfl rfl
      (by simp [SemTree.addNodeC]) ⟨by simp, fun _ => by
        have := List.length_pos_iff.mpr hne2
        simp only [List.length_append, List.length_cons, List.length_nil]
        omega⟩ hk3
    refine hb.run s7 World.child_show ?_
    simpa [hlr] using Reorders.refl _

/-- All four ways of merging. -/
theorem mergeCandidates_settles (hw : WF h Ψ) (hwk : Hid h Ψ working (i0 :: is) (lw0 :: lws)) {lc : List Word}
    (hc : Cand h Ψ child lc)
    (hb : ∀ j0 js lc0 lcs, Hid h Ψ child (j0 :: js) (lc0 :: lcs) → Ψ.Wide (j0 :: js) → lc = (lc0 :: lcs).flatten → lc0.all wordRelates = true →
      Builds h Ψ build (lw0 ++ lc0) p target) :
    Settles (fun k => mergeCandidates k (build k) working child) h (fun cs h' => Found h Ψ p target cs h') := by
  rcases hc with ⟨m, ρ, e, ht, ho, hi, hleaf, hm⟩ | ⟨ids, lss, hch, hwd, hls⟩
  · refine Settles.step (fun _ => deref_run ho) ?_
    exact Settles.ite (fun _ => Settles.pure (.nil (.refl hw))) (fun h0 => absurd hleaf h0)
  · obtain ⟨e, ho, hleaf⟩ := hch.notLeaf
    obtain ⟨n, hk⟩ := hch.kids
    obtain ⟨j0, js, rfl⟩ : ∃ j js, ids = j :: js := by
      obtain ⟨w, e, l, lids, lid, c, n, ht, ho, hi, hb, hl, hne, hwn, hk⟩ := hch
      cases ids with
      | nil => exact absurd rfl hne
      | cons j js => exact ⟨j, js, rfl⟩
    obtain ⟨lc0, lcs, rfl, hc0, hks⟩ := hk
    refine Settles.step (fun _ => deref_run ho) ?_
    refine Settles.ite (fun h0 => by rw [hleaf] at h0; cases h0) (fun _ => ?_)
    refine Settles.step (fun _ => hch.head) ?_
    refine Settles.bind (isRel_settles hw n hc0) ?_
    rintro b h1 ⟨hbe, rfl⟩
    refine Settles.ite (fun _ => Settles.pure (.nil (.refl hw))) (fun hrel => ?_)
    have hrel : lc0.all wordRelates = true := by
      rw [← hbe]
      cases b with
      | true => rfl
      | false => exact absurd rfl hrel
    have hbuild := hb j0 js lc0 lcs hch hwd hls hrel
    refine Settles.step (fun _ => hwk.head) ?_
    obtain ⟨nL, hcL⟩ := hwk.first
    obtain ⟨rL, hL, hsL⟩ := Seen.of_child hw hcL
    refine Settles.step (fun _ => hL) ?_
    refine Settles.step (fun _ => hch.head) ?_
    obtain ⟨rR, hR, hsR⟩ := Seen.of_child hw hc0
    refine Settles.step (fun _ => hR) ?_
    have hmove : ∀ (i : Int) (r n : Nat) (ls : List Word) (h2 : SemTree) (Ψ2 : World), Ψ.Child n i ls → Moves h1 Ψ h2 Ψ2 →
        treeGet i h1 = .ok (r, h1) → treeGet i h2 = .ok (r, h2) := by
      rintro i r n ls h2 Ψ2 ⟨m, ρ, rfl, hm, _⟩ s hg
      obtain ⟨r', e, ht, _⟩ := hw.good m ls ρ hm
      rw [treeGet_run ht] at hg
      cases hg
      exact treeGet_run (s.table _ _ ht)
    refine Settles.bind (insertBefore_settles hw hwk hch hrel hbuild) ?_
    rintro c1 h2 ⟨Ψ2, s2, hc1⟩
    refine Settles.bind (makeCompound_settles s2.wf (hwk.moves s2) (hch.moves s2) (hbuild.moves s2)
      (hmove _ _ _ _ _ _ hcL s2 hL) (hmove _ _ _ _ _ _ hc0 s2 hR)) ?_
    rintro c2 h3 ⟨Ψ3, s3, hc2⟩
    have s3' := s2.trans s3
    refine Settles.bind (mergeCenter_settles s3.wf (hwk.moves s3') (hch.moves s3') (hbuild.moves s3')
      (hmove _ _ _ _ _ _ hcL s3' hL) (hmove _ _ _ _ _ _ hc0 s3' hR)) ?_
    rintro c3 h4 ⟨Ψ4, s4, hc3⟩
    have s4' := s3'.trans s4
    refine Settles.bind (addToFirst_settles s4.wf (hwk.moves s4') (hch.moves s4') (hbuild.moves s4')
      (hmove _ _ _ _ _ _ hc0 s4' hR)) ?_
    rintro c4 h5 ⟨Ψ5, s5, hc4⟩
    refine Settles.pure ⟨Ψ5, s4'.trans s5, ?_⟩
    intro c hc
    simp only [List.mem_append] at hc
    rcases hc with ((hc | hc) | hc) | hc
    · exact (((hc1 c hc).moves s3).moves s4).moves s5
    · exact ((hc2 c hc).moves s4).moves s5
    · exact (hc3 c hc).moves s5
    · exact hc4 c hc

/-! ### The search -/

/-- What the search over the remaining children guarantees. -/
def SearchOk (n : Nat) (tp : List Int) : Prop :=
  ∀ h Ψ working ids lss lssT, WF h Ψ → Ψ.Kids n tp lssT → Hid h Ψ working ids lss →
    (Ψ.two → 2 ≤ ids.length + tp.length) →
    Settles (fun k => findCandidatesR k working tp) h (fun cs h' => cs ≠ [] ∧
      Found h Ψ (∃ l ls, lss = l :: ls ∧ l.all wordRelates = true) (lss.flatten ++ lssT.flatten) cs h')

theorem Hid.cons {r : Nat} {ids : List Int} {lss : List (List Word)} (hh : Hid h Ψ r ids lss) :
    ∃ i is l ls, ids = i :: is ∧ lss = l :: ls := by
  obtain ⟨w, e, l, lids, lid, c, n, ht, ho, hi, hb, hl, hne, hwn, hk⟩ := hh
  cases ids with
  | nil => exact absurd rfl hne
  | cons i is =>
    obtain ⟨l0, ls, rfl, _⟩ := hk
    exact ⟨i, is, l0, ls, rfl, rfl⟩

theorem buildCandidate_settles {n : Nat} {tp : List Int} (ih : SearchOk n tp) {lssT : List (List Word)} (hkT : Ψ.Kids n tp lssT)
    (hwk : Hid h Ψ working (i0 :: is) (lw0 :: lws)) (hch : Hid h Ψ child (j0 :: js) (lc0 :: lcs))
    (hwd : Ψ.Wide (j0 :: js)) (hrel : lc0.all wordRelates = true) :
    Builds h Ψ (fun k relId => buildCandidate k working relId child tp) (lw0 ++ lc0) (lw0.all wordRelates = true)
      ((lw0 :: lws).flatten ++ (lc0 :: lcs).flatten ++ lssT.flatten) := by
  intro h1 Ψ1 i lr nr s hc hr
  refine Settles.succ (f := fun k => buildCandidate k working i child tp) (fun k => by rw [buildCandidate]) ?_
  refine Settles.bind ((hwk.moves s).clone s.wf) ?_
  rintro q hA ⟨h2, Ψ2, ids', c, n2, s2, hk2, hne2, rfl, rfl⟩
  cases ids' with
  | nil => exact absurd rfl hne2
  | cons i1 is1 =>
    refine Settles.step (fun _ => setFirst_addNodeC _ _ _ _ _) ?_
    have sA := s2.trans ((ext_addNodeC h2 (i :: is1) c).step' s2.wf)
    refine Settles.step (fun _ => ((hch.moves s).moves sA).ids) ?_
    refine Settles.step (fun _ => extend_addNodeC _ _ _ _) ?_
    obtain ⟨l1, ls1, heq, _, hks⟩ := hk2
    cases heq
    obtain ⟨n3, hk3⟩ := ((hch.moves s).moves s2).rest
    have hk4 : Ψ2.Kids (max nr (max n2 n3)) (i :: is1 ++ (j0 :: js).tail) ((lr :: lws) ++ lcs) :=
      World.Kids.append (is := i :: is1) ⟨_, _, rfl, hc.le s2.le (by omega), hks.le (.refl Ψ2) (by omega)⟩
        (hk3.le (.refl Ψ2) (by omega))
    have s3 := s2.trans ((ext_addNodeC h2 (i :: is1 ++ (j0 :: js).tail) c).step' s2.wf)
    refine (ih _ Ψ2 _ _ _ lssT s3.wf (hkT.le (s.le.trans s2.le) (Nat.le_refl _)) (hid_addNodeC s2.wf c (by simp) hk4) (fun x => by
      have := hwd.2 (s.le.two.mp (s2.le.two.mp x))
      simp only [List.length_append, List.length_cons, List.tail_cons] at this ⊢
      omega)).mono ?_
    rintro cs h4 ⟨_, Ψ4, s4, hcs⟩
    refine ⟨Ψ4, s3.trans s4, fun x hx => ?_⟩
    refine (hcs x hx).of ?_ (fun hp => ⟨_, _, rfl, ?_⟩)
    have e1 : Reorders (lws.flatten ++ lc0) (lc0 ++ lws.flatten) := Reorders.swap hrel
    have e2 := ((((Reorders.refl lw0).append e1).append (Reorders.refl (lcs.flatten ++ lssT.flatten))))
    have e3 := hr.append (Reorders.refl (lws.flatten ++ (lcs.flatten ++ lssT.flatten)))
    simp only [List.flatten_cons, List.flatten_append, List.cons_append, List.append_assoc] at e2 e3 ⊢
    exact e2.trans e3
    rw [List.all_eq_true] at hp hrel ⊢
    intro w hw
    rcases List.mem_append.mp (hr.1.mem_iff.mpr hw) with hw | hw
    · exact hp w hw
    · exact hrel w hw

theorem candidatesFor_settles {n : Nat} {tp : List Int} (ih : SearchOk n tp) {lssT : List (List Word)} (hw : WF h Ψ)
    (hkT : Ψ.Kids n tp lssT) {ids : List Int} {lss : List (List Word)} (hwk : Hid h Ψ working ids lss) {c0 : Int} {l0 lc : List Word}
    (hc0 : Ψ.Child n c0 l0) (hch : Cand h Ψ child lc) (hre : Reorders l0 lc) :
    Settles (fun k => candidatesFor k working c0 tp child) h
      (fun cs h' => cs ≠ [] ∧ Found h Ψ (∃ l ls, lss = l :: ls ∧ l.all wordRelates = true)
        (lss.flatten ++ l0 ++ lssT.flatten) cs h') := by
  obtain ⟨i0, is, lw0, lws, rfl, rfl⟩ := hwk.cons
  refine Settles.succ (fun k => by rw [candidatesFor]) ?_
  refine Settles.bind (mergeCandidates_settles (p := lw0.all wordRelates = true) (target := (lw0 :: lws).flatten ++ lc ++ lssT.flatten)
    (build := fun k relId => buildCandidate k working relId child tp) hw hwk hch ?_) ?_
  · intro j0 js lc0 lcs hh hwd hls hrel
    rw [hls]
    exact buildCandidate_settles ih hkT hwk hh hwd hrel
  · rintro merged h1 ⟨Ψ1, s1, hm⟩
    refine Settles.bind ((hwk.moves s1).clone s1.wf) ?_
    rintro q hA ⟨h2, Ψ2, ids', c, n2, s2, hk2, hne2, rfl, rfl⟩
    refine Settles.step (fun _ => extend_addNodeC _ _ _ _) ?_
    have hk3 : Ψ2.Kids (max n2 n) (ids' ++ [c0]) ((lw0 :: lws) ++ [l0]) :=
      (hk2.le (.refl Ψ2) (by omega)).append (.one (hc0.le (s1.le.trans s2.le) (by omega)))
    have s3 := s2.trans ((ext_addNodeC h2 (ids' ++ [c0]) c).step' s2.wf)
    refine Settles.bind (ih _ Ψ2 _ _ _ lssT s3.wf (hkT.le (s1.le.trans s2.le) (Nat.le_refl _))
      (hid_addNodeC s2.wf c (by simp) hk3) (fun _ => by
        have := List.length_pos_iff.mpr hne2
        simp only [List.length_append, List.length_cons, List.length_nil]
        omega)) ?_
    rintro cs h4 ⟨hne, Ψ4, s4, hcs⟩
    refine Settles.pure ⟨by simp [hne], Ψ4, (s1.trans s3).trans s4, fun x hx => ?_⟩
    rcases List.mem_append.mp hx with hx | hx
    · refine (((hm x hx).moves s3).moves s4).of (((Reorders.refl _).append hre).append (.refl _)) ?_
      rintro ⟨l, ls, heq, ha⟩
      cases heq
      exact ha
    · refine (hcs x hx).of ?_ ?_
      · have := Reorders.refl ((lw0 :: lws).flatten ++ l0 ++ lssT.flatten)
        simpa using this
      · rintro ⟨l, ls, heq, ha⟩
        cases heq
        exact ⟨_, _, rfl, ha⟩

/-- The first element of the visible node has only words that relate. -/
def Leads (h : SemTree) (Ψ : World) (r : Nat) : Prop :=
  ∃ e l lids lid c i is l0 n, h.objs[r]? = some e ∧ e.body = .node l lids lid c ∧ h.lists[l]? = some (i :: is) ∧
    Ψ.Child n i l0 ∧ l0.all wordRelates = true

/-- What the search from an element guarantees. -/
def FindOk (n : Nat) : Prop :=
  ∀ h Ψ m r ls ρ, WF h Ψ → Ψ.ty m = some (ls, ρ) → ρ < n → h.table[m]? = some r →
    Settles (fun k => findCandidates k r) h (fun cs h' => cs ≠ [] ∧ Found h Ψ (Leads h Ψ r) ls cs h')

theorem searchOk {n : Nat} (hf : FindOk n) : (tp : List Int) → SearchOk n tp
  | [] => by
    intro h Ψ working ids lss lssT hw hkT hwk hlong
    cases (show lssT = [] from hkT)
    obtain ⟨i0, is, lw0, lws, rfl, rfl⟩ := hwk.cons
    obtain ⟨n0, m, ρ, rfl, hm, hρ⟩ := hwk.first
    obtain ⟨r, e, ht, _⟩ := hw.good m lw0 ρ hm
    refine Settles.succ (fun k => by rw [findCandidatesR]) ?_
    refine Settles.step (fun _ => (tm_bind_ok hwk.head).trans (treeGet_run ht)) ?_
    refine Settles.bind (flatten_moves (ρ + 1) hw hm (by omega) ht) ?_
    rintro _ h1 ⟨Ψ1, s1⟩
    refine Settles.pure ⟨by simp, Ψ1, s1, ?_⟩
    intro c hc
    simp only [List.mem_singleton] at hc
    subst hc
    refine ⟨_, .inr ⟨_, _, hwk.moves s1, ⟨by simp, fun x => by simpa using hlong (s1.le.two.mp x)⟩, rfl⟩, by simpa using Reorders.refl _, ?_⟩
    rintro ⟨l, ls, heq, ha⟩
    cases heq
    exact ⟨_, _, _, _, hwk.moves s1, ha⟩
  | c0 :: tp => by
    intro h Ψ working ids lss lssT hw hkT hwk hlong
    have ih := searchOk hf tp
    obtain ⟨l0, lssT, rfl, hc0, hkT⟩ := hkT
    have hc0' := hc0
    obtain ⟨m, ρ, rfl, hm, hρ⟩ := hc0'
    obtain ⟨r, e, ht, _⟩ := hw.good m l0 ρ hm
    refine Settles.succ (fun k => by rw [findCandidatesR]) ?_
    refine Settles.step (fun _ => treeGet_run ht) ?_
    refine Settles.bind (hf h Ψ m r l0 ρ hw hm hρ ht) ?_
    rintro cands h1 ⟨hne, Ψ1, s1, hcs⟩
    refine Settles.bind (Settles.mapM
      (I := fun done parts h' => (done ≠ [] → parts.flatten ≠ []) ∧ ∃ Ψ', Moves h1 Ψ1 h' Ψ' ∧
        ∀ c ∈ parts.flatten, Fits h' Ψ' (∃ l ls, lss = l :: ls ∧ l.all wordRelates = true)
          (lss.flatten ++ l0 ++ lssT.flatten) c)
      cands [] [] h1 ⟨fun h => absurd rfl h, Ψ1, .refl s1.wf, fun c hc => by cases hc⟩ ?_) ?_
    · rintro done x parts h2 hx ⟨_, Ψ2, s2, hparts⟩
      obtain ⟨lx, hcx, hrex, _⟩ := hcs x hx
      have s12 := s1.trans s2
      refine (candidatesFor_settles ih s2.wf (hkT.le s12.le (Nat.le_refl _)) (hwk.moves s12) (hc0.le s12.le (Nat.le_refl _))
        (hcx.moves s2) hrex).mono ?_
      rintro cs h3 ⟨hne3, Ψ3, s3, hcs3⟩
      refine ⟨fun _ => by simp [hne3], Ψ3, s2.trans s3, ?_⟩
      intro c hc
      simp only [List.flatten_append, List.flatten_cons, List.flatten_nil, List.append_nil, List.mem_append] at hc
      rcases hc with hc | hc
      · exact (hparts c hc).moves s3
      · exact hcs3 c hc
    · rintro parts h2 ⟨hne2, Ψ2, s2, hparts⟩
      simp only [List.nil_append] at hne2 hparts
      refine Settles.pure ⟨hne2 hne, Ψ2, s1.trans s2, ?_⟩
      intro c hc
      refine (hparts c hc).of ?_ id
      simpa using Reorders.refl _

theorem findOk : (n : Nat) → FindOk n
  | 0 => by
    intro h Ψ m r ls ρ hw hm hlt ht
    omega
  | n + 1 => by
    intro h Ψ m r ls ρ hw hm hlt ht
    obtain ⟨r', e, ht', ho, hi, hbody⟩ := hw.good m ls ρ hm
    obtain rfl := some_eq ht ht'
    refine Settles.succ (fun k => by rw [findCandidates]) ?_
    refine Settles.step (fun _ => deref_run ho) ?_
    rcases hbody with ⟨tok, hb, hls⟩ | ⟨l, lids, lid, c, ids, lss, hb, hown, hl, hne, hk, hls⟩
    · have hleaf : e.isLeaf = true := by simp [Elem.isLeaf, hb]
      refine Settles.ite (fun _ => ?_) (fun h0 => absurd hleaf h0)
      refine Settles.pure ⟨by simp, Ψ, .refl hw, ?_⟩
      intro c hc
      simp only [List.mem_singleton] at hc
      subst hc
      refine ⟨ls, .inl ⟨m, ρ, e, ht, ho, hi, hleaf, hm⟩, .refl ls, ?_⟩
      rintro ⟨e', l, lids, lid, c, i, is, l0, n', ho', hb', _⟩
      obtain rfl := some_eq ho ho'
      rw [hb] at hb'
      cases hb'
    · refine Settles.ite (fun h0 => by simp [Elem.isLeaf, hb] at h0) (fun _ => ?_)
      refine Settles.step (fun _ => childrenIds_run ho hb hl) ?_
      refine Settles.step (fun _ => createNode_run _ _) ?_
      rw [addNode_eq]
      cases ids with
      | nil => exact absurd rfl hne.1
      | cons i is =>
        obtain ⟨l0, ls', rfl, hc0, hks⟩ := hk
        have s1 := (ext_addNodeC h (List.take 1 (i :: is)) false).step' hw
        refine (searchOk (findOk n) is _ Ψ _ (List.take 1 (i :: is)) [l0] ls' s1.wf (hks.le (.refl Ψ) (by omega))
          (hid_addNodeC hw false (by simp) (.one hc0)) (fun x => by
            have := hne.2 x
            simp only [List.length_cons, List.take_succ_cons, List.take_zero, List.length_nil] at this ⊢
            omega)).mono ?_
        rintro cs h2 ⟨hne2, Ψ2, s2, hcs⟩
        refine ⟨hne2, Ψ2, s1.trans s2, ?_⟩
        intro c hc
        refine (hcs c hc).of ?_ ?_
        · rw [hls]
          simpa using Reorders.refl _
        · rintro ⟨e', l', lids', lid', c', i', is', l0', n', ho', hb', hl', hc', ha⟩
          obtain rfl := some_eq ho ho'
          rw [hb] at hb'
          cases hb'
          obtain heq := some_eq hl hl'
          cases heq
          obtain ⟨m1, ρ1, rfl, hm1, _⟩ := hc0
          obtain ⟨m2, ρ2, hmm, hm2, _⟩ := hc'
          obtain rfl : m1 = m2 := by omega
          rw [hm1] at hm2
          cases hm2
          exact ⟨_, _, rfl, ha⟩

end GB
