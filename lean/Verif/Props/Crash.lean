import Verif.Proofs.Repair
import Verif.Spec.WitnessHist

/-
Property C37: crashes during the addition or removal of one edge.
-/

set_option linter.unusedSectionVars false

namespace GB

variable {F : Type} [PyFloat F] [DecidableEq F] {V : Val F → Prop}

theorem crash_add (hV : Vocab V) {A : Abs F} (hA : AbsOk V A) {s : St} (hu : s.usable) (hw : s.work = A.conc)
    (hd : s.disk = s.work) {e : Val F} (he : EdgeOver V e) (ts : Int) :
    ∃ s', hgAdd e ts s = (.ok e, s') ∧ s'.work = (A.add e ts).conc ∧ s'.cur = s.cur ∧
      ∀ d ∈ crashContents (hgAdd e ts) s, d = A.conc ∨ (e ∉ A.edges ∧ AddStage A e ts d) := by
  obtain ⟨s', e1, st⟩ := add_run (q := false) (T := fun d => d = A.conc ∨ (e ∉ A.edges ∧ AddStage A e ts d))
    hV hA he ts hu hw (fun h db hdb => .inr ⟨h, hdb⟩)
  have e1' : hgAdd e ts s = (.ok e, s') := e1
  refine ⟨s', e1', st.work, st.cur, ?_⟩
  intro d h
  obtain ⟨_, l, hl, hall⟩ := st.snaps (.inl hw)
  unfold crashContents at h
  rw [e1', hl, List.drop_left, List.mem_cons] at h
  rcases h with rfl | h
  · exact .inl (hd.trans hw)
  · exact hall d h

theorem crash_remove (hV : Vocab V) {A : Abs F} (hA : AbsOk V A) {s : St} (hu : s.usable) (hw : s.work = A.conc)
    (hd : s.disk = s.work) {e : Val F} (he : EdgeOver V e) :
    ∃ s', hgRemove e s = (.ok (), s') ∧ s'.work = (A.remove e).conc ∧ s'.cur = s.cur ∧
      ∀ d ∈ crashContents (hgRemove e) s, d = A.conc ∨ (e ∈ A.edges ∧ RemStage A e d) := by
  obtain ⟨s', e1, st⟩ := remove_run (T := fun d => d = A.conc ∨ (e ∈ A.edges ∧ RemStage A e d))
    hV hA he hu hw (fun h db hdb => .inr ⟨h, hdb⟩)
  have e1' : hgRemove e s = (.ok (), s') := e1
  refine ⟨s', e1', st.work, st.cur, ?_⟩
  intro d h
  obtain ⟨_, l, hl, hall⟩ := st.snaps (.inl hw)
  unfold crashContents at h
  rw [e1', hl, List.drop_left, List.mem_cons] at h
  rcases h with rfl | h
  · exact .inl (hd.trans hw)
  · exact hall d h

theorem sameExcept_midway (hV : Vocab V) {A : Abs F} (hA : AbsOk V A) {s : St} (hc : s.cur = none)
    (hw : s.work = A.conc) {e : Val F} {lo hi : Val F → Int} {d : DB} (h : Midway V A e lo hi d) (auto : Bool) :
    SameExcept V e (reopen d auto) s := by
  have hR' : RowsOk V s.work.perms := by rw [hw]; exact rowsOk_conc hA
  have hR : RowsOk V (reopen d auto).work.perms := h.rows
  have hu := St.usable_of_none hc
  have hc' : (reopen d auto).cur = none := rfl
  have hu' := St.usable_of_none hc'
  have hrow : ∀ x n, EdgeOver V x → x ≠ e → (HasRow (reopen d auto).work.perms x n ↔ HasRow s.work.perms x n) := by
    intro x n hx hne
    rw [hw, hasRow_conc hV hA hx]
    exact h.others x n hx hne
  constructor
  · intro x hx hne
    exact exists_same hV hc' hc hR hR' hx (fun n => hrow x n hx hne)
  · intro ps hp
    obtain ⟨r, e1, e2, e3⟩ := pattern_rows hV (b := false) hp hu' hR
    obtain ⟨r', e1', e2', e3'⟩ := pattern_rows hV (b := false) hp hu hR'
    refine ⟨r, r', ?_, ?_, e2, e2', ?_⟩
    · unfold hgPattern2edges; rw [show (Val.tup ps : Val F) = .seq false ps from rfl, e1]
    · unfold hgPattern2edges; rw [show (Val.tup ps : Val F) = .seq false ps from rfl, e1']
    · intro x hne
      rw [e3, e3']
      refine and_congr_right fun hx => and_congr_right fun _ => exists_congr fun n => ?_
      rw [hrow x n hx hne]
  · intro c hcV ha
    obtain ⟨r, e1, e2, e3⟩ := star_rows hV hcV ha hu' hR
    obtain ⟨r', e1', e2', e3'⟩ := star_rows hV hcV ha hu hR'
    refine ⟨r, r', ?_, ?_, e2, e2', ?_⟩
    · unfold hgStar; rw [e1]
    · unfold hgStar; rw [e1']
    · intro x hne
      rw [e3, e3']
      refine and_congr_right fun hx => exists_congr fun n => ?_
      rw [hrow x n hx hne]

theorem conc_vertices (A : Abs F) : A.conc.vertices = A.verts.map VEnt.row := rfl

theorem midway_degree {A : Abs F} {e : Val F} {lo hi : Val F → Int} {d : DB} (h : Midway V A e lo hi d) (auto : Bool)
    {v : Val F} (hv : WfVal v) (ha : v.isAtom = true) :
    ∃ j, (hgDegree v (reopen d auto)).1 = .ok j ∧ lo v ≤ j ∧ j ≤ hi v := by
  obtain ⟨vs, h1, h2, h3⟩ := h.verts
  have := degree_rows h2.2 hv (s := reopen d auto) rfl h1
  exact ⟨degOf v vs, by rw [this], h3 v ha⟩

/-- C37, the true part for additions: whatever the moment of the crash, what a new connection sees of all other
edges is as before, and the degree of every symbol is between those before and after the addition. -/
theorem C37_add_others_partial (hV : Vocab V) (ops : List (Op F)) (hops : ∀ op ∈ ops, op.Over V) (auto : Bool) (s : St)
    (hs : runOps ops (St.new auto) = (.ok (), s)) (e : Val F) (he : EdgeOver V e) (ts : Int) (auto' : Bool) :
    ∃ s', hgAdd e ts s = (.ok e, s') ∧ ∀ d ∈ crashContents (hgAdd e ts) s,
      SameExcept V e (reopen d auto') s ∧ DegreesBetween F s (reopen d auto') s' := by
  obtain ⟨A, hAf⟩ := after_of hV hops hs
  have hA := hAf.ok
  obtain ⟨s', e1, w1, c1, hall⟩ := crash_add hV hA (St.usable_of_none hAf.idle) hAf.work hAf.disk he ts
  refine ⟨s', e1, ?_⟩
  intro d hd
  have hA' := hA.add hV he ts
  have hmid : Midway V A e (fun v => degOf v A.verts) (fun v => degOf v (A.add e ts).verts) d := by
    have hle : ∀ v, v.isAtom = true → e ∉ A.edges →
        degOf v (A.add e ts).verts = degOf v A.verts + e.elems.count v := by
      intro v hv hm
      unfold Abs.add
      rw [if_neg hm]
      show degOf v (setV e 0 ts _) = _
      rw [degOf_set_atom _ _ _ _ _ (atom_ne_edge hv he), degOf_foldTouch]
    rcases hall d hd with rfl | ⟨hm, hst⟩
    · apply midway_start hV hA
      intro v hv
      refine ⟨Int.le_refl _, ?_⟩
      by_cases hm : e ∈ A.edges
      · unfold Abs.add; rw [if_pos hm]; exact Int.le_refl _
      · rw [hle v hv hm]; omega
    · obtain ⟨m1, m2, vs, m3, m4, m5⟩ := midway_add hV hA he hst
      refine ⟨m1, m2, vs, m3, m4, fun v hv => ?_⟩
      rw [hle v hv hm]
      exact m5 v hv
  refine ⟨sameExcept_midway hV hA hAf.idle hAf.work hmid auto', ?_⟩
  intro v hv ha
  obtain ⟨j, h1, h2, h3⟩ := midway_degree hmid auto' hv ha
  refine ⟨_, j, _, ?_, h1, ?_, h2, h3⟩
  · rw [degree_rows hA.wf hv hAf.idle (by rw [hAf.work]; rfl)]
  · rw [degree_rows hA'.wf hv (c1.trans hAf.idle) (by rw [w1]; rfl)]

/-- C37, the true part for removals. -/
theorem C37_remove_others_partial (hV : Vocab V) (ops : List (Op F)) (hops : ∀ op ∈ ops, op.Over V) (auto : Bool)
    (s : St) (hs : runOps ops (St.new auto) = (.ok (), s)) (e : Val F) (he : EdgeOver V e) (auto' : Bool) :
    ∃ s', hgRemove e s = (.ok (), s') ∧ ∀ d ∈ crashContents (hgRemove e) s,
      SameExcept V e (reopen d auto') s ∧ DegreesBetween F s' (reopen d auto') s := by
  obtain ⟨A, hAf⟩ := after_of hV hops hs
  have hA := hAf.ok
  obtain ⟨s', e1, w1, c1, hall⟩ := crash_remove hV hA (St.usable_of_none hAf.idle) hAf.work hAf.disk he
  refine ⟨s', e1, ?_⟩
  intro d hd
  have hA' : AbsOk V (A.remove e) := hA.remove e
  have hmid : Midway V A e (fun v => degOf v (A.remove e).verts) (fun v => degOf v A.verts) d := by
    have hR' := hAf.rel.remove hA e
    have hle : ∀ v : Val F, v.isAtom = true → e ∈ A.edges →
        degOf v (A.remove e).verts = degOf v A.verts - e.elems.count v := by
      intro v hv hm
      rw [hAf.rel.deg v hv, hR'.deg v hv]
      have := occurrences_filter (v := v) hA.nodup hm
      have h2 : (A.remove e).edges = A.edges.filter fun x => x ≠ e := by unfold Abs.remove; rw [if_pos hm]
      rw [h2]
      omega
    rcases hall d hd with rfl | ⟨hm, hst⟩
    · apply midway_start hV hA
      intro v hv
      refine ⟨?_, Int.le_refl _⟩
      by_cases hm : e ∈ A.edges
      · rw [hle v hv hm]; omega
      · unfold Abs.remove; rw [if_neg hm]; exact Int.le_refl _
    · obtain ⟨m1, m2, vs, m3, m4, m5⟩ := midway_rem hV hA hAf.rel hm hst
      refine ⟨m1, m2, vs, m3, m4, fun v hv => ?_⟩
      rw [hle v hv hm]
      exact m5 v hv
  refine ⟨sameExcept_midway hV hA hAf.idle hAf.work hmid auto', ?_⟩
  intro v hv ha
  obtain ⟨j, h1, h2, h3⟩ := midway_degree hmid auto' hv ha
  refine ⟨_, j, _, ?_, h1, ?_, h2, h3⟩
  · rw [degree_rows hA'.wf hv (c1.trans hAf.idle) (by rw [w1]; rfl)]
  · rw [degree_rows hA.wf hv hAf.idle (by rw [hAf.work]; rfl)]

/-! ### repair -/

theorem sameRows_of_mem {ps ps' : List Str} (h : ∀ r, r ∈ ps ↔ r ∈ ps') : SameRows V ps ps' := by
  intro x _ n
  unfold HasRow
  rw [h]

/-- Removing a half-added edge that is visible. -/
theorem repair_rows (hV : Vocab V) {A : Abs F} {ops : List (Op F)} {auto : Bool} {s : St} (hAf : After V ops auto s A) {e : Val F}
    (he : EdgeOver V e) (hm : e ∉ A.edges) {ts : Int} {l : List Str} (hl : l <+: rowsOf e.elems) {t : St} (hc : t.cur = none)
    (hw : t.work = ⟨(setV e 0 ts (e.elems.foldl (touchV ts) A.verts)).map VEnt.row, A.conc.perms ++ l⟩)
    (hex : (hgExists e t).1 = .ok true) : ∃ s2, hgRemove e t = (.ok (), s2) ∧ SameView V s2 s := by
  have hA := hAf.ok
  have hu' : t.usable := St.usable_of_none hc
  have hRA : RowsOk V A.conc.perms := rowsOk_conc hA
  have hmid := midway_add hV hA he (AddStage.rows (ts := ts) l hl)
  have hk : KeysOk (setV e 0 ts (e.elems.foldl (touchV ts) A.verts)) :=
    (KeysOk.foldTouch ⟨hA.keys, hA.wf⟩ ts (edge_wf hV he)).set (he.wf hV) 0 ts
  have hexM : existsM e t = (.ok true, t) := by
    obtain ⟨b, hb, _⟩ := exists_rows hV he hu' (by rw [hw]; exact hmid.rows)
    unfold hgExists at hex
    rw [hb] at hex ⊢
    have : b = true := by simpa using hex
    rw [this]
  obtain ⟨s2, e2, st2⟩ := remove_from hV hk he hu' hw hexM
  refine ⟨s2, e2, ?_⟩
  have hperm : (A.conc.perms ++ l).filter (fun r => r ∉ rowsOf e.elems) = A.conc.perms := by
    rw [List.filter_append, List.filter_eq_self.2, List.filter_eq_nil_iff.2, List.append_nil]
    · intro r hr
      simpa using hl.subset hr
    · intro r hr
      simp only [decide_eq_true_eq]
      exact fun h => rows_fresh hV hA he hm r h hr
  have hw2 := st2.work
  rw [hperm] at hw2
  have hk2 := (KeysOk.foldBump hk (-1) e.elems).del e
  refine sameView_rows hV (st2.cur.trans hc) hAf.idle (by rw [hw2]; exact hRA) (by rw [hAf.work]; exact hRA)
    (by rw [hw2, hAf.work]; exact sameRows_of_mem fun _ => Iff.rfl) hk2.2 hA.wf (by rw [hw2]) (by rw [hAf.work]; rfl) ?_
  intro v hv
  have hve := atom_ne_edge hv he
  rw [degOf_del_atom _ _ _ hve, degOf_foldBump, degOf_set_atom _ _ _ _ _ hve, degOf_foldTouch]
  have hnn := hAf.rel.deg v hv
  cases hh : hasV v (setV e 0 ts (e.elems.foldl (touchV ts) A.verts)) with
  | true => simp only [if_true]; omega
  | false =>
    have h0 : degOf v (setV e 0 ts (e.elems.foldl (touchV ts) A.verts)) = 0 := by
      unfold degOf; rw [lookV_none.2 hh]; rfl
    rw [degOf_set_atom _ _ _ _ _ hve, degOf_foldTouch] at h0
    simp only [Bool.false_eq_true, if_false]
    omega

/-- C37, repairing an interrupted addition: if the edge was absent and is (wholly or partly) visible after the
crash, removing it gives back the graph as it was before the addition. -/
theorem C37_repair_add_partial (hV : Vocab V) (ops : List (Op F)) (hops : ∀ op ∈ ops, op.Over V) (auto : Bool) (s : St)
    (hs : runOps ops (St.new auto) = (.ok (), s)) (e : Val F) (he : EdgeOver V e)
    (habs : (hgExists e s).1 = .ok false) (ts : Int) (auto' : Bool)
    (d : DB) (hd : d ∈ crashContents (hgAdd e ts) s) (hex : (hgExists e (reopen d auto')).1 = .ok true) :
    ∃ s2, hgRemove e (reopen d auto') = (.ok (), s2) ∧ SameView V s2 s := by
  obtain ⟨A, hAf⟩ := after_of hV hops hs
  have hA := hAf.ok
  have hm : e ∉ A.edges := by
    have := hAf.shows.exists_ hV he
    rw [this] at habs
    intro h
    have h2 := (hAf.rel.present e).2 h
    rw [h2] at habs
    simp at habs
  obtain ⟨s', e1, w1, c1, hall⟩ := crash_add hV hA (St.usable_of_none hAf.idle) hAf.work hAf.disk he ts
  have hu' : (reopen d auto').usable := St.usable_of_none rfl
  have hRA : RowsOk V A.conc.perms := rowsOk_conc hA
  have hnot : d.perms = A.conc.perms → False := by
    intro hp
    obtain ⟨b, hb, hb2⟩ := exists_rows hV he hu' (by show RowsOk V d.perms; rw [hp]; exact hRA)
    have : b = true := by
      unfold hgExists at hex
      rw [hb] at hex
      simpa using hex
    obtain ⟨n, hn, _⟩ := hb2.1 this
    have hn' : HasRow d.perms e n := hn
    rw [hp, hasRow_conc hV hA he] at hn'
    exact hm hn'.1
  rcases hall d hd with rfl | ⟨_, hst⟩
  · exact absurd rfl hnot
  cases hst with
  | verts l hl => exact absurd rfl hnot
  | rows l hl =>
    exact repair_rows hV hAf he hm hl rfl rfl hex

/-- C37, repairing an interrupted removal: if the edge was present and is not visible after the crash, adding it
again gives back the graph as it was before the removal. -/
theorem C37_repair_remove_partial (hV : Vocab V) (ops : List (Op F)) (hops : ∀ op ∈ ops, op.Over V) (auto : Bool)
    (s : St) (hs : runOps ops (St.new auto) = (.ok (), s)) (e : Val F) (he : EdgeOver V e)
    (hpres : (hgExists e s).1 = .ok true) (ts : Int) (auto' : Bool)
    (d : DB) (hd : d ∈ crashContents (hgRemove e) s) (hex : (hgExists e (reopen d auto')).1 = .ok false) :
    ∃ s2, hgAdd e ts (reopen d auto') = (.ok e, s2) ∧ SameView V s2 s := by
  obtain ⟨A, hAf⟩ := after_of hV hops hs
  have hA := hAf.ok
  have hm : e ∈ A.edges := by
    have := hAf.shows.exists_ hV he
    rw [this] at hpres
    exact (hAf.rel.present e).1 (by simpa using hpres)
  obtain ⟨s', e1, w1, c1, hall⟩ := crash_remove hV hA (St.usable_of_none hAf.idle) hAf.work hAf.disk he
  have hu' : (reopen d auto').usable := St.usable_of_none rfl
  have hRA : RowsOk V A.conc.perms := rowsOk_conc hA
  have hnot : d.perms = A.conc.perms → False := by
    intro hp
    obtain ⟨b, hb, hb2⟩ := exists_rows hV he hu' (by show RowsOk V d.perms; rw [hp]; exact hRA)
    obtain ⟨n, hn, hn2⟩ := pattern_has_row hV he.pattern he
      ((Matches.self_iff (fun p hp => V_ne_none hV (he.mem p hp))).2 rfl)
    have : b = true := hb2.2 ⟨n, by
      show HasRow d.perms e n
      rw [hp, hasRow_conc hV hA he]
      exact ⟨hm, hn⟩, hn2⟩
    unfold hgExists at hex
    rw [hb, this] at hex
    simp at hex
  -- the contents: rows `ps`, vertices `vs`
  have hform : ∃ (vs : List (VEnt F)) (ps : List Str), d = ⟨vs.map VEnt.row, ps⟩ ∧ KeysOk vs ∧ RowsOk V ps ∧
      (∀ r, r ∈ ps ∨ r ∈ rowsOf e.elems ↔ r ∈ A.conc.perms) ∧
      ∀ v : Val F, v.isAtom = true → degOf v vs = degOf v A.verts - e.elems.count v := by
    have hrows : ∀ r ∈ rowsOf e.elems, r ∈ A.conc.perms := by
      intro r hr
      obtain ⟨n, hn, rfl⟩ := mem_rowsOf.1 hr
      exact ((hasRow_conc hV hA he).2 ⟨hm, hn⟩).2
    have hdeg : ∀ v : Val F, v.isAtom = true → degOf v (e.elems.foldl (fun vs v => bumpV (-1) v vs) A.verts) =
        degOf v A.verts - e.elems.count v := by
      intro v hv
      rw [degOf_foldBump]
      cases hh : hasV v A.verts with
      | true => simp only [if_true]; omega
      | false =>
        have h0 : degOf v A.verts = 0 := by unfold degOf; rw [lookV_none.2 hh]; rfl
        have h1 := hAf.rel.deg v hv
        have h2 := occurrences_filter (v := v) hA.nodup hm
        simp only [Bool.false_eq_true, if_false]
        omega
    have hk := KeysOk.foldBump ⟨hA.keys, hA.wf⟩ (-1) e.elems
    rcases hall d hd with rfl | ⟨_, hst⟩
    · exact absurd rfl hnot
    have hmid := midway_rem hV hA hAf.rel hm hst
    cases hst with
    | verts l hl => exact absurd rfl hnot
    | rows l hl =>
      refine ⟨_, _, rfl, hk, hmid.rows, ?_, hdeg⟩
      intro r
      constructor
      · rintro (h | h)
        · exact (List.mem_filter.1 h).1
        · exact hrows r h
      · intro h
        by_cases hr : r ∈ rowsOf e.elems
        · exact .inr hr
        · refine .inl (List.mem_filter.2 ⟨h, ?_⟩)
          simp only [decide_eq_true_eq]
          exact fun h => hr (hl.subset h)
    | done =>
      refine ⟨_, _, rfl, hk.del e, hmid.rows, ?_, ?_⟩
      · intro r
        rw [← rows_of_other hV hA hm]
        constructor
        · rintro (h | h)
          · exact (List.mem_filter.1 h).1
          · exact hrows r h
        · intro h
          by_cases hr : r ∈ rowsOf e.elems
          · exact .inr hr
          · exact .inl (List.mem_filter.2 ⟨h, by simpa using hr⟩)
      · intro v hv
        rw [degOf_del_atom _ _ _ (atom_ne_edge hv he)]
        exact hdeg v hv
  obtain ⟨vs, ps, rfl, hk, hRp, hps, hdeg⟩ := hform
  have hexM : existsM e (reopen ⟨vs.map VEnt.row, ps⟩ auto') = (.ok false, reopen ⟨vs.map VEnt.row, ps⟩ auto') := by
    obtain ⟨b, hb, _⟩ := exists_rows hV he hu' hRp
    unfold hgExists at hex
    rw [hb] at hex ⊢
    have : b = false := by simpa using hex
    rw [this]
  obtain ⟨ps', hps', hrun⟩ := add_from hV hk he ts hu' rfl hexM
  obtain ⟨s2, e2, st2⟩ := hrun
  refine ⟨s2, e2, ?_⟩
  have hmem : ∀ r, r ∈ ps' ↔ r ∈ A.conc.perms := fun r => (hps' r).trans (hps r)
  have hw2 := st2.work
  have hk2 := (KeysOk.foldTouch hk ts (edge_wf hV he)).set (he.wf hV) 0 ts
  refine sameView_rows hV st2.cur hAf.idle (by rw [hw2]; intro r hr; exact hRA r ((hmem r).1 hr))
    (by rw [hAf.work]; exact hRA)
    (by rw [hw2, hAf.work]; exact sameRows_of_mem hmem) hk2.2 hA.wf (by rw [hw2]) (by rw [hAf.work]; rfl) ?_
  intro v hv
  rw [degOf_set_atom _ _ _ _ _ (atom_ne_edge hv he), degOf_foldTouch, hdeg v hv]
  omega

/-! ### counterexamples to the full property -/

/-- C37 is false: a crash during an addition can leave an edge that exists, but that `star` of one of its own
elements does not return. -/
theorem C37_half_indexed_counterexample : ∃ d ∈ crashContents (hgAdd exE3 12) (St.new false),
    (hgExists exE3 (reopen d false)).1 = .ok true ∧ (hgStar (.int 7) (reopen d false)).1 = .ok ([] : List HVal) := by
  refine ⟨⟨[⟨lit "size", 1, 12⟩, ⟨lit "sky/1", 1, 12⟩, ⟨lit "7", 1, 12⟩, ⟨lit "(size sky/1 7)", 0, 12⟩],
    [lit "size sky/1 7 0"]⟩, ?_⟩
  decide +kernel

/-- C37 is false: a crash during an addition can leave the edge absent with degrees already counted; adding it
again then counts them twice. -/
theorem C37_double_count_counterexample : ∃ d ∈ crashContents (hgAdd exE3 12) (St.new false), ∃ s',
    (hgExists exE3 (reopen d false)).1 = .ok false ∧ hgAdd exE3 13 (reopen d false) = (.ok exE3, s') ∧
    (hgDegree (sy "size") s').1 = .ok 2 ∧ (hgStar (sy "size") s').1 = .ok [exE3] := by
  refine ⟨⟨[⟨lit "size", 1, 12⟩], []⟩, by decide +kernel,
    (hgAdd exE3 13 (reopen ⟨[⟨lit "size", 1, 12⟩], []⟩ false)).2, ?_⟩
  decide +kernel

/-- C37 is false: a crash during a removal can leave an edge that does not exist, is nevertheless returned by
`star`, and cannot be removed any more. -/
theorem C37_zombie_counterexample : ∃ s, hgAdd exE3 12 (St.new false) = (.ok exE3, s) ∧
    ∃ d ∈ crashContents (hgRemove exE3) s, ∃ s',
    (hgExists exE3 (reopen d false)).1 = .ok false ∧ hgRemove exE3 (reopen d false) = (.ok (), s') ∧
    (hgStar (sy "sky/1") s').1 = .ok [exE3] := by
  refine ⟨(hgAdd exE3 12 (St.new false)).2, by decide +kernel,
    ⟨[⟨lit "size", 0, 12⟩, ⟨lit "sky/1", 0, 12⟩, ⟨lit "7", 0, 12⟩, ⟨lit "(size sky/1 7)", 0, 12⟩],
    [lit "size 7 sky/1 1", lit "sky/1 size 7 2", lit "sky/1 7 size 3", lit "7 size sky/1 4", lit "7 sky/1 size 5"]⟩,
    by decide +kernel,
    (hgRemove exE3 (reopen ⟨[⟨lit "size", 0, 12⟩, ⟨lit "sky/1", 0, 12⟩, ⟨lit "7", 0, 12⟩, ⟨lit "(size sky/1 7)", 0, 12⟩],
    [lit "size 7 sky/1 1", lit "sky/1 size 7 2", lit "sky/1 7 size 3", lit "7 size sky/1 4", lit "7 sky/1 size 5"]⟩
    false)).2, ?_⟩
  decide +kernel

/-- The hypotheses of the partial theorems are met: after the example history, an addition with fifteen crash
contents, in some of which the edge is visible, and a removal in some of whose crash contents it is not. -/
example : ∃ s, runOps exOps (St.new false) = (.ok (), s) ∧
    ((crashContents (hgAdd exE4 20) s).map fun d => (hgExists exE4 (reopen d false)).1).contains (.ok true) ∧
    (hgExists exE4 s).1 = .ok false ∧ (hgExists exE3 s).1 = .ok true ∧
    ((crashContents (hgRemove exE3) s).map fun d => (hgExists exE3 (reopen d false)).1).contains (.ok false) := by
  refine ⟨(runOps exOps (St.new false)).2, ?_⟩
  decide +kernel

end GB
