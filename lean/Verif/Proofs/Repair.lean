import Verif.Proofs.Partial
import Verif.Proofs.Quiet

/-! Adding and removing an edge when some rows of it are missing, and views of incomplete indexes. -/

set_option linter.unusedSectionVars false

namespace GB

variable {F : Type} [PyFloat F] [DecidableEq F] {V : Val F → Prop}

theorem degree_rows {vs : List (VEnt F)} (hk : KeysWf vs) {v : Val F} (hv : WfVal v) {s : St}
    (hc : s.cur = none) (hw : s.work.vertices = vs.map VEnt.row) : hgDegree v s = (.ok (degOf v vs), s) := by
  have hu : s.usable := St.usable_of_none hc
  have hsel := selectVertex_row hk hv s.work.perms
  have hww : s.work = ⟨vs.map VEnt.row, s.work.perms⟩ := by rw [← hw]
  rw [← hww] at hsel
  unfold hgDegree sqlDegree
  rw [bind_run _ _ _ (openCursor_local s), bind_run _ _ _ (execRead_local hu _ _)]
  have hl : s.lcur = .own := by unfold St.lcur; rw [hc]
  rw [hl]
  unfold degOf
  cases hr : s.work.selectVertex (edge2str v) with
  | nil =>
    rw [hr] at hsel
    have : lookV v vs = none := by simpa using hsel.symm
    simp only [this]
    rw [bind_run _ _ _ (closeCursor_local s)]
    rfl
  | cons row rows =>
    rw [hr] at hsel
    cases hlk : lookV v vs with
    | none => rw [hlk] at hsel; simp at hsel
    | some r =>
      rw [hlk] at hsel
      simp at hsel
      subst hsel
      rfl

theorem symbols_rows (hV : Vocab V) {root : Str}
    (hr : ∀ c ∈ root, isSpace c = false) (hro : root.head? ≠ some '(')
    {s : St} (hu : s.usable) (hR : RowsOk V s.work.perms) :
    ∃ res, symbolsWithRoot root s = (.ok res, s) ∧ res.Nodup ∧
      ∀ t, t ∈ res ↔ ∃ r ∈ s.work.perms, (root ++ lit "/") <+: r ∧ rowFirstToken r = .ok t := by
  obtain ⟨ch, s0, hs0, hch⟩ : ∃ ch s0, root ++ lit "/" = ch :: s0 ∧ ch ≠ '(' := by
    cases root with
    | nil => exact ⟨'/', [], rfl, by decide⟩
    | cons c r => exact ⟨c, r ++ lit "/", rfl, by simpa using hro⟩
  have hend := strPlus1_slash root
  have key : ∀ e, EdgeOver V e → ∀ n, n < factorial e.elems.length →
      (root ++ lit "/") <+: rowOf e.elems n → ∃ t, rowFirstToken (rowOf e.elems n) = .ok t := by
    intro e hov n hn hpre
    have hperm := permN_perm hn
    cases hpn : permN e.elems n with
    | nil => rw [hpn] at hperm; exact absurd (List.nil_perm.1 hperm) hov.elems_ne
    | cons x r =>
      rw [rowOf, hpn] at hpre
      have hxm : x ∈ e.elems := hperm.subset (by simp [hpn])
      have hxw := hV.wf x (hov.mem x hxm)
      have hxa : x.isAtom = true := by
        rw [hs0] at hpre
        exact atom_of_prefix hxw hch hpre
      have hwall : ∀ y ∈ x :: (r ++ [Val.int (F := F) n]), WfVal y := by
        intro y hy
        rw [← List.cons_append, ← hpn, List.mem_append, List.mem_singleton] at hy
        rcases hy with hy | rfl
        · exact hV.wf y (hov.mem y (hperm.subset hy))
        · exact .int
      refine ⟨edge2str x, ?_⟩
      unfold rowFirstToken
      rw [rowOf, hpn, List.cons_append, splitEdgeStr_nodes hwall hxa]
      rfl
  obtain ⟨ys, hys, hm⟩ := mapE_spec (f := rowFirstToken)
    (xs := s.work.perms.filter (fun r => (root ++ lit "/").isPrefixOf r)) (by
      intro r hr
      rw [List.mem_filter, List.isPrefixOf_iff_prefix] at hr
      obtain ⟨e, n, he, hn, rfl⟩ := hR r hr.1
      exact key e he n hn hr.2)
  refine ⟨strSet ys, ?_, strSet_nodup _, ?_⟩
  · unfold symbolsWithRoot
    rw [bind_run _ _ _ (liftE_ok hend s), bind_run _ _ _ (openCursor_local s),
      bind_run _ _ _ (execRead_local hu _ _)]
    rw [DB.selectRange, selectRange_eq hend]
    rw [bind_run _ _ _ (liftE_ok hys s), bind_run _ _ _ (closeCursor_local s)]
    rfl
  · intro t
    rw [mem_strSet, hm]
    constructor
    · rintro ⟨r, hr, h⟩
      rw [List.mem_filter, List.isPrefixOf_iff_prefix] at hr
      exact ⟨r, hr.1, hr.2, h⟩
    · rintro ⟨r, h1, h2, h3⟩
      exact ⟨r, List.mem_filter.2 ⟨h1, List.isPrefixOf_iff_prefix.2 h2⟩, h3⟩

/-- Sources are read off the index of the support edges. -/
theorem sources_rows (hV : Vocab V) {e : Val F} (hc : V (.str (lit "src/1"))) (he : V e) {s : St} (hu : s.usable)
    (hR : RowsOk V s.work.perms) :
    ∃ res, hgSources e s = (.ok res, s) ∧ res.Nodup ∧
      ∀ x, x ∈ res ↔ EdgeOver V (support e x) ∧ ∃ n, HasRow s.work.perms (support e x) n ∧
        patStart [.str (lit "src/1"), e, .none] <+: rowOf (support e x).elems n := by
  have hpat : PatternOver V [.str (lit "src/1"), e, .none] := by
    refine ⟨?_, [], .str (lit "src/1"), [e, .none], rfl, by simp, rfl⟩
    intro p hp
    simp only [List.mem_cons, List.not_mem_nil, or_false] at hp
    rcases hp with rfl | rfl | rfl
    · exact .inr hc
    · exact .inr he
    · exact .inl rfl
  obtain ⟨res, hres, hnd, hmem⟩ := pattern_rows hV (b := false) hpat hu hR
  have hne := V_ne_none hV he
  have hform : ∀ x ∈ res, ∃ y, x = support e y := by
    intro x hx
    obtain ⟨h1, h2, _⟩ := (hmem x).1 hx
    obtain ⟨y, hy⟩ := (matches_support hne).1 h2
    exact ⟨y, by rw [h1.tup_elems, hy]; rfl⟩
  obtain ⟨ys, hys, hm⟩ := mapE_spec (f := Val.item2 (F := F)) (xs := res) (by
    intro x hx
    obtain ⟨y, rfl⟩ := hform x hx
    exact ⟨y, rfl⟩)
  have hys_mem : ∀ y, y ∈ ys ↔ EdgeOver V (support e y) ∧ ∃ n, HasRow s.work.perms (support e y) n ∧
        patStart [.str (lit "src/1"), e, .none] <+: rowOf (support e y).elems n := by
    intro y
    rw [hm]
    constructor
    · rintro ⟨x, hx, hxy⟩
      obtain ⟨y', rfl⟩ := hform x hx
      have : y' = y := by
        have h2 : (Except.ok y' : Except PyErr (Val F)) = .ok y := hxy
        simpa using h2
      subst this
      exact ⟨((hmem _).1 hx).1, ((hmem _).1 hx).2.2⟩
    · intro h
      refine ⟨support e y, (hmem _).2 ⟨h.1, (matches_support hne).2 ⟨y, rfl⟩, h.2⟩, rfl⟩
  have hyV : ∀ y ∈ ys, V y := by
    intro y hy
    have := ((hys_mem y).1 hy).1.mem y (by simp [support, Val.elems])
    exact this
  refine ⟨pySet ys, ?_, ?_, ?_⟩
  · unfold hgSources hgPattern2edges
    rw [show (Val.tup [.str constSource, e, .none] : Val F) = .seq false [.str (lit "src/1"), e, .none] from rfl,
      bind_run _ _ _ hres, bind_run _ _ _ (liftE_ok hys s)]
    rfl
  · exact pySet_nodup (fun y hy => pyEq_refl (hV.wf y (hyV y hy)))
  · intro x
    rw [mem_pySet (fun a ha b hb => hV.eq a b (hyV a ha) (hyV b hb)), hys_mem]

/-! ### views of incomplete indexes -/

/-- The two indexes have the same rows of edges over the vocabulary. -/
def SameRows (V : Val F → Prop) (ps ps' : List Str) : Prop :=
  ∀ x, EdgeOver V x → ∀ n, HasRow ps x n ↔ HasRow ps' x n

theorem exists_same (hV : Vocab V) {s s' : St} (hc : s.cur = none) (hc' : s'.cur = none)
    (hR : RowsOk V s.work.perms) (hR' : RowsOk V s'.work.perms) {x : Val F} (hx : EdgeOver V x)
    (h : ∀ n, HasRow s.work.perms x n ↔ HasRow s'.work.perms x n) :
    (hgExists x s).1 = (hgExists x s').1 := by
  obtain ⟨b, e1, e2⟩ := exists_rows hV hx (St.usable_of_none hc) hR
  obtain ⟨b', e1', e2'⟩ := exists_rows hV hx (St.usable_of_none hc') hR'
  unfold hgExists
  rw [e1, e1']
  show Except.ok b = Except.ok b'
  congr 1
  rw [Bool.eq_iff_iff, e2, e2']
  simp only [h]

theorem sameView_rows (hV : Vocab V) {s s' : St} (hc : s.cur = none) (hc' : s'.cur = none)
    (hR : RowsOk V s.work.perms) (hR' : RowsOk V s'.work.perms) (h : SameRows V s.work.perms s'.work.perms)
    {vs vs' : List (VEnt F)} (hk : KeysWf vs) (hk' : KeysWf vs') (hw : s.work.vertices = vs.map VEnt.row)
    (hw' : s'.work.vertices = vs'.map VEnt.row)
    (hd : ∀ v : Val F, v.isAtom = true → degOf v vs = degOf v vs') : SameView V s s' := by
  have hu := St.usable_of_none hc
  have hu' := St.usable_of_none hc'
  have hrow : ∀ r, r ∈ s.work.perms ↔ r ∈ s'.work.perms := by
    intro r
    constructor
    · intro hr
      obtain ⟨e, n, he, hn, rfl⟩ := hR r hr
      exact ((h e he n).1 ⟨hn, hr⟩).2
    · intro hr
      obtain ⟨e, n, he, hn, rfl⟩ := hR' r hr
      exact ((h e he n).2 ⟨hn, hr⟩).2
  have hH : ∀ (x : Val F) n, HasRow s'.work.perms x n ↔ HasRow s.work.perms x n := by
    intro x n
    unfold HasRow
    rw [hrow]
  constructor
  · intro x hx
    exact exists_same hV hc hc' hR hR' hx (h x hx)
  · intro ps hp
    refine SameSet.of (pattern_rows hV hp hu hR) ?_
    have := pattern_rows hV (b := false) hp hu' hR'
    simp only [hH] at this
    exact this
  · intro c hcV ha
    refine SameSet.of (star_rows hV hcV ha hu hR) ?_
    have := star_rows hV hcV ha hu' hR'
    simp only [hH] at this
    exact this
  · intro r hr
    refine SameSet.of (symbols_rows hV hr.1 hr.2 hu hR) ?_
    have := symbols_rows hV hr.1 hr.2 hu' hR'
    simp only [← hrow] at this
    exact this
  · intro e h1 h2
    refine SameSet.of (sources_rows hV h1 h2 hu hR) ?_
    simpa only [hH] using sources_rows hV h1 h2 hu' hR'
  · intro v hv ha
    rw [degree_rows hk hv hc hw, degree_rows hk' hv hc' hw', hd v ha]

/-! ### removing and adding an edge of which some rows are missing -/

theorem remove_from (hV : Vocab V) {vs : List (VEnt F)} {ps : List Str} (hk : KeysOk vs) {e : Val F}
    (he : EdgeOver V e) {s : St} (hu : s.usable) (hw : s.work = ⟨vs.map VEnt.row, ps⟩)
    (hex : existsM e s = (.ok true, s)) :
    Runs false TT (sqlRemove e) s ()
      ⟨(delV e (e.elems.foldl (fun vs v => bumpV (-1) v vs) vs)).map VEnt.row, ps.filter fun r => r ∉ rowsOf e.elems⟩ := by
  have hwx : ∀ x ∈ e.elems, WfVal x := edge_wf hV he
  obtain ⟨h, hh, hs⟩ := head0_edge he
  have hstart : sqlRemove e s = (do
      forEach (fun v => do let _ ← decDegree (edge2str v)) e.elems
      removeEdgePermutations e.elems
      removeStr (edge2str e) : M Unit) s := by
    unfold sqlRemove
    rw [bind_run _ _ _ (liftE_ok hh s)]
    simp only [hs, Bool.false_eq_true, if_false]
    unfold removeRaw
    rw [bind_run _ _ _ hex]
    simp only [if_true]
    rw [bind_run _ _ _ (liftE_ok (iter_edge he) s)]
  unfold Runs
  rw [hstart]
  change Runs false TT _ s () _
  have hloop : Runs false TT (forEach (fun v => do let _ ← decDegree (edge2str v)) e.elems) s ()
      ⟨(e.elems.foldl (fun vs v => bumpV (-1) v vs) vs).map VEnt.row, ps⟩ := by
    apply Runs.forEachA (fun vs : List (VEnt F) => (⟨vs.map VEnt.row, ps⟩ : DB))
      (fun vs v => bumpV (-1) v vs) KeysOk _ vs s hk (fun _ _ => trivial) hu hw
    intro x hx vs hvs hTx s hu hw
    refine ⟨?_, hvs.bump (-1) x⟩
    have hb := bump_row hvs.2 (hwx x hx) (-1) ps
    have := decDegree_run (q := false) (T := TT) hu (edge2str x) (by intro _; trivial)
    rw [hw, hb] at this
    refine Runs.bind this ?_
    intro s' st'
    exact Runs.pure' () st'.work
  refine Runs.bind hloop ?_
  intro s3 st3
  have hu3 := st3.usable hu
  have hrows : Runs false TT (removeEdgePermutations e.elems) s3 ()
      ⟨(e.elems.foldl (fun vs v => bumpV (-1) v vs) vs).map VEnt.row, ps.filter fun r => r ∉ rowsOf e.elems⟩ := by
    unfold removeEdgePermutations
    rw [doWithPerms_eq he.elems_ne]
    have := removeRows_run (F := F) (T := TT)
      (vs := (e.elems.foldl (fun vs v => bumpV (-1) v vs) vs).map VEnt.row)
      (ps := ps) (rowsOf e.elems) [] s3 hu3 (by
        rw [st3.work]
        congr 1
        exact (List.filter_eq_self.2 (by simp)).symm)
      (fun l hl => trivial)
    simpa using this
  refine Runs.bind hrows ?_
  intro s4 st4
  have hd := delete_row (KeysOk.foldBump hk (-1) e.elems).2 (he.wf hV) (ps.filter fun r => r ∉ rowsOf e.elems)
  have := removeStr_run (q := false) (T := TT) (st4.usable hu3) (edge2str e) (by intro _; trivial)
  rw [st4.work, hd] at this
  exact this

/-- writing rows some of which may be there -/
theorem writeRows_any {vs : List VRow} (rows : List Str) :
    ∀ (ps : List Str) (s : St), s.usable → s.work = ⟨vs, ps⟩ →
    ∃ ps', (∀ r, r ∈ ps' ↔ r ∈ ps ∨ r ∈ rows) ∧
      Runs false TT (forEach (writeEdgePermutation (F := F)) rows) s () ⟨vs, ps'⟩ := by
  induction rows with
  | nil => intro ps s _ hw; exact ⟨ps, by simp, Runs.pure' () hw⟩
  | cons r rows ih =>
    intro ps s hu hw
    have h1 := upsertPerm_run (q := false) (T := TT) hu r (fun _ => trivial)
    obtain ⟨ps1, hps1, hup⟩ : ∃ ps1, (∀ x, x ∈ ps1 ↔ x ∈ ps ∨ x = r) ∧ s.work.upsertPerm r = ⟨vs, ps1⟩ := by
      rw [hw]
      simp only [DB.upsertPerm]
      by_cases hr : r ∈ ps
      · rw [if_pos hr]
        refine ⟨ps, ?_, rfl⟩
        intro x
        constructor
        · exact .inl
        · rintro (h | rfl) <;> assumption
      · rw [if_neg hr]
        exact ⟨ps ++ [r], by simp, rfl⟩
    rw [hup] at h1
    have h1' : Runs false TT (writeEdgePermutation (F := F) r) s () ⟨vs, ps1⟩ := by
      simpa [writeEdgePermutation, edge2str] using h1
    obtain ⟨s1, e1, st1⟩ := h1'
    obtain ⟨ps2, hm, hrun⟩ := ih ps1 s1 (st1.usable hu) st1.work
    refine ⟨ps2, ?_, ?_⟩
    · intro x
      rw [hm, hps1, List.mem_cons]
      constructor
      · rintro ((h | h) | h)
        · exact .inl h
        · exact .inr (.inl h)
        · exact .inr (.inr h)
      · rintro (h | h | h)
        · exact .inl (.inl h)
        · exact .inl (.inr h)
        · exact .inr h
    · obtain ⟨s2, e2, st2⟩ := hrun
      exact ⟨s2, by rw [forEach, bind_run _ _ _ e1, e2], st1.trans st2⟩

theorem add_from (hV : Vocab V) {vs : List (VEnt F)} {ps : List Str} (hk : KeysOk vs) {e : Val F}
    (he : EdgeOver V e) (ts : Int) {s : St} (hu : s.usable) (hw : s.work = ⟨vs.map VEnt.row, ps⟩)
    (hex : existsM e s = (.ok false, s)) :
    ∃ ps', (∀ r, r ∈ ps' ↔ r ∈ ps ∨ r ∈ rowsOf e.elems) ∧
      Runs false TT (sqlAdd e ts) s e ⟨(setV e 0 ts (e.elems.foldl (touchV ts) vs)).map VEnt.row, ps'⟩ := by
  have hwx : ∀ x ∈ e.elems, WfVal x := edge_wf hV he
  obtain ⟨h, hh, hs⟩ := head0_edge he
  have hstart : sqlAdd e ts s = (do
      forEach (addVert ts) e.elems
      addStr (edge2str e) 0 ts
      writeEdgePermutations e.elems
      pure e : M (Val F)) s := by
    unfold sqlAdd
    rw [bind_run _ _ _ (liftE_ok hh s)]
    simp only [hs, Bool.false_eq_true, if_false]
    unfold addRaw
    rw [bind_assoc', bind_run _ _ _ hex]
    simp only [Bool.not_false, if_true, bind_assoc']
    rw [bind_run _ _ _ (liftE_ok (iter_edge he) s)]
    rfl
  have hloop : Runs false TT (forEach (addVert ts) e.elems) s ()
      ⟨(e.elems.foldl (touchV ts) vs).map VEnt.row, ps⟩ := by
    apply Runs.forEachA (fun vs : List (VEnt F) => (⟨vs.map VEnt.row, ps⟩ : DB)) (touchV ts) KeysOk
      _ vs s hk (fun _ _ => trivial) hu hw
    intro x hx vs hvs hTx s hu hw
    exact ⟨addVert_run hvs.2 (hwx x hx) ts hu hw hTx, hvs.touch (hwx x hx) ts⟩
  obtain ⟨s3, e3, st3⟩ := hloop
  have hu3 := st3.usable hu
  have hk3 : KeysOk (e.elems.foldl (touchV ts) vs) := KeysOk.foldTouch hk ts hwx
  have hset := upsert_row hk3.2 (he.wf hV) 0 ts ps
  have hadds : Runs false TT (addStr (edge2str e) 0 ts) s3 ()
      ⟨(setV e 0 ts (e.elems.foldl (touchV ts) vs)).map VEnt.row, ps⟩ := by
    have := upsertVertex_run (q := false) (T := TT) hu3 (edge2str e) 0 ts (fun _ => trivial)
    rw [st3.work, hset] at this
    exact this
  obtain ⟨s4, e4, st4⟩ := hadds
  obtain ⟨ps', hm, hrun⟩ := writeRows_any (F := F) (rowsOf e.elems) ps s4 (st4.usable hu3) st4.work
  obtain ⟨s5, e5, st5⟩ := hrun
  refine ⟨ps', hm, s5, ?_, (st3.trans st4).trans st5⟩
  rw [hstart, bind_run _ _ _ e3, bind_run _ _ _ e4]
  unfold writeEdgePermutations
  rw [doWithPerms_eq he.elems_ne, bind_run _ _ _ e5]
  rfl

end GB
