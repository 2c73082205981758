import Verif.Proofs.Query

/-! Simulation of the mutating methods. -/

set_option linter.unusedSectionVars false

namespace GB

variable {F : Type} [PyFloat F] [DecidableEq F] {V : Val F → Prop}

/-- No condition on committed contents. -/
def TT : DB → Prop := fun _ => True

/-! ### AbsOk is preserved -/

theorem AbsOk.add (hV : Vocab V) {A : Abs F} (hA : AbsOk V A) {e : Val F} (he : EdgeOver V e) (ts : Int) :
    AbsOk V (A.add e ts) := by
  unfold Abs.add
  by_cases h : e ∈ A.edges
  · rw [if_pos h]; exact hA
  · rw [if_neg h]
    have hk : KeysOk (setV e 0 ts (e.elems.foldl (touchV ts) A.verts)) :=
      (KeysOk.foldTouch ⟨hA.keys, hA.wf⟩ ts (fun x hx => hV.wf x (he.mem x hx))).set (he.wf hV) 0 ts
    refine ⟨?_, ?_, hk.1, hk.2⟩
    · show (A.edges ++ [e]).Nodup
      rw [List.nodup_append]
      refine ⟨hA.nodup, by simp, ?_⟩
      intro a ha b hb
      simp at hb; subst hb
      rintro rfl; exact h ha
    · intro x hx
      have hx' : x ∈ A.edges ++ [e] := hx
      simp only [List.mem_append, List.mem_singleton] at hx'
      rcases hx' with hx' | rfl
      · exact hA.over x hx'
      · exact he

theorem AbsOk.remove {A : Abs F} (hA : AbsOk V A) (e : Val F) : AbsOk V (A.remove e) := by
  unfold Abs.remove
  by_cases h : e ∈ A.edges
  · rw [if_pos h]
    have hk : KeysOk (delV e (e.elems.foldl (fun vs v => bumpV (-1) v vs) A.verts)) :=
      (KeysOk.foldBump ⟨hA.keys, hA.wf⟩ (-1) _).del e
    refine ⟨hA.nodup.filter _, ?_, hk.1, hk.2⟩
    intro x hx
    exact hA.over x (List.mem_filter.1 hx).1
  · rw [if_neg h]; exact hA

theorem AbsOk.empty : AbsOk V (Abs.empty : Abs F) :=
  ⟨by simp [Abs.empty], by simp [Abs.empty], by simp [Abs.empty], by simp [Abs.empty]⟩

/-! ### add -/

theorem iter_edge {e : Val F} (he : EdgeOver V e) : e.iter = .ok e.elems := by
  obtain ⟨h, t, rfl, _⟩ := he
  rfl

theorem addRaw_run {q : Bool} {T : DB → Prop} (hV : Vocab V) {A : Abs F} (hA : AbsOk V A) {e : Val F}
    (he : EdgeOver V e) (ts : Int) {s : St} (hu : s.usable) (hw : s.work = A.conc)
    (hT : e ∉ A.edges → ∀ db, AddStage A e ts db → T db) :
    Runs q T (addRaw e ts) s e (A.add e ts).conc := by
  unfold addRaw
  have hex := existsM_run hV hA he hu hw
  have hex' : Runs q T (existsM e) s (decide (e ∈ A.edges)) A.conc :=
    ⟨s, hex, by rw [← hw]; exact Step.refl s⟩
  refine Runs.bind hex' ?_
  intro s1 st1
  by_cases h : e ∈ A.edges
  · have hadd : A.add e ts = A := by unfold Abs.add; rw [if_pos h]
    rw [hadd]
    simp only [h, decide_true, Bool.not_true, Bool.false_eq_true, if_false]
    exact Runs.pure' e st1.work
  · have hadd : (A.add e ts).conc =
        ⟨(setV e 0 ts (e.elems.foldl (touchV ts) A.verts)).map VEnt.row, A.conc.perms ++ rowsOf e.elems⟩ := by
      unfold Abs.add; rw [if_neg h]
      simp [Abs.conc]
    rw [hadd]
    have hT := hT h
    have hwx : ∀ x ∈ e.elems, WfVal x := fun x hx => hV.wf x (he.mem x hx)
    simp only [h, decide_false, Bool.not_false, if_true]
    have hl : Runs q T (liftE e.iter) s1 e.elems A.conc :=
      ⟨s1, liftE_ok (iter_edge he) s1, by rw [← st1.work]; exact Step.refl s1⟩
    refine Runs.bind hl ?_
    intro s2 st2
    have hloop : Runs q T (forEach (addVert ts) e.elems) s2 ()
        ⟨(e.elems.foldl (touchV ts) A.verts).map VEnt.row, A.conc.perms⟩ := by
      apply Runs.forEachA (fun vs : List (VEnt F) => (⟨vs.map VEnt.row, A.conc.perms⟩ : DB)) (touchV ts) KeysOk
        _ A.verts s2 ⟨hA.keys, hA.wf⟩ _ (st2.usable (st1.usable hu)) st2.work
      · intro x hx vs hvs hTx s hu hw
        exact ⟨addVert_run hvs.2 (hwx x hx) ts hu hw hTx, hvs.touch (hwx x hx) ts⟩
      · intro l hl
        exact hT _ (.verts l hl)
    refine Runs.bind hloop ?_
    intro s3 st3
    have hu3 := st3.usable (st2.usable (st1.usable hu))
    have hk3 : KeysOk (e.elems.foldl (touchV ts) A.verts) := KeysOk.foldTouch ⟨hA.keys, hA.wf⟩ ts hwx
    have hset := upsert_row hk3.2 (he.wf hV) 0 ts A.conc.perms
    have hadds : Runs q T (addStr (edge2str e) 0 ts) s3 ()
        ⟨(setV e 0 ts (e.elems.foldl (touchV ts) A.verts)).map VEnt.row, A.conc.perms⟩ := by
      have := upsertVertex_run (q := q) (T := T) hu3 (edge2str e) 0 ts (by
        intro _; rw [st3.work, hset]
        have := hT _ (.rows [] (by simp))
        simpa using this)
      rw [st3.work, hset] at this
      exact this
    refine Runs.bind hadds ?_
    intro s4 st4
    have hwr : Runs q T (writeEdgePermutations e.elems) s4 ()
        ⟨(setV e 0 ts (e.elems.foldl (touchV ts) A.verts)).map VEnt.row, A.conc.perms ++ rowsOf e.elems⟩ := by
      unfold writeEdgePermutations
      rw [doWithPerms_eq he.elems_ne]
      exact writeRows_run _ _ s4 (st4.usable hu3) st4.work (rows_fresh hV hA he h) (rowsOf_nodup hwx)
        (fun l hl => hT _ (.rows l hl))
    refine Runs.bind hwr ?_
    intro s5 st5
    exact Runs.pure' e st5.work

/-! ### remove -/

/-- Contents on the way of removing an edge `e`. -/
inductive RemStage (A : Abs F) (e : Val F) : DB → Prop where
  | verts (l : List (Val F)) : l <+: e.elems →
      RemStage A e ⟨(l.foldl (fun vs v => bumpV (-1) v vs) A.verts).map VEnt.row, A.conc.perms⟩
  | rows (l : List Str) : l <+: rowsOf e.elems →
      RemStage A e ⟨(e.elems.foldl (fun vs v => bumpV (-1) v vs) A.verts).map VEnt.row,
        A.conc.perms.filter fun r => r ∉ l⟩
  | done : RemStage A e (⟨A.edges.filter (fun x => x ≠ e),
      delV e (e.elems.foldl (fun vs v => bumpV (-1) v vs) A.verts)⟩ : Abs F).conc

theorem removeRows_run {T : DB → Prop} {vs : List VRow} {ps : List Str} (rows : List Str) :
    ∀ (done : List Str) (s : St), s.usable → s.work = ⟨vs, ps.filter fun r => r ∉ done⟩ →
    (∀ l, l <+: rows → T ⟨vs, ps.filter fun r => r ∉ done ++ l⟩) →
    Runs false T (forEach (removeEdgePermutation (F := F)) rows) s ()
      ⟨vs, ps.filter fun r => r ∉ done ++ rows⟩ := by
  induction rows with
  | nil => intro done s _ hw _; exact Runs.pure' () (by simpa using hw)
  | cons r rows ih =>
    intro done s hu hw hT
    have hdel : s.work.deletePerm r = ⟨vs, ps.filter fun x => x ∉ done ++ [r]⟩ := by
      rw [hw]
      simp only [DB.deletePerm, List.filter_filter]
      congr 1
      apply List.filter_congr
      intro x _
      simp [and_comm]
    have h1 := removePerm_run (F := F) (T := T) (s := s) r (by
      intro _; rw [hdel]; exact hT [r] (by simp))
    rw [hdel] at h1
    refine Runs.bind h1 ?_
    intro s1 st1
    have := ih (done ++ [r]) s1 (st1.usable hu) st1.work ?_
    · simpa using this
    · intro l hl
      have := hT (r :: l) (by simpa using hl)
      simpa using this

theorem rows_of_other (hV : Vocab V) {A : Abs F} (hA : AbsOk V A) {e : Val F} (he : e ∈ A.edges) :
    (A.conc.perms.filter fun r => r ∉ rowsOf e.elems) =
      (A.edges.filter fun x => x ≠ e).flatMap fun x => rowsOf x.elems := by
  have hov := hA.over e he
  show ((A.edges.flatMap fun x => rowsOf x.elems).filter fun r => r ∉ rowsOf e.elems) = _
  have key : ∀ l : List (Val F), (∀ x ∈ l, EdgeOver V x) →
      ((l.flatMap fun x => rowsOf x.elems).filter fun r => r ∉ rowsOf e.elems) =
      (l.filter fun x => x ≠ e).flatMap fun x => rowsOf x.elems := by
    intro l
    induction l with
    | nil => intro _; rfl
    | cons x l ih =>
      intro hl
      rw [List.flatMap_cons, List.filter_append, ih (fun y hy => hl y (by simp [hy]))]
      by_cases hxe : x = e
      · subst hxe
        rw [List.filter_cons_of_neg (by simp)]
        have : (rowsOf x.elems).filter (fun r => r ∉ rowsOf x.elems) = [] := by
          rw [List.filter_eq_nil_iff]
          intro r hr
          simpa using hr
        rw [this, List.nil_append]
      · rw [List.filter_cons_of_pos (by simpa using hxe), List.flatMap_cons]
        congr 1
        rw [List.filter_eq_self]
        intro r hr
        simp only [decide_eq_true_eq]
        intro hr'
        obtain ⟨n, hn, rfl⟩ := mem_rowsOf.1 hr
        obtain ⟨n', hn', hrow⟩ := mem_rowsOf.1 hr'
        have hox := hl x (by simp)
        have := (rowOf_inj (fun y hy => hV.wf y (hox.mem y hy)) (fun y hy => hV.wf y (hov.mem y hy)) hn hn' hrow).1
        exact hxe (hox.eq_of_elems hov this)
  exact key A.edges hA.over

theorem removeRaw_run {T : DB → Prop} (hV : Vocab V) {A : Abs F} (hA : AbsOk V A) {e : Val F}
    (he : EdgeOver V e) {s : St} (hu : s.usable) (hw : s.work = A.conc)
    (hT : e ∈ A.edges → ∀ db, RemStage A e db → T db) :
    Runs false T (removeRaw e) s () (A.remove e).conc := by
  unfold removeRaw
  have hex := existsM_run hV hA he hu hw
  have hex' : Runs false T (existsM e) s (decide (e ∈ A.edges)) A.conc :=
    ⟨s, hex, by rw [← hw]; exact Step.refl s⟩
  refine Runs.bind hex' ?_
  intro s1 st1
  by_cases h : e ∈ A.edges
  · have hrem : A.remove e = ⟨A.edges.filter (fun x => x ≠ e),
        delV e (e.elems.foldl (fun vs v => bumpV (-1) v vs) A.verts)⟩ := by
      unfold Abs.remove; rw [if_pos h]
    rw [hrem]
    have hT := hT h
    have hwx : ∀ x ∈ e.elems, WfVal x := fun x hx => hV.wf x (he.mem x hx)
    simp only [h, decide_true, if_true]
    have hl : Runs false T (liftE e.iter) s1 e.elems A.conc :=
      ⟨s1, liftE_ok (iter_edge he) s1, by rw [← st1.work]; exact Step.refl s1⟩
    refine Runs.bind hl ?_
    intro s2 st2
    have hloop : Runs false T (forEach (fun v => do let _ ← decDegree (edge2str v)) e.elems) s2 ()
        ⟨(e.elems.foldl (fun vs v => bumpV (-1) v vs) A.verts).map VEnt.row, A.conc.perms⟩ := by
      apply Runs.forEachA (fun vs : List (VEnt F) => (⟨vs.map VEnt.row, A.conc.perms⟩ : DB))
        (fun vs v => bumpV (-1) v vs) KeysOk
        _ A.verts s2 ⟨hA.keys, hA.wf⟩ _ (st2.usable (st1.usable hu)) st2.work
      · intro x hx vs hvs hTx s hu hw
        refine ⟨?_, hvs.bump (-1) x⟩
        have hb := bump_row hvs.2 (hwx x hx) (-1) A.conc.perms
        have := decDegree_run (q := false) (T := T) hu (edge2str x) (by
          intro _; rw [hw, hb]; exact hTx)
        rw [hw, hb] at this
        refine Runs.bind this ?_
        intro s' st'
        exact Runs.pure' () st'.work
      · intro l hl
        exact hT _ (.verts l hl)
    refine Runs.bind hloop ?_
    intro s3 st3
    have hu3 := st3.usable (st2.usable (st1.usable hu))
    have hk3 : KeysOk (e.elems.foldl (fun vs v => bumpV (-1) v vs) A.verts) :=
      KeysOk.foldBump ⟨hA.keys, hA.wf⟩ (-1) _
    have hrows : Runs false T (removeEdgePermutations e.elems) s3 ()
        ⟨(e.elems.foldl (fun vs v => bumpV (-1) v vs) A.verts).map VEnt.row,
          A.conc.perms.filter fun r => r ∉ rowsOf e.elems⟩ := by
      unfold removeEdgePermutations
      rw [doWithPerms_eq he.elems_ne]
      have := removeRows_run (F := F) (T := T)
        (vs := (e.elems.foldl (fun vs v => bumpV (-1) v vs) A.verts).map VEnt.row)
        (ps := A.conc.perms) (rowsOf e.elems) [] s3 hu3 (by
          rw [st3.work]
          congr 1
          exact (List.filter_eq_self.2 (by simp)).symm)
        (fun l hl => by simpa using hT _ (.rows l hl))
      simpa using this
    refine Runs.bind hrows ?_
    intro s4 st4
    have hd := delete_row hk3.2 (he.wf hV) (A.conc.perms.filter fun r => r ∉ rowsOf e.elems)
    have hfin : (⟨(delV e (e.elems.foldl (fun vs v => bumpV (-1) v vs) A.verts)).map VEnt.row,
        A.conc.perms.filter fun r => r ∉ rowsOf e.elems⟩ : DB) =
        (⟨A.edges.filter (fun x => x ≠ e),
          delV e (e.elems.foldl (fun vs v => bumpV (-1) v vs) A.verts)⟩ : Abs F).conc := by
      rw [rows_of_other hV hA h]; rfl
    have := removeStr_run (q := false) (T := T) (st4.usable hu3) (edge2str e) (by
      intro _; rw [st4.work, hd, hfin]; exact hT _ .done)
    rw [st4.work, hd, hfin] at this
    exact this
  · have hrem : A.remove e = A := by unfold Abs.remove; rw [if_neg h]
    rw [hrem]
    simp only [h, decide_false, Bool.false_eq_true, if_false]
    exact Runs.pure' () st1.work

/-! ### public methods -/

theorem head0_edge {e : Val F} (he : EdgeOver V e) : ∃ h, e.head0 = .ok h ∧ h.isSeq = false := by
  obtain ⟨h, t, rfl, _, hh, _⟩ := he
  refine ⟨h, rfl, ?_⟩
  cases h <;> simp_all [Val.isAtom, Val.isSeq]

theorem liftE_runs {α : Type} {q : Bool} {T : DB → Prop} {x : Except PyErr α} {a : α} (h : x = .ok a) (s : St) :
    Runs q T (liftE x) s a s.work := ⟨s, liftE_ok h s, Step.refl s⟩

theorem add_run {q : Bool} {T : DB → Prop} (hV : Vocab V) {A : Abs F} (hA : AbsOk V A) {e : Val F}
    (he : EdgeOver V e) (ts : Int) {s : St} (hu : s.usable) (hw : s.work = A.conc)
    (hT : e ∉ A.edges → ∀ db, AddStage A e ts db → T db) :
    Runs q T (sqlAdd e ts) s e (A.add e ts).conc := by
  unfold sqlAdd
  obtain ⟨h, hh, hs⟩ := head0_edge he
  refine Runs.bind (liftE_runs hh s) ?_
  intro s1 st1
  simp only [hs, Bool.false_eq_true, if_false]
  refine Runs.bind (addRaw_run hV hA he ts (st1.usable hu) (st1.work.trans hw) hT) ?_
  intro s2 st2
  exact Runs.pure' e st2.work

theorem remove_run {T : DB → Prop} (hV : Vocab V) {A : Abs F} (hA : AbsOk V A) {e : Val F}
    (he : EdgeOver V e) {s : St} (hu : s.usable) (hw : s.work = A.conc)
    (hT : e ∈ A.edges → ∀ db, RemStage A e db → T db) :
    Runs false T (sqlRemove e) s () (A.remove e).conc := by
  unfold sqlRemove
  obtain ⟨h, hh, hs⟩ := head0_edge he
  refine Runs.bind (liftE_runs hh s) ?_
  intro s1 st1
  simp only [hs, Bool.false_eq_true, if_false]
  exact removeRaw_run hV hA he (st1.usable hu) (st1.work.trans hw) hT

theorem addAll_run {q : Bool} (hV : Vocab V) (ts : Int) (es : List (Val F)) (hes : ∀ e ∈ es, EdgeOver V e) :
    ∀ (A : Abs F) (s : St), AbsOk V A → s.usable → s.work = A.conc →
    Runs q TT (forEach (fun e => do let _ ← addRaw e ts) es) s () (es.foldl (fun A e => A.add e ts) A).conc := by
  intro A s hA hu hw
  apply Runs.forEachA Abs.conc (fun A e => A.add e ts) (AbsOk V) _ A s hA (fun _ _ => trivial) hu hw
  intro e he A hA _ s hu hw
  refine ⟨?_, hA.add hV (hes e he) ts⟩
  refine Runs.bind (addRaw_run hV hA (hes e he) ts hu hw (fun _ _ _ => trivial)) ?_
  intro s2 st2
  exact Runs.pure' () st2.work

theorem removeAll_run (hV : Vocab V) (es : List (Val F)) (hes : ∀ e ∈ es, EdgeOver V e) :
    ∀ (A : Abs F) (s : St), AbsOk V A → s.usable → s.work = A.conc →
    Runs false TT (forEach removeRaw es) s () (es.foldl Abs.remove A).conc := by
  intro A s hA hu hw
  apply Runs.forEachA Abs.conc Abs.remove (AbsOk V) _ A s hA (fun _ _ => trivial) hu hw
  intro e he A hA _ s hu hw
  exact ⟨removeRaw_run hV hA (hes e he) hu hw (fun _ _ _ => trivial), hA.remove e⟩

theorem head0_coll {b : Bool} {es : List (Val F)} (hne : es ≠ []) (hes : ∀ e ∈ es, EdgeOver V e) :
    ∃ h, (Val.seq b es).head0 = .ok h ∧ h.isSeq = true := by
  cases es with
  | nil => contradiction
  | cons e es =>
    obtain ⟨h, t, rfl, _⟩ := hes e (by simp)
    exact ⟨_, rfl, rfl⟩

/-- Adding a collection outside a batch: one commit at the end. -/
theorem addMany_run (hV : Vocab V) {A : Abs F} (hA : AbsOk V A) {b : Bool} {es : List (Val F)} (hne : es ≠ [])
    (hes : ∀ e ∈ es, EdgeOver V e) (ts : Int) {s : St} (hc : s.cur = none) (hw : s.work = A.conc) :
    ∃ s', sqlAdd (.seq b es) ts s = (.ok (.seq b es), s') ∧
      Step true TT s s' (es.foldl (fun A e => A.add e ts) A).conc ∧ s'.disk = s'.work ∧
      (s.autocommit = false → s'.commits = s.commits ++ [(es.foldl (fun A e => A.add e ts) A).conc]) := by
  obtain ⟨h, hh, hs⟩ := head0_coll (b := b) hne hes
  unfold sqlAdd
  rw [bind_run _ _ _ (liftE_ok hh s)]
  simp only [hs, if_true]
  have hopen : openCursor false s = (.ok .shared, { s with cur := some true }) := by
    unfold openCursor; simp [hc]
  rw [bind_run _ _ _ hopen, bind_run _ _ _ (liftE_ok (x := (Val.seq b es).iter) (a := es) rfl _)]
  obtain ⟨s2, h2, st2⟩ := addAll_run (q := true) hV ts es hes A { s with cur := some true } hA
    (by simp [St.usable]) hw
  rw [bind_run _ _ _ h2]
  have hcur : s2.cur = some true := st2.cur
  have hclose : closeCursor false true s2 = (.ok (), { s2.commit with cur := none }) := by
    unfold closeCursor
    simp [St.commit, hcur]
  rw [bind_run _ _ _ hclose]
  refine ⟨_, rfl, ?_, rfl, ?_⟩
  · obtain ⟨_, l, hl, _⟩ := st2.snaps trivial
    refine ⟨st2.work, hc.symm, st2.auto, fun _ _ => rfl, fun _ h => absurd hc h, fun _ => ⟨trivial, ?_⟩,
      fun _ => .inr trivial⟩
    refine ⟨l ++ [s2.work], ?_, fun _ _ => trivial⟩
    have : s2.commits = s.commits ++ l := hl
    simp [St.commit, this]
  · intro ha
    have := (st2.quiet rfl (by simp) ha).2
    have hcm : s2.commits = s.commits := this
    simp [St.commit, hcm, st2.work]

theorem removeMany_run (hV : Vocab V) {A : Abs F} (hA : AbsOk V A) {b : Bool} {es : List (Val F)}
    (hne : es ≠ []) (hes : ∀ e ∈ es, EdgeOver V e) {s : St} (hu : s.usable) (hw : s.work = A.conc) :
    Runs false TT (sqlRemove (.seq b es)) s () (es.foldl Abs.remove A).conc := by
  obtain ⟨h, hh, hs⟩ := head0_coll (b := b) hne hes
  unfold sqlRemove
  refine Runs.bind (liftE_runs hh s) ?_
  intro s1 st1
  simp only [hs, if_true]
  refine Runs.bind (liftE_runs (x := (Val.seq b es).iter) (a := es) rfl s1) ?_
  intro s2 st2
  exact removeAll_run hV es hes A s2 hA (st2.usable (st1.usable hu)) (st2.work.trans (st1.work.trans hw))

end GB
