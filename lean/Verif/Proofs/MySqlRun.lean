import Verif.Proofs.MySql

/-! Histories on MySQL. -/

set_option linter.unusedSectionVars false

namespace GB

variable {F : Type} [PyFloat F] [DecidableEq F] {V : Val F → Prop}

/-- The texts of what is known are at most `k` characters long. -/
def Spec.Room (k : Nat) (S : Spec F) : Prop :=
  (∀ v, S.known v ≠ none → (edge2str v).length ≤ k) ∧ ∀ e, S.Present e → ∀ r ∈ rowsOf e.elems, r.length ≤ k

/-- Nothing became known or present. -/
def Spec.Less (S' S : Spec F) : Prop :=
  (∀ v, S'.known v ≠ none → S.known v ≠ none) ∧ ∀ e, S'.Present e → S.Present e

theorem Spec.Less.room {k : Nat} {S' S : Spec F} (h : S'.Less S) (hr : S.Room k) : S'.Room k :=
  ⟨fun v hv => hr.1 v (h.1 v hv), fun e he => hr.2 e (h.2 e he)⟩

theorem Spec.Less.refl (S : Spec F) : S.Less S := ⟨fun _ h => h, fun _ h => h⟩

theorem Spec.Less.trans {A B C : Spec F} (h1 : A.Less B) (h2 : B.Less C) : A.Less C :=
  ⟨fun v h => h2.1 v (h1.1 v h), fun v h => h2.2 v (h1.2 v h)⟩

theorem Spec.less_remove (S : Spec F) (e : Val F) : (S.remove e).Less S := by
  unfold Spec.remove
  by_cases h : (S.created e).isSome = true
  · rw [if_pos h]
    refine ⟨fun v hv => ?_, fun x hx => ?_⟩
    · by_cases hve : v = e
      · simp [hve] at hv
      · simpa [hve] using hv
    · by_cases hxe : x = e
      · simp [Spec.Present, hxe] at hx
      · simpa [Spec.Present, hxe] using hx
  · rw [if_neg h]; exact Spec.Less.refl S

theorem Spec.less_foldRemove (es : List (Val F)) (S : Spec F) : (es.foldl Spec.remove S).Less S := by
  induction es generalizing S with
  | nil => exact Spec.Less.refl S
  | cons e es ih => exact (ih (S.remove e)).trans (Spec.less_remove S e)

theorem Spec.less_removeWhere (S : Spec F) (P : Val F → Prop) : (S.removeWhere P).Less S := by
  classical
  unfold Spec.removeWhere
  refine ⟨fun v hv => ?_, fun x hx => ?_⟩
  · by_cases h : P v ∧ (S.created v).isSome = true
    · simp [h] at hv
    · simpa [h] using hv
  · by_cases h : P x
    · simp [Spec.Present, h] at hx
    · simpa [Spec.Present, h] using hx

theorem Spec.Room.add {k : Nat} {S : Spec F} (h : S.Room k) {e : Val F} (he : EdgeOver V e) (hf : KeyFits k e) (ts : Int) :
    (S.add e ts).Room k := by
  unfold Spec.add
  by_cases hc : (S.created e).isSome = true
  · rw [if_pos hc]; exact h
  · rw [if_neg hc]
    refine ⟨fun v hv => ?_, fun x hx => ?_⟩
    · by_cases hve : v = e
      · rw [hve]; exact hf.text
      · by_cases hm : v ∈ e.elems
        · exact hf.elem he v hm
        · exact h.1 v (by simpa [hve, hm] using hv)
    · by_cases hxe : x = e
      · rw [hxe]; exact hf.rows he
      · exact h.2 x (by simpa [Spec.Present, hxe] using hx)

theorem Spec.Room.prim {k : Nat} {S : Spec F} (h : S.Room k) {p : Prim F} (hp : p.Over V)
    (hf : ∀ e ts, p = .add e ts → KeyFits k e) : (S.prim p).Room k := by
  cases p with
  | add e ts => exact h.add hp (hf e ts rfl) ts
  | remove e => exact (Spec.less_remove S e).room h
  | removeMany es => exact (Spec.less_foldRemove es S).room h
  | removeByPattern ps => exact (Spec.less_removeWhere S _).room h
  | removeBelief src e =>
    show (S.removeBelief src e).Room k
    unfold Spec.removeBelief
    simp only
    split
    · exact (Spec.less_remove S _).room h
    · exact ((Spec.less_remove _ e).trans (Spec.less_remove S _)).room h
  | destroy => exact ⟨fun v hv => by simp [Spec.prim, Spec.empty] at hv, fun e he => by simp [Spec.prim, Spec.empty, Spec.Present] at he⟩
  | query q => exact h

/-- The connection shows what both specifications say. -/
structure Sees (V : Val F → Prop) (S : Spec F) (T : Tally F) (s : St) : Prop where
  spec : ∃ A, AbsOk V A ∧ Rel A S ∧ s.work = A.conc
  tally : ∃ B, AbsOk V B ∧ Tallied B T ∧ s.work = B.conc

/-- What is stored about a vertex depends on the tables only. -/
theorem lookV_conc {A B : Abs F} (hA : AbsOk V A) (hB : AbsOk V B) (h : A.conc = B.conc) {v : Val F} (hv : WfVal v) :
    lookV v A.verts = lookV v B.verts := by
  have h1 := selectVertex_row hA.wf hv A.conc.perms
  have h2 := selectVertex_row hB.wf hv B.conc.perms
  have e1 : (⟨A.verts.map VEnt.row, A.conc.perms⟩ : DB) = ⟨B.verts.map VEnt.row, B.conc.perms⟩ := h
  rw [e1, h2] at h1
  cases ha : lookV v A.verts with
  | none =>
    rw [ha] at h1
    cases hb : lookV v B.verts with
    | none => rfl
    | some r => rw [hb] at h1; simp at h1
  | some q =>
    rw [ha] at h1
    cases hb : lookV v B.verts with
    | none => rw [hb] at h1; simp at h1
    | some r =>
      rw [hb] at h1
      simp only [Option.map_some, Option.some.injEq, VEnt.row, VRow.mk.injEq] at h1
      have hq := lookV_v ha
      have hr := lookV_v hb
      cases q; cases r
      simp only at hq hr h1
      simp only [hq, hr, h1]

/-- From the specification to the store. -/
theorem Spec.Room.abs {k : Nat} {A : Abs F} {S : Spec F} (h : S.Room k) (hA : AbsOk V A) (hR : Rel A S) : A.Room k := by
  refine ⟨fun r hr => h.1 r.v ?_, fun e he => h.2 e ((hR.present e).2 he)⟩
  rw [hR.known]
  intro hn
  have : hasV r.v A.verts = false := by
    rw [← lookV_none]
    unfold tsOf at hn
    cases hl : lookV r.v A.verts with
    | none => rfl
    | some q => rw [hl] at hn; simp at hn
  unfold hasV at this
  have := List.any_eq_false.1 this r hr
  simp at this

theorem Sees.noClash (hV : Vocab V) {S : Spec F} {T : Tally F} {s : St} (h : Sees V S T s) {e : Val F}
    (he : EdgeOver V e) {ts : Int} (hc : ¬ Clash S T e ts) {A : Abs F} (hA : AbsOk V A) (hR : Rel A S)
    (hw : s.work = A.conc) : e ∉ A.edges → lookV e A.verts ≠ some ⟨e, 0, ts⟩ := by
  intro hm hl
  obtain ⟨B, hB, hT, hwB⟩ := h.tally
  have hB2 : lookV e B.verts = some ⟨e, 0, ts⟩ := by
    rw [← lookV_conc hA hB (hw.symm.trans hwB) (he.wf hV)]; exact hl
  refine hc ⟨fun hp => hm ((hR.present e).1 hp), ?_, ?_⟩
  · rw [← hT.count, hB2]; rfl
  · rw [hR.known]; unfold tsOf; rw [hl]; rfl

theorem myAdd_single {k : Nat} {e h : Val F} (hh : e.head0 = .ok h) (hs : h.isSeq = false) (ts : Int) :
    myAdd k e ts = (myAddRaw k e ts >>= fun _ => Pure.pure e) := by
  apply funext
  intro s
  unfold myAdd
  rw [hh, bind_run _ _ _ (show GB.liftE (.ok h) s = _ from rfl)]
  simp only [hs, Bool.false_eq_true, if_false]

theorem runs_unique {α : Type} {m : M α} {s : St} {a b : α} {db db' : DB} (h1 : Runs false TT m s a db)
    (h2 : Runs false TT m s b db') : db = db' := by
  obtain ⟨s1, e1, st1⟩ := h1
  obtain ⟨s2, e2, st2⟩ := h2
  have : s1 = s2 := by
    have := e1.symm.trans e2
    simp only [Prod.mk.injEq] at this
    exact this.2
  subst this
  exact st1.work.symm.trans st2.work

theorem forEach_nil_run {α : Type} {f : α → M Unit} {s : St} : forEach f [] s = (.ok (), s) := rfl

theorem forEach_cons_run {α : Type} {f : α → M Unit} {x : α} {xs : List α} {s s1 : St} (h : f x s = (.ok (), s1)) :
    forEach f (x :: xs) s = forEach f xs s1 := by
  rw [forEach, bind_run _ _ _ h]

/-- One batchable call. -/
theorem Prim.same {k : Nat} (hV : Vocab V) {p : Prim F} (hp : p.Over V) {S : Spec F} {T : Tally F} {s : St}
    (h : Sees V S T s) (hu : s.usable) (hr : S.Room k)
    (hc : ∀ e ts, p = .add e ts → KeyFits k e ∧ ¬ Clash S T e ts) :
    p.myRun k s = p.run s ∧ ∃ s1, p.run s = (.ok (), s1) ∧ Sees V (S.prim p) (T.prim p) s1 ∧ s1.cur = s.cur ∧
      (S.prim p).Room k := by
  obtain ⟨A, hA, hR, hw⟩ := h.spec
  obtain ⟨B, hB, hT, hwB⟩ := h.tally
  refine ⟨?_, ?_⟩
  · cases p with
    | add e ts =>
      show (myAdd k e ts >>= fun _ => Pure.pure ()) s = (hgAdd e ts >>= fun _ => Pure.pure ()) s
      obtain ⟨h0, hh, hs⟩ := head0_edge (V := V) hp
      rw [myAdd_single hh hs, hgAdd_single hh hs]
      refine bind_same (bind_same ?_ (fun _ _ _ => rfl)) (fun _ _ _ => rfl)
      exact myAddRaw_same hV hA (hr.abs hA hR) hp (hc e ts rfl).1 ts hu hw
        (h.noClash hV hp (hc e ts rfl).2 hA hR hw)
    | remove e => rfl
    | removeMany es => rfl
    | removeByPattern ps => rfl
    | removeBelief src e => rfl
    | destroy => rfl
    | query q => rfl
  · obtain ⟨A', hA', hR', s1, e1, st1⟩ := Prim.sim hV hp A S s hA hR hu hw
    obtain ⟨B', hB', hT', run2⟩ := Prim.simT hV hp B T s hB hT hu hwB
    refine ⟨s1, e1, ⟨⟨A', hA', hR', st1.work⟩, B', hB', hT', ?_⟩, st1.cur, hr.prim hp fun e ts h => (hc e ts h).1⟩
    exact st1.work.trans (runs_unique ⟨s1, e1, st1⟩ run2)

/-- Several batchable calls. -/
theorem Prim.sameAll {k : Nat} (hV : Vocab V) (ps : List (Prim F)) (hps : ∀ p ∈ ps, p.Over V) :
    ∀ {S : Spec F} {T : Tally F} {s : St}, Sees V S T s → s.usable → S.Room k → Smooth k S T ps →
    forEach (Prim.myRun k) ps s = forEach Prim.run ps s ∧ ∃ s1, forEach Prim.run ps s = (.ok (), s1) ∧
      Sees V (ps.foldl Spec.prim S) (ps.foldl Tally.prim T) s1 ∧ s1.cur = s.cur ∧ (ps.foldl Spec.prim S).Room k := by
  induction ps with
  | nil =>
    intro S T s h hu hr _
    exact ⟨forEach_nil_run.trans forEach_nil_run.symm, s, forEach_nil_run, h, rfl, hr⟩
  | cons p ps ih =>
    intro S T s h hu hr hsm
    rw [Smooth] at hsm
    obtain ⟨e1, s1, r1, h1, hc1, hr1⟩ := Prim.same hV (hps p (by simp)) h hu hr hsm.1
    have hu1 : s1.usable := by unfold St.usable; rw [hc1]; exact hu
    obtain ⟨e2, s2, r2, h2, hc2, hr2⟩ := ih (fun q hq => hps q (by simp [hq])) h1 hu1 hr1 hsm.2
    rw [List.foldl_cons, List.foldl_cons]
    refine ⟨?_, s2, ?_, h2, hc2.trans hc1, hr2⟩
    · rw [forEach_cons_run r1, forEach_cons_run (e1.trans r1)]
      exact e2
    · rw [forEach_cons_run r1]; exact r2

theorem forEach_raw_eq {m : Val F → Int → M (Val F)} {raw : Val F → Int → M (Val F)} {ts : Int} {es : List (Val F)}
    (h : ∀ e ∈ es, m e ts = (raw e ts >>= fun _ => Pure.pure e)) (s : St) :
    forEach (fun e => (do let _ ← raw e ts : M Unit)) es s = forEach (fun e => (do let _ ← m e ts : M Unit)) es s := by
  apply congrFun
  apply forEach_congr
  intro e he
  rw [h e he]
  funext s
  show (raw e ts >>= fun _ => Pure.pure ()) s = ((raw e ts >>= fun _ => Pure.pure e) >>= fun _ => Pure.pure ()) s
  cases hm : raw e ts s with
  | mk a b =>
    cases a with
    | error x => rw [bind_err _ _ _ hm, bind_err _ _ _ (bind_err _ _ _ hm)]
    | ok u =>
      have h1 : (raw e ts >>= fun _ => (Pure.pure e : M (Val F))) s = (.ok e, b) := by rw [bind_run _ _ _ hm]; rfl
      rw [bind_run _ _ _ hm, bind_run _ _ _ h1]

/-- Bulk addition. -/
theorem addMany_same {k : Nat} (hV : Vocab V) {b : Bool} {es : List (Val F)} (hne : es ≠ [])
    (hes : ∀ e ∈ es, EdgeOver V e) (ts : Int) {S : Spec F} {T : Tally F} {s : St} (h : Sees V S T s)
    (hcur : s.cur = none) (hr : S.Room k) (hsm : Smooth k S T (es.map fun e => .add e ts)) :
    myAdd k (.seq b es) ts s = hgAdd (.seq b es) ts s := by
  obtain ⟨h0, hh, hs⟩ := head0_coll (b := b) hne hes
  show _ = sqlAdd (.seq b es) ts s
  unfold myAdd sqlAdd
  rw [bind_run _ _ _ (liftE_ok hh s), bind_run _ _ _ (liftE_ok hh s)]
  simp only [hs, if_true]
  refine bind_same rfl ?_
  intro c s1 h1
  have hopen : openCursor false s = (.ok .shared, { s with cur := some true }) := by
    unfold openCursor; simp [hcur]
  rw [hopen] at h1
  simp only [Prod.mk.injEq, Except.ok.injEq] at h1
  obtain ⟨_, rfl⟩ := h1
  refine bind_same rfl ?_
  intro es' s2 h2
  have : liftE (Val.seq b es).iter { s with cur := some true } = (.ok es, { s with cur := some true }) := rfl
  rw [this] at h2
  simp only [Prod.mk.injEq, Except.ok.injEq] at h2
  obtain ⟨rfl, rfl⟩ := h2
  refine bind_same ?_ (fun _ _ _ => rfl)
  rw [forEach_raw_eq (m := myAdd k) (raw := myAddRaw k) (fun e he => by
      obtain ⟨h0, hh, hs⟩ := head0_edge (hes e he)
      exact myAdd_single hh hs ts),
    forEach_raw_eq (m := hgAdd) (raw := addRaw) (fun e he => by
      obtain ⟨h0, hh, hs⟩ := head0_edge (hes e he)
      exact hgAdd_single hh hs ts)]
  have hps : ∀ p ∈ es.map (fun e => Prim.add e ts), p.Over V := by
    intro p hp
    obtain ⟨e, he, rfl⟩ := List.mem_map.1 hp
    exact hes e he
  have h' : Sees V S T { s with cur := some true } := ⟨h.spec, h.tally⟩
  have := (Prim.sameAll hV _ hps h' (by simp [St.usable]) hr hsm).1
  rw [forEach_map, forEach_map] at this
  exact this

theorem Spec.Room.steps {k : Nat} (ps : List (Prim F)) (hps : ∀ p ∈ ps, p.Over V) :
    ∀ {S : Spec F} {T : Tally F}, S.Room k → Smooth k S T ps → (ps.foldl Spec.prim S).Room k := by
  induction ps with
  | nil => intro S T h _; exact h
  | cons p ps ih =>
    intro S T h hsm
    exact ih (fun q hq => hps q (by simp [hq])) (h.prim (hps p (by simp)) fun e ts he => (hsm.1 e ts he).1) hsm.2

theorem Op.tally_steps (T : Tally F) (op : Op F) : op.steps.foldl Tally.prim T = T.op op := by
  cases op with
  | prim p => rfl
  | addMany es ts => simp only [Op.steps, List.foldl_map]; rfl
  | addBelief src e ts => rfl
  | addBeliefs src es ts => simp only [Op.steps, foldl_flatMap]; rfl
  | batch ps => rfl
  | degree v => rfl
  | timestamp v => rfl

theorem Op.steps_over {op : Op F} (hop : op.Over V) : ∀ p ∈ op.steps, p.Over V := by
  intro p hp
  cases op with
  | prim q => simp [Op.steps] at hp; rw [hp]; exact hop
  | addMany es ts =>
    obtain ⟨e, he, rfl⟩ := List.mem_map.1 hp
    exact hop.2 e he
  | addBelief src e ts =>
    have hb : BeliefOver V src e := hop
    simp only [Op.steps, List.mem_cons, List.not_mem_nil, or_false] at hp
    rcases hp with rfl | rfl
    · exact hb.edge
    · exact support_over hb
  | addBeliefs src es ts =>
    obtain ⟨e, he, hp⟩ := List.mem_flatMap.1 hp
    have hb : BeliefOver V src e := hop.2 e he
    simp only [List.mem_cons, List.not_mem_nil, or_false] at hp
    rcases hp with rfl | rfl
    · exact hb.edge
    · exact support_over hb
  | batch ps => exact hop p hp
  | degree v => simp [Op.steps] at hp
  | timestamp v => simp [Op.steps] at hp

/-- One call. -/
theorem Op.same {k : Nat} (hV : Vocab V) {op : Op F} (hop : op.Over V) {S : Spec F} {T : Tally F} {s : St}
    (h : Sees V S T s) (hcur : s.cur = none) (hr : S.Room k) (hsm : Smooth k S T op.steps) :
    op.myRun k s = op.run s ∧ ∃ s1, op.run s = (.ok (), s1) ∧ Sees V (S.op op) (T.op op) s1 ∧ s1.cur = none ∧
      (S.op op).Room k := by
  refine ⟨?_, ?_⟩
  · cases op with
    | prim p => exact (Prim.same hV hop h (St.usable_of_none hcur) hr hsm.1).1
    | addMany es ts =>
      exact bind_same (addMany_same hV hop.1 hop.2 ts h hcur hr hsm) (fun _ _ _ => rfl)
    | addBelief src e ts =>
      have hb : BeliefOver V src e := hop
      show myAddBelief k src e ts s = hgAddBelief src e ts s
      unfold myAddBelief hgAddBelief
      rw [bind_run _ _ _ (liftE_ok (beliefEdges_single hb.edge) s),
        bind_run _ _ _ (liftE_ok (beliefEdges_single hb.edge) s)]
      refine bind_same (addMany_same hV (b := false) (es := [e, support e src]) (by simp) (by
        intro x hx
        simp only [List.mem_cons, List.not_mem_nil, or_false] at hx
        rcases hx with rfl | rfl
        · exact hb.edge
        · exact support_over hb) ts h hcur hr hsm) (fun _ _ _ => rfl)
    | addBeliefs src es ts =>
      have hb : ∀ e ∈ es, BeliefOver V src e := hop.2
      have hall : ∀ x ∈ es.flatMap (fun e => [e, support e src]), EdgeOver V x := by
        intro x hx
        rw [List.mem_flatMap] at hx
        obtain ⟨e, he, hx⟩ := hx
        simp only [List.mem_cons, List.not_mem_nil, or_false] at hx
        rcases hx with rfl | rfl
        · exact (hb _ he).edge
        · exact support_over (hb _ he)
      have hne : es.flatMap (fun e => [e, support e src]) ≠ [] := by
        have := hop.1
        cases es with
        | nil => contradiction
        | cons e es => simp
      show myAddBelief k src (.seq true es) ts s = hgAddBelief src (.seq true es) ts s
      unfold myAddBelief hgAddBelief
      have hbe := beliefEdges_many (src := src) hop.1 (fun e he => (hb e he).edge)
      rw [bind_run _ _ _ (liftE_ok hbe s), bind_run _ _ _ (liftE_ok hbe s)]
      refine bind_same (addMany_same hV (b := true) hne hall ts h hcur hr ?_) (fun _ _ _ => rfl)
      rw [List.map_flatMap]
      exact hsm
    | batch ps =>
      show hgBatchExec (ps.map (Prim.myRun k)) s = hgBatchExec (ps.map Prim.run) s
      unfold hgBatchExec sqlBatchExec
      refine bind_same rfl ?_
      intro c s1 h1
      have hopen : openCursor false s = (.ok .shared, { s with cur := some true }) := by
        unfold openCursor; simp [hcur]
      rw [hopen] at h1
      simp only [Prod.mk.injEq, Except.ok.injEq] at h1
      obtain ⟨_, rfl⟩ := h1
      refine bind_same ?_ (fun _ _ _ => rfl)
      rw [forEach_map, forEach_map]
      have h' : Sees V S T { s with cur := some true } := ⟨h.spec, h.tally⟩
      exact (Prim.sameAll hV ps hop h' (by simp [St.usable]) hr hsm).1
    | degree v => rfl
    | timestamp v => rfl
  · obtain ⟨A, hA, hR, hw⟩ := h.spec
    obtain ⟨B, hB, hT, hwB⟩ := h.tally
    obtain ⟨A', hA', hR', s1, e1, st1⟩ := Op.sim hV hop A S s hA hR hcur hw
    obtain ⟨B', hB', hT', run2⟩ := Op.simT hV hop B T s hB hT hcur hwB
    refine ⟨s1, e1, ⟨⟨A', hA', hR', st1.work⟩, B', hB', hT', ?_⟩, st1.cur.trans hcur, ?_⟩
    · exact st1.work.trans (runs_unique ⟨s1, e1, st1⟩ run2)
    · rw [← Op.steps_fold]; exact hr.steps _ (Op.steps_over hop) hsm

theorem Smooth.append {k : Nat} {ps qs : List (Prim F)} : ∀ {S : Spec F} {T : Tally F}, Smooth k S T (ps ++ qs) →
    Smooth k S T ps ∧ Smooth k (ps.foldl Spec.prim S) (ps.foldl Tally.prim T) qs := by
  induction ps with
  | nil => intro S T h; exact ⟨trivial, h⟩
  | cons p ps ih =>
    intro S T h
    obtain ⟨h1, h2⟩ := ih h.2
    exact ⟨⟨h.1, h1⟩, h2⟩

theorem myRunOps_same {k : Nat} (hV : Vocab V) (ops : List (Op F)) (hops : ∀ op ∈ ops, op.Over V) :
    ∀ {S : Spec F} {T : Tally F} {s : St}, Sees V S T s → s.cur = none → S.Room k →
    Smooth k S T (ops.flatMap Op.steps) → myRunOps k ops s = runOps ops s := by
  induction ops with
  | nil => intro S T s _ _ _ _; exact forEach_nil_run.trans forEach_nil_run.symm
  | cons op ops ih =>
    intro S T s h hcur hr hsm
    rw [List.flatMap_cons] at hsm
    obtain ⟨hs1, hs2⟩ := hsm.append
    rw [Op.steps_fold, Op.tally_steps] at hs2
    obtain ⟨e1, s1, r1, h1, hc1, hr1⟩ := Op.same hV (hops op (by simp)) h hcur hr hs1
    show forEach (Op.myRun k) (op :: ops) s = forEach Op.run (op :: ops) s
    rw [forEach_cons_run r1, forEach_cons_run (e1.trans r1)]
    exact ih (fun o ho => hops o (by simp [ho])) h1 hc1 hr1 hs2

end GB
