import Verif.Proofs.CountTame
import Verif.Proofs.LimitRun

/-! An addition that counts too far, step by step. -/

set_option linter.unusedSectionVars false

namespace GB

variable {F : Type} [PyFloat F] [DecidableEq F] {V : Val F → Prop} {b : Nat}

/-- The base model with degrees up to `b`. -/
abbrev counting (b : Nat) : Server := Server.sqlite.counts b

theorem degOf_touch1 (ts : Int) (v x : Val F) (vs : List (VEnt F)) :
    degOf v (touchV ts vs x) = degOf v vs + [x].count v := degOf_foldTouch ts v [x] vs

theorem degOf_mem {vs : List (VEnt F)} (hk : KeysOk vs) {r : VEnt F} (hr : r ∈ vs) : degOf r.v vs = r.deg := by
  have hl : lookV r.v vs = some r := by
    have h := hk.1
    unfold lookV
    clear hk
    induction vs with
    | nil => simp at hr
    | cons a vs ih =>
      rw [List.map_cons, List.nodup_cons] at h
      rcases List.mem_cons.1 hr with rfl | hr
      · simp
      · have hne : ¬ a.v = r.v := fun he => h.1 (by rw [he]; exact List.mem_map_of_mem hr)
        rw [List.find?_cons]
        simp only [hne, decide_false]
        exact ih hr h.2
  unfold degOf
  rw [hl]
  rfl

/-- There is room for one more mention. -/
theorem inc_room {vs : List (VEnt F)} (hk : KeysOk vs) {x : Val F} (hx : WfVal x) (h : degOf x vs + 1 ≤ b) {ps : List Str} {s : St}
    (hu : s.usable) (hw : s.work = ⟨vs.map VEnt.row, ps⟩) :
    incDegreeOn (counting b) (edge2str x) s = incDegree (edge2str x) s := by
  unfold incDegreeOn incDegree
  rw [bind_run _ _ _ (openCursor_local s), bind_run _ _ _ (openCursor_local s)]
  have e1 : execWrite s.lcur (fun db => some (db.bumpDegree 1 (edge2str x))) s =
      (.ok (s.work.bumpDegree 1 (edge2str x)).1, s.wr (s.work.bumpDegree 1 (edge2str x)).2) := execWrite_local hu rfl
  have e2 : (counting b).bumpDegree s.lcur 1 (edge2str x) s = execWrite s.lcur (fun db => some (db.bumpDegree 1 (edge2str x))) s := by
    show countBump b (execWrite s.lcur (fun db => some (db.bumpDegree 1 (edge2str x)))) s = _
    unfold countBump
    rw [e1]
    dsimp only
    rw [if_pos]
    rw [List.all_eq_true, wr_work, hw, bump_row hk.2 hx 1 ps]
    intro r hr
    obtain ⟨r', hr', rfl⟩ := List.mem_map.1 hr
    unfold bumpV at hr'
    obtain ⟨r0, hr0, rfl⟩ := List.mem_map.1 hr'
    split
    · next hv =>
      have := degOf_mem hk hr0
      rw [hv] at this
      refine Bool.or_eq_true_iff.2 (.inr (decide_eq_true ?_))
      show r0.deg + 1 ≤ (b : Int)
      omega
    · exact Bool.or_eq_true_iff.2 (.inl (decide_eq_true (List.mem_map_of_mem hr0)))
  rw [e1] at e2
  rw [bind_run _ _ _ e2, bind_run _ _ _ e1]

/-- There is none. -/
theorem inc_full {vs : List (VEnt F)} (hk : KeysOk vs) {x : Val F} (hx : WfVal x) (hb : 1 ≤ b) (h : ¬ degOf x vs + 1 ≤ b) {ps : List Str}
    {s : St} (hu : s.usable) (hw : s.work = ⟨vs.map VEnt.row, ps⟩) :
    incDegreeOn (counting b) (edge2str x) s = (.error .dataError, s) := by
  unfold incDegreeOn
  rw [bind_run _ _ _ (openCursor_local s)]
  have e1 : execWrite s.lcur (fun db => some (db.bumpDegree 1 (edge2str x))) s =
      (.ok (s.work.bumpDegree 1 (edge2str x)).1, s.wr (s.work.bumpDegree 1 (edge2str x)).2) := execWrite_local hu rfl
  have hex : ∃ r ∈ vs, r.v = x := by
    apply Classical.byContradiction
    intro hno
    apply h
    have : degOf x vs = 0 := by
      unfold degOf
      rw [lookV_none.2 (by
        cases hh : hasV x vs with
        | false => rfl
        | true =>
          obtain ⟨r, hr, hrv⟩ := List.any_eq_true.1 hh
          exact absurd ⟨r, hr, of_decide_eq_true hrv⟩ hno)]
      rfl
    omega
  obtain ⟨r, hr, rfl⟩ := hex
  have hd := degOf_mem hk hr
  refine bind_err _ _ _ ?_
  show countBump b (execWrite s.lcur (fun db => some (db.bumpDegree 1 (edge2str r.v)))) s = _
  unfold countBump
  rw [e1]
  dsimp only
  rw [if_neg]
  rw [List.all_eq_true, wr_work, hw, bump_row hk.2 hx 1 ps]
  intro hall
  have hmem : (⟨r.v, r.deg + 1, r.ts⟩ : VEnt F) ∈ bumpV 1 r.v vs := by
    unfold bumpV
    exact List.mem_map.2 ⟨r, hr, by simp⟩
  have := hall _ (List.mem_map_of_mem (f := VEnt.row) hmem)
  rcases Bool.or_eq_true_iff.1 this with this | this
  · obtain ⟨r', hr', heq⟩ := List.mem_map.1 (of_decide_eq_true this)
    simp only [VEnt.row, VRow.mk.injEq] at heq
    have hv : r'.v = r.v := edge2str_inj (hk.2 r' hr') (hk.2 r hr) heq.1
    have h1 := degOf_mem hk hr'
    rw [hv] at h1
    omega
  · have h1 : r.deg + 1 ≤ (b : Int) := of_decide_eq_true this
    omega

theorem addVert_room {vs : List (VEnt F)} (hk : KeysOk vs) {x : Val F} (hx : WfVal x) (h : degOf x vs + 1 ≤ b) (ts : Int) {ps : List Str}
    {s : St} (hu : s.usable) (hw : s.work = ⟨vs.map VEnt.row, ps⟩) : addVertOn (counting b) ts x s = addVert ts x s := by
  have h1 := inc_room hk hx h hu hw
  unfold addVertOn addVert
  cases hm : incDegree (edge2str x) s with
  | mk r s1 =>
    rw [hm] at h1
    cases r with
    | error e => rw [bind_err _ _ _ h1, bind_err _ _ _ hm]
    | ok known => rw [bind_run _ _ _ h1, bind_run _ _ _ hm]; rfl

theorem addVert_full {vs : List (VEnt F)} (hk : KeysOk vs) {x : Val F} (hx : WfVal x) (hb : 1 ≤ b) (h : ¬ degOf x vs + 1 ≤ b) (ts : Int)
    {ps : List Str} {s : St} (hu : s.usable) (hw : s.work = ⟨vs.map VEnt.row, ps⟩) :
    addVertOn (counting b) ts x s = (.error .dataError, s) := by
  unfold addVertOn
  exact bind_err _ _ _ (inc_full hk hx hb h hu hw)

theorem loop_room (ts : Int) (ps : List Str) : ∀ (xs : List (Val F)) (_ : ∀ x ∈ xs, WfVal x) {vs : List (VEnt F)} (_ : KeysOk vs)
    (_ : ∀ x ∈ xs, degOf x vs + xs.count x ≤ b) {s : St} (_ : s.usable) (_ : s.work = ⟨vs.map VEnt.row, ps⟩),
    forEach (addVertOn (counting b) ts) xs s = forEach (addVert ts) xs s
  | [], _, _, _, _, _, _, _ => rfl
  | x :: xs, hwx, vs, hk, hroom, s, hu, hw => by
    have hx := hwx x (by simp)
    have h1 := hroom x (by simp)
    rw [List.count_cons_self] at h1
    have e1 := addVert_room (b := b) hk hx (by omega) ts hu hw
    obtain ⟨s1, e2, st⟩ := addVert_run (q := true) (T := TT) hk.2 hx ts hu hw trivial
    rw [e2] at e1
    rw [forEach, forEach, bind_run _ _ _ e1, bind_run _ _ _ e2]
    refine loop_room ts ps xs (fun y hy => hwx y (by simp [hy])) (hk.touch hx ts) (fun y hy => ?_) (st.usable hu) st.work
    have := hroom y (by simp [hy])
    rw [List.count_cons] at this
    rw [degOf_touch1, List.count_singleton]
    split at this <;> simp_all <;> omega

theorem loop_full (hb : 1 ≤ b) (ts : Int) (ps : List Str) : ∀ (xs : List (Val F)) (_ : ∀ x ∈ xs, WfVal x) {vs : List (VEnt F)}
    (_ : KeysOk vs) (_ : ∃ x ∈ xs, ¬ degOf x vs + xs.count x ≤ b) {s : St} (_ : s.usable) (_ : s.work = ⟨vs.map VEnt.row, ps⟩),
    ∃ (pre : List (Val F)) (x : Val F) (post : List (Val F)) (s' : St), xs = pre ++ x :: post ∧
      forEach (addVertOn (counting b) ts) xs s = (.error .dataError, s') ∧
      Step true TT s s' ⟨(pre.foldl (touchV ts) vs).map VEnt.row, ps⟩ ∧
      (∀ y ∈ pre, degOf y vs + pre.count y ≤ b) ∧ ¬ degOf x vs + pre.count x + 1 ≤ b
  | [], _, _, _, h, _, _, _ => by simp at h
  | x :: xs, hwx, vs, hk, hfull, s, hu, hw => by
    have hx := hwx x (by simp)
    by_cases hroom : degOf x vs + 1 ≤ b
    · have e1 := addVert_room (b := b) hk hx hroom ts hu hw
      obtain ⟨s1, e2, st⟩ := addVert_run (q := true) (T := TT) hk.2 hx ts hu hw trivial
      rw [e2] at e1
      have hcnt : ∀ (y : Val F) (l : List (Val F)), degOf y (touchV ts vs x) + (l.count y : Int) = degOf y vs + ((x :: l).count y : Int) := by
        intro y l
        rw [degOf_touch1, List.count_singleton, List.count_cons]
        split <;> omega
      have hex : ∃ y ∈ xs, ¬ degOf y (touchV ts vs x) + xs.count y ≤ b := by
        obtain ⟨y, hy, hyb⟩ := hfull
        by_cases hyx : y ∈ xs
        · exact ⟨y, hyx, by rw [hcnt]; exact hyb⟩
        · have : y = x := by
            rcases List.mem_cons.1 hy with h | h
            · exact h
            · exact absurd h hyx
          subst this
          rw [List.count_cons_self, List.count_eq_zero.2 hyx] at hyb
          exact absurd hroom (by simpa using hyb)
      obtain ⟨pre, z, post, s2, h1, h2, h3, h4, h5⟩ := loop_full hb ts ps xs (fun y hy => hwx y (by simp [hy])) (hk.touch hx ts) hex
        (st.usable hu) st.work
      refine ⟨x :: pre, z, post, s2, by rw [h1]; rfl, ?_, st.trans h3, ?_, ?_⟩
      · rw [forEach, bind_run _ _ _ e1]; exact h2
      · intro y hy
        rw [← hcnt]
        by_cases hyp : y ∈ pre
        · exact h4 y hyp
        · have : y = x := by
            rcases List.mem_cons.1 hy with h | h
            · exact h
            · exact absurd h hyp
          subst this
          rw [hcnt, List.count_cons_self, List.count_eq_zero.2 hyp]
          omega
      · rw [← hcnt]; exact h5
    · refine ⟨[], x, xs, s, rfl, ?_, ?_, by simp, by simpa using hroom⟩
      · rw [forEach]; exact bind_err _ _ _ (addVert_full hk hx hb hroom ts hu hw)
      · have := Step.refl (q := true) (T := TT) s
        rw [hw] at this
        exact this

end GB
