import Verif.Proofs.View
import Verif.Spec.Calm

/-! Degrees of edges. -/

set_option linter.unusedSectionVars false

namespace GB

variable {F : Type} [PyFloat F] [DecidableEq F] {V : Val F → Prop}

/-- The degree of `v` is right. -/
def DegOk (v : Val F) (A : Abs F) : Prop := degOf v A.verts = occurrences v A.edges

theorem occurrences_zero {v : Val F} {l : List (Val F)} : occurrences v l = 0 ↔ ∀ e ∈ l, v ∉ e.elems := by
  unfold occurrences
  rw [List.sum_eq_zero_iff_forall_eq_nat]
  simp [List.count_eq_zero]

theorem DegOk.add {v : Val F} {A : Abs F} (h : DegOk v A) (e : Val F) (ts : Int)
    (hc : e = v → v ∈ A.edges ∨ ∀ x ∈ A.edges, v ∉ x.elems) : DegOk v (A.add e ts) := by
  unfold Abs.add
  by_cases hm : e ∈ A.edges
  · rw [if_pos hm]; exact h
  · rw [if_neg hm]
    show degOf v (setV e 0 ts (e.elems.foldl (touchV ts) A.verts)) = (occurrences v (A.edges ++ [e]) : Nat)
    by_cases hv : v = e
    · subst hv
      have h0 : occurrences v (A.edges ++ [v]) = 0 := by
        rw [occurrences_zero]
        intro x hx
        rcases List.mem_append.1 hx with hx | hx
        · rcases hc rfl with h' | h'
          · exact absurd h' hm
          · exact h' x hx
        · rw [List.mem_singleton] at hx
          subst hx
          exact not_mem_self x
      rw [h0]
      unfold degOf
      rw [lookV_set, if_pos rfl]; rfl
    · have h1 : degOf v (setV e 0 ts (e.elems.foldl (touchV ts) A.verts)) =
          degOf v (e.elems.foldl (touchV ts) A.verts) := by
        unfold degOf; rw [lookV_set, if_neg hv]
      have h2 : degOf v A.verts = occurrences v A.edges := h
      rw [h1, degOf_foldTouch, h2, occurrences_append]
      simp [occurrences]

theorem DegOk.remove_ne {v : Val F} {A : Abs F} (h : DegOk v A) (hn : A.edges.Nodup) {e : Val F} (hv : v ≠ e) :
    DegOk v (A.remove e) := by
  unfold Abs.remove
  by_cases hm : e ∈ A.edges
  · rw [if_pos hm]
    show degOf v (delV e (e.elems.foldl (fun vs v => bumpV (-1) v vs) A.verts)) =
      ((occurrences v (A.edges.filter fun x => x ≠ e) : Nat) : Int)
    have hocc := occurrences_filter (v := v) hn hm
    have hd : degOf v A.verts = occurrences v A.edges := h
    unfold degOf at hd ⊢
    rw [lookV_del, if_neg hv, lookV_foldBump]
    cases hl : lookV v A.verts with
    | none =>
      rw [hl] at hd
      simp only [Option.map_none, Option.getD_none, Option.map_some, Option.getD_some] at hd ⊢
      omega
    | some r =>
      rw [hl] at hd
      simp only [Option.map_none, Option.getD_none, Option.map_some, Option.getD_some] at hd ⊢
      omega
  · rw [if_neg hm]; exact h

theorem lookV_remove_none {v : Val F} {A : Abs F} (h : lookV v A.verts = none) (e : Val F) :
    lookV v (A.remove e).verts = none := by
  unfold Abs.remove
  split
  · show lookV v (delV e (e.elems.foldl (fun vs v => bumpV (-1) v vs) A.verts)) = none
    rw [lookV_del, lookV_foldBump, h]
    simp
  · exact h

theorem lookV_foldRemove_none {v : Val F} (es : List (Val F)) {A : Abs F} (h : lookV v A.verts = none) :
    lookV v (es.foldl Abs.remove A).verts = none := by
  induction es generalizing A with
  | nil => exact h
  | cons e es ih => exact ih (lookV_remove_none h e)

theorem lookV_foldRemove {v : Val F} (es : List (Val F)) {A : Abs F} (hm : v ∈ A.edges) (h : v ∈ es) :
    lookV v (es.foldl Abs.remove A).verts = none := by
  induction es generalizing A with
  | nil => simp at h
  | cons e es ih =>
    rw [List.foldl_cons]
    by_cases hv : v = e
    · subst hv
      apply lookV_foldRemove_none
      unfold Abs.remove
      rw [if_pos hm]
      show lookV v (delV v _) = none
      rw [lookV_del, if_pos rfl]
    · apply ih
      · unfold Abs.remove
        split
        · simp [hm, hv]
        · exact hm
      · rcases List.mem_cons.1 h with h | h
        · exact absurd h hv
        · exact h

theorem mem_remove {A : Abs F} {e x : Val F} : x ∈ (A.remove e).edges ↔ x ∈ A.edges ∧ x ≠ e := by
  unfold Abs.remove
  split
  · simp
  · rename_i h
    constructor
    · intro hx
      exact ⟨hx, fun h' => h (h' ▸ hx)⟩
    · exact fun h => h.1

theorem mem_foldRemove (es : List (Val F)) {A : Abs F} {x : Val F} :
    x ∈ (es.foldl Abs.remove A).edges ↔ x ∈ A.edges ∧ x ∉ es := by
  induction es generalizing A with
  | nil => simp
  | cons e es ih =>
    rw [List.foldl_cons, ih, mem_remove, List.mem_cons, not_or, and_assoc]

theorem DegOk.removeAll {v : Val F} (es : List (Val F)) {A : Abs F} (hA : AbsOk V A) (h : DegOk v A)
    (hc : v ∈ es → v ∈ A.edges → ∀ x ∈ A.edges, v ∈ x.elems → x ∈ es) : DegOk v (es.foldl Abs.remove A) := by
  by_cases hv : v ∈ es ∧ v ∈ A.edges
  · unfold DegOk degOf
    rw [lookV_foldRemove es hv.2 hv.1]
    have : occurrences v (es.foldl Abs.remove A).edges = 0 := by
      rw [occurrences_zero]
      intro x hx hvx
      obtain ⟨h1, h2⟩ := (mem_foldRemove es).1 hx
      exact h2 (hc hv.1 hv.2 x h1 hvx)
    rw [this]; rfl
  · clear hc
    induction es generalizing A with
    | nil => exact h
    | cons e es ih =>
      rw [List.foldl_cons]
      by_cases hve : v = e
      · subst hve
        have hn : v ∉ A.edges := fun h' => hv ⟨by simp, h'⟩
        have : A.remove v = A := by unfold Abs.remove; rw [if_neg hn]
        rw [this]
        exact ih hA h (fun h' => hn h'.2)
      · apply ih (hA.remove e) (h.remove_ne hA.nodup hve)
        rintro ⟨h1, h2⟩
        exact hv ⟨by simp [h1], (mem_remove.1 h2).1⟩

theorem DegOk.remove {v : Val F} {A : Abs F} (hA : AbsOk V A) (h : DegOk v A) (e : Val F)
    (hc : v = e → v ∈ A.edges → ∀ x ∈ A.edges, v ∈ x.elems → x = e) : DegOk v (A.remove e) := by
  have := DegOk.removeAll [e] hA h (by simpa using hc)
  simpa using this

/-! ### simulation -/

/-- As `Sim`, and the degree of `v` stays right under condition `c`. -/
def SimD (V : Val F → Prop) (v : Val F) (m : M Unit) (f : Spec F → Spec F) (c : Spec F → Prop) : Prop :=
  ∀ (A : Abs F) (S : Spec F) (s : St), AbsOk V A → Rel A S → s.usable → s.work = A.conc → DegOk v A → c S →
    ∃ A', AbsOk V A' ∧ Rel A' (f S) ∧ DegOk v A' ∧ Runs false TT m s () A'.conc

/-- As `SimTop`. -/
def SimTopD (V : Val F → Prop) (v : Val F) (m : M Unit) (f : Spec F → Spec F) (c : Spec F → Prop) : Prop :=
  ∀ (A : Abs F) (S : Spec F) (s : St), AbsOk V A → Rel A S → s.cur = none → s.work = A.conc → DegOk v A → c S →
    ∃ A', AbsOk V A' ∧ Rel A' (f S) ∧ DegOk v A' ∧ Runs false TT m s () A'.conc

theorem SimD.readonly {v : Val F} {α : Type} {m : M α}
    (h : ∀ (A : Abs F) (s : St), AbsOk V A → s.usable → s.work = A.conc →
      ∃ a, m s = (.ok a, s)) : SimD V v (do let _ ← m) id (fun _ => True) := by
  intro A S s hA hR hu hw hd _
  obtain ⟨a, ha⟩ := h A s hA hu hw
  refine ⟨A, hA, hR, hd, s, ?_, ?_⟩
  · rw [bind_run _ _ _ ha]; rfl
  · rw [← hw]; exact Step.refl s

theorem Query.simD (hV : Vocab V) (v : Val F) {q : Query F} (hq : q.Over V) : SimD V v q.run id (fun _ => True) := by
  cases q with
  | «exists» e =>
    exact SimD.readonly fun A s hA hu hw => ⟨_, existsM_run hV hA hq hu hw⟩
  | pattern ps =>
    refine SimD.readonly fun A s hA hu hw => ?_
    obtain ⟨res, h, _⟩ := pattern2edges_run hV hA (b := false) hq hu hw
    exact ⟨res, h⟩
  | star c =>
    refine SimD.readonly fun A s hA hu hw => ?_
    obtain ⟨res, h, _⟩ := star_run hV hA hq.1 hq.2 hu hw
    exact ⟨res, h⟩
  | symbolsWithRoot r =>
    refine SimD.readonly fun A s hA hu hw => ?_
    obtain ⟨res, h, _⟩ := symbolsWithRoot_run hV hA hq.1 hq.2 hu hw
    exact ⟨res, h⟩
  | sources e =>
    refine SimD.readonly fun A s hA hu hw => ?_
    obtain ⟨res, h, _⟩ := sources_run hV hA hq.1 hq.2 hu hw
    exact ⟨res, h⟩
  | fAll =>
    exact SimD.readonly fun A s hA hu hw => ⟨_, fAll_run hA.wf _ hu hw⟩

theorem whole_abs {A : Abs F} {S : Spec F} (hR : Rel A S) {v : Val F} {P : Val F → Prop} (h : S.Whole v P) :
    P v → v ∈ A.edges → ∀ x ∈ A.edges, v ∈ x.elems → P x :=
  fun hp hm x hx hvx => h hp ((hR.present v).2 hm) x ((hR.present x).2 hx) hvx

theorem Prim.simD (hV : Vocab V) (v : Val F) {p : Prim F} (hp : p.Over V) :
    SimD V v p.run (fun S => S.prim p) (fun S => S.Calm v p) := by
  intro A S s hA hR hu hw hd hc
  cases p with
  | add e ts =>
    refine ⟨A.add e ts, hA.add hV hp ts, hR.add hp ts, hd.add e ts ?_, ?_⟩
    · intro hev
      rcases hc hev with h | h
      · exact .inl ((hR.present v).1 h)
      · exact .inr fun x hx hvx => h ⟨x, (hR.present x).2 hx, hvx⟩
    · refine Runs.bind (add_run hV hA hp ts hu hw (fun _ _ _ => trivial)) ?_
      intro s1 st1
      exact Runs.pure' () st1.work
  | remove e =>
    exact ⟨A.remove e, hA.remove e, hR.remove hA e, hd.remove hA e (whole_abs (P := (· = e)) hR hc),
      remove_run hV hA hp hu hw (fun _ _ _ => trivial)⟩
  | removeMany es =>
    obtain ⟨h1, h2⟩ := hR.removeAll hA es
    exact ⟨_, h2, h1, DegOk.removeAll es hA hd (whole_abs hR hc), removeMany_run hV hA hp.1 hp.2 hu hw⟩
  | removeByPattern ps =>
    obtain ⟨res, hres, _, hmem⟩ := pattern2edges_run hV hA (b := false) hp hu hw
    obtain ⟨h1, h2⟩ := hR.removeAll hA res
    refine ⟨_, h2, ?_, DegOk.removeAll res hA hd ?_, ?_⟩
    · show Rel _ (S.removeWhere fun x => Matches ps x.elems)
      rw [← Spec.removeWhere_eq (es := res)]
      · exact h1
      · intro x; rw [hmem, hR.present]
    · intro hv hm x hx hvx
      rw [hmem]
      exact ⟨hx, whole_abs (P := fun x => Matches ps x.elems) hR hc ((hmem v).1 hv).2 hm x hx hvx⟩
    · show Runs false TT (hgRemoveByPattern (.tup ps)) s () _
      unfold hgRemoveByPattern hgPattern2edges
      refine Runs.bind ⟨s, hres, Step.refl s⟩ ?_
      intro s1 st1
      exact removeEach_run hV res (fun e he => hA.over e ((hmem e).1 he).1) A s1 hA (st1.usable hu)
        (st1.work.trans hw)
  | removeBelief src e =>
    have hb : BeliefOver V src e := hp
    have hsup := support_over hb
    have hA1 := hA.remove (support e src)
    have hR1 := hR.remove hA (support e src)
    have hd1 : DegOk v (A.remove (support e src)) := hd.remove hA _ (whole_abs hR hc.1)
    have run1 := remove_run (T := TT) hV hA hsup hu hw (fun _ _ _ => trivial)
    have key : ∀ s1 : St, Step false TT s s1 (A.remove (support e src)).conc →
        ∃ res, hgSources e s1 = (.ok res, s1) ∧
          (res.length = 0 ↔ ¬ ∃ s', (S.remove (support e src)).Present (support e s')) := by
      intro s1 st1
      obtain ⟨res, hres, _, hmem⟩ := sources_run hV hA1 hb.srcConst hb.fact (st1.usable hu) st1.work
      refine ⟨res, hres, ?_⟩
      rw [List.length_eq_zero_iff]
      constructor
      · rintro rfl ⟨s', hs'⟩
        have := (hmem s').2 ((hR1.present _).1 hs')
        simp at this
      · intro h
        rw [List.eq_nil_iff_forall_not_mem]
        intro x hx
        exact h ⟨x, (hR1.present _).2 ((hmem x).1 hx)⟩
    by_cases hex : ∃ s', (S.remove (support e src)).Present (support e s')
    · refine ⟨A.remove (support e src), hA1, ?_, hd1, ?_⟩
      · show Rel _ (S.removeBelief src e)
        unfold Spec.removeBelief
        simp only [hex, if_true]
        exact hR1
      · show Runs false TT (hgRemoveBelief src e) s () _
        unfold hgRemoveBelief
        refine Runs.bind run1 ?_
        intro s1 st1
        obtain ⟨res, hres, hz⟩ := key s1 st1
        refine Runs.bind ⟨s1, hres, Step.refl s1⟩ ?_
        intro s2 st2
        have : ¬ res.length = 0 := fun h => hz.1 h hex
        rw [if_neg this]
        exact Runs.pure' () (st2.work.trans st1.work)
    · refine ⟨(A.remove (support e src)).remove e, hA1.remove e, ?_,
        hd1.remove hA1 e (whole_abs hR1 (hc.2 hex)), ?_⟩
      · show Rel _ (S.removeBelief src e)
        unfold Spec.removeBelief
        simp only [hex, if_false]
        exact hR1.remove hA1 e
      · show Runs false TT (hgRemoveBelief src e) s () _
        unfold hgRemoveBelief
        refine Runs.bind run1 ?_
        intro s1 st1
        obtain ⟨res, hres, hz⟩ := key s1 st1
        refine Runs.bind ⟨s1, hres, Step.refl s1⟩ ?_
        intro s2 st2
        rw [if_pos (hz.2 hex)]
        exact remove_run hV hA1 hb.edge (st2.usable (st1.usable hu)) (st2.work.trans st1.work)
          (fun _ _ _ => trivial)
  | destroy =>
    exact ⟨Abs.empty, AbsOk.empty, Rel.empty, by simp [DegOk, Abs.empty, degOf, lookV, occurrences], destroy_run hu⟩
  | query q => exact Query.simD hV v hp A S s hA hR hu hw hd trivial

theorem SimD.forEach {v : Val F} {xs : List (Prim F)} (hxs : ∀ p ∈ xs, p.Over V) (hV : Vocab V) :
    SimD V v (GB.forEach Prim.run xs) (fun S => xs.foldl Spec.prim S) (fun S => S.CalmAll v xs) := by
  induction xs with
  | nil =>
    intro A S s hA hR hu hw hd _
    exact ⟨A, hA, hR, hd, Runs.pure' () hw⟩
  | cons x xs ih =>
    intro A S s hA hR hu hw hd hc
    obtain ⟨A1, hA1, hR1, hd1, s1, e1, st1⟩ := Prim.simD hV v (hxs x (by simp)) A S s hA hR hu hw hd hc.1
    obtain ⟨A2, hA2, hR2, hd2, r2⟩ := ih (fun y hy => hxs y (by simp [hy])) A1 _ s1 hA1 hR1 (st1.usable hu)
      st1.work hd1 hc.2
    refine ⟨A2, hA2, hR2, hd2, ?_⟩
    obtain ⟨s2, e2, st2⟩ := r2
    exact ⟨s2, by rw [GB.forEach, bind_run _ _ _ e1, e2], st1.trans st2⟩

theorem DegOk.addAll (hV : Vocab V) {v : Val F} (ts : Int) (es : List (Val F)) :
    ∀ {A : Abs F} {S : Spec F}, Rel A S → AbsOk V A → (∀ e ∈ es, EdgeOver V e) → DegOk v A →
      S.CalmAll v (es.map fun e => .add e ts) → DegOk v (es.foldl (fun A e => A.add e ts) A) := by
  induction es with
  | nil => intro A S _ _ _ h _; exact h
  | cons e es ih =>
    intro A S hR hA hes hd hc
    refine ih (S := S.add e ts) (hR.add (hes e (by simp)) ts) (hA.add hV (hes e (by simp)) ts)
      (fun x hx => hes x (by simp [hx])) (hd.add e ts ?_) hc.2
    intro hev
    rcases hc.1 hev with h | h
    · exact .inl ((hR.present v).1 h)
    · exact .inr fun x hx hvx => h ⟨x, (hR.present x).2 hx, hvx⟩

theorem SimTopD.addMany (hV : Vocab V) (v : Val F) {b : Bool} {es : List (Val F)} (hne : es ≠ [])
    (hes : ∀ e ∈ es, EdgeOver V e) (ts : Int) :
    SimTopD V v (do let _ ← hgAdd (.seq b es) ts) (fun S => es.foldl (fun S e => S.add e ts) S)
      (fun S => S.CalmAll v (es.map fun e => .add e ts)) := by
  intro A S s hA hR hc hw hd hcalm
  obtain ⟨h1, h2⟩ := hR.addAll hV hA ts es hes
  refine ⟨_, h2, h1, DegOk.addAll hV ts es hR hA hes hd hcalm, ?_⟩
  obtain ⟨s', e, st, _⟩ := addMany_run hV hA (b := b) hne hes ts hc hw
  refine Runs.bind ⟨s', e, st.weaken⟩ ?_
  intro s1 st1
  exact Runs.pure' () st1.work

theorem batch_simD (hV : Vocab V) (v : Val F) {ps : List (Prim F)} (hps : ∀ p ∈ ps, p.Over V) :
    SimTopD V v (hgBatchExec (ps.map Prim.run)) (fun S => ps.foldl Spec.prim S) (fun S => S.CalmAll v ps) := by
  intro A S s hA hR hc hw hd hcalm
  have hsim := SimD.forEach (v := v) hps hV
  have hopen : openCursor false s = (.ok .shared, { s with cur := some true }) := by
    unfold openCursor; simp [hc]
  obtain ⟨A', hA', hR', hd', s2, e2, st2⟩ := hsim A S { s with cur := some true } hA hR (by simp [St.usable]) hw hd hcalm
  refine ⟨A', hA', hR', hd', ?_⟩
  have hcur : s2.cur = some true := st2.cur
  have hclose : closeCursor false true s2 = (.ok (), { s2.commit with cur := none }) := by
    unfold closeCursor
    simp [St.commit, hcur]
  refine ⟨{ s2.commit with cur := none }, ?_, ?_⟩
  · unfold hgBatchExec sqlBatchExec
    rw [bind_run _ _ _ hopen, forEach_map]
    show (forEach (fun p => Prim.run p) ps >>= _) _ = _
    rw [bind_run _ _ _ e2, hclose]
  · obtain ⟨_, l, hl, _⟩ := st2.snaps trivial
    refine ⟨st2.work, hc.symm, st2.auto, fun _ _ => rfl, fun _ h => absurd hc h, fun _ => ⟨trivial, ?_⟩,
      fun _ => .inr trivial⟩
    refine ⟨l ++ [s2.work], ?_, fun _ _ => trivial⟩
    have : s2.commits = s.commits ++ l := hl
    simp [St.commit, this]

theorem Op.simD (hV : Vocab V) (v : Val F) {op : Op F} (hop : op.Over V) :
    SimTopD V v op.run (fun S => S.op op) (fun S => S.CalmAll v op.steps) := by
  cases op with
  | prim p =>
    intro A S s hA hR hc hw hd hcalm
    exact Prim.simD hV v hop A S s hA hR (St.usable_of_none hc) hw hd hcalm.1
  | addMany es ts => exact SimTopD.addMany hV v hop.1 hop.2 ts
  | addBelief src e ts =>
    intro A S s hA hR hc hw hd hcalm
    have hb : BeliefOver V src e := hop
    have := SimTopD.addMany hV v (b := false) (es := [e, support e src]) (by simp) (by
      intro x hx
      simp only [List.mem_cons, List.not_mem_nil, or_false] at hx
      rcases hx with rfl | rfl
      · exact hb.edge
      · exact support_over hb) ts A S s hA hR hc hw hd hcalm
    obtain ⟨A', hA', hR', hd', s', e', st'⟩ := this
    refine ⟨A', hA', hR', hd', s', ?_, st'⟩
    show hgAddBelief src e ts s = _
    unfold hgAddBelief
    rw [bind_run _ _ _ (liftE_ok (beliefEdges_single hb.edge) s)]
    exact e'
  | addBeliefs src es ts =>
    intro A S s hA hR hc hw hd hcalm
    have hb : ∀ e ∈ es, BeliefOver V src e := hop.2
    have hall : ∀ x ∈ es.flatMap (fun e => [e, support e src]), EdgeOver V x := by
      intro x hx
      rw [List.mem_flatMap] at hx
      obtain ⟨e, he, hx⟩ := hx
      simp only [List.mem_cons, List.not_mem_nil, or_false] at hx
      rcases hx with rfl | rfl
      · exact (hb _ he).edge
      · exact support_over (hb _ he)
    have hne : es.flatMap (fun e => [e, support e src]) ≠ [] := by
      have := hop.1
      cases es with
      | nil => contradiction
      | cons e es => simp
    have hcalm' : S.CalmAll v ((es.flatMap fun e => [e, support e src]).map fun e => .add e ts) := by
      rw [List.map_flatMap]
      exact hcalm
    obtain ⟨A', hA', hR', hd', s', e', st'⟩ := SimTopD.addMany hV v (b := true) hne hall ts A S s hA hR hc hw hd hcalm'
    refine ⟨A', hA', ?_, hd', s', ?_, st'⟩
    · have h2 : Rel A' ((es.flatMap fun e => [e, support e src]).foldl (fun S e => S.add e ts) S) := hR'
      rw [foldl_flatMap] at h2
      exact h2
    · show hgAddBelief src (.seq true es) ts s = _
      unfold hgAddBelief
      rw [bind_run _ _ _ (liftE_ok (beliefEdges_many hop.1 (fun e he => (hb e he).edge)) s)]
      exact e'
  | batch ps => exact batch_simD hV v hop
  | degree w =>
    intro A S s hA hR hc hw hd _
    refine ⟨A, hA, hR, hd, s, ?_, by rw [← hw]; exact Step.refl s⟩
    show ((do let _ ← sqlDegree w) : M Unit) s = _
    rw [bind_run _ _ _ (degree_run hA.wf hop hc hw)]; rfl
  | timestamp w =>
    intro A S s hA hR hc hw hd _
    refine ⟨A, hA, hR, hd, s, ?_, by rw [← hw]; exact Step.refl s⟩
    show ((do let _ ← sqlTimestamp w) : M Unit) s = _
    rw [bind_run _ _ _ (timestamp_run hA.wf hop hc hw)]; rfl

theorem Op.steps_fold (S : Spec F) (op : Op F) : op.steps.foldl Spec.prim S = S.op op := by
  cases op with
  | prim p => rfl
  | addMany es ts => simp only [Op.steps, List.foldl_map]; rfl
  | addBelief src e ts => rfl
  | addBeliefs src es ts => simp only [Op.steps, foldl_flatMap]; rfl
  | batch ps => rfl
  | degree v => rfl
  | timestamp v => rfl

theorem CalmAll.append {S : Spec F} {v : Val F} {ps qs : List (Prim F)} (h : S.CalmAll v (ps ++ qs)) :
    S.CalmAll v ps ∧ (ps.foldl Spec.prim S).CalmAll v qs := by
  induction ps generalizing S with
  | nil => exact ⟨trivial, h⟩
  | cons p ps ih =>
    obtain ⟨h1, h2⟩ := ih h.2
    exact ⟨⟨h.1, h1⟩, h2⟩

theorem runOps_fromD (hV : Vocab V) (v : Val F) (ops : List (Op F)) (hops : ∀ op ∈ ops, op.Over V) :
    ∀ (A : Abs F) (S : Spec F) (s : St), AbsOk V A → Rel A S → s.cur = none → s.work = A.conc → DegOk v A →
      S.CalmAll v (ops.flatMap Op.steps) →
    ∃ A', AbsOk V A' ∧ Rel A' (ops.foldl Spec.op S) ∧ DegOk v A' ∧ Runs false TT (runOps ops) s () A'.conc := by
  induction ops with
  | nil =>
    intro A S s hA hR hc hw hd _
    exact ⟨A, hA, hR, hd, Runs.pure' () hw⟩
  | cons op ops ih =>
    intro A S s hA hR hc hw hd hcalm
    rw [List.flatMap_cons] at hcalm
    obtain ⟨hc1, hc2⟩ := CalmAll.append hcalm
    rw [Op.steps_fold] at hc2
    obtain ⟨A1, hA1, hR1, hd1, s1, e1, st1⟩ := Op.simD hV v (hops op (by simp)) A S s hA hR hc hw hd hc1
    obtain ⟨A2, hA2, hR2, hd2, s2, e2, st2⟩ := ih (fun o ho => hops o (by simp [ho])) A1 _ s1 hA1 hR1
      (st1.cur.trans hc) st1.work hd1 hc2
    refine ⟨A2, hA2, hR2, hd2, s2, ?_, st1.trans st2⟩
    show (forEach Op.run (op :: ops)) s = _
    rw [GB.forEach, bind_run _ _ _ e1]
    exact e2

end GB
