import Verif.Proofs.Rel
import Verif.Model.History

/-! Histories of operations. -/

set_option linter.unusedSectionVars false

namespace GB

variable {F : Type} [PyFloat F] [DecidableEq F] {V : Val F → Prop}

/-! ### sources -/

theorem support_over {src e : Val F} (h : BeliefOver V src e) : EdgeOver V (support e src) := by
  refine ⟨.str (lit "src/1"), [e, src], rfl, by simp, rfl, ?_⟩
  intro x hx
  simp only [List.mem_cons, List.not_mem_nil, or_false] at hx
  rcases hx with rfl | rfl | rfl
  · exact h.srcConst
  · exact h.fact
  · exact h.src

theorem support_inj {e e' s s' : Val F} (h : support e s = support e' s') : e = e' ∧ s = s' := by
  simpa [support] using h

theorem matches_support {e : Val F} (hne : e ≠ .none) {xs : List (Val F)} :
    Matches [.str (lit "src/1"), e, .none] xs ↔ ∃ s, xs = [.str (lit "src/1"), e, s] := by
  match xs with
  | [] => simp [Matches]
  | [a] => simp [Matches]
  | [a, b] => simp [Matches]
  | [a, b, c] => simp [Matches, hne, eq_comm]
  | a :: b :: c :: d :: l => simp [Matches]

theorem sources_run (hV : Vocab V) {A : Abs F} (hA : AbsOk V A) {e : Val F}
    (hc : V (.str (lit "src/1"))) (he : V e) {s : St} (hu : s.usable) (hw : s.work = A.conc) :
    ∃ res, hgSources e s = (.ok res, s) ∧ res.Nodup ∧ ∀ x, x ∈ res ↔ support e x ∈ A.edges := by
  have hpat : PatternOver V [.str (lit "src/1"), e, .none] := by
    refine ⟨?_, [], .str (lit "src/1"), [e, .none], rfl, by simp, rfl⟩
    intro p hp
    simp only [List.mem_cons, List.not_mem_nil, or_false] at hp
    rcases hp with rfl | rfl | rfl
    · exact .inr hc
    · exact .inr he
    · exact .inl rfl
  obtain ⟨res, hres, hnd, hmem⟩ := pattern2edges_run hV hA (b := false) hpat hu hw
  have hne := V_ne_none hV he
  have hform : ∀ x ∈ res, ∃ y, x = support e y := by
    intro x hx
    obtain ⟨h1, h2⟩ := (hmem x).1 hx
    obtain ⟨y, hy⟩ := (matches_support hne).1 h2
    exact ⟨y, by rw [(hA.over x h1).tup_elems, hy]; rfl⟩
  obtain ⟨ys, hys, hm⟩ := mapE_spec (f := Val.item2 (F := F)) (xs := res) (by
    intro x hx
    obtain ⟨y, rfl⟩ := hform x hx
    exact ⟨y, rfl⟩)
  have hys_mem : ∀ y, y ∈ ys ↔ support e y ∈ A.edges := by
    intro y
    rw [hm]
    constructor
    · rintro ⟨x, hx, hxy⟩
      obtain ⟨y', rfl⟩ := hform x hx
      have : y' = y := by
        have h2 : (Except.ok y' : Except PyErr (Val F)) = .ok y := hxy
        simpa using h2
      subst this
      exact ((hmem _).1 hx).1
    · intro h
      refine ⟨support e y, (hmem _).2 ⟨h, (matches_support hne).2 ⟨y, rfl⟩⟩, rfl⟩
  have hyV : ∀ y ∈ ys, V y := by
    intro y hy
    have := (hA.over _ ((hys_mem y).1 hy)).mem y (by simp [support, Val.elems])
    exact this
  refine ⟨pySet ys, ?_, ?_, ?_⟩
  · unfold hgSources hgPattern2edges
    rw [show (Val.tup [.str constSource, e, .none] : Val F) = .seq false [.str (lit "src/1"), e, .none] from rfl,
      bind_run _ _ _ hres, bind_run _ _ _ (liftE_ok hys s)]
    rfl
  · exact pySet_nodup (fun y hy => pyEq_refl (hV.wf y (hyV y hy)))
  · intro x
    rw [mem_pySet (fun a ha b hb => hV.eq a b (hyV a ha) (hyV b hb)), hys_mem]

/-! ### specification lemmas -/

theorem Spec.ext' {S S' : Spec F} (h1 : ∀ x, S.created x = S'.created x) (h2 : ∀ x, S.known x = S'.known x) :
    S = S' := by
  cases S; cases S'
  congr
  · exact funext h1
  · exact funext h2

theorem Spec.foldRemove_created (es : List (Val F)) (S : Spec F) (x : Val F) :
    (es.foldl Spec.remove S).created x = if x ∈ es then none else S.created x := by
  induction es generalizing S with
  | nil => simp
  | cons e es ih =>
    rw [List.foldl_cons, ih]
    have : (S.remove e).created x = if x = e then none else S.created x := by
      unfold Spec.remove
      split
      · rfl
      · rename_i h
        by_cases hx : x = e
        · subst hx
          rw [if_pos rfl]
          cases hc : S.created x with
          | none => rfl
          | some t => simp [hc] at h
        · rw [if_neg hx]
    rw [this]
    by_cases h1 : x ∈ es <;> by_cases h2 : x = e <;> simp [h1, h2]

theorem Spec.remove_known (S : Spec F) (e x : Val F) :
    (S.remove e).known x = if x = e ∧ (S.created x).isSome then none else S.known x := by
  unfold Spec.remove
  split
  · rename_i h
    by_cases hx : x = e
    · subst hx; simp [h]
    · simp [hx]
  · rename_i h
    by_cases hx : x = e
    · subst hx; simp [h]
    · simp [hx]

theorem Spec.foldRemove_known (es : List (Val F)) (S : Spec F) (x : Val F) :
    (es.foldl Spec.remove S).known x = if x ∈ es ∧ (S.created x).isSome then none else S.known x := by
  induction es generalizing S with
  | nil => simp
  | cons e es ih =>
    rw [List.foldl_cons, ih, Spec.remove_known]
    have hcr := Spec.foldRemove_created [e] S x
    simp only [List.foldl_cons, List.foldl_nil, List.mem_singleton] at hcr
    rw [hcr]
    by_cases h1 : x ∈ es <;> by_cases h2 : x = e <;> by_cases h3 : (S.created x).isSome = true <;>
      simp [h1, h2, h3]

open Classical in
theorem Spec.removeWhere_eq {S : Spec F} {P : Val F → Prop} {es : List (Val F)}
    (h : ∀ x, x ∈ es ↔ (S.created x).isSome = true ∧ P x) : es.foldl Spec.remove S = S.removeWhere P := by
  apply Spec.ext'
  · intro x
    rw [Spec.foldRemove_created]
    show _ = if P x then none else S.created x
    by_cases hp : P x
    · rw [if_pos hp]
      by_cases hm : x ∈ es
      · rw [if_pos hm]
      · rw [if_neg hm]
        cases hc : S.created x with
        | none => rfl
        | some t => exact absurd ((h x).2 ⟨by simp [hc], hp⟩) hm
    · rw [if_neg hp, if_neg (fun hm => hp ((h x).1 hm).2)]
  · intro x
    rw [Spec.foldRemove_known]
    show _ = if P x ∧ (S.created x).isSome then none else S.known x
    by_cases hp : P x <;> by_cases hc : (S.created x).isSome = true <;> simp [h, hp, hc]

/-! ### simulation -/

/-- `m` implements `f`: from any state representing `S` it ends without error in one representing
`f S`. -/
def Sim (V : Val F → Prop) (m : M Unit) (f : Spec F → Spec F) : Prop :=
  ∀ (A : Abs F) (S : Spec F) (s : St), AbsOk V A → Rel A S → s.usable → s.work = A.conc →
    ∃ A', AbsOk V A' ∧ Rel A' (f S) ∧ Runs false TT m s () A'.conc

theorem Sim.readonly {α : Type} {m : M α} (h : ∀ (A : Abs F) (s : St), AbsOk V A → s.usable → s.work = A.conc →
    ∃ a, m s = (.ok a, s)) : Sim V (do let _ ← m) id := by
  intro A S s hA hR hu hw
  obtain ⟨a, ha⟩ := h A s hA hu hw
  refine ⟨A, hA, hR, s, ?_, ?_⟩
  · rw [bind_run _ _ _ ha]; rfl
  · rw [← hw]; exact Step.refl s

theorem Query.sim (hV : Vocab V) {q : Query F} (hq : q.Over V) : Sim V q.run id := by
  cases q with
  | «exists» e =>
    exact Sim.readonly fun A s hA hu hw => ⟨_, existsM_run hV hA hq hu hw⟩
  | pattern ps =>
    refine Sim.readonly fun A s hA hu hw => ?_
    obtain ⟨res, h, _⟩ := pattern2edges_run hV hA (b := false) hq hu hw
    exact ⟨res, h⟩
  | star c =>
    refine Sim.readonly fun A s hA hu hw => ?_
    obtain ⟨res, h, _⟩ := star_run hV hA hq.1 hq.2 hu hw
    exact ⟨res, h⟩
  | symbolsWithRoot r =>
    refine Sim.readonly fun A s hA hu hw => ?_
    obtain ⟨res, h, _⟩ := symbolsWithRoot_run hV hA hq.1 hq.2 hu hw
    exact ⟨res, h⟩
  | sources e =>
    refine Sim.readonly fun A s hA hu hw => ?_
    obtain ⟨res, h, _⟩ := sources_run hV hA hq.1 hq.2 hu hw
    exact ⟨res, h⟩
  | fAll =>
    exact Sim.readonly fun A s hA hu hw => ⟨_, fAll_run hA.wf _ hu hw⟩

theorem Sim.remove (hV : Vocab V) {e : Val F} (he : EdgeOver V e) :
    Sim V (hgRemove e) (fun S => S.remove e) := by
  intro A S s hA hR hu hw
  exact ⟨A.remove e, hA.remove e, hR.remove hA e, remove_run hV hA he hu hw (fun _ _ _ => trivial)⟩

theorem removeEach_run (hV : Vocab V) (es : List (Val F)) (hes : ∀ e ∈ es, EdgeOver V e) :
    ∀ (A : Abs F) (s : St), AbsOk V A → s.usable → s.work = A.conc →
    Runs false TT (forEach hgRemove es) s () (es.foldl Abs.remove A).conc := by
  intro A s hA hu hw
  apply Runs.forEachA Abs.conc Abs.remove (AbsOk V) _ A s hA (fun _ _ => trivial) hu hw
  intro e he A hA _ s hu hw
  exact ⟨remove_run hV hA (hes e he) hu hw (fun _ _ _ => trivial), hA.remove e⟩

theorem Prim.sim (hV : Vocab V) {p : Prim F} (hp : p.Over V) : Sim V p.run (fun S => S.prim p) := by
  intro A S s hA hR hu hw
  cases p with
  | add e ts =>
    refine ⟨A.add e ts, hA.add hV hp ts, hR.add hp ts, ?_⟩
    refine Runs.bind (add_run hV hA hp ts hu hw (fun _ _ _ => trivial)) ?_
    intro s1 st1
    exact Runs.pure' () st1.work
  | remove e => exact Sim.remove hV hp A S s hA hR hu hw
  | removeMany es =>
    obtain ⟨h1, h2⟩ := hR.removeAll hA es
    exact ⟨_, h2, h1, removeMany_run hV hA hp.1 hp.2 hu hw⟩
  | removeByPattern ps =>
    obtain ⟨res, hres, _, hmem⟩ := pattern2edges_run hV hA (b := false) hp hu hw
    obtain ⟨h1, h2⟩ := hR.removeAll hA res
    refine ⟨_, h2, ?_, ?_⟩
    · show Rel _ (S.removeWhere fun x => Matches ps x.elems)
      rw [← Spec.removeWhere_eq (es := res)]
      · exact h1
      · intro x; rw [hmem, hR.present]
    · show Runs false TT (hgRemoveByPattern (.tup ps)) s () _
      unfold hgRemoveByPattern hgPattern2edges
      refine Runs.bind ⟨s, hres, Step.refl s⟩ ?_
      intro s1 st1
      exact removeEach_run hV res (fun e he => hA.over e ((hmem e).1 he).1) A s1 hA (st1.usable hu)
        (st1.work.trans hw)
  | removeBelief src e =>
    have hb : BeliefOver V src e := hp
    have hsup := support_over hb
    have hA1 := hA.remove (support e src)
    have hR1 := hR.remove hA (support e src)
    have run1 := remove_run (T := TT) hV hA hsup hu hw (fun _ _ _ => trivial)
    have key : ∀ s1 : St, Step false TT s s1 (A.remove (support e src)).conc →
        ∃ res, hgSources e s1 = (.ok res, s1) ∧
          (res.length = 0 ↔ ¬ ∃ s', (S.remove (support e src)).Present (support e s')) := by
      intro s1 st1
      obtain ⟨res, hres, _, hmem⟩ := sources_run hV hA1 hb.srcConst hb.fact (st1.usable hu) st1.work
      refine ⟨res, hres, ?_⟩
      rw [List.length_eq_zero_iff]
      constructor
      · rintro rfl ⟨s', hs'⟩
        have := (hmem s').2 ((hR1.present _).1 hs')
        simp at this
      · intro h
        rw [List.eq_nil_iff_forall_not_mem]
        intro x hx
        exact h ⟨x, (hR1.present _).2 ((hmem x).1 hx)⟩
    by_cases hex : ∃ s', (S.remove (support e src)).Present (support e s')
    · refine ⟨A.remove (support e src), hA1, ?_, ?_⟩
      · show Rel _ (S.removeBelief src e)
        unfold Spec.removeBelief
        simp only [hex, if_true]
        exact hR1
      · show Runs false TT (hgRemoveBelief src e) s () _
        unfold hgRemoveBelief
        refine Runs.bind run1 ?_
        intro s1 st1
        obtain ⟨res, hres, hz⟩ := key s1 st1
        refine Runs.bind ⟨s1, hres, Step.refl s1⟩ ?_
        intro s2 st2
        have : ¬ res.length = 0 := fun h => hz.1 h hex
        rw [if_neg this]
        exact Runs.pure' () (st2.work.trans st1.work)
    · refine ⟨(A.remove (support e src)).remove e, hA1.remove e, ?_, ?_⟩
      · show Rel _ (S.removeBelief src e)
        unfold Spec.removeBelief
        simp only [hex, if_false]
        exact hR1.remove hA1 e
      · show Runs false TT (hgRemoveBelief src e) s () _
        unfold hgRemoveBelief
        refine Runs.bind run1 ?_
        intro s1 st1
        obtain ⟨res, hres, hz⟩ := key s1 st1
        refine Runs.bind ⟨s1, hres, Step.refl s1⟩ ?_
        intro s2 st2
        rw [if_pos (hz.2 hex)]
        exact remove_run hV hA1 hb.edge (st2.usable (st1.usable hu)) (st2.work.trans st1.work)
          (fun _ _ _ => trivial)
  | destroy =>
    exact ⟨Abs.empty, AbsOk.empty, Rel.empty, destroy_run hu⟩
  | query q => exact Query.sim hV hp A S s hA hR hu hw

theorem Sim.forEach {α : Type} {run : α → M Unit} {f : Spec F → α → Spec F} {xs : List α}
    (h : ∀ x ∈ xs, Sim V (run x) (fun S => f S x)) : Sim V (GB.forEach run xs) (fun S => xs.foldl f S) := by
  induction xs with
  | nil =>
    intro A S s hA hR hu hw
    exact ⟨A, hA, hR, Runs.pure' () hw⟩
  | cons x xs ih =>
    intro A S s hA hR hu hw
    obtain ⟨A1, hA1, hR1, s1, e1, st1⟩ := h x (by simp) A S s hA hR hu hw
    obtain ⟨A2, hA2, hR2, r2⟩ := ih (fun y hy => h y (by simp [hy])) A1 _ s1 hA1 hR1 (st1.usable hu) st1.work
    refine ⟨A2, hA2, hR2, ?_⟩
    obtain ⟨s2, e2, st2⟩ := r2
    exact ⟨s2, by rw [GB.forEach, bind_run _ _ _ e1, e2], st1.trans st2⟩

/-! ### beliefs -/

theorem beliefEdges_single {src e : Val F} (he : EdgeOver V e) :
    beliefEdges src e = .ok (.tup [e, support e src]) := by
  obtain ⟨h, hh, hs⟩ := head0_edge he
  unfold beliefEdges
  rw [hh]
  simp only [bind, Except.bind, hs, Bool.false_eq_true, if_false]
  rfl

theorem beliefEdges_many {src : Val F} {es : List (Val F)} (hne : es ≠ []) (hes : ∀ e ∈ es, EdgeOver V e) :
    beliefEdges src (.seq true es) = .ok (.seq true (es.flatMap fun e => [e, support e src])) := by
  obtain ⟨h, hh, hs⟩ := head0_coll (b := true) hne hes
  unfold beliefEdges
  rw [hh]
  simp only [bind, Except.bind, hs, if_true]
  rfl

/-- Simulation outside batches. -/
def SimTop (V : Val F → Prop) (m : M Unit) (f : Spec F → Spec F) : Prop :=
  ∀ (A : Abs F) (S : Spec F) (s : St), AbsOk V A → Rel A S → s.cur = none → s.work = A.conc →
    ∃ A', AbsOk V A' ∧ Rel A' (f S) ∧ Runs false TT m s () A'.conc

theorem St.usable_of_none {s : St} (h : s.cur = none) : s.usable := by
  unfold St.usable; rw [h]; simp

theorem Sim.top {m : M Unit} {f : Spec F → Spec F} (h : Sim V m f) : SimTop V m f :=
  fun A S s hA hR hc hw => h A S s hA hR (St.usable_of_none hc) hw

theorem SimTop.addMany (hV : Vocab V) {b : Bool} {es : List (Val F)} (hne : es ≠ [])
    (hes : ∀ e ∈ es, EdgeOver V e) (ts : Int) :
    SimTop V (do let _ ← hgAdd (.seq b es) ts) (fun S => es.foldl (fun S e => S.add e ts) S) := by
  intro A S s hA hR hc hw
  obtain ⟨h1, h2⟩ := hR.addAll hV hA ts es hes
  refine ⟨_, h2, h1, ?_⟩
  obtain ⟨s', e, st, _⟩ := addMany_run hV hA (b := b) hne hes ts hc hw
  refine Runs.bind ⟨s', e, st.weaken⟩ ?_
  intro s1 st1
  exact Runs.pure' () st1.work

theorem foldl_flatMap {α β γ : Type} (f : γ → β → γ) (g : α → List β) (xs : List α) (c : γ) :
    (xs.flatMap g).foldl f c = xs.foldl (fun c x => (g x).foldl f c) c := by
  induction xs generalizing c with
  | nil => rfl
  | cons x xs ih => rw [List.flatMap_cons, List.foldl_append, ih]; rfl

theorem batch_sim (hV : Vocab V) {ps : List (Prim F)} (hps : ∀ p ∈ ps, p.Over V) :
    SimTop V (hgBatchExec (ps.map Prim.run)) (fun S => ps.foldl Spec.prim S) := by
  intro A S s hA hR hc hw
  have hf : ∀ x ∈ ps, Sim V (Prim.run x) (fun S => S.prim x) := fun p hp => Prim.sim hV (hps p hp)
  have hsim : Sim V (forEach (fun f => f) (ps.map Prim.run)) (fun S => ps.foldl Spec.prim S) := by
    rw [forEach_map]
    exact Sim.forEach (run := fun p => Prim.run p) (f := Spec.prim) hf
  have hopen : openCursor false s = (.ok .shared, { s with cur := some true }) := by
    unfold openCursor; simp [hc]
  obtain ⟨A', hA', hR', s2, e2, st2⟩ := hsim A S { s with cur := some true } hA hR (by simp [St.usable]) hw
  refine ⟨A', hA', hR', ?_⟩
  have hcur : s2.cur = some true := st2.cur
  have hclose : closeCursor false true s2 = (.ok (), { s2.commit with cur := none }) := by
    unfold closeCursor
    simp [St.commit, hcur]
  refine ⟨{ s2.commit with cur := none }, ?_, ?_⟩
  · unfold hgBatchExec sqlBatchExec
    rw [bind_run _ _ _ hopen, bind_run _ _ _ e2, hclose]
  · obtain ⟨_, l, hl, _⟩ := st2.snaps trivial
    refine ⟨st2.work, hc.symm, st2.auto, fun _ _ => rfl, fun _ h => absurd hc h, fun _ => ⟨trivial, ?_⟩,
      fun _ => .inr trivial⟩
    refine ⟨l ++ [s2.work], ?_, fun _ _ => trivial⟩
    have : s2.commits = s.commits ++ l := hl
    simp [St.commit, this]

theorem Op.sim (hV : Vocab V) {op : Op F} (hop : op.Over V) : SimTop V op.run (fun S => S.op op) := by
  cases op with
  | prim p => exact (Prim.sim hV hop).top
  | addMany es ts => exact SimTop.addMany hV hop.1 hop.2 ts
  | addBelief src e ts =>
    intro A S s hA hR hc hw
    have hb : BeliefOver V src e := hop
    have := SimTop.addMany hV (b := false) (es := [e, support e src]) (by simp) (by
      intro x hx
      simp only [List.mem_cons, List.not_mem_nil, or_false] at hx
      rcases hx with rfl | rfl
      · exact hb.edge
      · exact support_over hb) ts A S s hA hR hc hw
    obtain ⟨A', hA', hR', s', e', st'⟩ := this
    refine ⟨A', hA', hR', s', ?_, st'⟩
    show hgAddBelief src e ts s = _
    unfold hgAddBelief
    rw [bind_run _ _ _ (liftE_ok (beliefEdges_single hb.edge) s)]
    exact e'
  | addBeliefs src es ts =>
    intro A S s hA hR hc hw
    have hb : ∀ e ∈ es, BeliefOver V src e := hop.2
    have hall : ∀ x ∈ es.flatMap (fun e => [e, support e src]), EdgeOver V x := by
      intro x hx
      rw [List.mem_flatMap] at hx
      obtain ⟨e, he, hx⟩ := hx
      simp only [List.mem_cons, List.not_mem_nil, or_false] at hx
      rcases hx with rfl | rfl
      · exact (hb _ he).edge
      · exact support_over (hb _ he)
    have hne : es.flatMap (fun e => [e, support e src]) ≠ [] := by
      have := hop.1
      cases es with
      | nil => contradiction
      | cons e es => simp
    obtain ⟨A', hA', hR', s', e', st'⟩ := SimTop.addMany hV (b := true) hne hall ts A S s hA hR hc hw
    refine ⟨A', hA', ?_, s', ?_, st'⟩
    · have h2 : Rel A' ((es.flatMap fun e => [e, support e src]).foldl (fun S e => S.add e ts) S) := hR'
      rw [foldl_flatMap] at h2
      exact h2
    · show hgAddBelief src (.seq true es) ts s = _
      unfold hgAddBelief
      rw [bind_run _ _ _ (liftE_ok (beliefEdges_many hop.1 (fun e he => (hb e he).edge)) s)]
      exact e'
  | batch ps => exact batch_sim hV hop
  | degree v =>
    intro A S s hA hR hc hw
    refine ⟨A, hA, hR, s, ?_, by rw [← hw]; exact Step.refl s⟩
    show ((do let _ ← sqlDegree v) : M Unit) s = _
    rw [bind_run _ _ _ (degree_run hA.wf hop hc hw)]; rfl
  | timestamp v =>
    intro A S s hA hR hc hw
    refine ⟨A, hA, hR, s, ?_, by rw [← hw]; exact Step.refl s⟩
    show ((do let _ ← sqlTimestamp v) : M Unit) s = _
    rw [bind_run _ _ _ (timestamp_run hA.wf hop hc hw)]; rfl

/-- Every history runs without error and ends in a state that agrees with the specification. -/
theorem runOps_from (hV : Vocab V) (ops : List (Op F)) (hops : ∀ op ∈ ops, op.Over V) :
    ∀ (A : Abs F) (S : Spec F) (s : St), AbsOk V A → Rel A S → s.cur = none → s.work = A.conc →
    ∃ A', AbsOk V A' ∧ Rel A' (ops.foldl Spec.op S) ∧ Runs false TT (runOps ops) s () A'.conc := by
  induction ops with
  | nil =>
    intro A S s hA hR hc hw
    exact ⟨A, hA, hR, Runs.pure' () hw⟩
  | cons op ops ih =>
    intro A S s hA hR hc hw
    obtain ⟨A1, hA1, hR1, s1, e1, st1⟩ := Op.sim hV (hops op (by simp)) A S s hA hR hc hw
    obtain ⟨A2, hA2, hR2, s2, e2, st2⟩ := ih (fun o ho => hops o (by simp [ho])) A1 _ s1 hA1 hR1
      (st1.cur.trans hc) st1.work
    refine ⟨A2, hA2, hR2, s2, ?_, st1.trans st2⟩
    show (forEach Op.run (op :: ops)) s = _
    rw [GB.forEach, bind_run _ _ _ e1]
    exact e2

/-- The state after a history on a new graph. -/
structure After (V : Val F → Prop) (ops : List (Op F)) (auto : Bool) (s : St) (A : Abs F) : Prop where
  run : runOps ops (St.new auto) = (.ok (), s)
  ok : AbsOk V A
  rel : Rel A (Spec.after ops)
  idle : s.cur = none
  work : s.work = A.conc
  disk : s.disk = s.work
  auto : s.autocommit = auto

theorem after_exists (hV : Vocab V) (ops : List (Op F)) (hops : ∀ op ∈ ops, op.Over V) (auto : Bool) :
    ∃ s A, After V ops auto s A := by
  obtain ⟨A, hA, hR, s, e, st⟩ := runOps_from hV ops hops Abs.empty Spec.empty (St.new auto) AbsOk.empty
    Rel.empty rfl rfl
  exact ⟨s, A, e, hA, hR, st.cur, st.work, st.durable (.inl rfl) rfl, st.auto⟩

theorem After.usable {ops : List (Op F)} {auto : Bool} {s : St} {A : Abs F} (h : After V ops auto s A) :
    s.usable := St.usable_of_none h.idle

end GB
