import Verif.Proofs.Calm
import Verif.Spec.Account

/-! The degree of a vertex is its account. -/

set_option linter.unusedSectionVars false

namespace GB

variable {F : Type} [PyFloat F] [DecidableEq F] {V : Val F → Prop}

/-- The stored degree. -/
def lookDeg (v : Val F) (A : Abs F) : Option Int := (lookV v A.verts).map VEnt.deg

theorem account_append (v : Val F) (a b : List (Event F)) (d : Option Int) :
    account v (a ++ b) d = account v b (account v a d) := by
  induction a generalizing d with
  | nil => rfl
  | cons x a ih => cases x <;> exact ih _

theorem lookDeg_foldTouch (ts : Int) (v : Val F) (xs : List (Val F)) (vs : List (VEnt F)) :
    (lookV v (xs.foldl (touchV ts) vs)).map VEnt.deg =
      if v ∈ xs then some (((lookV v vs).map VEnt.deg).getD 0 + xs.count v) else (lookV v vs).map VEnt.deg := by
  induction xs generalizing vs with
  | nil => simp
  | cons x xs ih =>
    rw [List.foldl_cons, ih, List.count_cons, lookV_touch]
    by_cases h : v = x
    · subst h
      cases hl : lookV v vs with
      | none =>
        by_cases hm : v ∈ xs
        · simp [hm]; omega
        · have := List.count_eq_zero_of_not_mem hm
          simp [hm, this]
      | some r =>
        by_cases hm : v ∈ xs
        · simp [hm]; omega
        · have := List.count_eq_zero_of_not_mem hm
          simp [hm, this]
    · have h' : (x == v) = false := by simpa using fun e => h e.symm
      simp [h, h']

theorem lookDeg_add {A : Abs F} {e : Val F} (he : e ∉ A.edges) (ts : Int) (v : Val F) :
    lookDeg v (A.add e ts) = account v [.created e] (lookDeg v A) := by
  unfold Abs.add
  rw [if_neg he]
  show (lookV v (setV e 0 ts (e.elems.foldl (touchV ts) A.verts))).map VEnt.deg = _
  rw [lookV_set]
  by_cases hv : v = e
  · subst hv; simp [account]
  · rw [if_neg hv, lookDeg_foldTouch]
    simp only [account, if_neg (fun h => hv h.symm : ¬ e = v)]
    rfl

theorem lookDeg_remove {A : Abs F} {e : Val F} (he : e ∈ A.edges) (v : Val F) :
    lookDeg v (A.remove e) = account v [.deleted e] (lookDeg v A) := by
  unfold Abs.remove
  rw [if_pos he]
  show (lookV v (delV e (e.elems.foldl (fun vs v => bumpV (-1) v vs) A.verts))).map VEnt.deg = _
  rw [lookV_del]
  by_cases hv : v = e
  · subst hv; simp [account]
  · rw [if_neg hv, lookV_foldBump]
    simp only [account, if_neg (fun h => hv h.symm : ¬ e = v), lookDeg]
    cases lookV v A.verts with
    | none => rfl
    | some r => simp; omega

/-- Deleting one edge after the other. -/
theorem lookDeg_removeAll (es : List (Val F)) {A : Abs F} (hA : AbsOk V A) :
    ∃ l : List (Val F), l.Nodup ∧ (∀ x, x ∈ l ↔ x ∈ es ∧ x ∈ A.edges) ∧
      ∀ v, lookDeg v (es.foldl Abs.remove A) = account v (l.map .deleted) (lookDeg v A) := by
  induction es generalizing A with
  | nil => exact ⟨[], List.nodup_nil, by simp, fun v => rfl⟩
  | cons e es ih =>
    obtain ⟨l, h1, h2, h3⟩ := ih (hA.remove e)
    by_cases he : e ∈ A.edges
    · refine ⟨e :: l, List.nodup_cons.mpr ⟨fun h => ?_, h1⟩, ?_, ?_⟩
      · exact (mem_remove.1 ((h2 e).1 h).2).2 rfl
      · intro x
        rw [List.mem_cons, h2, mem_remove, List.mem_cons]
        constructor
        · rintro (rfl | ⟨a, b, c⟩)
          · exact ⟨.inl rfl, he⟩
          · exact ⟨.inr a, b⟩
        · rintro ⟨a, b⟩
          by_cases hx : x = e
          · exact .inl hx
          · exact .inr ⟨a.resolve_left hx, b, hx⟩
      · intro v
        rw [List.foldl_cons, h3 v, lookDeg_remove he, List.map_cons]
        rfl
    · have hr : A.remove e = A := by unfold Abs.remove; rw [if_neg he]
      rw [hr] at h2 h3
      refine ⟨l, h1, ?_, ?_⟩
      · intro x
        rw [h2, List.mem_cons]
        constructor
        · rintro ⟨a, b⟩; exact ⟨.inr a, b⟩
        · rintro ⟨a | a, b⟩
          · exact absurd (a ▸ b) he
          · exact ⟨a, b⟩
      · intro v
        rw [List.foldl_cons, hr, h3 v]

/-! ### The order of deletions does not matter -/

theorem account_deleted (v : Val F) (l : List (Val F)) (d : Option Int) :
    account v (l.map .deleted) d =
      if v ∈ l then none else d.map fun x : Int => x - ((l.map fun e => e.elems.count v).sum : Nat) := by
  induction l generalizing d with
  | nil => cases d <;> simp [account]
  | cons e l ih =>
    rw [List.map_cons]
    show account v (l.map .deleted) _ = _
    rw [ih]
    by_cases hv : e = v
    · subst hv
      simp
    · have hv' : ¬ v = e := fun h => hv h.symm
      simp only [if_neg hv, List.mem_cons, hv', false_or, List.map_cons, List.sum_cons]
      split
      · rfl
      · cases d with
        | none => rfl
        | some d => simp; omega

theorem deletes_unique {S : Spec F} {P : Val F → Prop} {a b : List (Event F)} (ha : Deletes S P a) (hb : Deletes S P b)
    (v : Val F) (d : Option Int) : account v a d = account v b d := by
  obtain ⟨l, h1, h2, rfl⟩ := ha
  obtain ⟨m, g1, g2, rfl⟩ := hb
  have hp : l.Perm m := (List.perm_ext_iff_of_nodup h1 g1).mpr fun x => (h2 x).trans (g2 x).symm
  rw [account_deleted, account_deleted, (hp.map _).sum_nat]
  simp only [hp.mem_iff]

theorem happens_unique {S : Spec F} {p : Prim F} {a b : List (Event F)} (ha : Happens S p a) (hb : Happens S p b)
    (v : Val F) (d : Option Int) : account v a d = account v b d := by
  cases p with
  | add e ts =>
    by_cases h : S.Present e
    · rw [ha.1 h, hb.1 h]
    · rw [ha.2 h, hb.2 h]
  | remove e => exact deletes_unique ha hb v d
  | removeMany es => exact deletes_unique ha hb v d
  | removeByPattern ps => exact deletes_unique ha hb v d
  | removeBelief src e => exact deletes_unique ha hb v d
  | destroy => rw [show a = _ from ha, show b = _ from hb]
  | query q => rw [show a = _ from ha, show b = _ from hb]

theorem happensAll_unique {ps : List (Prim F)} : ∀ {S : Spec F} {a b : List (Event F)}, HappensAll S ps a →
    HappensAll S ps b → ∀ (v : Val F) (d : Option Int), account v a d = account v b d := by
  induction ps with
  | nil => intro S a b ha hb v d; rw [show a = _ from ha, show b = _ from hb]
  | cons p ps ih =>
    rintro S _ _ ⟨a1, a2, rfl, h1, h2⟩ ⟨b1, b2, rfl, g1, g2⟩ v d
    rw [account_append, account_append, happens_unique h1 g1, ih h2 g2]

theorem happensAll_append {ps qs : List (Prim F)} : ∀ {S : Spec F} {a b : List (Event F)}, HappensAll S ps a →
    HappensAll (ps.foldl Spec.prim S) qs b → HappensAll S (ps ++ qs) (a ++ b) := by
  induction ps with
  | nil => intro S a b ha hb; rw [show a = _ from ha]; exact hb
  | cons p ps ih =>
    rintro S _ b ⟨a1, a2, rfl, h1, h2⟩ hb
    exact ⟨a1, a2 ++ b, by simp, h1, ih h2 hb⟩

/-! ### simulation -/

/-- As `Sim`, with what happens. -/
def SimE (V : Val F → Prop) (m : M Unit) (f : Spec F → Spec F) (H : Spec F → List (Event F) → Prop) : Prop :=
  ∀ (A : Abs F) (S : Spec F) (s : St), AbsOk V A → Rel A S → s.usable → s.work = A.conc →
    ∃ A' evs, AbsOk V A' ∧ Rel A' (f S) ∧ H S evs ∧ (∀ v, lookDeg v A' = account v evs (lookDeg v A)) ∧
      Runs false TT m s () A'.conc

/-- As `SimTop`, with what happens. -/
def SimTopE (V : Val F → Prop) (m : M Unit) (f : Spec F → Spec F) (H : Spec F → List (Event F) → Prop) : Prop :=
  ∀ (A : Abs F) (S : Spec F) (s : St), AbsOk V A → Rel A S → s.cur = none → s.work = A.conc →
    ∃ A' evs, AbsOk V A' ∧ Rel A' (f S) ∧ H S evs ∧ (∀ v, lookDeg v A' = account v evs (lookDeg v A)) ∧
      Runs false TT m s () A'.conc

theorem Query.simE (hV : Vocab V) {q : Query F} (hq : q.Over V) : SimE V q.run id (fun _ evs => evs = []) := by
  have ro : ∀ {α : Type} {m : M α}, (∀ (A : Abs F) (s : St), AbsOk V A → s.usable → s.work = A.conc →
      ∃ a, m s = (.ok a, s)) → SimE V (do let _ ← m) id (fun _ evs => evs = []) := by
    intro α m h A S s hA hR hu hw
    obtain ⟨a, ha⟩ := h A s hA hu hw
    refine ⟨A, [], hA, hR, rfl, fun _ => rfl, s, ?_, ?_⟩
    · rw [bind_run _ _ _ ha]; rfl
    · rw [← hw]; exact Step.refl s
  cases q with
  | «exists» e =>
    exact ro fun A s hA hu hw => ⟨_, existsM_run hV hA hq hu hw⟩
  | pattern ps =>
    refine ro fun A s hA hu hw => ?_
    obtain ⟨res, h, _⟩ := pattern2edges_run hV hA (b := false) hq hu hw
    exact ⟨res, h⟩
  | star c =>
    refine ro fun A s hA hu hw => ?_
    obtain ⟨res, h, _⟩ := star_run hV hA hq.1 hq.2 hu hw
    exact ⟨res, h⟩
  | symbolsWithRoot r =>
    refine ro fun A s hA hu hw => ?_
    obtain ⟨res, h, _⟩ := symbolsWithRoot_run hV hA hq.1 hq.2 hu hw
    exact ⟨res, h⟩
  | sources e =>
    refine ro fun A s hA hu hw => ?_
    obtain ⟨res, h, _⟩ := sources_run hV hA hq.1 hq.2 hu hw
    exact ⟨res, h⟩
  | fAll =>
    exact ro fun A s hA hu hw => ⟨_, fAll_run hA.wf _ hu hw⟩

theorem add_event {A : Abs F} {S : Spec F} (hR : Rel A S) (e : Val F) (ts : Int) :
    ∃ evs, Happens S (.add e ts) evs ∧ ∀ v, lookDeg v (A.add e ts) = account v evs (lookDeg v A) := by
  by_cases h : e ∈ A.edges
  · have hp : S.Present e := (hR.present e).2 h
    refine ⟨[], ⟨fun _ => rfl, fun h' => absurd hp h'⟩, fun v => ?_⟩
    unfold Abs.add
    rw [if_pos h]; rfl
  · have hp : ¬ S.Present e := fun h' => h ((hR.present e).1 h')
    exact ⟨[.created e], ⟨fun h' => absurd h' hp, fun _ => rfl⟩, lookDeg_add h ts⟩

theorem remove_event {A : Abs F} {S : Spec F} (hA : AbsOk V A) (hR : Rel A S) {es : List (Val F)} {P : Val F → Prop}
    (hP : ∀ x, x ∈ A.edges → (x ∈ es ↔ P x)) :
    ∃ evs, Deletes S P evs ∧ ∀ v, lookDeg v (es.foldl Abs.remove A) = account v evs (lookDeg v A) := by
  obtain ⟨l, h1, h2, h3⟩ := lookDeg_removeAll es hA
  refine ⟨l.map .deleted, ⟨l, h1, fun x => ?_, rfl⟩, h3⟩
  rw [h2]
  constructor
  · rintro ⟨a, b⟩; exact ⟨(hP x b).1 a, (hR.present x).2 b⟩
  · rintro ⟨a, b⟩; exact ⟨(hP x ((hR.present x).1 b)).2 a, (hR.present x).1 b⟩

theorem support_ne (e src : Val F) : support e src ≠ e := by
  intro h
  have : e ∈ (support e src).elems := by simp [support, Val.elems, Val.tup]
  rw [h] at this
  exact not_mem_self e this

theorem Prim.simE (hV : Vocab V) {p : Prim F} (hp : p.Over V) :
    SimE V p.run (fun S => S.prim p) (fun S evs => Happens S p evs) := by
  intro A S s hA hR hu hw
  cases p with
  | add e ts =>
    obtain ⟨evs, h1, h2⟩ := add_event hR e ts
    refine ⟨A.add e ts, evs, hA.add hV hp ts, hR.add hp ts, h1, h2, ?_⟩
    refine Runs.bind (add_run hV hA hp ts hu hw (fun _ _ _ => trivial)) ?_
    intro s1 st1
    exact Runs.pure' () st1.work
  | remove e =>
    obtain ⟨evs, h1, h2⟩ := remove_event (es := [e]) (P := (· = e)) hA hR (by simp)
    exact ⟨A.remove e, evs, hA.remove e, hR.remove hA e, h1, h2, remove_run hV hA hp hu hw (fun _ _ _ => trivial)⟩
  | removeMany es =>
    obtain ⟨h1, h2⟩ := hR.removeAll hA es
    obtain ⟨evs, g1, g2⟩ := remove_event (es := es) (P := (· ∈ es)) hA hR (fun _ _ => Iff.rfl)
    exact ⟨_, evs, h2, h1, g1, g2, removeMany_run hV hA hp.1 hp.2 hu hw⟩
  | removeByPattern ps =>
    obtain ⟨res, hres, _, hmem⟩ := pattern2edges_run hV hA (b := false) hp hu hw
    obtain ⟨h1, h2⟩ := hR.removeAll hA res
    obtain ⟨evs, g1, g2⟩ := remove_event (es := res) (P := fun x => Matches ps x.elems) hA hR
      (fun x hx => by rw [hmem]; exact and_iff_right hx)
    refine ⟨_, evs, h2, ?_, g1, g2, ?_⟩
    · show Rel _ (S.removeWhere fun x => Matches ps x.elems)
      rw [← Spec.removeWhere_eq (es := res)]
      · exact h1
      · intro x; rw [hmem, hR.present]
    · show Runs false TT (hgRemoveByPattern (.tup ps)) s () _
      unfold hgRemoveByPattern hgPattern2edges
      refine Runs.bind ⟨s, hres, Step.refl s⟩ ?_
      intro s1 st1
      exact removeEach_run hV res (fun e he => hA.over e ((hmem e).1 he).1) A s1 hA (st1.usable hu)
        (st1.work.trans hw)
  | removeBelief src e =>
    have hb : BeliefOver V src e := hp
    have hsup := support_over hb
    have hA1 := hA.remove (support e src)
    have hR1 := hR.remove hA (support e src)
    have run1 := remove_run (T := TT) hV hA hsup hu hw (fun _ _ _ => trivial)
    have hcond : (∃ s', (S.remove (support e src)).Present (support e s')) ↔ ∃ s', s' ≠ src ∧ S.Present (support e s') := by
      constructor
      · rintro ⟨s', h⟩
        obtain ⟨h1, h2⟩ := (Spec.remove_present _ _ _).1 h
        exact ⟨s', fun h => h1 (by rw [h]), h2⟩
      · rintro ⟨s', h1, h2⟩
        refine ⟨s', (Spec.remove_present _ _ _).2 ⟨fun h => h1 ?_, h2⟩⟩
        simpa [support, Val.tup] using h
    have key : ∀ s1 : St, Step false TT s s1 (A.remove (support e src)).conc →
        ∃ res, hgSources e s1 = (.ok res, s1) ∧
          (res.length = 0 ↔ ¬ ∃ s', (S.remove (support e src)).Present (support e s')) := by
      intro s1 st1
      obtain ⟨res, hres, _, hmem⟩ := sources_run hV hA1 hb.srcConst hb.fact (st1.usable hu) st1.work
      refine ⟨res, hres, ?_⟩
      rw [List.length_eq_zero_iff]
      constructor
      · rintro rfl ⟨s', hs'⟩
        have := (hmem s').2 ((hR1.present _).1 hs')
        simp at this
      · intro h
        rw [List.eq_nil_iff_forall_not_mem]
        intro x hx
        exact h ⟨x, (hR1.present _).2 ((hmem x).1 hx)⟩
    by_cases hex : ∃ s', (S.remove (support e src)).Present (support e s')
    · obtain ⟨evs, g1, g2⟩ := remove_event (es := [support e src]) (P := fun x => x = support e src ∨
        (x = e ∧ ¬ ∃ s', s' ≠ src ∧ S.Present (support e s'))) hA hR (by
          intro x _
          simp only [List.mem_singleton]
          constructor
          · exact .inl
          · rintro (h | ⟨_, h⟩)
            · exact h
            · exact absurd (hcond.1 hex) h)
      refine ⟨A.remove (support e src), evs, hA1, ?_, g1, g2, ?_⟩
      · show Rel _ (S.removeBelief src e)
        unfold Spec.removeBelief
        simp only [hex, if_true]
        exact hR1
      · show Runs false TT (hgRemoveBelief src e) s () _
        unfold hgRemoveBelief
        refine Runs.bind run1 ?_
        intro s1 st1
        obtain ⟨res, hres, hz⟩ := key s1 st1
        refine Runs.bind ⟨s1, hres, Step.refl s1⟩ ?_
        intro s2 st2
        have : ¬ res.length = 0 := fun h => hz.1 h hex
        rw [if_neg this]
        exact Runs.pure' () (st2.work.trans st1.work)
    · obtain ⟨evs, g1, g2⟩ := remove_event (es := [support e src, e]) (P := fun x => x = support e src ∨
        (x = e ∧ ¬ ∃ s', s' ≠ src ∧ S.Present (support e s'))) hA hR (by
          intro x _
          simp only [List.mem_cons, List.not_mem_nil, or_false]
          constructor
          · rintro (h | h)
            · exact .inl h
            · exact .inr ⟨h, fun h => hex (hcond.2 h)⟩
          · rintro (h | ⟨h, _⟩)
            · exact .inl h
            · exact .inr h)
      refine ⟨(A.remove (support e src)).remove e, evs, hA1.remove e, ?_, g1, g2, ?_⟩
      · show Rel _ (S.removeBelief src e)
        unfold Spec.removeBelief
        simp only [hex, if_false]
        exact hR1.remove hA1 e
      · show Runs false TT (hgRemoveBelief src e) s () _
        unfold hgRemoveBelief
        refine Runs.bind run1 ?_
        intro s1 st1
        obtain ⟨res, hres, hz⟩ := key s1 st1
        refine Runs.bind ⟨s1, hres, Step.refl s1⟩ ?_
        intro s2 st2
        rw [if_pos (hz.2 hex)]
        exact remove_run hV hA1 hb.edge (st2.usable (st1.usable hu)) (st2.work.trans st1.work)
          (fun _ _ _ => trivial)
  | destroy =>
    exact ⟨Abs.empty, [.wiped], AbsOk.empty, Rel.empty, rfl, fun v => rfl, destroy_run hu⟩
  | query q => exact Query.simE hV hp A S s hA hR hu hw

theorem SimE.forEach {xs : List (Prim F)} (hxs : ∀ p ∈ xs, p.Over V) (hV : Vocab V) :
    SimE V (GB.forEach Prim.run xs) (fun S => xs.foldl Spec.prim S) (fun S evs => HappensAll S xs evs) := by
  induction xs with
  | nil =>
    intro A S s hA hR hu hw
    exact ⟨A, [], hA, hR, rfl, fun _ => rfl, Runs.pure' () hw⟩
  | cons x xs ih =>
    intro A S s hA hR hu hw
    obtain ⟨A1, ev1, hA1, hR1, h1, d1, s1, e1, st1⟩ := Prim.simE hV (hxs x (by simp)) A S s hA hR hu hw
    obtain ⟨A2, ev2, hA2, hR2, h2, d2, r2⟩ := ih (fun y hy => hxs y (by simp [hy])) A1 _ s1 hA1 hR1 (st1.usable hu)
      st1.work
    refine ⟨A2, ev1 ++ ev2, hA2, hR2, ⟨ev1, ev2, rfl, h1, h2⟩, fun v => by rw [account_append, d2, d1], ?_⟩
    obtain ⟨s2, e2, st2⟩ := r2
    exact ⟨s2, by rw [GB.forEach, bind_run _ _ _ e1, e2], st1.trans st2⟩

theorem addAll_events (hV : Vocab V) (ts : Int) (es : List (Val F)) :
    ∀ {A : Abs F} {S : Spec F}, Rel A S → AbsOk V A → (∀ e ∈ es, EdgeOver V e) →
      ∃ evs, HappensAll S (es.map fun e => .add e ts) evs ∧
        ∀ v, lookDeg v (es.foldl (fun A e => A.add e ts) A) = account v evs (lookDeg v A) := by
  induction es with
  | nil => intro A S _ _ _; exact ⟨[], rfl, fun _ => rfl⟩
  | cons e es ih =>
    intro A S hR hA hes
    obtain ⟨ev1, h1, d1⟩ := add_event hR e ts
    obtain ⟨ev2, h2, d2⟩ := ih (S := S.add e ts) (hR.add (hes e (by simp)) ts) (hA.add hV (hes e (by simp)) ts)
      (fun x hx => hes x (by simp [hx]))
    exact ⟨ev1 ++ ev2, ⟨ev1, ev2, rfl, h1, h2⟩, fun v => by rw [account_append, ← d1]; exact d2 v⟩

theorem SimTopE.addMany (hV : Vocab V) {b : Bool} {es : List (Val F)} (hne : es ≠ [])
    (hes : ∀ e ∈ es, EdgeOver V e) (ts : Int) :
    SimTopE V (do let _ ← hgAdd (.seq b es) ts) (fun S => es.foldl (fun S e => S.add e ts) S)
      (fun S evs => HappensAll S (es.map fun e => .add e ts) evs) := by
  intro A S s hA hR hc hw
  obtain ⟨h1, h2⟩ := hR.addAll hV hA ts es hes
  obtain ⟨evs, g1, g2⟩ := addAll_events hV ts es hR hA hes
  refine ⟨_, evs, h2, h1, g1, g2, ?_⟩
  obtain ⟨s', e, st, _⟩ := addMany_run hV hA (b := b) hne hes ts hc hw
  refine Runs.bind ⟨s', e, st.weaken⟩ ?_
  intro s1 st1
  exact Runs.pure' () st1.work

theorem batch_simE (hV : Vocab V) {ps : List (Prim F)} (hps : ∀ p ∈ ps, p.Over V) :
    SimTopE V (hgBatchExec (ps.map Prim.run)) (fun S => ps.foldl Spec.prim S) (fun S evs => HappensAll S ps evs) := by
  intro A S s hA hR hc hw
  have hsim := SimE.forEach hps hV
  have hopen : openCursor false s = (.ok .shared, { s with cur := some true }) := by
    unfold openCursor; simp [hc]
  obtain ⟨A', evs, hA', hR', g1, g2, s2, e2, st2⟩ := hsim A S { s with cur := some true } hA hR (by simp [St.usable]) hw
  refine ⟨A', evs, hA', hR', g1, g2, ?_⟩
  have hcur : s2.cur = some true := st2.cur
  have hclose : closeCursor false true s2 = (.ok (), { s2.commit with cur := none }) := by
    unfold closeCursor
    simp [St.commit, hcur]
  refine ⟨{ s2.commit with cur := none }, ?_, ?_⟩
  · unfold hgBatchExec sqlBatchExec
    rw [bind_run _ _ _ hopen, forEach_map]
    show (forEach (fun p => Prim.run p) ps >>= _) _ = _
    rw [bind_run _ _ _ e2, hclose]
  · obtain ⟨_, l, hl, _⟩ := st2.snaps trivial
    refine ⟨st2.work, hc.symm, st2.auto, fun _ _ => rfl, fun _ h => absurd hc h, fun _ => ⟨trivial, ?_⟩,
      fun _ => .inr trivial⟩
    refine ⟨l ++ [s2.work], ?_, fun _ _ => trivial⟩
    have : s2.commits = s.commits ++ l := hl
    simp [St.commit, this]

theorem Op.simE (hV : Vocab V) {op : Op F} (hop : op.Over V) :
    SimTopE V op.run (fun S => S.op op) (fun S evs => HappensAll S op.steps evs) := by
  cases op with
  | prim p =>
    intro A S s hA hR hc hw
    obtain ⟨A', evs, h1, h2, h3, h4, h5⟩ := Prim.simE hV hop A S s hA hR (St.usable_of_none hc) hw
    exact ⟨A', evs, h1, h2, ⟨evs, [], by simp, h3, rfl⟩, h4, h5⟩
  | addMany es ts => exact SimTopE.addMany hV hop.1 hop.2 ts
  | addBelief src e ts =>
    intro A S s hA hR hc hw
    have hb : BeliefOver V src e := hop
    have := SimTopE.addMany hV (b := false) (es := [e, support e src]) (by simp) (by
      intro x hx
      simp only [List.mem_cons, List.not_mem_nil, or_false] at hx
      rcases hx with rfl | rfl
      · exact hb.edge
      · exact support_over hb) ts A S s hA hR hc hw
    obtain ⟨A', evs, hA', hR', g1, g2, s', e', st'⟩ := this
    refine ⟨A', evs, hA', hR', g1, g2, s', ?_, st'⟩
    show hgAddBelief src e ts s = _
    unfold hgAddBelief
    rw [bind_run _ _ _ (liftE_ok (beliefEdges_single hb.edge) s)]
    exact e'
  | addBeliefs src es ts =>
    intro A S s hA hR hc hw
    have hb : ∀ e ∈ es, BeliefOver V src e := hop.2
    have hall : ∀ x ∈ es.flatMap (fun e => [e, support e src]), EdgeOver V x := by
      intro x hx
      rw [List.mem_flatMap] at hx
      obtain ⟨e, he, hx⟩ := hx
      simp only [List.mem_cons, List.not_mem_nil, or_false] at hx
      rcases hx with rfl | rfl
      · exact (hb _ he).edge
      · exact support_over (hb _ he)
    have hne : es.flatMap (fun e => [e, support e src]) ≠ [] := by
      have := hop.1
      cases es with
      | nil => contradiction
      | cons e es => simp
    obtain ⟨A', evs, hA', hR', g1, g2, s', e', st'⟩ := SimTopE.addMany hV (b := true) hne hall ts A S s hA hR hc hw
    refine ⟨A', evs, hA', ?_, ?_, g2, s', ?_, st'⟩
    · have h2 : Rel A' ((es.flatMap fun e => [e, support e src]).foldl (fun S e => S.add e ts) S) := hR'
      rw [foldl_flatMap] at h2
      exact h2
    · rw [List.map_flatMap] at g1
      exact g1
    · show hgAddBelief src (.seq true es) ts s = _
      unfold hgAddBelief
      rw [bind_run _ _ _ (liftE_ok (beliefEdges_many hop.1 (fun e he => (hb e he).edge)) s)]
      exact e'
  | batch ps => exact batch_simE hV hop
  | degree w =>
    intro A S s hA hR hc hw
    refine ⟨A, [], hA, hR, rfl, fun _ => rfl, s, ?_, by rw [← hw]; exact Step.refl s⟩
    show ((do let _ ← sqlDegree w) : M Unit) s = _
    rw [bind_run _ _ _ (degree_run hA.wf hop hc hw)]; rfl
  | timestamp w =>
    intro A S s hA hR hc hw
    refine ⟨A, [], hA, hR, rfl, fun _ => rfl, s, ?_, by rw [← hw]; exact Step.refl s⟩
    show ((do let _ ← sqlTimestamp w) : M Unit) s = _
    rw [bind_run _ _ _ (timestamp_run hA.wf hop hc hw)]; rfl

theorem runOps_fromE (hV : Vocab V) (ops : List (Op F)) (hops : ∀ op ∈ ops, op.Over V) :
    SimTopE V (runOps ops) (fun S => ops.foldl Spec.op S) (fun S evs => HappensAll S (ops.flatMap Op.steps) evs) := by
  induction ops with
  | nil =>
    intro A S s hA hR hc hw
    exact ⟨A, [], hA, hR, rfl, fun _ => rfl, Runs.pure' () hw⟩
  | cons op ops ih =>
    intro A S s hA hR hc hw
    obtain ⟨A1, ev1, hA1, hR1, h1, d1, s1, e1, st1⟩ := Op.simE hV (hops op (by simp)) A S s hA hR hc hw
    obtain ⟨A2, ev2, hA2, hR2, h2, d2, s2, e2, st2⟩ := ih (fun o ho => hops o (by simp [ho])) A1 _ s1 hA1 hR1
      (st1.cur.trans hc) st1.work
    refine ⟨A2, ev1 ++ ev2, hA2, hR2, ?_, fun v => by rw [account_append, d2, d1], s2, ?_, st1.trans st2⟩
    · rw [List.flatMap_cons]
      refine happensAll_append h1 ?_
      rw [Op.steps_fold]
      exact h2
    · show (forEach Op.run (op :: ops)) s = _
      rw [GB.forEach, bind_run _ _ _ e1]
      exact e2

end GB
