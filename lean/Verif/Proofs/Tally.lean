import Verif.Proofs.Calm
import Verif.Spec.Tally

/-! The tables follow the tally. -/

set_option linter.unusedSectionVars false

namespace GB

variable {F : Type} [PyFloat F] [DecidableEq F] {V : Val F → Prop}

/-- The store shows this tally. -/
structure Tallied (A : Abs F) (T : Tally F) : Prop where
  edges : A.edges = T.edges
  count : ∀ v, (lookV v A.verts).map VEnt.deg = T.count v

theorem Tallied.empty : Tallied (Abs.empty : Abs F) Tally.empty := ⟨rfl, fun _ => rfl⟩

theorem foldTouch_deg (ts : Int) (v : Val F) (xs : List (Val F)) (vs : List (VEnt F)) :
    (lookV v (xs.foldl (touchV ts) vs)).map VEnt.deg = Tally.more ((lookV v vs).map VEnt.deg) (xs.count v) := by
  induction xs generalizing vs with
  | nil => simp [Tally.more]
  | cons x xs ih =>
    rw [List.foldl_cons, ih, lookV_touch, List.count_cons]
    by_cases h : v = x
    · subst h
      cases lookV v vs with
      | none =>
        by_cases hc : xs.count v = 0
        · simp [Tally.more, hc]
        · simp [Tally.more, hc]; omega
      | some r =>
        by_cases hc : xs.count v = 0
        · simp [Tally.more, hc]
        · simp [Tally.more, hc]; omega
    · have : ¬ x = v := fun h' => h h'.symm
      simp [h, this]

theorem Tallied.add {A : Abs F} {T : Tally F} (h : Tallied A T) (e : Val F) (ts : Int) :
    Tallied (A.add e ts) (T.add e) := by
  unfold Abs.add Tally.add
  by_cases hm : e ∈ A.edges
  · rw [if_pos hm, if_pos (h.edges ▸ hm)]; exact h
  · rw [if_neg hm, if_neg (by rw [← h.edges]; exact hm)]
    refine ⟨by simp [h.edges], fun v => ?_⟩
    show (lookV v (setV e 0 ts _)).map VEnt.deg = if v = e then some 0 else _
    rw [lookV_set]
    by_cases hv : v = e
    · simp [hv]
    · rw [if_neg hv, if_neg hv, foldTouch_deg, h.count]

theorem Tally.edges_where (T : Tally F) (P : Val F → Prop) [DecidablePred P] :
    (T.removeWhere P).edges = T.edges.filter fun x => decide (¬ P x) := by
  unfold Tally.removeWhere
  exact List.filter_congr fun x _ => by by_cases h : P x <;> simp [h]

theorem Tally.count_where (T : Tally F) (P : Val F → Prop) [DecidablePred P] (v : Val F) :
    (T.removeWhere P).count v = if v ∈ T.edges ∧ P v then none else (T.count v).map fun (c : Int) =>
      c - ((occurrences v (T.edges.filter fun x => decide (P x)) : Nat) : Int) := by
  unfold Tally.removeWhere
  have h : (T.edges.filter fun x => @decide (P x) (Classical.propDecidable _)) =
      T.edges.filter fun x => decide (P x) :=
    List.filter_congr fun x _ => by by_cases h : P x <;> simp [h]
  by_cases hv : v ∈ T.edges ∧ P v
  · simp [hv]
  · simp only [hv, if_false, h]

theorem Tallied.remove {A : Abs F} {T : Tally F} (h : Tallied A T) (hn : A.edges.Nodup) (e : Val F) :
    Tallied (A.remove e) (T.removeWhere (· = e)) := by
  unfold Abs.remove
  by_cases hm : e ∈ A.edges
  · rw [if_pos hm]
    refine ⟨by rw [Tally.edges_where, h.edges], fun v => ?_⟩
    rw [Tally.count_where]
    show (lookV v (delV e _)).map VEnt.deg = _
    rw [lookV_del]
    by_cases hv : v = e
    · rw [if_pos hv, if_pos ⟨by rw [hv, ← h.edges]; exact hm, hv⟩]; rfl
    · rw [if_neg hv, if_neg (fun h => hv h.2), lookV_foldBump, ← h.count, ← h.edges]
      have hocc : occurrences v (A.edges.filter fun x => decide (x = e)) = e.elems.count v := by
        have h1 := occurrences_filter (v := v) hn hm
        have h2 : occurrences v (A.edges.filter fun x => decide (x = e)) +
            occurrences v (A.edges.filter fun x => decide (x ≠ e)) = occurrences v A.edges := by
          generalize A.edges = l
          induction l with
          | nil => rfl
          | cons x l ih =>
            by_cases hx : x = e
            · rw [List.filter_cons_of_pos (by simpa using hx), List.filter_cons_of_neg (by simpa using hx)]
              simp only [occurrences, List.map_cons, List.sum_cons] at ih ⊢
              omega
            · rw [List.filter_cons_of_neg (by simpa using hx), List.filter_cons_of_pos (by simpa using hx)]
              simp only [occurrences, List.map_cons, List.sum_cons] at ih ⊢
              omega
        omega
      rw [hocc]
      cases lookV v A.verts with
      | none => rfl
      | some r => simp; omega
  · rw [if_neg hm]
    have hno : T.edges.filter (fun x => decide (x = e)) = [] := by
      rw [List.filter_eq_nil_iff]
      intro x hx
      simp only [decide_eq_true_eq]
      rintro rfl
      exact hm (h.edges ▸ hx)
    refine ⟨?_, fun v => ?_⟩
    · rw [Tally.edges_where, List.filter_eq_self.2]
      · exact h.edges
      · intro x hx
        simp only [decide_eq_true_eq]
        rintro rfl
        exact hm (h.edges ▸ hx)
    · rw [Tally.count_where, if_neg (by rintro ⟨h1, rfl⟩; exact hm (h.edges ▸ h1)), hno, h.count]
      simp [occurrences]

theorem occurrences_split (v : Val F) (P Q : Val F → Prop) [DecidablePred P] [DecidablePred Q] (l : List (Val F)) :
    occurrences v (l.filter fun x => decide (P x)) +
      occurrences v ((l.filter fun x => decide (¬ P x)).filter fun x => decide (Q x)) =
      occurrences v (l.filter fun x => decide (P x ∨ Q x)) := by
  induction l with
  | nil => rfl
  | cons x l ih =>
    simp only [occurrences] at ih
    by_cases hp : P x
    · simp only [List.filter_cons, hp, not_true_eq_false, decide_true, decide_false, true_or, if_true, occurrences,
        List.map_cons, List.sum_cons, Bool.false_eq_true, if_false]
      omega
    · by_cases hq : Q x
      · simp only [List.filter_cons, hp, hq, not_false_eq_true, decide_true, decide_false, or_true, if_true, occurrences,
          List.map_cons, List.sum_cons, Bool.false_eq_true, if_false]
        omega
      · simp only [List.filter_cons, hp, hq, not_false_eq_true, decide_true, decide_false, or_self, if_true, occurrences,
          Bool.false_eq_true, if_false]
        omega

theorem Tally.removeWhere_two (T : Tally F) (P Q : Val F → Prop) :
    (T.removeWhere P).removeWhere Q = T.removeWhere fun x => P x ∨ Q x := by
  classical
  have hext : ∀ A B : Tally F, A.edges = B.edges → (∀ v, A.count v = B.count v) → A = B := by
    rintro ⟨a, b⟩ ⟨c, d⟩ h1 h2
    simp only at h1 h2
    rw [h1, funext h2]
  apply hext
  · rw [Tally.edges_where, Tally.edges_where, Tally.edges_where, List.filter_filter]
    congr 1
    funext x
    by_cases hp : P x <;> by_cases hq : Q x <;> simp [hp, hq]
  · intro v
    rw [Tally.count_where (T.removeWhere P), Tally.count_where T P, Tally.edges_where, Tally.count_where T]
    have hs := occurrences_split v P Q T.edges
    by_cases hv : v ∈ T.edges
    · by_cases hp : P v
      · simp [hv, hp]
      · by_cases hq : Q v
        · simp [hv, hp, hq]
        · simp only [List.mem_filter, hv, hp, hq, and_false, or_self, if_false, Option.map_map]
          cases T.count v with
          | none => rfl
          | some c =>
            simp only [Option.map_some, Function.comp_apply, Option.some.injEq]
            omega
    · simp only [List.mem_filter, hv, false_and, if_false, Option.map_map]
      cases T.count v with
      | none => rfl
      | some c =>
        simp only [Option.map_some, Function.comp_apply, Option.some.injEq]
        omega

theorem Tally.removeWhere_congr (T : Tally F) {P Q : Val F → Prop} (h : ∀ x ∈ T.edges, P x ↔ Q x) :
    T.removeWhere P = T.removeWhere Q := by
  classical
  unfold Tally.removeWhere
  have h1 : (T.edges.filter fun x => decide (P x)) = T.edges.filter fun x => decide (Q x) :=
    List.filter_congr fun x hx => by simp [h x hx]
  have h2 : (T.edges.filter fun x => decide (¬ P x)) = T.edges.filter fun x => decide (¬ Q x) :=
    List.filter_congr fun x hx => by simp [h x hx]
  rw [h1, h2]
  congr 1
  funext v
  by_cases hv : v ∈ T.edges
  · simp [hv, h v hv]
  · simp [hv]

theorem Tally.removeWhere_none (T : Tally F) {P : Val F → Prop} (h : ∀ x ∈ T.edges, ¬ P x) :
    T.removeWhere P = T := by
  classical
  unfold Tally.removeWhere
  have h1 : (T.edges.filter fun x => decide (P x)) = [] := by
    rw [List.filter_eq_nil_iff]; intro x hx; simp [h x hx]
  have h2 : (T.edges.filter fun x => decide (¬ P x)) = T.edges := by
    rw [List.filter_eq_self]; intro x hx; simp [h x hx]
  rw [h1, h2]
  cases T with
  | mk es c =>
    congr 1
    funext v
    rw [if_neg (fun hh => h v hh.1 hh.2)]
    simp [occurrences]

theorem Tallied.removeAll (es : List (Val F)) :
    ∀ {A : Abs F} {T : Tally F}, Tallied A T → AbsOk V A →
      Tallied (es.foldl Abs.remove A) (T.removeWhere (· ∈ es)) := by
  induction es with
  | nil =>
    intro A T h _
    rw [Tally.removeWhere_none T (by simp)]
    exact h
  | cons e es ih =>
    intro A T h hA
    have := ih (h.remove hA.nodup e) (hA.remove e)
    rw [Tally.removeWhere_two] at this
    simpa [List.mem_cons] using this

theorem Tallied.addAll (ts : Int) (es : List (Val F)) :
    ∀ {A : Abs F} {T : Tally F}, Tallied A T →
      Tallied (es.foldl (fun A e => A.add e ts) A) (es.foldl Tally.add T) := by
  induction es with
  | nil => intro A T h; exact h
  | cons e es ih => intro A T h; exact ih (h.add e ts)

/-! ### simulation -/

/-- The method call changes the tables as `f` changes the tally. -/
def SimT (V : Val F → Prop) (m : M Unit) (f : Tally F → Tally F) : Prop :=
  ∀ (A : Abs F) (T : Tally F) (s : St), AbsOk V A → Tallied A T → s.usable → s.work = A.conc →
    ∃ A', AbsOk V A' ∧ Tallied A' (f T) ∧ Runs false TT m s () A'.conc

/-- As `SimT`, when no batch is open. -/
def SimTopT (V : Val F → Prop) (m : M Unit) (f : Tally F → Tally F) : Prop :=
  ∀ (A : Abs F) (T : Tally F) (s : St), AbsOk V A → Tallied A T → s.cur = none → s.work = A.conc →
    ∃ A', AbsOk V A' ∧ Tallied A' (f T) ∧ Runs false TT m s () A'.conc

theorem SimT.readonly {α : Type} {m : M α}
    (h : ∀ (A : Abs F) (s : St), AbsOk V A → s.usable → s.work = A.conc →
      ∃ a, m s = (.ok a, s)) : SimT V (do let _ ← m) id := by
  intro A T s hA hT hu hw
  obtain ⟨a, ha⟩ := h A s hA hu hw
  refine ⟨A, hA, hT, s, ?_, ?_⟩
  · rw [bind_run _ _ _ ha]; rfl
  · rw [← hw]; exact Step.refl s

theorem Query.simT (hV : Vocab V) {q : Query F} (hq : q.Over V) : SimT V q.run id := by
  cases q with
  | «exists» e =>
    exact SimT.readonly fun A s hA hu hw => ⟨_, existsM_run hV hA hq hu hw⟩
  | pattern ps =>
    refine SimT.readonly fun A s hA hu hw => ?_
    obtain ⟨res, h, _⟩ := pattern2edges_run hV hA (b := false) hq hu hw
    exact ⟨res, h⟩
  | star c =>
    refine SimT.readonly fun A s hA hu hw => ?_
    obtain ⟨res, h, _⟩ := star_run hV hA hq.1 hq.2 hu hw
    exact ⟨res, h⟩
  | symbolsWithRoot r =>
    refine SimT.readonly fun A s hA hu hw => ?_
    obtain ⟨res, h, _⟩ := symbolsWithRoot_run hV hA hq.1 hq.2 hu hw
    exact ⟨res, h⟩
  | sources e =>
    refine SimT.readonly fun A s hA hu hw => ?_
    obtain ⟨res, h, _⟩ := sources_run hV hA hq.1 hq.2 hu hw
    exact ⟨res, h⟩
  | fAll =>
    exact SimT.readonly fun A s hA hu hw => ⟨_, fAll_run hA.wf _ hu hw⟩

theorem Prim.simT (hV : Vocab V) {p : Prim F} (hp : p.Over V) : SimT V p.run (fun T => T.prim p) := by
  intro A T s hA hT hu hw
  cases p with
  | add e ts =>
    refine ⟨A.add e ts, hA.add hV hp ts, hT.add e ts, ?_⟩
    refine Runs.bind (add_run hV hA hp ts hu hw (fun _ _ _ => trivial)) ?_
    intro s1 st1
    exact Runs.pure' () st1.work
  | remove e =>
    exact ⟨A.remove e, hA.remove e, hT.remove hA.nodup e, remove_run hV hA hp hu hw (fun _ _ _ => trivial)⟩
  | removeMany es =>
    have hok : AbsOk V (es.foldl Abs.remove A) := by
      clear hw hT hp
      induction es generalizing A with
      | nil => exact hA
      | cons e es ih => exact ih _ (hA.remove e)
    exact ⟨_, hok, Tallied.removeAll es hT hA, removeMany_run hV hA hp.1 hp.2 hu hw⟩
  | removeByPattern ps =>
    obtain ⟨res, hres, hnd, hmem⟩ := pattern2edges_run hV hA (b := false) hp hu hw
    have hok : AbsOk V (res.foldl Abs.remove A) := by
      clear hw hT hmem hres hnd
      induction res generalizing A with
      | nil => exact hA
      | cons e es ih => exact ih _ (hA.remove e)
    refine ⟨_, hok, ?_, ?_⟩
    · show Tallied _ (T.removeWhere fun x => Matches ps x.elems)
      rw [Tally.removeWhere_congr T (Q := (· ∈ res))]
      · exact Tallied.removeAll res hT hA
      · intro x hx
        rw [hmem]
        exact ⟨fun h => ⟨hT.edges ▸ hx, h⟩, fun h => h.2⟩
    · show Runs false TT (hgRemoveByPattern (.tup ps)) s () _
      unfold hgRemoveByPattern hgPattern2edges
      refine Runs.bind ⟨s, hres, Step.refl s⟩ ?_
      intro s1 st1
      exact removeEach_run hV res (fun e he => hA.over e ((hmem e).1 he).1) A s1 hA (st1.usable hu)
        (st1.work.trans hw)
  | removeBelief src e =>
    have hb : BeliefOver V src e := hp
    have hsup := support_over hb
    have hA1 := hA.remove (support e src)
    have hT1 := hT.remove hA.nodup (support e src)
    have run1 := remove_run (T := TT) hV hA hsup hu hw (fun _ _ _ => trivial)
    have key : ∀ s1 : St, Step false TT s s1 (A.remove (support e src)).conc →
        ∃ res, hgSources e s1 = (.ok res, s1) ∧
          (res.length = 0 ↔ ¬ ∃ s', support e s' ∈ (T.removeWhere (· = support e src)).edges) := by
      intro s1 st1
      obtain ⟨res, hres, _, hmem⟩ := sources_run hV hA1 hb.srcConst hb.fact (st1.usable hu) st1.work
      refine ⟨res, hres, ?_⟩
      rw [List.length_eq_zero_iff, ← hT1.edges]
      constructor
      · rintro rfl ⟨s', hs'⟩
        have := (hmem s').2 hs'
        simp at this
      · intro h
        rw [List.eq_nil_iff_forall_not_mem]
        intro x hx
        exact h ⟨x, (hmem x).1 hx⟩
    by_cases hex : ∃ s', support e s' ∈ (T.removeWhere (· = support e src)).edges
    · refine ⟨A.remove (support e src), hA1, ?_, ?_⟩
      · show Tallied _ (T.removeBelief src e)
        unfold Tally.removeBelief
        simp only [hex, if_true]
        exact hT1
      · show Runs false TT (hgRemoveBelief src e) s () _
        unfold hgRemoveBelief
        refine Runs.bind run1 ?_
        intro s1 st1
        obtain ⟨res, hres, hz⟩ := key s1 st1
        refine Runs.bind ⟨s1, hres, Step.refl s1⟩ ?_
        intro s2 st2
        have : ¬ res.length = 0 := fun h => hz.1 h hex
        rw [if_neg this]
        exact Runs.pure' () (st2.work.trans st1.work)
    · refine ⟨(A.remove (support e src)).remove e, hA1.remove e, ?_, ?_⟩
      · show Tallied _ (T.removeBelief src e)
        unfold Tally.removeBelief
        simp only [hex, if_false]
        exact hT1.remove hA1.nodup e
      · show Runs false TT (hgRemoveBelief src e) s () _
        unfold hgRemoveBelief
        refine Runs.bind run1 ?_
        intro s1 st1
        obtain ⟨res, hres, hz⟩ := key s1 st1
        refine Runs.bind ⟨s1, hres, Step.refl s1⟩ ?_
        intro s2 st2
        rw [if_pos (hz.2 hex)]
        exact remove_run hV hA1 hb.edge (st2.usable (st1.usable hu)) (st2.work.trans st1.work)
          (fun _ _ _ => trivial)
  | destroy => exact ⟨Abs.empty, AbsOk.empty, Tallied.empty, destroy_run hu⟩
  | query q => exact Query.simT hV hp A T s hA hT hu hw

theorem SimT.forEach {xs : List (Prim F)} (hxs : ∀ p ∈ xs, p.Over V) (hV : Vocab V) :
    SimT V (GB.forEach Prim.run xs) (fun T => xs.foldl Tally.prim T) := by
  induction xs with
  | nil =>
    intro A T s hA hT hu hw
    exact ⟨A, hA, hT, Runs.pure' () hw⟩
  | cons x xs ih =>
    intro A T s hA hT hu hw
    obtain ⟨A1, hA1, hT1, s1, e1, st1⟩ := Prim.simT hV (hxs x (by simp)) A T s hA hT hu hw
    obtain ⟨A2, hA2, hT2, s2, e2, st2⟩ := ih (fun y hy => hxs y (by simp [hy])) A1 _ s1 hA1 hT1 (st1.usable hu)
      st1.work
    exact ⟨A2, hA2, hT2, s2, by rw [GB.forEach, bind_run _ _ _ e1, e2], st1.trans st2⟩

theorem SimTopT.addMany (hV : Vocab V) {b : Bool} {es : List (Val F)} (hne : es ≠ [])
    (hes : ∀ e ∈ es, EdgeOver V e) (ts : Int) :
    SimTopT V (do let _ ← hgAdd (.seq b es) ts) (fun T => es.foldl Tally.add T) := by
  intro A T s hA hT hc hw
  have hok : AbsOk V (es.foldl (fun A e => A.add e ts) A) := by
    clear hw hT hne
    induction es generalizing A with
    | nil => exact hA
    | cons e es ih => exact ih (fun x hx => hes x (by simp [hx])) _ (hA.add hV (hes e (by simp)) ts)
  refine ⟨_, hok, hT.addAll ts es, ?_⟩
  obtain ⟨s', e, st, _⟩ := addMany_run hV hA (b := b) hne hes ts hc hw
  refine Runs.bind ⟨s', e, st.weaken⟩ ?_
  intro s1 st1
  exact Runs.pure' () st1.work

theorem batch_simT (hV : Vocab V) {ps : List (Prim F)} (hps : ∀ p ∈ ps, p.Over V) :
    SimTopT V (hgBatchExec (ps.map Prim.run)) (fun T => ps.foldl Tally.prim T) := by
  intro A T s hA hT hc hw
  have hopen : openCursor false s = (.ok .shared, { s with cur := some true }) := by
    unfold openCursor; simp [hc]
  obtain ⟨A', hA', hT', s2, e2, st2⟩ := SimT.forEach hps hV A T { s with cur := some true } hA hT
    (by simp [St.usable]) hw
  refine ⟨A', hA', hT', ?_⟩
  have hcur : s2.cur = some true := st2.cur
  have hclose : closeCursor false true s2 = (.ok (), { s2.commit with cur := none }) := by
    unfold closeCursor
    simp [St.commit, hcur]
  refine ⟨{ s2.commit with cur := none }, ?_, ?_⟩
  · unfold hgBatchExec sqlBatchExec
    rw [bind_run _ _ _ hopen, forEach_map]
    show (GB.forEach (fun p => Prim.run p) ps >>= _) _ = _
    rw [bind_run _ _ _ e2, hclose]
  · obtain ⟨_, l, hl, _⟩ := st2.snaps trivial
    refine ⟨st2.work, hc.symm, st2.auto, fun _ _ => rfl, fun _ h => absurd hc h, fun _ => ⟨trivial, ?_⟩,
      fun _ => .inr trivial⟩
    refine ⟨l ++ [s2.work], ?_, fun _ _ => trivial⟩
    have : s2.commits = s.commits ++ l := hl
    simp [St.commit, this]

theorem Op.simT (hV : Vocab V) {op : Op F} (hop : op.Over V) : SimTopT V op.run (fun T => T.op op) := by
  cases op with
  | prim p =>
    intro A T s hA hT hc hw
    exact Prim.simT hV hop A T s hA hT (St.usable_of_none hc) hw
  | addMany es ts => exact SimTopT.addMany hV hop.1 hop.2 ts
  | addBelief src e ts =>
    intro A T s hA hT hc hw
    have hb : BeliefOver V src e := hop
    obtain ⟨A', hA', hT', s', e', st'⟩ := SimTopT.addMany hV (b := false) (es := [e, support e src]) (by simp) (by
      intro x hx
      simp only [List.mem_cons, List.not_mem_nil, or_false] at hx
      rcases hx with rfl | rfl
      · exact hb.edge
      · exact support_over hb) ts A T s hA hT hc hw
    refine ⟨A', hA', hT', s', ?_, st'⟩
    show hgAddBelief src e ts s = _
    unfold hgAddBelief
    rw [bind_run _ _ _ (liftE_ok (beliefEdges_single hb.edge) s)]
    exact e'
  | addBeliefs src es ts =>
    intro A T s hA hT hc hw
    have hb : ∀ e ∈ es, BeliefOver V src e := hop.2
    have hall : ∀ x ∈ es.flatMap (fun e => [e, support e src]), EdgeOver V x := by
      intro x hx
      rw [List.mem_flatMap] at hx
      obtain ⟨e, he, hx⟩ := hx
      simp only [List.mem_cons, List.not_mem_nil, or_false] at hx
      rcases hx with rfl | rfl
      · exact (hb _ he).edge
      · exact support_over (hb _ he)
    have hne : es.flatMap (fun e => [e, support e src]) ≠ [] := by
      have := hop.1
      cases es with
      | nil => contradiction
      | cons e es => simp
    obtain ⟨A', hA', hT', s', e', st'⟩ := SimTopT.addMany hV (b := true) hne hall ts A T s hA hT hc hw
    refine ⟨A', hA', ?_, s', ?_, st'⟩
    · have h2 : Tallied A' ((es.flatMap fun e => [e, support e src]).foldl Tally.add T) := hT'
      rw [foldl_flatMap] at h2
      exact h2
    · show hgAddBelief src (.seq true es) ts s = _
      unfold hgAddBelief
      rw [bind_run _ _ _ (liftE_ok (beliefEdges_many hop.1 (fun e he => (hb e he).edge)) s)]
      exact e'
  | batch ps => exact batch_simT hV hop
  | degree w =>
    intro A T s hA hT hc hw
    refine ⟨A, hA, hT, s, ?_, by rw [← hw]; exact Step.refl s⟩
    show ((do let _ ← sqlDegree w) : M Unit) s = _
    rw [bind_run _ _ _ (degree_run hA.wf hop hc hw)]; rfl
  | timestamp w =>
    intro A T s hA hT hc hw
    refine ⟨A, hA, hT, s, ?_, by rw [← hw]; exact Step.refl s⟩
    show ((do let _ ← sqlTimestamp w) : M Unit) s = _
    rw [bind_run _ _ _ (timestamp_run hA.wf hop hc hw)]; rfl

theorem runOps_fromT (hV : Vocab V) (ops : List (Op F)) (hops : ∀ op ∈ ops, op.Over V) :
    ∀ (A : Abs F) (T : Tally F) (s : St), AbsOk V A → Tallied A T → s.cur = none → s.work = A.conc →
    ∃ A', AbsOk V A' ∧ Tallied A' (ops.foldl Tally.op T) ∧ Runs false TT (runOps ops) s () A'.conc := by
  induction ops with
  | nil =>
    intro A T s hA hT hc hw
    exact ⟨A, hA, hT, Runs.pure' () hw⟩
  | cons op ops ih =>
    intro A T s hA hT hc hw
    obtain ⟨A1, hA1, hT1, s1, e1, st1⟩ := Op.simT hV (hops op (by simp)) A T s hA hT hc hw
    obtain ⟨A2, hA2, hT2, s2, e2, st2⟩ := ih (fun o ho => hops o (by simp [ho])) A1 _ s1 hA1 hT1
      (st1.cur.trans hc) st1.work
    refine ⟨A2, hA2, hT2, s2, ?_, st1.trans st2⟩
    show (GB.forEach Op.run (op :: ops)) s = _
    rw [GB.forEach, bind_run _ _ _ e1]
    exact e2

/-- After a history the tables show its tally. -/
theorem tallied_of (hV : Vocab V) {ops : List (Op F)} (hops : ∀ op ∈ ops, op.Over V) {auto : Bool} {s : St}
    (hs : runOps ops (St.new auto) = (.ok (), s)) :
    ∃ A, AbsOk V A ∧ Tallied A (Tally.after ops) ∧ s.cur = none ∧ s.work = A.conc := by
  obtain ⟨A, hA, hT, s', e, st⟩ := runOps_fromT hV ops hops Abs.empty Tally.empty (St.new auto) AbsOk.empty
    Tallied.empty rfl rfl
  have hss : s' = s := by
    have := e.symm.trans hs
    simpa using this
  subst hss
  exact ⟨A, hA, hT, st.cur, st.work⟩

end GB
