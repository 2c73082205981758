import Verif.Proofs.View
import Verif.Spec.Buffer

/-! Buffered additions. -/

set_option linter.unusedSectionVars false

namespace GB

variable {F : Type} [PyFloat F] [DecidableEq F] {V : Val F → Prop}

/-- Adding a list of edges. -/
def Abs.addAll (A : Abs F) (ts : Int) (es : List (Val F)) : Abs F := es.foldl (fun A e => A.add e ts) A

theorem Abs.addAll_append (A : Abs F) (ts : Int) (es fs : List (Val F)) :
    A.addAll ts (es ++ fs) = (A.addAll ts es).addAll ts fs := by
  simp [Abs.addAll]

theorem AbsOk.addAll (hV : Vocab V) {A : Abs F} (hA : AbsOk V A) (ts : Int) (es : List (Val F))
    (hes : ∀ e ∈ es, EdgeOver V e) : AbsOk V (A.addAll ts es) := by
  induction es generalizing A with
  | nil => exact hA
  | cons e es ih => exact ih (hA.add hV (hes e (by simp)) ts) (fun x hx => hes x (by simp [hx]))

/-- An idle state with everything on disk and contents `A`. -/
structure Clean (A : Abs F) (s : St) : Prop where
  cur : s.cur = none
  work : s.work = A.conc
  disk : s.disk = s.work

theorem addMany_clean (hV : Vocab V) {A : Abs F} (hA : AbsOk V A) {b : Bool} {es : List (Val F)} (hne : es ≠ [])
    (hes : ∀ e ∈ es, EdgeOver V e) (ts : Int) {s : St} (h : Clean A s) :
    ∃ s', sqlAdd (.seq b es) ts s = (.ok (.seq b es), s') ∧ Clean (A.addAll ts es) s' := by
  obtain ⟨s', e, st, hd, _⟩ := addMany_run hV hA (b := b) hne hes ts h.cur h.work
  exact ⟨s', e, st.cur.trans h.cur, st.work, hd⟩

theorem BOp.edges_over {o : BOp F} (ho : o.Over V) : ∀ e ∈ o.edges, EdgeOver V e := by
  cases o with
  | add e => intro x hx; rw [BOp.edges, List.mem_singleton] at hx; rw [hx]; exact ho
  | addMany es => exact ho.2
  | addBelief src e =>
    intro x hx
    simp only [BOp.edges, List.mem_cons, List.not_mem_nil, or_false] at hx
    rcases hx with rfl | rfl
    · exact BeliefOver.edge ho
    · exact support_over ho
  | addBeliefs src es =>
    intro x hx
    simp only [BOp.edges, List.mem_flatMap, List.mem_cons, List.not_mem_nil, or_false] at hx
    obtain ⟨e, he, rfl | rfl⟩ := hx
    · exact (ho.2 _ he).edge
    · exact support_over (ho.2 _ he)
  | flush => simp [BOp.edges]

/-- The direct calls. -/
theorem direct_run (hV : Vocab V) {A : Abs F} (hA : AbsOk V A) {o : BOp F} (ho : o.Over V) (ts : Int) {s : St}
    (h : Clean A s) : ∃ s', runOps (o.direct ts) s = (.ok (), s') ∧ Clean (A.addAll ts o.edges) s' := by
  cases o with
  | add e =>
    obtain ⟨s', e', st⟩ : Runs false TT (sqlAdd e ts) s e (A.add e ts).conc :=
      add_run hV hA ho ts (St.usable_of_none h.cur) h.work (fun _ _ _ => trivial)
    refine ⟨s', ?_, st.cur.trans h.cur, st.work, st.durable (.inl h.cur) h.disk⟩
    show forEach Op.run [Op.prim (.add e ts)] s = _
    have : Op.run (.prim (.add e ts)) s = (.ok (), s') := by
      show ((do let _ ← sqlAdd e ts) : M Unit) s = _
      rw [bind_run _ _ _ e']; rfl
    rw [GB.forEach, bind_run _ _ _ this]; rfl
  | addMany es =>
    obtain ⟨s', e', hc⟩ := addMany_clean hV hA (b := true) ho.1 ho.2 ts h
    refine ⟨s', ?_, hc⟩
    show forEach Op.run [Op.addMany es ts] s = _
    have : Op.run (.addMany es ts) s = (.ok (), s') := by
      show ((do let _ ← sqlAdd (.seq true es) ts) : M Unit) s = _
      rw [bind_run _ _ _ e']; rfl
    rw [GB.forEach, bind_run _ _ _ this]; rfl
  | addBelief src e =>
    have hb : BeliefOver V src e := ho
    obtain ⟨s', e', hc⟩ := addMany_clean hV hA (b := false) (es := [e, support e src]) (by simp)
      (BOp.edges_over (o := .addBelief src e) ho) ts h
    refine ⟨s', ?_, hc⟩
    show forEach Op.run [Op.addBelief src e ts] s = _
    have : Op.run (.addBelief src e ts) s = (.ok (), s') := by
      show hgAddBelief src e ts s = _
      unfold hgAddBelief
      rw [bind_run _ _ _ (liftE_ok (beliefEdges_single hb.edge) s)]
      show ((do let _ ← sqlAdd (.tup [e, support e src]) ts) : M Unit) s = _
      rw [bind_run _ _ _ e']; rfl
    rw [GB.forEach, bind_run _ _ _ this]; rfl
  | addBeliefs src es =>
    have hne : es.flatMap (fun e => [e, support e src]) ≠ [] := by
      have := ho.1
      cases es with
      | nil => contradiction
      | cons e es => simp
    obtain ⟨s', e', hc⟩ := addMany_clean hV hA (b := true) hne
      (BOp.edges_over (o := .addBeliefs src es) ho) ts h
    refine ⟨s', ?_, hc⟩
    show forEach Op.run [Op.addBeliefs src es ts] s = _
    have : Op.run (.addBeliefs src es ts) s = (.ok (), s') := by
      show hgAddBelief src (.seq true es) ts s = _
      unfold hgAddBelief
      rw [bind_run _ _ _ (liftE_ok (beliefEdges_many ho.1 (fun e he => (ho.2 e he).edge)) s)]
      show ((do let _ ← sqlAdd (.seq true (es.flatMap fun e => [e, support e src])) ts) : M Unit) s = _
      rw [bind_run _ _ _ e']; rfl
    rw [GB.forEach, bind_run _ _ _ this]; rfl
  | flush => exact ⟨s, rfl, h⟩

/-- Of the edges `total` added so far to `A`, those not yet written are in the buffer. -/
def Buffered (V : Val F → Prop) (A : Abs F) (ts : Int) (total : List (Val F)) (b : BSt F) : Prop :=
  (∀ e ∈ total, EdgeOver V e) ∧ ∃ done, total = done ++ b.buffer ∧ Clean (A.addAll ts done) b.base

theorem flush_run (hV : Vocab V) {A : Abs F} (hA : AbsOk V A) {ts : Int} {total : List (Val F)} {b : BSt F}
    (h : Buffered V A ts total b) (hne : b.buffer ≠ []) :
    ∃ b', bhFlush ts b = (.ok (), b') ∧ Buffered V A ts total b' ∧ b'.buffer = [] ∧ b'.base.work = (A.addAll ts total).conc := by
  obtain ⟨hall, done, ht, hc⟩ := h
  have hb : ∀ e ∈ b.buffer, EdgeOver V e := fun e he => hall e (by rw [ht]; simp [he])
  have hd : ∀ e ∈ done, EdgeOver V e := fun e he => hall e (by rw [ht]; simp [he])
  obtain ⟨s', e', hc'⟩ := addMany_clean hV (hA.addAll hV ts done hd) (b := true) hne hb ts hc
  rw [← Abs.addAll_append, ← ht] at hc'
  refine ⟨⟨s', []⟩, ?_, ⟨hall, total, by simp, hc'⟩, rfl, hc'.work⟩
  unfold bhFlush
  rw [e']

theorem bhExtend_edge {e : Val F} (he : EdgeOver V e) (buf : List (Val F)) : bhExtend buf e = .ok (buf ++ [e]) := by
  obtain ⟨h, hh, hs⟩ := head0_edge he
  unfold bhExtend
  rw [hh]
  simp only [bind, Except.bind, hs, Bool.false_eq_true, if_false]

theorem bhExtend_coll {b : Bool} {es : List (Val F)} (hne : es ≠ []) (hes : ∀ e ∈ es, EdgeOver V e)
    (buf : List (Val F)) : bhExtend buf (.seq b es) = .ok (buf ++ es) := by
  obtain ⟨h, hh, hs⟩ := head0_coll (b := b) hne hes
  unfold bhExtend
  rw [hh]
  simp only [bind, Except.bind, hs, if_true]
  rfl

theorem bhAdd_run (hV : Vocab V) {A : Abs F} (hA : AbsOk V A) {ts : Int} {total : List (Val F)} {b : BSt F}
    (h : Buffered V A ts total b) {edges : Val F} {es : List (Val F)} (hes : ∀ e ∈ es, EdgeOver V e) (hne : es ≠ [])
    (hx : bhExtend b.buffer edges = .ok (b.buffer ++ es)) (bufferMax : Int) :
    ∃ b', bhAdd bufferMax edges ts b = (.ok edges, b') ∧ Buffered V A ts (total ++ es) b' := by
  obtain ⟨hall, done, ht, hc⟩ := h
  have hB : Buffered V A ts (total ++ es) ⟨b.base, b.buffer ++ es⟩ := by
    refine ⟨?_, done, ?_, hc⟩
    · intro e he
      rcases List.mem_append.1 he with he | he
      · exact hall e he
      · exact hes e he
    · rw [ht, List.append_assoc]
  unfold bhAdd
  rw [hx]
  dsimp only
  by_cases hl : ((b.buffer ++ es).length : Int) > bufferMax
  · rw [if_pos hl]
    obtain ⟨b', e', hb', _⟩ := flush_run hV hA hB (by simp [hne])
    rw [e']
    exact ⟨b', rfl, hb'⟩
  · rw [if_neg hl]
    exact ⟨_, rfl, hB⟩

theorem BOp.run_ok (hV : Vocab V) {A : Abs F} (hA : AbsOk V A) {ts : Int} {total : List (Val F)} {b : BSt F}
    (h : Buffered V A ts total b) {o : BOp F} (ho : o.Over V) (bufferMax : Int) :
    ∃ b', o.run bufferMax ts b = (.ok (), b') ∧ Buffered V A ts (total ++ o.edges) b' := by
  cases o with
  | add e =>
    obtain ⟨b', e', hb'⟩ := bhAdd_run hV hA h (es := [e]) (BOp.edges_over (o := .add e) ho) (by simp) (bhExtend_edge ho _) bufferMax
    exact ⟨b', by rw [BOp.run, e']; rfl, hb'⟩
  | addMany es =>
    obtain ⟨b', e', hb'⟩ := bhAdd_run hV hA h ho.2 ho.1 (bhExtend_coll (b := true) ho.1 ho.2 _) bufferMax
    exact ⟨b', by rw [BOp.run, e']; rfl, hb'⟩
  | addBelief src e =>
    have hb : BeliefOver V src e := ho
    have hov : ∀ x ∈ [e, support e src], EdgeOver V x := BOp.edges_over (o := .addBelief src e) ho
    obtain ⟨b', e', hb'⟩ := bhAdd_run hV hA h (es := [e, support e src]) hov (by simp)
      (bhExtend_coll (b := false) (by simp) hov _) bufferMax
    refine ⟨b', ?_, hb'⟩
    rw [BOp.run, bhAddBelief, beliefEdges_single hb.edge]
    dsimp only
    rw [e']
  | addBeliefs src es =>
    have hov : ∀ x ∈ es.flatMap (fun e => [e, support e src]), EdgeOver V x :=
      BOp.edges_over (o := .addBeliefs src es) ho
    have hne : es.flatMap (fun e => [e, support e src]) ≠ [] := by
      have := ho.1
      cases es with
      | nil => contradiction
      | cons e es => simp
    obtain ⟨b', e', hb'⟩ := bhAdd_run hV hA h hov hne (bhExtend_coll (b := true) hne hov _) bufferMax
    refine ⟨b', ?_, hb'⟩
    rw [BOp.run, bhAddBelief, beliefEdges_many ho.1 (fun e he => (ho.2 e he).edge)]
    dsimp only
    rw [e']
  | flush =>
    rw [BOp.run, BOp.edges, List.append_nil]
    by_cases hb : b.buffer = []
    · rw [if_pos hb]; exact ⟨b, rfl, h⟩
    · rw [if_neg hb]
      obtain ⟨b', e', hb', _⟩ := flush_run hV hA h hb
      exact ⟨b', e', hb'⟩

theorem bhRun_ok (hV : Vocab V) {A : Abs F} (hA : AbsOk V A) {ts : Int} (bufferMax : Int) (os : List (BOp F)) :
    ∀ {total : List (Val F)} {b : BSt F}, Buffered V A ts total b → (∀ o ∈ os, o.Over V) →
    ∃ b', bhRun bufferMax ts os b = (.ok (), b') ∧ Buffered V A ts (total ++ os.flatMap BOp.edges) b' := by
  induction os with
  | nil =>
    intro total b h _
    exact ⟨b, rfl, by simpa using h⟩
  | cons o os ih =>
    intro total b h hos
    obtain ⟨b1, e1, h1⟩ := BOp.run_ok hV hA h (hos o (by simp)) bufferMax
    obtain ⟨b2, e2, h2⟩ := ih h1 (fun x hx => hos x (by simp [hx]))
    refine ⟨b2, ?_, ?_⟩
    · rw [bhRun, e1]; exact e2
    · rw [List.flatMap_cons, ← List.append_assoc]; exact h2

theorem directRun_ok (hV : Vocab V) {ts : Int} (os : List (BOp F)) :
    ∀ {A : Abs F} {s : St}, AbsOk V A → Clean A s → (∀ o ∈ os, o.Over V) →
    ∃ s', runOps (os.flatMap (BOp.direct ts)) s = (.ok (), s') ∧ Clean (A.addAll ts (os.flatMap BOp.edges)) s' := by
  induction os with
  | nil =>
    intro A s _ h _
    exact ⟨s, rfl, h⟩
  | cons o os ih =>
    intro A s hA h hos
    have ho := hos o (by simp)
    obtain ⟨s1, e1, h1⟩ := direct_run hV hA ho ts h
    obtain ⟨s2, e2, h2⟩ := ih (hA.addAll hV ts o.edges (BOp.edges_over ho)) h1 (fun x hx => hos x (by simp [hx]))
    refine ⟨s2, ?_, ?_⟩
    · rw [List.flatMap_cons, runOps_append e1]; exact e2
    · rw [List.flatMap_cons, Abs.addAll_append]; exact h2

end GB
