import Verif.Proofs.Buffer
import Verif.Spec.Import

/-! What is committed while edges are added through a buffer, and adding again what is already there. -/

set_option linter.unusedSectionVars false
set_option linter.unusedVariables false

namespace GB

variable {F : Type} [PyFloat F] [DecidableEq F] {V : Val F → Prop}

theorem addAll_there {A : Abs F} {ts : Int} {l : List (Val F)} (h : ∀ e ∈ l, e ∈ A.edges) : A.addAll ts l = A := by
  induction l with
  | nil => rfl
  | cons e l ih =>
    have : A.addAll ts (e :: l) = (A.add e ts).addAll ts l := rfl
    rw [this]
    have h1 : A.add e ts = A := by unfold Abs.add; rw [if_pos (h e (by simp))]
    rw [h1]
    exact ih fun x hx => h x (by simp [hx])

theorem mem_add_self (A : Abs F) (e : Val F) (ts : Int) : e ∈ (A.add e ts).edges := by
  unfold Abs.add
  split
  · assumption
  · simp

theorem mem_add_old {A : Abs F} {x : Val F} (h : x ∈ A.edges) (e : Val F) (ts : Int) : x ∈ (A.add e ts).edges := by
  unfold Abs.add
  split
  · assumption
  · simp [h]

theorem mem_addAll_old {A : Abs F} {ts : Int} {x : Val F} {l : List (Val F)} (h : x ∈ A.edges) : x ∈ (A.addAll ts l).edges := by
  induction l generalizing A with
  | nil => exact h
  | cons e l ih => exact ih (mem_add_old h e ts)

theorem mem_addAll_new {A : Abs F} {ts : Int} {x : Val F} {l : List (Val F)} (h : x ∈ l) : x ∈ (A.addAll ts l).edges := by
  induction l generalizing A with
  | nil => cases h
  | cons e l ih =>
    rcases List.mem_cons.1 h with rfl | h
    · exact mem_addAll_old (A := A.add x ts) (l := l) (mem_add_self A x ts)
    · exact ih h

/-- Adding a list after a first part of it was added is adding the list. -/
theorem addAll_again {A : Abs F} {ts : Int} {w r : List (Val F)} : (A.addAll ts w).addAll ts (w ++ r) = A.addAll ts (w ++ r) := by
  rw [Abs.addAll_append, addAll_there fun e he => mem_addAll_new he, ← Abs.addAll_append]

/-- What a call through the buffer does to the log of commits: nothing, or it writes everything and commits once. -/
def Wrote (es : List (Val F)) (b b' : BSt F) : Prop :=
  (b'.base = b.base ∧ b'.buffer = b.buffer ++ es) ∨ (b'.buffer = [] ∧ b'.base.commits = b.base.commits ++ [b'.base.disk] ∧ b'.base.autocommit = false)

theorem flush_wrote (hV : Vocab V) {A : Abs F} (hA : AbsOk V A) {ts : Int} {total : List (Val F)} {b b' : BSt F}
    (h : Buffered V A ts total b) (ha : b.base.autocommit = false) (hr : bhFlush ts b = (.ok (), b')) (es : List (Val F)) :
    Wrote es b b' := by
  obtain ⟨hall, done, ht, hc⟩ := h
  by_cases hne : b.buffer = []
  · exfalso
    unfold bhFlush at hr
    rw [hne] at hr
    cases hr
  · have hb : ∀ e ∈ b.buffer, EdgeOver V e := fun e he => hall e (by rw [ht]; simp [he])
    have hd : ∀ e ∈ done, EdgeOver V e := fun e he => hall e (by rw [ht]; simp [he])
    obtain ⟨s', e', st, hd', hcm⟩ := addMany_run hV (hA.addAll hV ts done hd) (b := true) hne hb ts hc.cur hc.work
    unfold bhFlush at hr
    rw [e'] at hr
    cases hr
    refine .inr ⟨rfl, ?_, ?_⟩
    · show s'.commits = _ ++ [s'.disk]
      rw [hcm ha, hd', st.work]
    · exact st.auto.trans ha

theorem bhAdd_wrote (hV : Vocab V) {A : Abs F} (hA : AbsOk V A) {ts : Int} {total : List (Val F)} {b b' : BSt F}
    (h : Buffered V A ts total b) {edges r : Val F} {es : List (Val F)} (hes : ∀ e ∈ es, EdgeOver V e)
    (hx : bhExtend b.buffer edges = .ok (b.buffer ++ es)) {bufferMax : Int} (ha : b.base.autocommit = false)
    (hr : bhAdd bufferMax edges ts b = (.ok r, b')) : Wrote es b b' := by
  obtain ⟨hall, done, ht, hc⟩ := h
  have hB : Buffered V A ts (total ++ es) ⟨b.base, b.buffer ++ es⟩ := by
    refine ⟨?_, done, ?_, hc⟩
    · intro e he
      rcases List.mem_append.1 he with he | he
      · exact hall e he
      · exact hes e he
    · rw [ht, List.append_assoc]
  unfold bhAdd at hr
  rw [hx] at hr
  dsimp only at hr
  by_cases hl : ((b.buffer ++ es).length : Int) > bufferMax
  · rw [if_pos hl] at hr
    cases hf : bhFlush ts ⟨b.base, b.buffer ++ es⟩ with
    | mk q b2 =>
      rw [hf] at hr
      cases q with
      | error x => cases hr
      | ok u =>
        cases hr
        rcases flush_wrote (b := ⟨b.base, b.buffer ++ es⟩) hV hA hB ha hf [] with ⟨k1, k2⟩ | k
        · exact .inl ⟨k1, by rw [k2, List.append_nil]⟩
        · exact .inr k
  · rw [if_neg hl] at hr
    cases hr
    exact .inl ⟨rfl, rfl⟩

theorem BOp.run_wrote (hV : Vocab V) {A : Abs F} (hA : AbsOk V A) {ts : Int} {total : List (Val F)} {b b' : BSt F}
    (h : Buffered V A ts total b) {o : BOp F} (ho : o.Over V) {bufferMax : Int} (ha : b.base.autocommit = false)
    (hr : o.run bufferMax ts b = (.ok (), b')) : Wrote o.edges b b' := by
  have key : ∀ {edges : Val F} {es : List (Val F)}, (∀ e ∈ es, EdgeOver V e) →
      bhExtend b.buffer edges = .ok (b.buffer ++ es) → ∀ {x : Except PyErr (Val F)}, bhAdd bufferMax edges ts b = (x, b') →
      (∃ r, x = .ok r) → Wrote es b b' := by
    rintro edges es hes hx x he ⟨r, rfl⟩
    exact bhAdd_wrote hV hA h hes hx ha he
  cases o with
  | add e =>
    rw [BOp.run] at hr
    cases hq : bhAdd bufferMax e ts b with
    | mk x b2 =>
      rw [hq] at hr
      cases x with
      | error x => cases hr
      | ok r =>
        cases hr
        exact key (es := [e]) (BOp.edges_over (o := .add e) ho) (bhExtend_edge ho _) hq ⟨r, rfl⟩
  | addMany es =>
    rw [BOp.run] at hr
    cases hq : bhAdd bufferMax (.seq true es) ts b with
    | mk x b2 =>
      rw [hq] at hr
      cases x with
      | error x => cases hr
      | ok r =>
        cases hr
        exact key ho.2 (bhExtend_coll (b := true) ho.1 ho.2 _) hq ⟨r, rfl⟩
  | addBelief src e =>
    have hb : BeliefOver V src e := ho
    have hov : ∀ x ∈ [e, support e src], EdgeOver V x := BOp.edges_over (o := .addBelief src e) ho
    rw [BOp.run, bhAddBelief, beliefEdges_single hb.edge] at hr
    dsimp only at hr
    cases hq : bhAdd bufferMax (.seq false [e, support e src]) ts b with
    | mk x b2 =>
      rw [hq] at hr
      cases x with
      | error x => cases hr
      | ok r =>
        cases hr
        exact key hov (bhExtend_coll (b := false) (by simp) hov _) hq ⟨r, rfl⟩
  | addBeliefs src es =>
    have hov : ∀ x ∈ es.flatMap (fun e => [e, support e src]), EdgeOver V x :=
      BOp.edges_over (o := .addBeliefs src es) ho
    have hne : es.flatMap (fun e => [e, support e src]) ≠ [] := by
      have := ho.1
      cases es with
      | nil => contradiction
      | cons e es => simp
    rw [BOp.run, bhAddBelief, beliefEdges_many ho.1 (fun e he => (ho.2 e he).edge)] at hr
    dsimp only at hr
    cases hq : bhAdd bufferMax (.seq true (es.flatMap fun e => [e, support e src])) ts b with
    | mk x b2 =>
      rw [hq] at hr
      cases x with
      | error x => cases hr
      | ok r =>
        cases hr
        exact key hov (bhExtend_coll (b := true) hne hov _) hq ⟨r, rfl⟩
  | flush =>
    rw [BOp.run] at hr
    by_cases hb : b.buffer = []
    · rw [if_pos hb] at hr
      cases hr
      exact .inl ⟨rfl, by simp [BOp.edges]⟩
    · rw [if_neg hb] at hr
      exact flush_wrote hV hA h ha hr _

/-- On disk is what the first calls of `os` have added, the rest being in the buffer; every commit since `base` had what some of
the first calls have added, at least `m` edges. -/
def Logged (A : Abs F) (ts : Int) (os : List (BOp F)) (m : Nat) (base : List DB) (b : BSt F) : Prop :=
  b.base.autocommit = false ∧
    (∃ os', os' <+: os ∧ os'.flatMap BOp.edges ++ b.buffer = os.flatMap BOp.edges ∧
      b.base.disk = (A.addAll ts (os'.flatMap BOp.edges)).conc) ∧
    ∃ news, b.base.commits = base ++ news ∧
      ∀ d ∈ news, ∃ os', os' <+: os ∧ m ≤ (os'.flatMap BOp.edges).length ∧
        d = (A.addAll ts (os'.flatMap BOp.edges)).conc

theorem bhRun_logged (hV : Vocab V) {A : Abs F} (hA : AbsOk V A) {ts bufferMax : Int} {m : Nat} {base : List DB}
    (os : List (BOp F)) :
    ∀ {os0 : List (BOp F)} {b b' : BSt F}, Buffered V A ts (os0.flatMap BOp.edges) b → (∀ o ∈ os, o.Over V) →
      m ≤ (os0.flatMap BOp.edges).length → Logged A ts os0 m base b → bhRun bufferMax ts os b = (.ok (), b') →
      Logged A ts (os0 ++ os) m base b' := by
  induction os with
  | nil =>
    intro os0 b b' _ _ _ hL hr
    cases hr
    rw [List.append_nil]
    exact hL
  | cons o os ih =>
    intro os0 b b' hB hos hm hL hr
    obtain ⟨b1, e1, h1⟩ := BOp.run_ok hV hA hB (hos o (by simp)) bufferMax
    rw [bhRun, e1] at hr
    have hw := BOp.run_wrote hV hA hB (hos o (by simp)) hL.1 e1
    have hedges : os0.flatMap BOp.edges ++ o.edges = (os0 ++ [o]).flatMap BOp.edges := by simp
    have happ : os0 ++ o :: os = (os0 ++ [o]) ++ os := by simp
    have hB' := h1
    rw [hedges] at h1
    rw [happ]
    have hm' : m ≤ ((os0 ++ [o]).flatMap BOp.edges).length := by
      rw [← hedges, List.length_append]; omega
    refine ih h1 (fun x hx => hos x (by simp [hx])) hm' ?_ hr
    obtain ⟨ha, ⟨os', d1, d2, d3⟩, news, hn, hd⟩ := hL
    rcases hw with ⟨hw, hbuf⟩ | ⟨w1, w2, w3⟩
    · refine ⟨by rw [hw]; exact ha, ⟨os', d1.trans (List.prefix_append _ _), ?_, by rw [hw]; exact d3⟩, news,
        by rw [hw]; exact hn, fun d hx => ?_⟩
      · rw [hbuf, ← List.append_assoc, d2, hedges]
      · obtain ⟨os', k1, k2⟩ := hd d hx
        exact ⟨os', k1.trans (List.prefix_append _ _), k2⟩
    · have hdisk : b1.base.disk = (A.addAll ts ((os0 ++ [o]).flatMap BOp.edges)).conc := by
        obtain ⟨_, done, ht, hc⟩ := h1
        rw [w1, List.append_nil] at ht
        rw [ht, hc.disk, hc.work]
      refine ⟨w3, ⟨os0 ++ [o], List.prefix_refl _, by rw [w1, List.append_nil], hdisk⟩, news ++ [b1.base.disk],
        by rw [w2, hn, List.append_assoc], fun d hx => ?_⟩
      rcases List.mem_append.1 hx with hx | hx
      · obtain ⟨os', k1, k2⟩ := hd d hx
        exact ⟨os', k1.trans (List.prefix_append _ _), k2⟩
      · rw [List.mem_singleton] at hx
        subst hx
        exact ⟨os0 ++ [o], List.prefix_refl _, hm', hdisk⟩

end GB
