import Verif.Props.Session
import Verif.Spec.BatchUse

/-
Property C35, exactly: which programs may be run inside a batch, and what the others do.
-/

set_option linter.unusedSectionVars false

namespace GB

variable {F : Type} [PyFloat F] [DecidableEq F] {V : Val F → Prop}

theorem bind_unit (m : M Unit) : (m >>= fun _ => (Pure.pure () : M Unit)) = m := by
  funext s
  cases hr : m s with
  | mk r t =>
    cases r with
    | ok u => rw [bind_run _ _ _ hr]; rfl
    | error e => rw [bind_err _ _ _ hr]

/-- What bulk calls have in common. -/
theorem bulk_form {c : Op F} (hb : c.Bulk) (ho : c.Over V) :
    ∃ body : M Unit, c.run = (openCursor false >>= fun _ => body >>= fun _ => closeCursor false true) := by
  have add : ∀ (edges h : Val F) (ts : Int), edges.head0 = .ok h → h.isSeq = true → ∃ body : M Unit,
      (do let _ ← hgAdd edges ts : M Unit) = (openCursor false >>= fun _ => body >>= fun _ => closeCursor false true) := by
    intro edges h ts hh hq
    refine ⟨liftE edges.iter >>= fun es => forEach (fun e => do let _ ← addRaw e ts) es, ?_⟩
    have : hgAdd edges ts = ((openCursor false >>= fun _ =>
      (liftE edges.iter >>= fun es => forEach (fun e => do let _ ← addRaw e ts) es) >>= fun _ =>
        closeCursor false true) >>= fun _ => (Pure.pure edges : M (Val F))) := funext fun s => hgAdd_coll_eq hh hq ts s
    rw [this, bind_assoc']
    simp only [pure_bind']
    exact bind_unit _
  cases c with
  | prim p => exact hb.elim
  | degree v => exact hb.elim
  | timestamp v => exact hb.elim
  | batch ps => exact ⟨_, rfl⟩
  | addMany es ts =>
    obtain ⟨h, hh, hs⟩ := head0_coll (b := true) ho.1 ho.2
    exact add _ h ts hh hs
  | addBelief src e ts =>
    have hbo : BeliefOver V src e := ho
    obtain ⟨h, hh, hs⟩ := head0_coll (V := V) (b := false) (es := [e, support e src]) (by simp) (by
      intro x hx
      simp only [List.mem_cons, List.not_mem_nil, or_false] at hx
      rcases hx with rfl | rfl
      · exact hbo.edge
      · exact support_over hbo)
    obtain ⟨body, hbody⟩ := add _ h ts hh hs
    refine ⟨body, ?_⟩
    rw [← hbody]
    funext s
    show hgAddBelief src e ts s = _
    unfold hgAddBelief
    rw [bind_run _ _ _ (liftE_ok (beliefEdges_single hbo.edge) s)]
  | addBeliefs src es ts =>
    have hbo : ∀ e ∈ es, BeliefOver V src e := ho.2
    have hall : ∀ x ∈ es.flatMap (fun e => [e, support e src]), EdgeOver V x := by
      intro x hx
      rw [List.mem_flatMap] at hx
      obtain ⟨e, he, hx⟩ := hx
      simp only [List.mem_cons, List.not_mem_nil, or_false] at hx
      rcases hx with rfl | rfl
      · exact (hbo _ he).edge
      · exact support_over (hbo _ he)
    have hne : es.flatMap (fun e => [e, support e src]) ≠ [] := by
      have := ho.1
      cases es with
      | nil => contradiction
      | cons e es => simp
    obtain ⟨h, hh, hs⟩ := head0_coll (b := true) hne hall
    obtain ⟨body, hbody⟩ := add _ h ts hh hs
    refine ⟨body, ?_⟩
    rw [← hbody]
    funext s
    show hgAddBelief src (.seq true es) ts s = _
    unfold hgAddBelief
    rw [bind_run _ _ _ (liftE_ok (beliefEdges_many ho.1 (fun e he => (hbo e he).edge)) s)]

/-- A call that ends by closing the shared cursor leaves everything on disk if it returns. -/
theorem form_solid {body : M Unit} {s t : St}
    (h : (openCursor false >>= fun _ => body >>= fun _ => closeCursor false true) s = (.ok (), t)) : Solid t := by
  cases h0 : openCursor false s with
  | mk r t0 =>
    cases r with
    | error e => rw [bind_err _ _ _ h0] at h; exact nomatch h
    | ok c =>
      rw [bind_run _ _ _ h0] at h
      cases h1 : body t0 with
      | mk r1 t1 =>
        cases r1 with
        | error e => rw [bind_err _ _ _ h1] at h; exact nomatch h
        | ok u =>
          rw [bind_run _ _ _ h1] at h
          exact close_ok h

/-- Inside a batch: `t` is the state, `s0` the one of a session making the same calls outside a batch. -/
structure Inside (V : Val F → Prop) (t s0 : St) (S : Spec F) : Prop where
  shows_ : Shows V s0 S
  work : t.work = s0.work
  cur : t.cur = some true

theorem prim_single {p : Prim F} (hp : p.Over V) : p.Single := by
  cases p with
  | add e ts =>
    intro h hh
    obtain ⟨k, hk, hks⟩ := head0_edge (V := V) hp
    rw [hh] at hk
    cases hk
    exact hks
  | _ => trivial

theorem Shows.selects {s : St} {S : Spec F} (h : Shows V s S) {v : Val F} (hv : WfVal v) :
    s.work.selectVertex (edge2str v) = [] ↔ S.known v = none := by
  obtain ⟨A, hA, hR, hw⟩ := h.ex
  have := selectVertex_row hA.wf hv A.conc.perms
  have h2 : (A.conc.selectVertex (edge2str v)).head? = (lookV v A.verts).map VEnt.row := this
  rw [hw, hR.known, ← List.head?_eq_none_iff, h2]
  unfold tsOf
  cases lookV v A.verts <;> simp

theorem Inside.bulk (hV : Vocab V) {t s0 : St} {S : Spec F} (h : Inside V t s0 S) {c : Op F} (hc : c.Over V)
    (hb : c.Bulk) : ∃ t' s0', c.run t = (.ok (), t') ∧ c.run s0 = (.ok (), s0') ∧ t'.work = s0'.work ∧ Solid t' ∧
      Shows V s0' (S.op c) := by
  obtain ⟨s0', e0, h0⟩ := h.shows_.op hV hc
  obtain ⟨body, hbody⟩ := bulk_form hb hc
  have hsame : c.run t = c.run { t with cur := none } := by
    rw [hbody]
    have h1 : openCursor false t = (.ok .shared, t) := by unfold openCursor; simp [h.cur]
    have h2 : openCursor false { t with cur := none } = (.ok .shared, t) := by
      rcases t with ⟨w, d, l, c, a⟩
      have := h.cur
      simp only at this
      subst this
      rfl
    rw [bind_run _ _ _ h1, bind_run _ _ _ h2]
  obtain ⟨k1, k2, _⟩ := c.tame.indep { t with cur := none } s0 h.work h.shows_.idle.symm
  rw [← hsame, e0] at k1 k2
  cases hr : c.run t with
  | mk r t' =>
    rw [hr] at k1 k2
    simp only at k1 k2
    subst k1
    exact ⟨t', s0', rfl, e0, k2, form_solid (by rw [← hbody]; exact hr), h0⟩

theorem Inside.asks {t s0 : St} {S : Spec F} (h : Inside V t s0 S) {c : Op F} (hc : c.Over V) (ha : c.Asks S) :
    c.run t = (.ok (), { t with cur := some false }) ∧ c.run s0 = (.ok (), s0) := by
  have key : ∀ v : Val F, WfVal v → S.known v ≠ none → ∃ r rs, t.work.selectVertex (edge2str v) = r :: rs := by
    intro v hv hk
    have := mt (h.shows_.selects hv).1 hk
    rw [← h.work] at this
    exact List.exists_cons_of_ne_nil this
  cases c with
  | degree v =>
    obtain ⟨r, rs, hr⟩ := key v hc ha
    refine ⟨?_, ?_⟩
    · exact (bind_run _ _ _ (degree_left v h.cur hr).1)
    · exact (bind_run _ _ _ (degree_idle v h.shows_.idle))
  | timestamp v =>
    obtain ⟨r, rs, hr⟩ := key v hc ha
    refine ⟨?_, ?_⟩
    · exact (bind_run _ _ _ (degree_left v h.cur hr).2)
    · exact (bind_run _ _ _ (timestamp_idle v h.shows_.idle))
  | _ => exact ha.elim

theorem Inside.unknown {t s0 : St} {S : Spec F} (h : Inside V t s0 S) {v : Val F} (hv : WfVal v)
    (hk : S.known v = none) : (∃ d, hgDegree v t = (.ok d, t)) ∧ (∃ d, hgTimestamp v t = (.ok d, t)) := by
  have hr : t.work.selectVertex (edge2str v) = [] := by rw [h.work]; exact (h.shows_.selects hv).2 hk
  have h0 : openCursor true t = (.ok .shared, t) := by unfold openCursor; rw [h.cur]; rfl
  have h1 : execRead .shared (fun db => db.selectVertex (edge2str v)) t = (.ok [], t) := by
    unfold execRead; rw [if_neg (by simp [h.cur])]; simp only; rw [hr]
  have h2 : closeCursor true false t = (.ok (), t) := by unfold closeCursor; rw [h.cur]; rfl
  unfold hgDegree sqlDegree hgTimestamp sqlTimestamp
  rw [bind_run _ _ _ h0, bind_run _ _ _ h1, bind_run _ _ _ h0, bind_run _ _ _ h1]
  simp only
  rw [bind_run _ _ _ h2, bind_run _ _ _ h2]
  exact ⟨⟨_, rfl⟩, ⟨_, rfl⟩⟩

theorem Inside.step (hV : Vocab V) {t s0 : St} {S : Spec F} (h : Inside V t s0 S) {c : Op F} (hc : c.Over V)
    (hb : ¬ c.Bulk) (ha : ¬ c.Asks S) : ∃ t' s0', c.run t = (.ok (), t') ∧ c.run s0 = (.ok (), s0') ∧
      Inside V t' s0' (S.op c) := by
  obtain ⟨s0', e0, h0⟩ := h.shows_.op hV hc
  cases c with
  | prim p =>
    obtain ⟨k1, k2, k3, _⟩ := p.sync (prim_single hc) t s0 h.work (by simp [St.usable, h.cur]) (St.usable_of_none h.shows_.idle)
    have e0' : p.run s0 = (.ok (), s0') := e0
    rw [e0'] at k1 k2
    cases hr : p.run t with
    | mk r t' =>
      rw [hr] at k1 k2 k3
      simp only at k1 k2 k3
      subst k1
      exact ⟨t', s0', hr, e0, h0, k2, k3.trans h.cur⟩
  | degree v =>
    have hk : S.known v = none := Classical.not_not.1 ha
    obtain ⟨d, hd⟩ := (h.unknown hc hk).1
    have e0' : (do let _ ← hgDegree v : M Unit) s0 = (.ok (), s0') := e0
    rw [bind_run _ _ _ (degree_idle v h.shows_.idle)] at e0'
    have : s0 = s0' := (Prod.mk.inj (show ((Except.ok () : Except PyErr Unit), s0) = (.ok (), s0') from e0')).2
    subst this
    exact ⟨t, s0, bind_run _ _ _ hd, e0, h⟩
  | timestamp v =>
    have hk : S.known v = none := Classical.not_not.1 ha
    obtain ⟨d, hd⟩ := (h.unknown hc hk).2
    have e0' : (do let _ ← hgTimestamp v : M Unit) s0 = (.ok (), s0') := e0
    rw [bind_run _ _ _ (timestamp_idle v h.shows_.idle)] at e0'
    have : s0 = s0' := (Prod.mk.inj (show ((Except.ok () : Except PyErr Unit), s0) = (.ok (), s0') from e0')).2
    subst this
    exact ⟨t, s0, bind_run _ _ _ hd, e0, h⟩
  | addMany es ts => exact (hb trivial).elim
  | addBelief src e ts => exact (hb trivial).elim
  | addBeliefs src es ts => exact (hb trivial).elim
  | batch ps => exact (hb trivial).elim

theorem Inside.run (hV : Vocab V) (cs : List (Op F)) : ∀ {t s0 : St} {S : Spec F}, Inside V t s0 S →
    (∀ c ∈ cs, c.Over V) →
    (∀ pre c post, cs = pre ++ c :: post → ¬ c.Bulk ∧ ¬ c.Asks (pre.foldl Spec.op S)) →
    ∃ t' s0', forEach Op.run cs t = (.ok (), t') ∧ runOps cs s0 = (.ok (), s0') ∧ Inside V t' s0' (cs.foldl Spec.op S) := by
  induction cs with
  | nil => intro t s0 S h _ _; exact ⟨t, s0, rfl, rfl, h⟩
  | cons c cs ih =>
    intro t s0 S h ho hq
    obtain ⟨h1, h2⟩ := hq [] c cs rfl
    obtain ⟨t1, s1, e1, e2, h3⟩ := h.step hV (ho c (by simp)) h1 h2
    obtain ⟨t2, s2, e3, e4, h4⟩ := ih h3 (fun x hx => ho x (by simp [hx])) (fun pre x post hx =>
      hq (c :: pre) x post (by rw [hx]; rfl))
    refine ⟨t2, s2, ?_, ?_, h4⟩
    · rw [forEach, bind_run _ _ _ e1]; exact e3
    · unfold runOps; rw [forEach, bind_run _ _ _ e2]; exact e4

/-- The calls after a bulk call are made outside a batch. -/
theorem rest_run (cs : List (Op F)) : ∀ {t s0 s' : St}, Solid t → s0.cur = none → t.work = s0.work →
    runOps cs s0 = (.ok (), s') → ∃ t', runOps cs t = (.ok (), t') ∧ t'.work = s'.work ∧ Solid t' := by
  induction cs with
  | nil =>
    intro t s0 s' h _ hw hr
    have : s0 = s' := (Prod.mk.inj (show ((Except.ok () : Except PyErr Unit), s0) = (.ok (), s') from hr)).2
    subst this
    exact ⟨t, rfl, hw, h⟩
  | cons c cs ih =>
    intro t s0 s' h hc hw hr
    unfold runOps at hr
    rw [forEach] at hr
    obtain ⟨k1, k2, k3⟩ := c.tame.indep t s0 hw (h.1.trans hc.symm)
    cases h1 : c.run s0 with
    | mk r s1 =>
      rw [h1] at k1 k2 k3
      cases r with
      | error e => rw [bind_err _ _ _ h1] at hr; exact nomatch hr
      | ok u =>
        rw [bind_run _ _ _ h1] at hr
        cases h2 : c.run t with
        | mk q t1 =>
          rw [h2] at k1 k2 k3
          simp only at k1 k2 k3
          subst k1
          obtain ⟨d1, d2⟩ := C38_durable c t t1 h.1 h.2 h2
          obtain ⟨t2, e2, w2, s2⟩ := ih ⟨d2, d1⟩ (k3 ▸ d2) k2 hr
          exact ⟨t2, by unfold runOps; rw [forEach, bind_run _ _ _ h2]; exact e2, w2, s2⟩

theorem open_batch (cs : List (Op F)) {s : St} (hc : s.cur = none) : hgBatchExec (cs.map Op.run) s =
    (forEach Op.run cs >>= fun _ => closeCursor false true) { s with cur := some true } := by
  unfold hgBatchExec sqlBatchExec
  rw [bind_run _ _ _ (show openCursor false s = (.ok .shared, { s with cur := some true }) by simp [openCursor, hc]),
    forEach_map]

theorem close_idle {s : St} (h : Solid s) : ∃ s', closeCursor false true s = (.error .attributeError, s') ∧
    s'.work = s.work ∧ Solid s' := by
  refine ⟨s.commit, ?_, rfl, h.1, rfl⟩
  unfold closeCursor
  simp [St.commit, h.1]

theorem close_cur {s : St} (h : s.cur ≠ none) : ∃ s', closeCursor false true s = (.ok (), s') ∧
    s'.work = s.work ∧ Solid s' := by
  refine ⟨{ s.commit with cur := none }, ?_, rfl, rfl, rfl⟩
  unfold closeCursor
  cases hx : s.cur with
  | none => exact absurd hx h
  | some b => simp [St.commit, hx]

theorem inside_of (hV : Vocab V) {ops : List (Op F)} (hops : ∀ op ∈ ops, op.Over V) {auto : Bool} {s : St}
    (hs : runOps ops (St.new auto) = (.ok (), s)) : s.cur = none ∧ Inside V { s with cur := some true } s (Spec.after ops) :=
  ⟨(shows_of hV hops hs).idle, shows_of hV hops hs, rfl, rfl⟩

theorem after_append (ops pre : List (Op F)) : pre.foldl Spec.op (Spec.after ops) = Spec.after (ops ++ pre) := by
  unfold Spec.after
  rw [List.foldl_append]

/-- C35, the programs that work, exactly part one: after any history, a batch of calls that are neither bulk additions
nor batches and ask for no known vertex returns, and has the same contents as the calls one by one; all is on disk. -/
theorem C35_harmless (hV : Vocab V) (ops : List (Op F)) (hops : ∀ op ∈ ops, op.Over V) (auto : Bool) (s : St)
    (hs : runOps ops (St.new auto) = (.ok (), s)) (cs : List (Op F)) (hcs : ∀ c ∈ cs, c.Over V) (hq : Harmless ops cs) :
    ∃ s1 s2, hgBatchExec (cs.map Op.run) s = (.ok (), s1) ∧ runOps cs s = (.ok (), s2) ∧ s1.work = s2.work ∧
      s1.disk = s1.work ∧ s1.cur = none := by
  obtain ⟨hc, hin⟩ := inside_of hV hops hs
  obtain ⟨t, s2, e1, e2, h2⟩ := hin.run hV cs hcs (fun pre c post h => by rw [after_append]; exact hq pre c post h)
  obtain ⟨s1, e3, w3, c3⟩ := close_cur (s := t) (by rw [h2.cur]; simp)
  refine ⟨s1, s2, ?_, e2, w3.trans h2.work, c3.2, c3.1⟩
  rw [open_batch cs hc, bind_run _ _ _ e1, e3]

/-- C35: the same if such calls are followed by one last question about any vertex. -/
theorem C35_last (hV : Vocab V) (ops : List (Op F)) (hops : ∀ op ∈ ops, op.Over V) (auto : Bool) (s : St)
    (hs : runOps ops (St.new auto) = (.ok (), s)) (pre : List (Op F)) (c : Op F) (hcs : ∀ x ∈ pre ++ [c], x.Over V)
    (hq : Harmless ops pre) (ha : c.Asks (Spec.after (ops ++ pre))) :
    ∃ s1 s2, hgBatchExec ((pre ++ [c]).map Op.run) s = (.ok (), s1) ∧ runOps (pre ++ [c]) s = (.ok (), s2) ∧
      s1.work = s2.work ∧ s1.disk = s1.work ∧ s1.cur = none := by
  obtain ⟨hc, hin⟩ := inside_of hV hops hs
  obtain ⟨t, s2, e1, e2, h2⟩ := hin.run hV pre (fun x hx => hcs x (by simp [hx])) (fun pre c post h => by
    rw [after_append]; exact hq pre c post h)
  rw [after_append] at h2
  obtain ⟨a1, a2⟩ := h2.asks (hcs c (by simp)) ha
  obtain ⟨s1, e3, w3, c3⟩ := close_cur (s := { t with cur := some false }) (by simp)
  refine ⟨s1, s2, ?_, ?_, w3.trans h2.work, c3.2, c3.1⟩
  · rw [open_batch _ hc, forEach_append, bind_assoc', bind_run _ _ _ e1, forEach, bind_assoc', bind_run _ _ _ a1]
    exact e3
  · rw [runOps_append e2]
    unfold runOps
    rw [forEach, bind_run _ _ _ a2]
    rfl

/-- C35: the programs that fail at the end: if such calls are followed by a bulk addition or a batch, then (whatever the
calls after it) the batch raises `AttributeError`, but only after everything in it was done, as one by one outside a
batch, and put on disk; and the session has no leftovers. -/
theorem C35_bulk (hV : Vocab V) (ops : List (Op F)) (hops : ∀ op ∈ ops, op.Over V) (auto : Bool) (s : St)
    (hs : runOps ops (St.new auto) = (.ok (), s)) (pre : List (Op F)) (b : Op F) (post : List (Op F))
    (hcs : ∀ c ∈ pre ++ b :: post, c.Over V) (hq : Harmless ops pre) (hb : b.Bulk) :
    ∃ s1 s2, hgBatchExec ((pre ++ b :: post).map Op.run) s = (.error .attributeError, s1) ∧
      runOps (pre ++ b :: post) s = (.ok (), s2) ∧ s1.work = s2.work ∧ s1.disk = s1.work ∧ s1.cur = none := by
  obtain ⟨hc, hin⟩ := inside_of hV hops hs
  obtain ⟨t, s2, e1, e2, h2⟩ := hin.run hV pre (fun x hx => hcs x (by simp [hx])) (fun pre c post h => by
    rw [after_append]; exact hq pre c post h)
  obtain ⟨t3, s3, e3, e4, w3, sol3, h3⟩ := h2.bulk hV (hcs b (by simp)) hb
  obtain ⟨s4, e5, h4⟩ := h3.ops hV (ops := post) (fun x hx => hcs x (by simp [hx]))
  obtain ⟨t4, e6, w4, sol4⟩ := rest_run post sol3 h3.idle w3 e5
  obtain ⟨s1, e7, w7, sol7⟩ := close_idle sol4
  refine ⟨s1, s4, ?_, ?_, w7.trans w4, sol7.2, sol7.1⟩
  · rw [open_batch _ hc, forEach_append, bind_assoc', bind_run _ _ _ e1, forEach, bind_assoc', bind_run _ _ _ e3,
      bind_run _ _ _ (show forEach Op.run post t3 = _ from e6)]
    exact e7
  · rw [runOps_append e2]
    unfold runOps
    rw [forEach, bind_run _ _ _ e4]
    exact e5

/-- C35: the programs that fail in the middle: if such calls are followed by a question about a known vertex and further
calls (not beginning with an empty batch), then the batch raises, having done exactly the calls before the question; none
of the others; and all further calls of the session raise (C82), until an empty batch. -/
theorem C35_asked (hV : Vocab V) (ops : List (Op F)) (hops : ∀ op ∈ ops, op.Over V) (auto : Bool) (s : St)
    (hs : runOps ops (St.new auto) = (.ok (), s)) (pre : List (Op F)) (c d : Op F) (post : List (Op F))
    (hcs : ∀ x ∈ pre ++ [c], x.Over V) (hq : Harmless ops pre) (ha : c.Asks (Spec.after (ops ++ pre)))
    (hd : d ≠ .batch []) :
    ∃ er s1 s2, hgBatchExec ((pre ++ c :: d :: post).map Op.run) s = (.error er, s1) ∧
      runOps pre s = (.ok (), s2) ∧ s1.work = s2.work ∧ s1.cur = some false := by
  obtain ⟨hc, hin⟩ := inside_of hV hops hs
  obtain ⟨t, s2, e1, e2, h2⟩ := hin.run hV pre (fun x hx => hcs x (by simp [hx])) (fun pre c post h => by
    rw [after_append]; exact hq pre c post h)
  rw [after_append] at h2
  obtain ⟨a1, _⟩ := h2.asks (hcs c (by simp)) ha
  obtain ⟨er, he⟩ := C82_refuses d hd { t with cur := some false } rfl
  refine ⟨er, { t with cur := some false }, s2, ?_, e2, h2.work, rfl⟩
  rw [open_batch _ hc, forEach_append, bind_assoc', bind_run _ _ _ e1, forEach, bind_assoc', bind_run _ _ _ a1, forEach,
    bind_assoc', bind_err _ _ _ he]

/-- C35: an empty batch after the question acts like a bulk call. -/
theorem C35_asked_empty (hV : Vocab V) (ops : List (Op F)) (hops : ∀ op ∈ ops, op.Over V) (auto : Bool) (s : St)
    (hs : runOps ops (St.new auto) = (.ok (), s)) (pre : List (Op F)) (c : Op F) (post : List (Op F))
    (hcs : ∀ x ∈ pre ++ c :: .batch [] :: post, x.Over V) (hq : Harmless ops pre)
    (ha : c.Asks (Spec.after (ops ++ pre))) :
    ∃ s1 s2, hgBatchExec ((pre ++ c :: .batch [] :: post).map Op.run) s = (.error .attributeError, s1) ∧
      runOps (pre ++ c :: .batch [] :: post) s = (.ok (), s2) ∧ s1.work = s2.work ∧ s1.disk = s1.work ∧
        s1.cur = none := by
  obtain ⟨hc, hin⟩ := inside_of hV hops hs
  obtain ⟨t, s2, e1, e2, h2⟩ := hin.run hV pre (fun x hx => hcs x (by simp [hx])) (fun pre c post h => by
    rw [after_append]; exact hq pre c post h)
  rw [after_append] at h2
  obtain ⟨a1, a2⟩ := h2.asks (hcs c (by simp)) ha
  obtain ⟨t3, r1, r2, r3, r4, _⟩ := C82_recover { t with cur := some false }
  obtain ⟨s3, e3, h3⟩ := h2.shows_.op hV (op := .batch []) (by simp [Op.Over])
  obtain ⟨u3, q1, q2, _⟩ := C82_recover s2
  have : u3 = s3 := by
    have : hgBatchExec [] s2 = (.ok (), s3) := e3
    rw [q1] at this
    exact (Prod.mk.inj this).2
  subst this
  obtain ⟨s4, e5, h4⟩ := h3.ops hV (ops := post) (fun x hx => hcs x (by simp [hx]))
  obtain ⟨t4, e6, w4, sol4⟩ := rest_run post (t := t3) ⟨r4, r3.trans r2.symm⟩ h3.idle (r2.trans (h2.work.trans q2.symm)) e5
  obtain ⟨s1, e7, w7, sol7⟩ := close_idle sol4
  refine ⟨s1, s4, ?_, ?_, w7.trans w4, sol7.2, sol7.1⟩
  · rw [open_batch _ hc, forEach_append, bind_assoc', bind_run _ _ _ e1, forEach, bind_assoc', bind_run _ _ _ a1,
      forEach, bind_assoc', bind_run _ _ _ (show Op.run (.batch [] : Op F) { t with cur := some false } = _ from r1),
      bind_run _ _ _ (show forEach Op.run post t3 = _ from e6)]
    exact e7
  · rw [runOps_append e2]
    unfold runOps
    rw [forEach, bind_run _ _ _ a2, forEach, bind_run _ _ _ e3]
    exact e5

/-- Either all calls are harmless, or there is a first one that is not. -/
theorem first_harm (ops cs : List (Op F)) : Harmless ops cs ∨ ∃ pre c post, cs = pre ++ c :: post ∧ Harmless ops pre ∧
    (c.Bulk ∨ c.Asks (Spec.after (ops ++ pre))) := by
  have key : ∀ rest pre : List (Op F), Harmless ops pre → Harmless ops (pre ++ rest) ∨
      ∃ p c post, pre ++ rest = p ++ c :: post ∧ Harmless ops p ∧ (c.Bulk ∨ c.Asks (Spec.after (ops ++ p))) := by
    intro rest
    induction rest with
    | nil => intro pre h; rw [List.append_nil]; exact .inl h
    | cons x rest ih =>
      intro pre h
      by_cases hx : x.Bulk ∨ x.Asks (Spec.after (ops ++ pre))
      · exact .inr ⟨pre, x, rest, rfl, h, hx⟩
      · have := ih (pre ++ [x]) (by
          intro p c post hp
          rcases List.append_eq_append_iff.1 hp with ⟨a, h1, h2⟩ | ⟨a, h1, h2⟩
          · cases a with
            | nil =>
              simp only [List.append_nil, List.nil_append] at h1 h2
              subst h1
              injection h2 with h3 h4
              subst h3
              exact ⟨fun hb => hx (.inl hb), fun hb => hx (.inr hb)⟩
            | cons y a => simp at h2
          · cases a with
            | nil =>
              simp only [List.append_nil, List.nil_append] at h1 h2
              subst h1
              injection h2 with h3 h4
              subst h3
              exact ⟨fun hb => hx (.inl hb), fun hb => hx (.inr hb)⟩
            | cons y a =>
              injection h2 with h3 h4
              subst h3
              exact h p c a h1)
        rw [List.append_assoc] at this
        exact this
  exact key cs [] (by intro p c post hp; cases p <;> cases hp)

/-- C35, exactly: after any history, a batch of any calls over the vocabulary returns if and only if none of them is a
bulk addition or a batch, and none but the last asks for the degree or time stamp of a vertex known at that moment. -/
theorem C35_exact (hV : Vocab V) (ops : List (Op F)) (hops : ∀ op ∈ ops, op.Over V) (auto : Bool) (s : St)
    (hs : runOps ops (St.new auto) = (.ok (), s)) (cs : List (Op F)) (hcs : ∀ c ∈ cs, c.Over V) :
    (hgBatchExec (cs.map Op.run) s).1 = .ok () ↔
      ∀ pre c post, cs = pre ++ c :: post → ¬ c.Bulk ∧ (c.Asks (Spec.after (ops ++ pre)) → post = []) := by
  constructor
  · intro hok
    rcases first_harm ops cs with h | ⟨pre, c, post, rfl, hq, hx⟩
    · intro pre c post hp
      obtain ⟨h1, h2⟩ := h pre c post hp
      exact ⟨h1, fun h => absurd h h2⟩
    · by_cases hb : c.Bulk
      · obtain ⟨s1, _, e, _⟩ := C35_bulk hV ops hops auto s hs pre c post hcs hq hb
        rw [e] at hok
        exact nomatch hok
      · have ha := hx.resolve_left hb
        cases post with
        | cons d post =>
          exfalso
          by_cases hd : d = .batch []
          · subst hd
            obtain ⟨s1, _, e, _⟩ := C35_asked_empty hV ops hops auto s hs pre c post hcs hq ha
            rw [e] at hok
            exact nomatch hok
          · obtain ⟨er, s1, _, e, _⟩ := C35_asked hV ops hops auto s hs pre c d post (fun x hx => hcs x (by
              rcases List.mem_append.1 hx with hx | hx
              · exact List.mem_append_left _ hx
              · rw [List.mem_singleton.1 hx]
                simp)) hq ha hd
            rw [e] at hok
            exact nomatch hok
        | nil =>
          intro p x post hp
          rcases List.append_eq_append_iff.1 hp with ⟨a, h1, h2⟩ | ⟨a, h1, h2⟩
          · cases a with
            | nil =>
              simp only [List.append_nil, List.nil_append] at h1 h2
              injection h2 with h3 h4
              subst h3
              exact ⟨hb, fun _ => h4.symm⟩
            | cons y a => simp at h2
          · cases a with
            | nil =>
              simp only [List.append_nil, List.nil_append] at h1 h2
              injection h2 with h3 h4
              subst h3
              exact ⟨hb, fun _ => h4⟩
            | cons y a =>
              injection h2 with h3 h4
              subst h3
              obtain ⟨k1, k2⟩ := hq p x a h1
              exact ⟨k1, fun h => absurd h k2⟩
  · intro h
    rcases first_harm ops cs with hq | ⟨pre, c, post, rfl, hq, hx⟩
    · obtain ⟨s1, _, e, _⟩ := C35_harmless hV ops hops auto s hs cs hcs hq
      rw [e]
    · obtain ⟨h1, h2⟩ := h pre c post rfl
      have ha := hx.resolve_left h1
      have hp := h2 ha
      subst hp
      obtain ⟨s1, _, e, _⟩ := C35_last hV ops hops auto s hs pre c hcs hq ha
      rw [e]

/-! Programs of all four kinds. -/

theorem harmless_nil (ops : List (Op F)) : Harmless ops [] := by
  intro p c post hp
  cases p <;> cases hp

theorem harmless_cons {ops : List (Op F)} {c : Op F} {cs : List (Op F)} (h1 : ¬ c.Bulk) (h2 : ¬ c.Asks (Spec.after ops))
    (h : Harmless (ops ++ [c]) cs) : Harmless ops (c :: cs) := by
  intro p x post hp
  cases p with
  | nil =>
    injection hp with h3 h4
    subst h3
    rw [List.append_nil]
    exact ⟨h1, h2⟩
  | cons y p =>
    injection hp with h3 h4
    subst h3
    have := h p x post h4
    rw [List.append_assoc] at this
    exact this

/-- The time stamp of a vertex unknown at that moment, and an addition that makes another one known: harmless. -/
theorem exQuiet : Harmless [.prim (.add exE1 1)] [.timestamp (sy "mary"), .prim (.add exE4 2), .prim (.remove exE1)] := by
  refine harmless_cons (fun h => h) (fun h => h ?_) (harmless_cons (fun h => h) (fun h => h)
    (harmless_cons (fun h => h) (fun h => h) (harmless_nil _)))
  have : sy "mary" ≠ exE1 ∧ sy "mary" ∉ exE1.elems := by decide +kernel
  simp [Spec.after, Spec.op, Spec.prim, Spec.add, Spec.empty, this]

theorem exQuiet_over : ∀ op ∈ ([.timestamp (sy "mary"), .prim (.add exE4 2), .prim (.remove exE1)] : List (Op Half)),
    op.Over PlainVocab := ops_of (by decide +kernel)

theorem exStart_over : ∀ op ∈ ([.prim (.add exE1 1)] : List (Op Half)), op.Over PlainVocab := ops_of (by decide +kernel)

/-- After those calls `mary` is known. -/
theorem exAsks : (Op.degree (sy "mary") : Op Half).Asks
    (Spec.after ([.prim (.add exE1 1)] ++ [.timestamp (sy "mary"), .prim (.add exE4 2), .prim (.remove exE1)])) := by
  have h1 : sy "mary" ≠ exE1 ∧ sy "mary" ≠ exE4 ∧ sy "mary" ∉ exE1.elems ∧ sy "mary" ∈ exE4.elems := by decide +kernel
  have h2 : exE1 ≠ exE4 := by decide +kernel
  have h3 : exE4 ≠ exE1 := by decide +kernel
  simp [Op.Asks, Spec.after, Spec.op, Spec.prim, Spec.add, Spec.remove, Spec.empty, h1, h2, h3]

/-- The hypotheses of `C35_harmless`, `C35_last`, `C35_bulk`, `C35_asked` and `C35_asked_empty` are met, and the programs
do what these say. -/
example : ∃ s, runOps [.prim (.add exE1 1)] (St.new false) = (.ok (), s) ∧
    (hgBatchExec (([.timestamp (sy "mary"), .prim (.add exE4 2), .prim (.remove exE1)] : List (Op Half)).map Op.run) s).1 =
      .ok () ∧
    (hgBatchExec (([.timestamp (sy "mary"), .prim (.add exE4 2), .prim (.remove exE1), .degree (sy "mary")] :
      List (Op Half)).map Op.run) s).1 = .ok () ∧
    (hgBatchExec (([.timestamp (sy "mary"), .prim (.add exE4 2), .prim (.remove exE1), .degree (sy "mary"),
      .prim (.add exE3 3)] : List (Op Half)).map Op.run) s).1 = .error .programmingError ∧
    (hgBatchExec (([.timestamp (sy "mary"), .prim (.add exE4 2), .prim (.remove exE1), .addMany [exE3] 3,
      .degree (sy "mary"), .prim (.remove exE3)] : List (Op Half)).map Op.run) s).1 = .error .attributeError ∧
    (hgBatchExec (([.timestamp (sy "mary"), .prim (.add exE4 2), .prim (.remove exE1), .degree (sy "mary"), .batch [],
      .prim (.add exE3 3)] : List (Op Half)).map Op.run) s).1 = .error .attributeError := by
  refine ⟨(runOps [.prim (.add exE1 1)] (St.new false)).2, ?_⟩
  decide +kernel

/-- The harmless calls of the examples. -/
def exQuietOps : List (Op Half) := [.timestamp (sy "mary"), .prim (.add exE4 2), .prim (.remove exE1)]

example (s : St) (hs : runOps [.prim (.add exE1 1)] (St.new false) = (.ok (), s)) :
    ∃ s1 s2, hgBatchExec ((exQuietOps ++ Op.addMany [exE3] 3 :: [Op.degree (sy "mary")]).map Op.run) s =
        (.error .attributeError, s1) ∧
      runOps (exQuietOps ++ .addMany [exE3] 3 :: [.degree (sy "mary")]) s = (.ok (), s2) ∧ s1.work = s2.work ∧
      s1.disk = s1.work ∧ s1.cur = none :=
  C35_bulk plainVocab _ exStart_over false s hs exQuietOps (.addMany [exE3] 3) [.degree (sy "mary")]
    (ops_of (by decide +kernel)) exQuiet trivial

example (s : St) (hs : runOps [.prim (.add exE1 1)] (St.new false) = (.ok (), s)) :
    ∃ er s1 s2, hgBatchExec ((exQuietOps ++ Op.degree (sy "mary") :: Op.prim (.add exE3 3) :: []).map Op.run) s =
        (.error er, s1) ∧
      runOps exQuietOps s = (.ok (), s2) ∧ s1.work = s2.work ∧ s1.cur = some false :=
  C35_asked plainVocab _ exStart_over false s hs exQuietOps (.degree (sy "mary")) (.prim (.add exE3 3)) []
    (ops_of (by decide +kernel)) exQuiet exAsks (by simp)

end GB
