import Verif.Props.Graph
import Verif.Proofs.Quiet

/-!
Properties C35, C36, C38, C39, C47: batches, crash atomicity of bulk operations, durability, failures, and
independence of the backend's commit mode.
-/

set_option linter.unusedSectionVars false
set_option linter.unusedVariables false

namespace GB

variable {F : Type} [PyFloat F] [DecidableEq F] {V : Val F → Prop}

/-- A body run under a shared cursor that commits nothing: it raises and nothing is on disk, or it returns
and everything it did is committed at once. -/
theorem bracket {m : M Unit} (hm : ∀ d l, Pres (Held d l) m) {s : St} (hc : s.cur = none)
    (ha : s.autocommit = false) :
    let r := (openCursor false >>= fun _ => m >>= fun _ => closeCursor false true) s
    (∃ e, r.1 = .error e ∧ r.2.disk = s.disk ∧ r.2.commits = s.commits ∧ r.2.cur ≠ none) ∨
    (r.1 = .ok () ∧ r.2.commits = s.commits ++ [r.2.work] ∧ r.2.disk = r.2.work ∧ r.2.cur = none) := by
  intro r
  have h0 : openCursor false s = (.ok .shared, { s with cur := some true }) := by
    unfold openCursor; rw [hc]; rfl
  have hH : Held s.disk s.commits { s with cur := some true } := ⟨by simp, ha, rfl, rfl⟩
  have hr : r = (m >>= fun _ => closeCursor false true) { s with cur := some true } := bind_run _ _ _ h0
  have h1 := hm _ _ _ hH
  cases hx : m { s with cur := some true } with
  | mk q t =>
    rw [hx] at h1
    obtain ⟨k1, k2, k3, k4⟩ := h1
    simp only at k1 k2 k3 k4
    cases q with
    | error e =>
      rw [bind_err _ _ _ hx] at hr
      exact .inl ⟨e, by rw [hr], by rw [hr]; exact k3, by rw [hr]; exact k4, by rw [hr]; exact k1⟩
    | ok u =>
      rw [bind_run _ _ _ hx] at hr
      right
      have : closeCursor false true t = (.ok (), { t.commit with cur := none }) := by
        unfold closeCursor
        have : t.commit.cur = t.cur := rfl
        cases ht : t.cur with
        | none => exact absurd ht k1
        | some b => simp [this, ht]
      rw [this] at hr
      rw [hr]
      refine ⟨rfl, ?_, rfl, rfl⟩
      show t.commits ++ [t.work] = s.commits ++ [t.work]
      rw [k4]

/-- The same as a statement about crash contents. -/
theorem bracket_crash {α : Type} {m : M α} {s : St}
    (h : (∃ e, (m s).1 = .error e ∧ (m s).2.disk = s.disk ∧ (m s).2.commits = s.commits ∧ (m s).2.cur ≠ none) ∨
      (∃ a, (m s).1 = .ok a ∧ (m s).2.commits = s.commits ++ [(m s).2.work] ∧ (m s).2.disk = (m s).2.work ∧
        (m s).2.cur = none)) :
    ∀ d ∈ crashContents m s, d = s.disk ∨ ((∃ a, (m s).1 = .ok a) ∧ d = (m s).2.work) := by
  intro d hd
  unfold crashContents at hd
  rcases List.mem_cons.1 hd with hd | hd
  · exact .inl hd
  · rcases h with ⟨e, h1, h2, h3, _⟩ | ⟨a, h1, h2, _⟩
    · rw [h3] at hd; simp at hd
    · rw [h2] at hd
      simp only [List.drop_left, List.mem_singleton] at hd
      exact .inr ⟨⟨a, h1⟩, hd⟩

theorem hgAdd_coll_eq {edges h : Val F} (hh : edges.head0 = .ok h) (hq : h.isSeq = true) (ts : Int) (s : St) :
    hgAdd edges ts s = ((openCursor false >>= fun _ =>
      (liftE edges.iter >>= fun es => forEach (fun e => do let _ ← addRaw e ts) es) >>= fun _ =>
        closeCursor false true) >>= fun _ => (Pure.pure edges : M (Val F))) s := by
  unfold hgAdd sqlAdd
  rw [hh, bind_run _ _ _ (show liftE (.ok h) s = _ from rfl)]
  simp only [hq, if_true, bind_assoc']

theorem addColl_bracket {edges h : Val F} (hh : edges.head0 = .ok h) (hq : h.isSeq = true) (ts : Int) {s : St}
    (hc : s.cur = none) (ha : s.autocommit = false) :
    (∃ e, (hgAdd edges ts s).1 = .error e ∧ (hgAdd edges ts s).2.disk = s.disk ∧
      (hgAdd edges ts s).2.commits = s.commits ∧ (hgAdd edges ts s).2.cur ≠ none) ∨
    (∃ a, (hgAdd edges ts s).1 = .ok a ∧ (hgAdd edges ts s).2.commits = s.commits ++ [(hgAdd edges ts s).2.work] ∧
      (hgAdd edges ts s).2.disk = (hgAdd edges ts s).2.work ∧ (hgAdd edges ts s).2.cur = none) := by
  rw [hgAdd_coll_eq hh hq]
  have hb := bracket (m := liftE edges.iter >>= fun es => forEach (fun e => do let _ ← addRaw e ts) es)
    (fun d l => (Pres.liftE _).bind fun es => Pres.forEach fun e _ =>
      ((held_blocks d l).addRaw e ts).bind fun _ => Pres.pure _) hc ha
  simp only at hb
  cases hx : (openCursor false >>= fun _ =>
      (liftE edges.iter >>= fun es => forEach (fun e => do let _ ← addRaw e ts) es) >>= fun _ =>
        closeCursor false true) s with
  | mk q t =>
    rw [hx] at hb
    simp only at hb
    cases q with
    | error e =>
      rw [bind_err _ _ _ hx]
      rcases hb with ⟨e', h1, h2⟩ | ⟨h1, _⟩
      · exact .inl ⟨e, rfl, h2⟩
      · simp at h1
    | ok u =>
      rw [bind_run _ _ _ hx]
      rcases hb with ⟨e', h1, _⟩ | ⟨_, h2⟩
      · simp at h1
      · exact .inr ⟨edges, rfl, h2⟩

/-! ### C36 -/

/-- C36: without autocommit (SQLite), whatever the edges of the collection (well-formed or not, and whether the
call returns or raises) and whatever the contents: a crash at any moment of the bulk addition leaves the
contents before, or, if the call returns, those after the whole call. -/
theorem C36_bulk_add (s : St) (hc : s.cur = none) (ha : s.autocommit = false) (edges h : Val F)
    (hh : edges.head0 = .ok h) (hq : h.isSeq = true) (ts : Int) :
    ∀ d ∈ crashContents (hgAdd edges ts) s,
      d = s.disk ∨ ((∃ r, (hgAdd edges ts s).1 = .ok r) ∧ d = (hgAdd edges ts s).2.work) :=
  bracket_crash (addColl_bracket hh hq ts hc ha)

/-- C36: the same for a collection over a vocabulary after any history; the call returns, and a new
connection to what the crash left sees exactly the graph before or the graph after. -/
theorem C36_history (hV : Vocab V) (ops : List (Op F)) (hops : ∀ op ∈ ops, op.Over V) (s : St)
    (hs : runOps ops (St.new false) = (.ok (), s)) (es : List (Val F)) (hne : es ≠ [])
    (hes : ∀ e ∈ es, EdgeOver V e) (ts : Int) :
    ∃ s', hgAdd (.seq true es) ts s = (.ok (.seq true es), s') ∧
      ∀ d ∈ crashContents (hgAdd (.seq true es) ts) s,
        SameView V (reopen d false) s ∨ SameView V (reopen d false) s' := by
  obtain ⟨A, hA⟩ := after_of hV hops hs
  obtain ⟨s', e1, st, hd', _⟩ := addMany_run hV hA.ok (b := true) hne hes ts hA.idle hA.work
  obtain ⟨h, hh, hq⟩ := head0_coll (b := true) hne hes
  have e1' : hgAdd (.seq true es) ts s = (.ok (.seq true es), s') := e1
  refine ⟨s', e1', ?_⟩
  intro d hd
  have h0 := shows_of hV hops hs
  obtain ⟨t, e2, h1⟩ := h0.op hV (op := .addMany es ts) ⟨hne, hes⟩
  have ht : t = s' := by
    have : (do let _ ← hgAdd (.seq true es) ts : M Unit) s = (.ok (), t) := e2
    rw [bind_run _ _ _ e1'] at this
    have := (Prod.mk.inj (show ((Except.ok () : Except PyErr Unit), s') = (.ok (), t) from this)).2
    exact this.symm
  subst ht
  have re : ∀ {d : DB} {x : St} {S : Spec F}, Shows V x S → d = x.work → Shows V (reopen d false) S := by
    intro d x S hx hd
    obtain ⟨A, k1, k2, k3⟩ := hx.ex
    exact ⟨⟨A, k1, k2, hd.trans k3⟩, rfl, rfl⟩
  rcases C36_bulk_add s h0.idle (by rw [hA.auto]) _ h hh hq ts d hd with h | ⟨_, h⟩
  · exact .inl (sameView_of hV (re h0 (h.trans h0.disk)) h0 fun _ => Iff.rfl)
  · rw [e1'] at h
    exact .inr (sameView_of hV (re h1 h) h1 fun _ => Iff.rfl)

/-- Calls that never commit by themselves: additions of one edge, and all queries. -/
inductive AddsOrReads (F : Type) where
  | add (e : Val F) (ts : Int)
  | query (q : Query F)
  | degree (v : Val F)
  | timestamp (v : Val F)

/-- The call. -/
def AddsOrReads.run : AddsOrReads F → M Unit
  | .add e ts => do let _ ← hgAdd e ts
  | .query q => q.run
  | .degree v => do let _ ← hgDegree v
  | .timestamp v => do let _ ← hgTimestamp v

/-- It does not add a collection. -/
def AddsOrReads.Single : AddsOrReads F → Prop
  | .add e _ => ∀ h, e.head0 = .ok h → h.isSeq = false
  | _ => True

theorem AddsOrReads.held {d l} (p : AddsOrReads F) (hp : p.Single) : Pres (Held d l) p.run := by
  cases p with
  | add e ts =>
    unfold AddsOrReads.run
    refine Pres.bind ?_ fun _ => Pres.pure _
    cases hh : e.head0 with
    | error er =>
      intro s hs
      have : hgAdd e ts s = (.error er, s) := by
        unfold hgAdd sqlAdd
        rw [hh]
        exact bind_err _ _ _ rfl
      rw [this]; exact hs
    | ok h =>
      intro s hs
      have : hgAdd e ts s = (addRaw e ts >>= fun _ => (Pure.pure e : M (Val F))) s := by
        unfold hgAdd sqlAdd
        rw [hh, bind_run _ _ _ (show liftE (.ok h) s = _ from rfl)]
        simp only [hp h hh, Bool.false_eq_true, if_false]
      rw [this]
      exact (((held_blocks d l).addRaw e ts).bind fun _ => Pres.pure _) s hs
  | query q => exact (held_blocks d l).query q
  | degree v => exact (held_degree v).bind fun _ => Pres.pure _
  | timestamp v => exact (held_timestamp v).bind fun _ => Pres.pure _

/-- C36: a batch of single additions and queries of any kind (with any arguments, returning or raising) is
atomic in the same sense. -/
theorem C36_batch (s : St) (hc : s.cur = none) (ha : s.autocommit = false) (ps : List (AddsOrReads F))
    (hps : ∀ p ∈ ps, p.Single) :
    ∀ d ∈ crashContents (hgBatchExec (ps.map AddsOrReads.run)) s,
      d = s.disk ∨ ((hgBatchExec (ps.map AddsOrReads.run) s).1 = .ok () ∧
        d = (hgBatchExec (ps.map AddsOrReads.run) s).2.work) := by
  have hb := bracket (m := forEach (fun f => f) (ps.map AddsOrReads.run)) (fun d l => by
    rw [forEach_map]
    exact Pres.forEach fun p hp => p.held (hps p hp)) hc ha
  simp only at hb
  intro d hd
  rcases bracket_crash (m := hgBatchExec (ps.map AddsOrReads.run)) (s := s) (by
    rcases hb with h | h
    · exact .inl h
    · exact .inr ⟨(), h⟩) d hd with h | ⟨⟨a, h1⟩, h2⟩
  · exact .inl h
  · exact .inr ⟨h1, h2⟩

/-- The hypotheses are met: a bulk addition during which a crash can leave two different contents. -/
example : (crashContents (hgAdd (.seq true [exE3, exE4]) 12) (St.new false)).map (fun d => d.perms.length) = [0, 12] ∧
    (Val.seq true [exE3, exE4] : HVal).head0 = .ok exE3 ∧ exE3.isSeq = true := by decide +kernel

/-- With autocommit (MySQL) the claim is false: contents between before and after. -/
theorem C36_mysql_counterexample : ∃ (es : List HVal) (ts : Int), es ≠ [] ∧ (∀ e ∈ es, EdgeOver PlainVocab e) ∧
    ∃ d ∈ crashContents (hgAdd (.seq true es) ts) (St.new true),
      d ≠ (St.new true).disk ∧ d ≠ (hgAdd (.seq true es) ts (St.new true)).2.work := by
  refine ⟨[exE3, exE4], 12, by simp, ?_, ?_⟩
  · intro e he
    simp only [List.mem_cons, List.not_mem_nil, or_false] at he
    rcases he with rfl | rfl <;> exact edge_of (by decide +kernel)
  · exact ⟨⟨[⟨lit "size", 1, 12⟩], []⟩, by decide +kernel, by decide +kernel, by decide +kernel⟩

/-- A batch that contains a removal is not atomic, even without autocommit: the removal commits the additions
before it. -/
theorem C36_batch_counterexample : ∃ d ∈ crashContents (hgBatchExec [do let _ ← hgAdd exE3 12; hgRemove exE3])
      (St.new false),
    d ≠ (St.new false).disk ∧ d ≠ (hgBatchExec [do let _ ← hgAdd exE3 12; hgRemove exE3] (St.new false)).2.work := by
  refine ⟨⟨[⟨lit "size", 0, 12⟩, ⟨lit "sky/1", 0, 12⟩, ⟨lit "7", 0, 12⟩, ⟨edge2str exE3, 0, 12⟩],
    [lit "size 7 sky/1 1", lit "sky/1 size 7 2", lit "sky/1 7 size 3", lit "7 size sky/1 4", lit "7 sky/1 size 5"]⟩,
    ?_, ?_, ?_⟩ <;> decide +kernel

/-! ### C38 -/

theorem solid_add_single {e : Val F} (h : ∀ x, e.head0 = .ok x → x.isSeq = false) (ts : Int) :
    Pres Solid (hgAdd e ts) := by
  cases hh : e.head0 with
  | error er =>
    intro s hs
    have : hgAdd e ts s = (.error er, s) := by
      unfold hgAdd sqlAdd
      rw [hh]
      exact bind_err _ _ _ rfl
    rw [this]; exact hs
  | ok x =>
    rw [hgAdd_single hh (h x hh)]
    exact (solid_blocks.addRaw e ts).bind fun _ => Pres.pure _

theorem Prim.solid (p : Prim F) (hp : p.Single) : Pres Solid p.run := by
  cases p with
  | add e ts => exact (solid_add_single hp ts).bind fun _ => Pres.pure _
  | remove e => exact solid_blocks'.remove e
  | removeMany es => exact solid_blocks'.remove _
  | removeByPattern ps => exact solid_blocks'.removeByPattern _
  | removeBelief src e => exact solid_blocks'.removeBelief src e
  | destroy => exact solid_blocks'.destroy
  | query q => exact solid_blocks.query q

/-- A call of the API, with unrestricted arguments. -/
theorem add_ok_solid {e r : Val F} {ts : Int} {s s' : St} (hs : Solid s) (h : hgAdd e ts s = (.ok r, s')) :
    Solid s' := by
  by_cases hq : ∀ x, e.head0 = .ok x → x.isSeq = false
  · have := solid_add_single hq ts s hs
    rw [h] at this
    exact this
  · simp only [Classical.not_forall, Bool.not_eq_false] at hq
    obtain ⟨x, hx, hxq⟩ := hq
    rw [hgAdd_coll_eq hx hxq] at h
    cases hy : (openCursor false >>= fun _ =>
      (liftE e.iter >>= fun es => forEach (fun e => do let _ ← addRaw e ts) es) >>= fun _ =>
        closeCursor false true) s with
    | mk q t =>
      cases q with
      | error er => rw [bind_err _ _ _ hy] at h; simp at h
      | ok u =>
        rw [bind_run _ _ _ hy] at h
        have ht : t = s' := (Prod.mk.inj (show ((Except.ok e : Except PyErr (Val F)), t) = (.ok r, s') from h)).2
        subst ht
        have h0 : openCursor false s = (.ok .shared, { s with cur := some true }) := by
          unfold openCursor; rw [hs.1]; rfl
        rw [bind_run _ _ _ h0] at hy
        cases hz : (liftE e.iter >>= fun es => forEach (fun e => do let _ ← addRaw e ts) es)
            { s with cur := some true } with
        | mk q2 t2 =>
          cases q2 with
          | error er => rw [bind_err _ _ _ hz] at hy; simp at hy
          | ok u2 =>
            rw [bind_run _ _ _ hz] at hy
            exact close_ok hy

/-- C38: whatever the functions of a batch do, when `batch_exec` returns everything is on disk. -/
theorem C38_batch (fs : List (M Unit)) (s s' : St) (h : hgBatchExec fs s = (.ok (), s')) :
    s'.disk = s'.work ∧ s'.cur = none := by
  unfold hgBatchExec sqlBatchExec at h
  cases h0 : openCursor false s with
  | mk q t =>
    cases q with
    | error er => rw [bind_err _ _ _ h0] at h; simp at h
    | ok c =>
      rw [bind_run _ _ _ h0] at h
      cases h1 : forEach (fun f => f) fs t with
      | mk q1 t1 =>
        cases q1 with
        | error er => rw [bind_err _ _ _ h1] at h; simp at h
        | ok u =>
          rw [bind_run _ _ _ h1] at h
          have := close_ok h
          exact ⟨this.2, this.1⟩

/-- C38: for every operation, with any arguments, on any contents: if it is called outside a batch with
everything on disk, and returns, then everything is on disk (and it is again outside a batch). -/
theorem C38_durable (op : Op F) (s s' : St) (hc : s.cur = none) (hd : s.disk = s.work)
    (h : op.run s = (.ok (), s')) : s'.disk = s'.work ∧ s'.cur = none := by
  have hs : Solid s := ⟨hc, hd⟩
  have fin : Solid s' → s'.disk = s'.work ∧ s'.cur = none := fun h => ⟨h.2, h.1⟩
  have addOk : ∀ {e : Val F} {ts : Int}, (do let _ ← hgAdd e ts : M Unit) s = (.ok (), s') → Solid s' := by
    intro e ts h
    cases hy : hgAdd e ts s with
    | mk q t =>
      cases q with
      | error er => rw [bind_err _ _ _ hy] at h; simp at h
      | ok r =>
        rw [bind_run _ _ _ hy] at h
        have ht : t = s' := (Prod.mk.inj (show ((Except.ok () : Except PyErr Unit), t) = (.ok (), s') from h)).2
        subst ht
        exact add_ok_solid hs hy
  have belOk : ∀ {src e : Val F} {ts : Int}, hgAddBelief src e ts s = (.ok (), s') → Solid s' := by
    intro src e ts h
    unfold hgAddBelief at h
    cases hb : beliefEdges src e with
    | error er => rw [hb, bind_err _ _ _ (show liftE (.error er) s = _ from rfl)] at h; simp at h
    | ok arg =>
      rw [hb, bind_run _ _ _ (show liftE (.ok arg) s = _ from rfl)] at h
      exact addOk h
  cases op with
  | prim p =>
    cases p with
    | add e ts => exact fin (addOk h)
    | remove e => exact fin (by have := Prim.solid (.remove e) trivial s hs; rw [show (Prim.remove e).run s = _ from h] at this; exact this)
    | removeMany es => exact fin (by have := Prim.solid (.removeMany es) trivial s hs; rw [show (Prim.removeMany es).run s = _ from h] at this; exact this)
    | removeByPattern ps => exact fin (by have := Prim.solid (.removeByPattern ps) trivial s hs; rw [show (Prim.removeByPattern ps).run s = _ from h] at this; exact this)
    | removeBelief src e => exact fin (by have := Prim.solid (.removeBelief src e) trivial s hs; rw [show (Prim.removeBelief src e).run s = _ from h] at this; exact this)
    | destroy => exact fin (by have := Prim.solid (.destroy : Prim F) trivial s hs; rw [show (Prim.destroy : Prim F).run s = _ from h] at this; exact this)
    | query q => exact fin (by have := Prim.solid (.query q) trivial s hs; rw [show (Prim.query q).run s = _ from h] at this; exact this)
  | addMany es ts => exact fin (addOk h)
  | addBelief src e ts => exact fin (belOk h)
  | addBeliefs src es ts => exact fin (belOk h)
  | batch ps => exact C38_batch _ s s' h
  | degree v =>
    have := ((solid_degree v).bind (f := fun _ => (Pure.pure () : M Unit)) fun _ => Pres.pure _) s hs
    rw [show (hgDegree v >>= fun _ => (Pure.pure () : M Unit)) s = (.ok (), s') from h] at this
    exact fin this
  | timestamp v =>
    have := ((solid_timestamp v).bind (f := fun _ => (Pure.pure () : M Unit)) fun _ => Pres.pure _) s hs
    rw [show (hgTimestamp v >>= fun _ => (Pure.pure () : M Unit)) s = (.ok (), s') from h] at this
    exact fin this

/-- C38: operations other than bulk additions, beliefs and batches leave everything on disk even when they
raise. -/
theorem C38_raising (p : Prim F) (hp : p.Single) (s : St) (hc : s.cur = none) (hd : s.disk = s.work) :
    (p.run s).2.disk = (p.run s).2.work ∧ (p.run s).2.cur = none := by
  have := p.solid hp s ⟨hc, hd⟩
  exact ⟨this.2, this.1⟩

/-- C38: a new connection after a clean end of any history behaves as the old one: every further history
gives the same outcome and contents, whatever the commit mode. -/
theorem C38_reopen (ops ops' : List (Op F)) (auto auto' : Bool) (s : St) (hs : runOps ops (St.new auto) = (.ok (), s)) :
    (runOps ops' (reopen s.disk auto')).1 = (runOps ops' s).1 ∧
      (runOps ops' (reopen s.disk auto')).2.work = (runOps ops' s).2.work := by
  have hsol : Solid s := by
    have : ∀ (ops : List (Op F)) (t s : St), Solid t → runOps ops t = (.ok (), s) → Solid s := by
      intro ops
      induction ops with
      | nil =>
        intro t s ht h
        have : t = s := (Prod.mk.inj (show ((Except.ok () : Except PyErr Unit), t) = (.ok (), s) from h)).2
        subst this; exact ht
      | cons op ops ih =>
        intro t s ht h
        unfold runOps at h
        rw [forEach] at h
        cases hy : op.run t with
        | mk q t1 =>
          cases q with
          | error er => rw [bind_err _ _ _ hy] at h; simp at h
          | ok u =>
            rw [bind_run _ _ _ hy] at h
            obtain ⟨h1, h2⟩ := C38_durable op t t1 ht.1 ht.2 hy
            exact ih t1 s ⟨h2, h1⟩ h
    exact this ops _ s ⟨rfl, rfl⟩ hs
  obtain ⟨h1, h2, _⟩ := (runOps_tame ops').indep (reopen s.disk auto') s hsol.2 hsol.1.symm
  exact ⟨h1, h2⟩

/-- Operations that return, from a state with everything on disk: also on ill-formed arguments. -/
example : ∃ s s', runOps exOps (St.new false) = (.ok (), s) ∧ s.cur = none ∧ s.disk = s.work ∧
    (Op.prim (.add (.tup [.str (lit "a b"), .none, .int 3]) 5) : Op Half).run s = (.ok (), s') ∧
    s'.disk = s'.work := by
  refine ⟨(runOps exOps (St.new false)).2,
    ((Op.prim (.add (.tup [.str (lit "a b"), .none, .int 3]) 5) : Op Half).run (runOps exOps (St.new false)).2).2, ?_⟩
  decide +kernel

/-! ### C47 -/

/-- C47: outcome and contents of a history do not depend on the commit mode of the backend, whatever the
arguments of its operations and whether it succeeds or raises. -/
theorem C47_commit_mode (ops : List (Op F)) (auto auto' : Bool) :
    (runOps ops (St.new auto)).1 = (runOps ops (St.new auto')).1 ∧
    (runOps ops (St.new auto)).2.work = (runOps ops (St.new auto')).2.work ∧
    (runOps ops (St.new auto)).2.cur = (runOps ops (St.new auto')).2.cur :=
  (runOps_tame ops).indep (St.new auto) (St.new auto') rfl rfl

/-- C47: likewise for the result of any query after it. -/
theorem C47_results (ops : List (Op F)) (auto auto' : Bool) :
    let s := (runOps ops (St.new auto)).2
    let s' := (runOps ops (St.new auto')).2
    (∀ e : Val F, (hgExists e s).1 = (hgExists e s').1) ∧
    (∀ p : Val F, (hgPattern2edges p s).1 = (hgPattern2edges p s').1) ∧
    (∀ c : Val F, (hgStar c s).1 = (hgStar c s').1) ∧
    (∀ r, (hgSymbolsWithRoot r s).1 = (hgSymbolsWithRoot r s').1) ∧
    (∀ e : Val F, (hgSources e s).1 = (hgSources e s').1) ∧
    (∀ v : Val F, (hgDegree v s).1 = (hgDegree v s').1) ∧
    (∀ v : Val F, (hgTimestamp v s).1 = (hgTimestamp v s').1) ∧
    (∀ (β : Type) (f : Val F → Int → β), (hgFAll f s).1 = (hgFAll f s').1) := by
  intro s s'
  obtain ⟨_, hw, hc⟩ := C47_commit_mode ops auto auto'
  exact ⟨fun e => ((tame_existsM e).indep s s' hw hc).1, fun p => ((tame_pattern2edges p).indep s s' hw hc).1,
    fun c => ((tame_star c).indep s s' hw hc).1, fun r => ((tame_symbolsWithRoot r).indep s s' hw hc).1,
    fun e => ((tame_sources e).indep s s' hw hc).1, fun v => ((tame_degree v).indep s s' hw hc).1,
    fun v => ((tame_timestamp v).indep s s' hw hc).1, fun β f => ((tame_fAll f).indep s s' hw hc).1⟩

/-- C47: what is on disk changes only by commits, and every commit is one of the contents recorded: the
last crash content of any call is what is on disk when it ends. -/
theorem C47_disk (op : Op F) (s : St) :
    (op.run s).2.disk ∈ crashContents op.run s := by
  obtain ⟨l, h1, h2⟩ := op.tame.trace s
  unfold crashContents
  rw [h1, h2, List.drop_left]
  cases hl : l.getLast? with
  | none => simp
  | some d => exact List.mem_cons_of_mem _ (List.mem_of_getLast? hl)

/-! ### C39 -/

/-- C39, the true part: a bulk addition that raises (whatever its argument) leaves nothing on disk (SQLite)
... -/
theorem C39_nothing_on_disk_partial (s : St) (hc : s.cur = none) (ha : s.autocommit = false) (edges h : Val F)
    (hh : edges.head0 = .ok h) (hq : h.isSeq = true) (ts : Int) (er : PyErr) (he : (hgAdd edges ts s).1 = .error er) :
    (hgAdd edges ts s).2.disk = s.disk ∧ ∀ d ∈ crashContents (hgAdd edges ts) s, d = s.disk := by
  rcases addColl_bracket hh hq ts hc ha with ⟨_, _, h2, h3, _⟩ | ⟨a, h1, _⟩
  · refine ⟨h2, ?_⟩
    intro d hd
    rcases C36_bulk_add s hc ha edges h hh hq ts d hd with hd | ⟨⟨r, hr⟩, _⟩
    · exact hd
    · rw [he] at hr; simp at hr
  · rw [he] at h1; simp at h1

/-- ... and the next batch or bulk addition that returns puts everything on disk and ends the damage. -/
theorem C39_recovery_partial (s s' : St) (fs : List (M Unit)) (h : hgBatchExec fs s = (.ok (), s')) :
    s'.disk = s'.work ∧ s'.cur = none := C38_batch fs s s' h

/-- The bulk addition used in the counterexample: an edge and a number. -/
def badBulk : HVal := .seq true [exE3, .int 7]

/-- C39 is false in general: after a bulk addition that raised, an addition that returns is not on disk. -/
theorem C39_counterexample : ∃ (s s' : St), (hgAdd badBulk 1 (St.new false)) = (.error .typeError, s) ∧
    hgAdd exE1 2 s = (.ok exE1, s') ∧ (hgExists exE1 s').1 = .ok true ∧ s'.disk = DB.empty := by
  refine ⟨(hgAdd badBulk 1 (St.new false)).2, (hgAdd exE1 2 (hgAdd badBulk 1 (St.new false)).2).2, ?_⟩
  decide +kernel

/-! ### C35 -/

/-- C35 is false: after `degree` of a known vertex, everything else in the batch raises. -/
theorem C35_degree_counterexample : ∃ (s : St), runOps [.prim (.add exE1 1)] (St.new false) = (.ok (), s) ∧
    (hgBatchExec [do let _ ← hgDegree (sy "sky/1"), do let _ ← hgAdd exE3 2] s).1 = .error .programmingError := by
  refine ⟨(runOps [.prim (.add exE1 1)] (St.new false)).2, ?_⟩
  decide +kernel

/-- ... and stays so, because the closed cursor is kept: the next call outside any batch raises too. -/
theorem C35_forever_counterexample :
    ∃ (s s' : St), runOps [.prim (.add exE1 1)] (St.new false) = (.ok (), s) ∧
      hgBatchExec [do let _ ← hgTimestamp (sy "sky/1"), do let _ ← hgAdd exE3 2] s = (.error .programmingError, s') ∧
      (hgExists exE1 s').1 = .error .programmingError := by
  refine ⟨(runOps [.prim (.add exE1 1)] (St.new false)).2,
    (hgBatchExec [do let _ ← hgTimestamp (sy "sky/1"), do let _ ← hgAdd exE3 2]
      (runOps [.prim (.add exE1 1)] (St.new false)).2).2, ?_⟩
  decide +kernel

/-- C35 is false: a batch whose last function adds a collection never returns: `batch_exec` raises, whatever
the edges, the other functions and the contents. -/
theorem C35_bulk_add_never (fs : List (M Unit)) (edges h : Val F) (hh : edges.head0 = .ok h) (hq : h.isSeq = true)
    (ts : Int) (s : St) : ∃ er, (hgBatchExec (fs ++ [do let _ ← hgAdd edges ts]) s).1 = .error er := by
  cases hr : hgBatchExec (fs ++ [do let _ ← hgAdd edges ts]) s with
  | mk q t =>
    cases q with
    | error er => exact ⟨er, rfl⟩
    | ok u =>
      exfalso
      have split : ∀ (fs : List (M Unit)) (f : M Unit) (s : St),
          forEach (fun f => f) (fs ++ [f]) s = (forEach (fun f => f) fs >>= fun _ => f >>= fun _ => (Pure.pure () : M Unit)) s := by
        intro fs f
        induction fs with
        | nil => intro s; rfl
        | cons g fs ih =>
          intro s
          simp only [List.cons_append, forEach, bind_assoc']
          congr 1
          cases hx : g s with
          | mk q t =>
            cases q with
            | error er => rw [bind_err _ _ _ hx, bind_err _ _ _ hx]
            | ok u => rw [bind_run _ _ _ hx, bind_run _ _ _ hx, ih]
      unfold hgBatchExec sqlBatchExec at hr
      cases h0 : openCursor false s with
      | mk q0 t0 =>
        cases q0 with
        | error er => rw [bind_err _ _ _ h0] at hr; simp at hr
        | ok c =>
          rw [bind_run _ _ _ h0] at hr
          cases h1 : forEach (fun f => f) (fs ++ [do let _ ← hgAdd edges ts]) t0 with
          | mk q1 t1 =>
            cases q1 with
            | error er => rw [bind_err _ _ _ h1] at hr; simp at hr
            | ok u1 =>
              rw [bind_run _ _ _ h1] at hr
              rw [split] at h1
              cases h2 : forEach (fun f => f) fs t0 with
              | mk q2 t2 =>
                cases q2 with
                | error er => rw [bind_err _ _ _ h2] at h1; simp at h1
                | ok u2 =>
                  rw [bind_run _ _ _ h2] at h1
                  have hcur : t1.cur = none := by
                    cases h3 : hgAdd edges ts t2 with
                    | mk q3 t3 =>
                      cases q3 with
                      | error er =>
                        rw [bind_assoc', bind_err _ _ _ h3] at h1; simp at h1
                      | ok r =>
                        rw [bind_assoc', bind_run _ _ _ h3] at h1
                        have ht : t3 = t1 := (Prod.mk.inj (show ((Except.ok () : Except PyErr Unit), t3) = (.ok u1, t1) from h1)).2
                        subst ht
                        rw [hgAdd_coll_eq hh hq] at h3
                        cases hy : (openCursor false >>= fun _ =>
                          (liftE edges.iter >>= fun es => forEach (fun e => do let _ ← addRaw e ts) es) >>= fun _ =>
                            closeCursor false true) t2 with
                        | mk q4 t4 =>
                          cases q4 with
                          | error er => rw [bind_err _ _ _ hy] at h3; simp at h3
                          | ok u4 =>
                            rw [bind_run _ _ _ hy] at h3
                            have ht : t4 = t3 := (Prod.mk.inj
                              (show ((Except.ok edges : Except PyErr (Val F)), t4) = (.ok r, t3) from h3)).2
                            subst ht
                            cases h5 : openCursor false t2 with
                            | mk q5 t5 =>
                              cases q5 with
                              | error er => rw [bind_err _ _ _ h5] at hy; simp at hy
                              | ok c5 =>
                                rw [bind_run _ _ _ h5] at hy
                                cases h6 : (liftE edges.iter >>= fun es =>
                                    forEach (fun e => do let _ ← addRaw e ts) es) t5 with
                                | mk q6 t6 =>
                                  cases q6 with
                                  | error er => rw [bind_err _ _ _ h6] at hy; simp at hy
                                  | ok u6 =>
                                    rw [bind_run _ _ _ h6] at hy
                                    exact (close_ok hy).1
                  unfold closeCursor at hr
                  simp [St.commit, hcur] at hr

theorem forEach_append {α : Type} (f : α → M Unit) (xs ys : List α) :
    forEach f (xs ++ ys) = (forEach f xs >>= fun _ => forEach f ys) := by
  induction xs with
  | nil => rfl
  | cons x xs ih => simp only [List.cons_append, forEach, ih, bind_assoc']

/-- `degree` and `timestamp` return with a usable shared cursor, changing nothing but the cursor. -/
theorem reads_shared (v : Val F) {s : St} (hu : s.cur = some true) :
    (∃ d t, hgDegree v s = (.ok d, t) ∧ t.work = s.work ∧ t.cur ≠ none) ∧
    (∃ d t, hgTimestamp v s = (.ok d, t) ∧ t.work = s.work ∧ t.cur ≠ none) := by
  have h0 : openCursor true s = (.ok .shared, s) := by unfold openCursor; rw [hu]; rfl
  have h1 : execRead .shared (fun db => db.selectVertex (edge2str v)) s =
      (.ok (s.work.selectVertex (edge2str v)), s) := by
    unfold execRead; rw [if_neg (by simp [hu])]
  have h2 : closeCursor true false s = (.ok (), s) := by unfold closeCursor; rw [hu]; rfl
  unfold hgDegree sqlDegree hgTimestamp sqlTimestamp
  rw [bind_run _ _ _ h0, bind_run _ _ _ h1, bind_run _ _ _ h0, bind_run _ _ _ h1]
  cases s.work.selectVertex (edge2str v) with
  | nil =>
    simp only
    rw [bind_run _ _ _ h2, bind_run _ _ _ h2]
    exact ⟨⟨_, s, rfl, rfl, by simp [hu]⟩, ⟨_, s, rfl, rfl, by simp [hu]⟩⟩
  | cons r rs =>
    refine ⟨⟨r.degree, { s with cur := s.cur.map fun _ => false }, rfl, rfl, by simp [hu]⟩,
      ⟨r.timestamp, { s with cur := s.cur.map fun _ => false }, rfl, rfl, by simp [hu]⟩⟩

/-- C35, a true part beyond C34: a batch may end with a `degree` or `timestamp` query of any vertex; it has
the same outcome and contents as the other calls one by one outside a batch. -/
theorem C35_last_partial (s : St) (hc : s.cur = none) (ps : List (Prim F)) (hps : ∀ p ∈ ps, p.Single) (v : Val F)
    (f : M Unit) (hf : f = (do let _ ← hgDegree v) ∨ f = (do let _ ← hgTimestamp v)) :
    (hgBatchExec (ps.map Prim.run ++ [f]) s).1 = (runOps (ps.map Op.prim) s).1 ∧
    (hgBatchExec (ps.map Prim.run ++ [f]) s).2.work = (runOps (ps.map Op.prim) s).2.work := by
  have hopen : openCursor false s = (.ok .shared, { s with cur := some true }) := by
    unfold openCursor; simp [hc]
  have hsync : Sync (forEach (fun f => f) (ps.map Prim.run)) (runOps (ps.map Op.prim)) := by
    unfold runOps
    rw [forEach_map, forEach_map]
    exact Sync.forEach fun p hp => p.sync (hps p hp)
  obtain ⟨h1, h2, h3, h4⟩ := hsync { s with cur := some true } s rfl (by simp [St.usable]) (St.usable_of_none hc)
  unfold hgBatchExec sqlBatchExec
  rw [bind_run _ _ _ hopen, forEach_append, bind_assoc']
  cases hr : forEach (fun f => f) (ps.map Prim.run) { s with cur := some true } with
  | mk r t =>
    rw [hr] at h1 h2 h3
    simp only at h1 h2 h3
    cases r with
    | error er =>
      rw [bind_err _ _ _ hr, ← h1, ← h2]
      exact ⟨rfl, rfl⟩
    | ok u =>
      rw [bind_run _ _ _ hr, ← h1, ← h2]
      obtain ⟨⟨d, t1, e1, w1, c1⟩, ⟨d', t2, e2, w2, c2⟩⟩ := reads_shared v h3
      have fin : ∀ t' : St, f t = (.ok (), t') → t'.work = t.work → t'.cur ≠ none →
          ((forEach (fun f => f) [f] >>= fun _ => closeCursor false true) t).1 = .ok u ∧
          ((forEach (fun f => f) [f] >>= fun _ => closeCursor false true) t).2.work = t.work := by
        intro t' hf hw hcn
        simp only [forEach, bind_assoc']
        rw [bind_run _ _ _ hf]
        simp only [pure_bind']
        have : closeCursor false true t' = (.ok (), { t'.commit with cur := none }) := by
          unfold closeCursor
          cases hx : t'.cur with
          | none => exact absurd hx hcn
          | some b => simp [St.commit, hx]
        rw [this]
        exact ⟨rfl, hw⟩
      rcases hf with rfl | rfl
      · exact fin t1 (by rw [bind_run _ _ _ e1]; rfl) w1 c1
      · exact fin t2 (by rw [bind_run _ _ _ e2]; rfl) w2 c2

example : (Val.seq true [exE3, exE4] : HVal).head0 = .ok exE3 ∧ exE3.isSeq = true ∧
    (hgBatchExec [do let _ ← hgAdd (.seq true [exE3, exE4]) 1] (St.new false)).1 = .error .attributeError := by
  decide +kernel

end GB
