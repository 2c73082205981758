import Verif.Props.BatchUse
import Verif.Model.Overflow
import Verif.Spec.Overflow

/-
Property C83: time stamps that do not fit into 64 bits.
-/

set_option linter.unusedSectionVars false

namespace GB

variable {F : Type} [PyFloat F] [DecidableEq F] {V : Val F → Prop}

theorem execBound_ok {α : Type} (c : Cursor) (q : DB → Option (α × DB)) : execBound true c q = execWrite c q := by
  funext s
  unfold execBound execWrite
  split <;> simp_all

theorem addRaw64_fits (e : Val F) {ts : Int} (h : fits64 ts = true) : addRaw64 e ts = addRaw e ts := by
  have h1 : ∀ id d, updateOrInsertVertex64 id d ts = addStr id d ts := by
    intro id d
    unfold updateOrInsertVertex64 addStr updateOrInsertVertex
    simp only [h, execBound_ok]
  have h2 : (addVert64 ts : Val F → M Unit) = addVert ts := by
    funext v
    unfold addVert64 addVert
    simp only [h1]
  unfold addRaw64 addRaw
  rw [h2]
  simp only [h1]

/-- C83: with a time stamp that fits, an addition (of one edge, several edges or beliefs) is what the other properties are
about, whatever the arguments and the state. -/
theorem C83_fits (e src : Val F) (ts : Int) (h : -(2 ^ 63) ≤ ts ∧ ts < 2 ^ 63) :
    hgAdd64 e ts = hgAdd e ts ∧ hgAddBelief64 src e ts = hgAddBelief src e ts := by
  have hf : fits64 ts = true := by
    unfold fits64
    rw [Bool.and_eq_true, decide_eq_true_eq, decide_eq_true_eq]
    exact h
  have h1 : ∀ e : Val F, hgAdd64 e ts = hgAdd e ts := by
    intro e
    unfold hgAdd64 hgAdd sqlAdd
    simp only [addRaw64_fits _ hf]
  refine ⟨h1 e, ?_⟩
  unfold hgAddBelief64 hgAddBelief
  simp only [h1]

theorem not_fits {ts : Int} (h : ¬ (-(2 ^ 63) ≤ ts ∧ ts < 2 ^ 63)) : fits64 ts = false := by
  cases hf : fits64 ts with
  | false => rfl
  | true =>
    unfold fits64 at hf
    rw [Bool.and_eq_true, decide_eq_true_eq, decide_eq_true_eq] at hf
    exact absurd hf h

theorem upsert64_raises (id : Str) (d : Int) {ts : Int} (h : fits64 ts = false) {s : St} (hu : s.usable) :
    updateOrInsertVertex64 id d ts s = (.error .overflowError, s) := by
  have hn : s.cur ≠ some false := hu
  unfold updateOrInsertVertex64
  rw [bind_run _ _ _ (openCursor_local s)]
  refine bind_err _ _ _ ?_
  unfold execBound
  simp [h, hn]

/-- The loop of an addition whose time stamp does not fit. -/
theorem loop64 {ts : Int} (h : fits64 ts = false) (ps : List Str) (xs : List (Val F)) (hwx : ∀ x ∈ xs, WfVal x) :
    ∀ (vs : List (VEnt F)) (s : St), KeysOk vs → s.usable → s.work = ⟨vs.map VEnt.row, ps⟩ →
      ∃ s', Step true TT s s' ⟨((xs.takeWhile fun x => hasV x vs).foldl (fun vs v => bumpV 1 v vs) vs).map VEnt.row, ps⟩ ∧
        forEach (addVert64 ts) xs s =
          (if xs.all (fun x => hasV x vs) then .ok () else .error .overflowError, s') := by
  induction xs with
  | nil =>
    intro vs s _ _ hw
    refine ⟨s, ?_, rfl⟩
    have := Step.refl (q := true) (T := TT) s
    rw [hw] at this
    exact this
  | cons x xs ih =>
    intro vs s hk hu hw
    have hx := hwx x (by simp)
    have hb := bump_row hk.2 hx 1 ps
    have hc := countP_row hk.2 hx
    obtain ⟨s1, e1, st1⟩ := incDegree_run (q := true) (T := TT) hu (edge2str x) (fun _ => trivial)
    rw [hw] at e1 st1
    rw [hb] at st1
    by_cases hh : hasV x vs = true
    · have hd : decide ((DB.bumpDegree ⟨vs.map VEnt.row, ps⟩ 1 (edge2str x)).1 > 0) = true := by
        simpa [DB.bumpDegree] using hc.2 hh
      rw [hd] at e1
      have hsame : ∀ y, hasV y (bumpV 1 x vs) = hasV y vs := by
        intro y
        unfold hasV bumpV
        rw [List.any_map]
        congr 1
        funext r
        simp only [Function.comp]
        split <;> rfl
      obtain ⟨s2, st2, e2⟩ := ih (fun y hy => hwx y (by simp [hy])) (bumpV 1 x vs) s1 (hk.bump 1 x) (st1.usable hu) st1.work
      simp only [hsame] at st2 e2
      refine ⟨s2, ?_, ?_⟩
      · rw [List.takeWhile_cons_of_pos (by exact hh)]
        exact st1.trans st2
      · rw [forEach, bind_run _ _ _ (show addVert64 ts x s = (.ok (), s1) by
          unfold addVert64; rw [bind_run _ _ _ e1]; rfl), e2]
        simp [hh]
    · have hf : hasV x vs = false := by simpa using hh
      have hb' : bumpV 1 x vs = vs := bumpV_absent hf
      have hd : decide ((DB.bumpDegree ⟨vs.map VEnt.row, ps⟩ 1 (edge2str x)).1 > 0) = false := by
        have := mt hc.1 hh
        simpa [DB.bumpDegree] using this
      rw [hd] at e1
      rw [hb'] at st1
      refine ⟨s1, ?_, ?_⟩
      · rw [List.takeWhile_cons_of_neg (by simp [hf])]
        exact st1
      · rw [forEach, bind_err _ _ _ (show addVert64 ts x s = (.error .overflowError, s1) by
          unfold addVert64; rw [bind_run _ _ _ e1]; exact upsert64_raises _ _ h (st1.usable hu))]
        simp [hf]

/-- One edge, in a batch or not. -/
theorem addRaw64_run (hV : Vocab V) {A : Abs F} (hA : AbsOk V A) {e : Val F} (he : EdgeOver V e) {ts : Int}
    (hts : fits64 ts = false) {s : St} (hu : s.usable) (hw : s.work = A.conc) :
    (e ∈ A.edges → addRaw64 e ts s = (.ok e, s)) ∧
    (e ∉ A.edges → ∃ s', addRaw64 e ts s = (.error .overflowError, s') ∧ Step true TT s s'
      ⟨((e.elems.takeWhile fun x => hasV x A.verts).foldl (fun vs v => bumpV 1 v vs) A.verts).map VEnt.row,
        A.conc.perms⟩) := by
  have hex := existsM_run hV hA he hu hw
  constructor
  · intro h
    unfold addRaw64
    rw [bind_run _ _ _ hex]
    simp only [h, decide_true, Bool.not_true, Bool.false_eq_true, if_false]
    rfl
  · intro h
    obtain ⟨s1, st1, e1⟩ := loop64 hts A.conc.perms e.elems (fun x hx => hV.wf x (he.mem x hx)) A.verts s
      ⟨hA.keys, hA.wf⟩ hu hw
    refine ⟨s1, ?_, st1⟩
    unfold addRaw64
    rw [bind_run _ _ _ hex]
    simp only [h, decide_false, Bool.not_false, if_true]
    rw [bind_run _ _ _ (liftE_ok (iter_edge he) s)]
    by_cases hall : e.elems.all (fun x => hasV x A.verts) = true
    · rw [if_pos hall] at e1
      rw [bind_run _ _ _ e1]
      exact bind_err _ _ _ (upsert64_raises _ _ hts (st1.usable hu))
    · rw [if_neg hall] at e1
      exact bind_err _ _ _ e1

/-! ### Reads that look only at the index -/

/-- Same index rows, same cursor. -/
def SameIndex (s s' : St) : Prop := s.work.perms = s'.work.perms ∧ s.cur = s'.cur

/-- The call looks only at the index rows. -/
def IndexOnly {α : Type} (m : M α) : Prop :=
  ∀ s s', SameIndex s s' → (m s).1 = (m s').1 ∧ SameIndex (m s).2 (m s').2

theorem IndexOnly.pure {α : Type} (a : α) : IndexOnly (Pure.pure a : M α) := fun _ _ h => ⟨rfl, h⟩

theorem IndexOnly.liftE {α : Type} (x : Except PyErr α) : IndexOnly (GB.liftE x) := fun _ _ h => ⟨rfl, h⟩

theorem IndexOnly.bind {α β : Type} {m : M α} {f : α → M β} (hm : IndexOnly m) (hf : ∀ a, IndexOnly (f a)) :
    IndexOnly (m >>= f) := by
  intro s s' h
  obtain ⟨h1, h2⟩ := hm s s' h
  cases hr : m s with
  | mk r t =>
    cases hr' : m s' with
    | mk r' t' =>
      rw [hr, hr'] at h1 h2
      simp only at h1 h2
      subst h1
      cases r with
      | ok a => rw [bind_run _ _ _ hr, bind_run _ _ _ hr']; exact hf a t t' h2
      | error e => rw [bind_err _ _ _ hr, bind_err _ _ _ hr']; exact ⟨rfl, h2⟩

theorem IndexOnly.range (lo hi : Str) (c : Cursor) : IndexOnly (execRead c fun db => db.selectRange lo hi) := by
  intro s s' h
  unfold execRead
  rw [← h.2]
  split
  · exact ⟨rfl, h⟩
  · refine ⟨?_, h⟩
    show Except.ok (s.work.selectRange lo hi) = Except.ok (s'.work.selectRange lo hi)
    unfold DB.selectRange
    rw [h.1]

theorem IndexOnly.open_ : IndexOnly (openCursor true) := by
  intro s s' h
  unfold openCursor
  rw [← h.2]
  cases s.cur <;> exact ⟨rfl, h⟩

theorem IndexOnly.close : IndexOnly (closeCursor true false) := by
  intro s s' h
  unfold closeCursor
  rw [← h.2]
  cases s.cur <;> exact ⟨rfl, h⟩

theorem index_pattern (p : Val F) : IndexOnly (hgPattern2edges p) :=
  (IndexOnly.liftE _).bind fun _ => (IndexOnly.liftE _).bind fun _ => IndexOnly.open_.bind fun _ =>
    (IndexOnly.range _ _ _).bind fun _ => (IndexOnly.liftE _).bind fun _ => IndexOnly.close.bind fun _ =>
      (IndexOnly.liftE _).bind fun _ => IndexOnly.pure _

theorem index_star (c : Val F) : IndexOnly (hgStar c) := by
  have : ∀ t, IndexOnly (str2perms (F := F) t) := fun t =>
    (IndexOnly.liftE _).bind fun _ => IndexOnly.open_.bind fun _ => (IndexOnly.range _ _ _).bind fun _ =>
      (IndexOnly.liftE _).bind fun _ => IndexOnly.close.bind fun _ => IndexOnly.pure _
  unfold hgStar sqlStar
  split <;> exact this _

theorem index_symbols (r : Str) : IndexOnly (hgSymbolsWithRoot r) :=
  (IndexOnly.liftE _).bind fun _ => IndexOnly.open_.bind fun _ => (IndexOnly.range _ _ _).bind fun _ =>
    (IndexOnly.liftE _).bind fun _ => IndexOnly.close.bind fun _ => IndexOnly.pure _

theorem index_sources (e : Val F) : IndexOnly (hgSources e) :=
  (index_pattern _).bind fun _ => (IndexOnly.liftE _).bind fun _ => IndexOnly.pure _

/-! ### C83 -/

theorem known_has {A : Abs F} {S : Spec F} (hR : Rel A S) (x : Val F) : hasV x A.verts = (S.known x).isSome := by
  rw [hR.known]
  unfold tsOf
  cases h : lookV x A.verts with
  | none => rw [lookV_none] at h; simp [h]
  | some r =>
    cases hh : hasV x A.verts with
    | true => rfl
    | false => rw [← lookV_none] at hh; rw [hh] at h; exact nomatch h

theorem only_degrees {A : Abs F} {S : Spec F} (hA : AbsOk V A) (hR : Rel A S) {s s' : St} (hc : s.cur = none)
    (hc' : s'.cur = none) (hw : s.work = A.conc) (xs : List (Val F)) (hx : ∀ x ∈ xs, hasV x A.verts = true)
    (hw' : s'.work = ⟨(xs.foldl (fun vs v => bumpV 1 v vs) A.verts).map VEnt.row, A.conc.perms⟩) :
    OnlyDegrees F s s' (fun v => xs.count v) := by
  have hi : SameIndex s' s := ⟨by rw [hw', hw], hc'.trans hc.symm⟩
  have hk : KeysOk (xs.foldl (fun vs v => bumpV 1 v vs) A.verts) := KeysOk.foldBump ⟨hA.keys, hA.wf⟩ 1 _
  have hw2 : s'.work.vertices = (xs.foldl (fun vs v => bumpV 1 v vs) A.verts).map VEnt.row := by rw [hw']
  have sel : ∀ v : Val F, WfVal v → (s.work.selectVertex (edge2str v)).head? = (lookV v A.verts).map VEnt.row ∧
      (s'.work.selectVertex (edge2str v)).head? =
        (lookV v (xs.foldl (fun vs v => bumpV 1 v vs) A.verts)).map VEnt.row := by
    intro v hv
    rw [hw, hw']
    exact ⟨selectVertex_row hA.wf hv A.conc.perms, selectVertex_row hk.2 hv A.conc.perms⟩
  have hlook := fun v : Val F => lookV_foldBump 1 v xs A.verts
  refine ⟨fun e => (((index_pattern e).bind fun _ => IndexOnly.pure _) s' s hi).1, fun p => (index_pattern p s' s hi).1,
    fun c => (index_star c s' s hi).1, fun r => (index_symbols r s' s hi).1, fun e => (index_sources e s' s hi).1, ?_, ?_⟩
  · intro v hv
    rw [timestamp_idle v hc, timestamp_idle v hc', (sel v hv).1, (sel v hv).2, hlook]
    cases lookV v A.verts <;> rfl
  · intro v hv
    refine ⟨_, by rw [degree_idle v hc], ?_⟩
    rw [degree_idle v hc', (sel v hv).1, (sel v hv).2, hlook]
    cases h : lookV v A.verts with
    | none =>
      have : v ∉ xs := fun hm => by
        rw [lookV_none] at h
        rw [hx v hm] at h
        exact nomatch h
      simp [List.count_eq_zero_of_not_mem this]
    | some r => simp [VEnt.row]

/-- C83: adding an edge that is present, with a time stamp that does not fit: returns, and nothing changes. -/
theorem C83_present (hV : Vocab V) (ops : List (Op F)) (hops : ∀ op ∈ ops, op.Over V) (s : St)
    (hs : runOps ops (St.new false) = (.ok (), s)) (e : Val F) (he : EdgeOver V e) (hp : (Spec.after ops).Present e)
    (ts : Int) (hts : ¬ (-(2 ^ 63) ≤ ts ∧ ts < 2 ^ 63)) : hgAdd64 e ts s = (.ok e, s) := by
  obtain ⟨A, h⟩ := after_of hV hops hs
  have := (addRaw64_run hV h.ok he (not_fits hts) h.usable h.work).1 ((h.rel.present e).1 hp)
  obtain ⟨k, hk, hks⟩ := head0_edge he
  unfold hgAdd64
  rw [hk, bind_run _ _ _ (show liftE (.ok k) s = _ from rfl)]
  simp only [hks, Bool.false_eq_true, if_false]
  rw [bind_run _ _ _ this]
  rfl

/-- C83: adding an edge that is absent, with a time stamp that does not fit: `OverflowError`; the edge is not there, no
answer about edges and no time stamp changed; but the degrees of its elements before the first unknown one (all, if all
are known) rose, and this is on disk. -/
theorem C83_absent (hV : Vocab V) (ops : List (Op F)) (hops : ∀ op ∈ ops, op.Over V) (s : St)
    (hs : runOps ops (St.new false) = (.ok (), s)) (e : Val F) (he : EdgeOver V e) (hp : ¬ (Spec.after ops).Present e)
    (ts : Int) (hts : ¬ (-(2 ^ 63) ≤ ts ∧ ts < 2 ^ 63)) :
    ∃ s1, hgAdd64 e ts s = (.error .overflowError, s1) ∧
      OnlyDegrees F s s1 (fun v => (knownPrefix (Spec.after ops) e).count v) ∧ s1.disk = s1.work ∧ s1.cur = none := by
  obtain ⟨A, h⟩ := after_of hV hops hs
  obtain ⟨s1, e1, st1⟩ := (addRaw64_run hV h.ok he (not_fits hts) h.usable h.work).2 (fun hm => hp ((h.rel.present e).2 hm))
  obtain ⟨k, hk, hks⟩ := head0_edge he
  refine ⟨s1, ?_, ?_, st1.durable (.inl h.idle) h.disk, st1.cur.trans h.idle⟩
  · unfold hgAdd64
    rw [hk, bind_run _ _ _ (show liftE (.ok k) s = _ from rfl)]
    simp only [hks, Bool.false_eq_true, if_false]
    exact bind_err _ _ _ e1
  · have hpre : knownPrefix (Spec.after ops) e = e.elems.takeWhile fun x => hasV x A.verts := by
      unfold knownPrefix
      congr 1
      funext x
      exact (known_has h.rel x).symm
    rw [hpre]
    refine only_degrees h.ok h.rel h.idle (st1.cur.trans h.idle) h.work _ ?_ st1.work
    intro x hx
    exact List.all_eq_true.1 List.all_takeWhile x hx

/-- C83: several edges at once, with a time stamp that does not fit: the present ones are passed over; if all are present
the call returns and nothing changes. -/
theorem C83_bulk_present (hV : Vocab V) (ops : List (Op F)) (hops : ∀ op ∈ ops, op.Over V) (s : St)
    (hs : runOps ops (St.new false) = (.ok (), s)) (es : List (Val F)) (hne : es ≠ []) (hes : ∀ e ∈ es, EdgeOver V e)
    (hp : ∀ e ∈ es, (Spec.after ops).Present e) (ts : Int) (hts : ¬ (-(2 ^ 63) ≤ ts ∧ ts < 2 ^ 63)) :
    ∃ s1, hgAdd64 (.seq true es) ts s = (.ok (.seq true es), s1) ∧ s1.work = s.work ∧ s1.disk = s.disk ∧ s1.cur = none := by
  obtain ⟨A, h⟩ := after_of hV hops hs
  obtain ⟨k, hk, hks⟩ := head0_coll (b := true) hne hes
  have hl : forEach (fun e => do let _ ← addRaw64 e ts) es { s with cur := some true } =
      (.ok (), { s with cur := some true }) := by
    clear hne hk
    induction es with
    | nil => rfl
    | cons e es ih =>
      have := (addRaw64_run hV h.ok (hes e (by simp)) (not_fits hts) (s := { s with cur := some true })
        (by simp [St.usable]) h.work).1 ((h.rel.present e).1 (hp e (by simp)))
      rw [forEach, bind_run _ _ _ (show (do let _ ← addRaw64 e ts : M Unit) _ = (.ok (), { s with cur := some true }) by
        rw [bind_run _ _ _ this]; rfl)]
      exact ih (fun x hx => hes x (by simp [hx])) (fun x hx => hp x (by simp [hx]))
  refine ⟨{ { s with cur := some true }.commit with cur := none }, ?_, rfl, h.disk.symm, rfl⟩
  unfold hgAdd64
  rw [hk, bind_run _ _ _ (show liftE (.ok k) s = _ from rfl)]
  simp only [hks, if_true]
  rw [bind_run _ _ _ (show openCursor false s = (.ok .shared, { s with cur := some true }) by simp [openCursor, h.idle]),
    bind_run _ _ _ (show liftE (Val.iter (.seq true es)) _ = (.ok es, { s with cur := some true }) from rfl),
    bind_run _ _ _ hl]
  rfl

/-- C83: otherwise the first absent one makes the call raise `OverflowError`; this session sees what adding that one alone
gives, nothing is on disk yet, and a cursor is left over (see C82). -/
theorem C83_bulk_absent (hV : Vocab V) (ops : List (Op F)) (hops : ∀ op ∈ ops, op.Over V) (s : St)
    (hs : runOps ops (St.new false) = (.ok (), s)) (pre : List (Val F)) (e : Val F) (post : List (Val F))
    (hes : ∀ x ∈ pre ++ e :: post, EdgeOver V x) (hpre : ∀ x ∈ pre, (Spec.after ops).Present x)
    (hp : ¬ (Spec.after ops).Present e) (ts : Int) (hts : ¬ (-(2 ^ 63) ≤ ts ∧ ts < 2 ^ 63)) :
    ∃ s1, hgAdd64 (.seq true (pre ++ e :: post)) ts s = (.error .overflowError, s1) ∧
      s1.work = (hgAdd64 e ts s).2.work ∧ s1.disk = s.disk ∧ s1.cur = some true := by
  obtain ⟨A, h⟩ := after_of hV hops hs
  obtain ⟨k, hk, hks⟩ := head0_coll (b := true) (es := pre ++ e :: post) (by simp) hes
  have hm : e ∉ A.edges := fun hm => hp ((h.rel.present e).2 hm)
  have he := hes e (by simp)
  obtain ⟨s0, e0, st0⟩ := (addRaw64_run hV h.ok he (not_fits hts) h.usable h.work).2 hm
  obtain ⟨s1, e1, st1⟩ := (addRaw64_run hV h.ok he (not_fits hts) (s := { s with cur := some true })
    (by simp [St.usable]) h.work).2 hm
  have hsingle : (hgAdd64 e ts s).2 = s0 := by
    obtain ⟨k, hk, hks⟩ := head0_edge he
    unfold hgAdd64
    rw [hk, bind_run _ _ _ (show liftE (.ok k) s = _ from rfl)]
    simp only [hks, Bool.false_eq_true, if_false]
    rw [bind_err _ _ _ e0]
  have hl : ∀ l : List (Val F), (∀ x ∈ l, EdgeOver V x) → (∀ x ∈ l, (Spec.after ops).Present x) →
      forEach (fun e => do let _ ← addRaw64 e ts) (l ++ e :: post) { s with cur := some true } =
        (.error .overflowError, s1) := by
    intro l
    induction l with
    | nil =>
      intro _ _
      rw [List.nil_append, forEach]
      exact bind_err _ _ _ (bind_err _ _ _ e1)
    | cons x l ih =>
      intro h1 h2
      have := (addRaw64_run hV h.ok (h1 x (by simp)) (not_fits hts) (s := { s with cur := some true })
        (by simp [St.usable]) h.work).1 ((h.rel.present x).1 (h2 x (by simp)))
      rw [List.cons_append, forEach, bind_run _ _ _ (show (do let _ ← addRaw64 x ts : M Unit) _ =
        (.ok (), { s with cur := some true }) by rw [bind_run _ _ _ this]; rfl)]
      exact ih (fun y hy => h1 y (by simp [hy])) (fun y hy => h2 y (by simp [hy]))
  refine ⟨s1, ?_, by rw [hsingle, st1.work, st0.work], (st1.quiet rfl (by simp) h.auto).1, st1.cur⟩
  unfold hgAdd64
  rw [hk, bind_run _ _ _ (show liftE (.ok k) s = _ from rfl)]
  simp only [hks, if_true]
  rw [bind_run _ _ _ (show openCursor false s = (.ok .shared, { s with cur := some true }) by simp [openCursor, h.idle]),
    bind_run _ _ _ (show liftE (Val.iter (.seq true (pre ++ e :: post))) _ =
      (.ok (pre ++ e :: post), { s with cur := some true }) from rfl)]
  exact bind_err _ _ _ (hl pre (fun x hx => hes x (by simp [hx])) hpre)

/-! An example: `(is/1 sky/1 blue/1)` is present; `(size sky/1 7)` begins with an unknown symbol, `(is/1 sky/1 7)` does
not. -/

example : ∃ s s1 : St, runOps [.prim (.add exE1 1)] (St.new false) = (.ok (), s) ∧
    (hgAdd64 exE1 9223372036854775808 s).1 = .ok exE1 ∧ (hgAdd64 exE3 9223372036854775808 s).1 = .error .overflowError ∧
    hgAdd64 (.tup [sy "is/1", sy "sky/1", .int 7] : HVal) (-9223372036854775809) s = (.error .overflowError, s1) ∧
    (hgDegree (sy "sky/1") s).1 = .ok 1 ∧ (hgDegree (sy "sky/1") s1).1 = .ok 2 ∧
    (hgDegree (sy "blue/1") s1).1 = .ok 1 ∧ (hgDegree (.int 7 : HVal) s1).1 = .ok 0 := by
  refine ⟨(runOps [.prim (.add exE1 1)] (St.new false)).2,
    (hgAdd64 (.tup [sy "is/1", sy "sky/1", .int 7] : HVal) (-9223372036854775809)
      (runOps [.prim (.add exE1 1)] (St.new false)).2).2, ?_⟩
  decide +kernel

/-- The bounds. -/
example : ¬ (-(2 ^ 63) ≤ (9223372036854775808 : Int) ∧ (9223372036854775808 : Int) < 2 ^ 63) ∧
    ¬ (-(2 ^ 63) ≤ (-9223372036854775809 : Int) ∧ (-9223372036854775809 : Int) < 2 ^ 63) ∧
    (-(2 ^ 63) ≤ (9223372036854775807 : Int) ∧ (9223372036854775807 : Int) < 2 ^ 63) := by omega

/-- The hypotheses of `C83_absent`. -/
example (s : St) (hs : runOps [.prim (.add exE1 1)] (St.new false) = (.ok (), s)) :
    ∃ s1, hgAdd64 exE3 9223372036854775808 s = (.error .overflowError, s1) ∧
      OnlyDegrees Half s s1 (fun v => (knownPrefix (Spec.after [.prim (.add exE1 1)]) exE3).count v) ∧
      s1.disk = s1.work ∧ s1.cur = none := by
  refine C83_absent plainVocab _ exStart_over s hs exE3 (edge_of (by decide +kernel)) ?_ _ (by omega)
  have : exE3 ≠ exE1 := by decide +kernel
  simp [Spec.Present, Spec.after, Spec.op, Spec.prim, Spec.add, Spec.empty, this]

end GB
