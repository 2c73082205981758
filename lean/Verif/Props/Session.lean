import Verif.Props.Durable

/-
Property C82: what a session is after a call that raised, and how to get it back.
-/

set_option linter.unusedSectionVars false

namespace GB

variable {F : Type} [PyFloat F] [DecidableEq F]

/-! ### A closed cursor left over: every call raises -/

/-- The call raises, and changes nothing, when a closed cursor is left over. -/
def Refuses {α : Type} (m : M α) : Prop := ∀ s : St, s.cur = some false → ∃ er, m s = (.error er, s)

theorem Refuses.left {α β : Type} {m : M α} {f : α → M β} (h : Refuses m) : Refuses (m >>= f) := by
  intro s hs
  obtain ⟨er, h⟩ := h s hs
  exact ⟨er, bind_err _ _ _ h⟩

theorem Refuses.lift {α β : Type} {x : Except PyErr α} {f : α → M β} (h : ∀ a, x = .ok a → Refuses (f a)) :
    Refuses (liftE x >>= f) := by
  intro s hs
  cases x with
  | error er => exact ⟨er, bind_err _ _ _ (show liftE (.error er) s = _ from rfl)⟩
  | ok a =>
    rw [bind_run _ _ _ (show liftE (.ok a) s = _ from rfl)]
    exact h a rfl s hs

theorem Refuses.cursor {α : Type} {b : Bool} {f : Cursor → M α} (h : Refuses (f .shared)) :
    Refuses (openCursor b >>= f) := by
  intro s hs
  have : openCursor b s = (.ok .shared, s) := by
    unfold openCursor
    cases b <;> simp [hs]
  rw [bind_run _ _ _ this]
  exact h s hs

theorem refuses_read {α : Type} (q : DB → α) : Refuses (execRead .shared q) :=
  fun s hs => ⟨.programmingError, by simp [execRead, hs]⟩

theorem refuses_write {α : Type} (q : DB → Option (α × DB)) : Refuses (execWrite .shared q) :=
  fun s hs => ⟨.programmingError, by simp [execWrite, hs]⟩

theorem refuses_pattern (p : Val F) : Refuses (hgPattern2edges p) :=
  Refuses.lift fun _ _ => Refuses.lift fun _ _ => Refuses.cursor (refuses_read _).left

theorem refuses_exists (v : Val F) : Refuses (hgExists v) := (refuses_pattern v).left

theorem refuses_addRaw (e : Val F) (ts : Int) : Refuses (addRaw e ts) := (refuses_exists e).left

theorem refuses_removeRaw (e : Val F) : Refuses (removeRaw e) := (refuses_exists e).left

theorem refuses_each {α : Type} {f : α → M Unit} (h : ∀ x, Refuses (f x)) {xs : List α} (hx : xs ≠ []) :
    Refuses (forEach f xs) := by
  cases xs with
  | nil => exact absurd rfl hx
  | cons x xs => exact (h x).left

/-- A value with a first element has elements. -/
theorem iter_ne {v h : Val F} {es : List (Val F)} (hh : v.head0 = .ok h) (hi : v.iter = .ok es) : es ≠ [] := by
  rintro rfl
  unfold Val.head0 at hh
  rw [hi] at hh
  exact nomatch hh

theorem refuses_add (e : Val F) (ts : Int) : Refuses (hgAdd e ts) := by
  refine Refuses.lift fun h hh => ?_
  cases h.isSeq
  · exact (refuses_addRaw e ts).left
  · exact Refuses.cursor (Refuses.lift fun es hi => (refuses_each (fun x => (refuses_addRaw x ts).left) (iter_ne hh hi)).left)

theorem refuses_remove (e : Val F) : Refuses (hgRemove e) := by
  refine Refuses.lift fun h hh => ?_
  cases h.isSeq
  · exact refuses_removeRaw e
  · exact Refuses.lift fun es hi => refuses_each refuses_removeRaw (iter_ne hh hi)

theorem refuses_query (q : Query F) : Refuses q.run := by
  cases q with
  | «exists» e => exact (refuses_exists e).left
  | pattern ps => exact (refuses_pattern _).left
  | star c =>
    refine Refuses.left (?_ : Refuses (hgStar c))
    unfold hgStar sqlStar
    split <;> exact (Refuses.lift fun _ _ => Refuses.cursor (refuses_read _).left : Refuses (str2perms (F := F) _))
  | symbolsWithRoot r => exact Refuses.left (Refuses.lift fun _ _ => Refuses.cursor (refuses_read _).left)
  | sources e => exact Refuses.left (refuses_pattern _).left
  | fAll => exact Refuses.left (Refuses.cursor (refuses_read _).left)

theorem refuses_prim (p : Prim F) : Refuses p.run := by
  cases p with
  | add e ts => exact (refuses_add e ts).left
  | remove e => exact refuses_remove e
  | removeMany es => exact refuses_remove _
  | removeByPattern ps => exact (refuses_pattern _).left
  | removeBelief src e => exact (refuses_remove _).left
  | destroy => exact Refuses.cursor (refuses_write _).left
  | query q => exact refuses_query q

theorem degree_idle (v : Val F) {s : St} (hc : s.cur = none) :
    hgDegree v s = (.ok (((s.work.selectVertex (edge2str v)).head?.map VRow.degree).getD 0), s) := by
  have hu : s.usable := St.usable_of_none hc
  have hl : s.lcur = .own := by unfold St.lcur; rw [hc]
  unfold hgDegree sqlDegree
  rw [bind_run _ _ _ (openCursor_local s), bind_run _ _ _ (execRead_local hu _ _), hl]
  cases hr : s.work.selectVertex (edge2str v) with
  | nil => simp only; rw [bind_run _ _ _ (closeCursor_local s)]; rfl
  | cons r rs => rfl

theorem timestamp_idle (v : Val F) {s : St} (hc : s.cur = none) :
    hgTimestamp v s = (.ok (((s.work.selectVertex (edge2str v)).head?.map VRow.timestamp).getD (-1)), s) := by
  have hu : s.usable := St.usable_of_none hc
  have hl : s.lcur = .own := by unfold St.lcur; rw [hc]
  unfold hgTimestamp sqlTimestamp
  rw [bind_run _ _ _ (openCursor_local s), bind_run _ _ _ (execRead_local hu _ _), hl]
  cases hr : s.work.selectVertex (edge2str v) with
  | nil => simp only; rw [bind_run _ _ _ (closeCursor_local s)]; rfl
  | cons r rs => rfl

theorem degree_left (v : Val F) {s : St} (hc : s.cur = some true) {r : VRow} {rs : List VRow}
    (hr : s.work.selectVertex (edge2str v) = r :: rs) :
    hgDegree v s = (.ok r.degree, { s with cur := some false }) ∧
      hgTimestamp v s = (.ok r.timestamp, { s with cur := some false }) := by
  have hu : s.usable := by simp [St.usable, hc]
  have hl : s.lcur = .shared := by unfold St.lcur; rw [hc]
  have hcl : closeDirect .shared s = (.ok (), { s with cur := some false }) := by
    show ((Except.ok () : Except PyErr Unit), { s with cur := s.cur.map fun _ => false }) = _
    rw [hc]
    rfl
  constructor
  · unfold hgDegree sqlDegree
    rw [bind_run _ _ _ (openCursor_local s), bind_run _ _ _ (execRead_local hu _ _), hl, hr]
    simp only
    rw [bind_run _ _ _ hcl]
    rfl
  · unfold hgTimestamp sqlTimestamp
    rw [bind_run _ _ _ (openCursor_local s), bind_run _ _ _ (execRead_local hu _ _), hl, hr]
    simp only
    rw [bind_run _ _ _ hcl]
    rfl

/-! ### C82 -/

/-- C82: the empty batch always works, whatever happened before: it makes everything done so far durable, and leaves a
session without leftovers. -/
theorem C82_recover (s : St) : ∃ s', hgBatchExec [] s = (.ok (), s') ∧ s'.work = s.work ∧ s'.disk = s.work ∧
    s'.cur = none ∧ s'.autocommit = s.autocommit := by
  rcases s with ⟨w, d, l, c, a⟩
  cases c <;> exact ⟨_, rfl, rfl, rfl, rfl, rfl⟩

/-- C82: after it the session goes on as a new one opened on those contents: any history, with any arguments, has the
same results and leaves the same contents. -/
theorem C82_as_new (s s' : St) (h : hgBatchExec [] s = (.ok (), s')) (ops : List (Op F)) (auto : Bool) :
    (runOps ops s').1 = (runOps ops (reopen s.work auto)).1 ∧
      (runOps ops s').2.work = (runOps ops (reopen s.work auto)).2.work := by
  obtain ⟨s1, h1, h2, h3, h4, h5⟩ := C82_recover s
  rw [h] at h1
  cases h1
  obtain ⟨k1, k2, _⟩ := (runOps_tame ops).indep s' (reopen s.work auto) h2 h4
  exact ⟨k1, k2⟩

/-- C82: only a bulk addition (also of beliefs) or a batch that raised leaves anything over: after any other call, with
any arguments, returning or not, and after every call that returns, nothing is left over. -/
theorem C82_cause (op : Op F) (s : St) (hc : s.cur = none) :
    ((op.run s).1 = .ok () → (op.run s).2.cur = none) ∧
    ((∀ es ts, op ≠ .addMany es ts) → (∀ a e ts, op ≠ .addBelief a e ts) → (∀ a es ts, op ≠ .addBeliefs a es ts) →
      (∀ ps, op ≠ .batch ps) → (∀ p, op = .prim p → p.Single) → (op.run s).2.cur = none) := by
  obtain ⟨k1, _, k3⟩ := (runOps_tame [op]).indep s { s with disk := s.work } rfl rfl
  have one : ∀ t : St, (runOps [op] t).2.cur = (op.run t).2.cur ∧ ((op.run t).1 = .ok () → (runOps [op] t).1 = .ok ()) := by
    intro t
    unfold runOps forEach
    cases hr : op.run t with
    | mk r u =>
      cases r with
      | ok a => rw [bind_run _ _ _ hr]; exact ⟨rfl, fun _ => rfl⟩
      | error e => rw [bind_err _ _ _ hr]; exact ⟨rfl, fun h => nomatch h⟩
  have two : ∀ t : St, (runOps [op] t).1 = .ok () → (op.run t).1 = .ok () := by
    intro t
    unfold runOps forEach
    cases hr : op.run t with
    | mk r u =>
      cases r with
      | ok a => exact fun _ => rfl
      | error e => rw [bind_err _ _ _ hr]; exact fun h => nomatch h
  rw [(one s).1, (one _).1] at k3
  constructor
  · intro h
    have h' := (one s).2 h
    rw [k1] at h'
    have h'' := two _ h'
    cases hr : op.run { s with disk := s.work } with
    | mk r u =>
      rw [hr] at h'' k3
      cases h''
      rw [k3]
      exact (C38_durable op { s with disk := s.work } u hc rfl hr).2
  · intro h1 h2 h3 h4 h5
    rw [k3]
    cases op with
    | prim p => exact (C38_raising p (h5 p rfl) { s with disk := s.work } hc rfl).2
    | addMany es ts => exact absurd rfl (h1 es ts)
    | addBelief a e ts => exact absurd rfl (h2 a e ts)
    | addBeliefs a es ts => exact absurd rfl (h3 a es ts)
    | batch ps => exact absurd rfl (h4 ps)
    | degree v =>
      have hd := degree_idle v (s := { s with disk := s.work }) hc
      show ((do let _ ← hgDegree v : M Unit) _).2.cur = none
      rw [bind_run _ _ _ hd]
      exact hc
    | timestamp v =>
      have hd := timestamp_idle v (s := { s with disk := s.work }) hc
      show ((do let _ ← hgTimestamp v : M Unit) _).2.cur = none
      rw [bind_run _ _ _ hd]
      exact hc

/-- C82: after a bulk addition or batch that raised (with the cursor still open), further calls that are no bulk
additions, batches, degrees or time stamps give the results they give in a session without leftovers, and the same
contents as seen by this session, whatever their arguments; the leftover stays. -/
theorem C82_results (s s0 : St) (hc : s.cur = some true) (hc0 : s0.cur = none) (hw : s.work = s0.work)
    (ps : List (Prim F)) (hps : ∀ p ∈ ps, p.Single) :
    (runOps (ps.map Op.prim) s).1 = (runOps (ps.map Op.prim) s0).1 ∧
      (runOps (ps.map Op.prim) s).2.work = (runOps (ps.map Op.prim) s0).2.work ∧
      (runOps (ps.map Op.prim) s).2.cur = some true := by
  have hsync : Sync (runOps (ps.map Op.prim)) (runOps (F := F) (ps.map Op.prim)) := by
    unfold runOps
    rw [forEach_map]
    exact Sync.forEach fun p hp => p.sync (hps p hp)
  obtain ⟨h1, h2, h3, _⟩ := hsync s s0 hw (by simp [St.usable, hc]) (St.usable_of_none hc0)
  exact ⟨h1, h2, h3.trans hc⟩

/-- C82: but in SQLite additions and queries reach the disk no more. -/
theorem C82_not_durable (s : St) (hc : s.cur ≠ none) (ha : s.autocommit = false) (ps : List (AddsOrReads F))
    (hps : ∀ p ∈ ps, p.Single) : (forEach AddsOrReads.run ps s).2.disk = s.disk ∧
      ∀ d ∈ crashContents (forEach AddsOrReads.run ps) s, d = s.disk := by
  have h := Pres.forEach (I := Held s.disk s.commits) (fun p hp => AddsOrReads.held p (hps p hp)) s ⟨hc, ha, rfl, rfl⟩
  refine ⟨h.2.2.1, ?_⟩
  intro d hd
  unfold crashContents at hd
  rw [h.2.2.2, List.drop_length] at hd
  simpa using hd

/-- C82: and after a degree or time stamp of a known vertex, which still answers, ... -/
theorem C82_closes (s s0 : St) (hc : s.cur = some true) (hc0 : s0.cur = none) (hw : s.work = s0.work) (v : Val F)
    (hk : s.work.selectVertex (edge2str v) ≠ []) :
    (hgDegree v s).1 = (hgDegree v s0).1 ∧ (hgTimestamp v s).1 = (hgTimestamp v s0).1 ∧
      (hgDegree v s).2 = { s with cur := some false } ∧ (hgTimestamp v s).2 = { s with cur := some false } := by
  obtain ⟨r, rs, hr⟩ := List.exists_cons_of_ne_nil hk
  obtain ⟨h1, h2⟩ := degree_left v hc hr
  rw [h1, h2, degree_idle v hc0, timestamp_idle v hc0, ← hw, hr]
  exact ⟨rfl, rfl, rfl, rfl⟩

/-- C82: ... every call except the empty batch raises and changes nothing, whatever its arguments, for ever. -/
theorem C82_refuses (op : Op F) (ho : op ≠ .batch []) (s : St) (hc : s.cur = some false) :
    ∃ er, op.run s = (.error er, s) := by
  cases op with
  | prim p => exact refuses_prim p s hc
  | addMany es ts => exact (refuses_add _ ts).left s hc
  | addBelief src e ts => exact (Refuses.lift fun _ _ => (refuses_add _ ts).left) s hc
  | addBeliefs src es ts => exact (Refuses.lift fun _ _ => (refuses_add _ ts).left) s hc
  | batch ps =>
    refine (Refuses.cursor ?_ : Refuses (hgBatchExec (ps.map Prim.run))) s hc
    have : ps ≠ [] := by rintro rfl; exact ho rfl
    rw [forEach_map]
    exact (refuses_each refuses_prim this).left
  | degree v => exact Refuses.left (Refuses.cursor (refuses_read _).left) s hc
  | timestamp v => exact Refuses.left (Refuses.cursor (refuses_read _).left) s hc

theorem each_append {α : Type} (f : α → M Unit) (xs ys : List α) (s : St) :
    forEach f (xs ++ ys) s = (forEach f xs >>= fun _ => forEach f ys) s := by
  induction xs generalizing s with
  | nil => rfl
  | cons x xs ih =>
    simp only [List.cons_append, forEach]
    cases hx : f x s with
    | mk r t =>
      cases r with
      | error er => rw [bind_err _ _ _ hx, bind_err _ _ _ (bind_err _ _ _ hx)]
      | ok u => rw [bind_run _ _ _ hx, ih, bind_assoc', bind_run _ _ _ hx]

theorem exists_still (v : Val F) {w : DB} {s : St} (h : s.work = w) : (existsM v s).2.work = w := by
  have ho : Pres (fun s : St => s.work = w) (openCursor true) := by
    intro s hs
    unfold openCursor
    cases s.cur <;> exact hs
  have hr : ∀ {α : Type} (c : Cursor) (q : DB → α), Pres (fun s : St => s.work = w) (execRead c q) := by
    intro α c q s hs
    unfold execRead
    split <;> exact hs
  have hcl : Pres (fun s : St => s.work = w) (closeCursor true false) := by
    intro s hs
    unfold closeCursor
    cases s.cur <;> exact hs
  have hp : Pres (fun s : St => s.work = w) (pattern2edges v) :=
    (Pres.liftE _).bind fun _ => (Pres.liftE _).bind fun _ => ho.bind fun _ => (hr _ _).bind fun _ =>
      (Pres.liftE _).bind fun _ => hcl.bind fun _ => (Pres.liftE _).bind fun _ => Pres.pure _
  exact (hp.bind fun _ => Pres.pure _) s h

/-- C82: a bulk addition that raises at some element (because it cannot even be looked up) has added the elements before
it: this session sees exactly what adding them one by one gives, nothing of it is on disk yet (SQLite), and the empty
batch makes it durable. -/
theorem C82_half (s s1 : St) (hc : s.cur = none) (ha : s.autocommit = false) (es rest : List (Val F)) (bad : Val F)
    (hes : ∀ e ∈ es, e.isSeq = true ∧ ∃ h, e.head0 = .ok h ∧ h.isSeq = false) (hne : es ≠ []) (ts : Int)
    (hrun : runOps (es.map fun e => .prim (.add e ts)) s = (.ok (), s1)) (er : PyErr)
    (hbad : (hgExists bad s1).1 = .error er) :
    ∃ s2, hgAdd (.seq true (es ++ bad :: rest)) ts s = (.error er, s2) ∧ s2.work = s1.work ∧ s2.disk = s.disk ∧
      ∃ s3, hgBatchExec [] s2 = (.ok (), s3) ∧ s3.disk = s1.work ∧ s3.cur = none := by
  obtain ⟨e0, es', rfl⟩ := List.exists_cons_of_ne_nil hne
  have hh : (Val.seq true (e0 :: es' ++ bad :: rest)).head0 = .ok e0 := rfl
  have hq : e0.isSeq = true := (hes e0 (by simp)).1
  have hsync : Sync (forEach (fun e => do let _ ← addRaw e ts) (e0 :: es'))
      (runOps ((e0 :: es').map fun e => .prim (.add e ts))) := by
    unfold runOps
    rw [forEach_map]
    refine Sync.forEach fun e he => ?_
    obtain ⟨h, h1, h2⟩ := (hes e he).2
    show Sync _ (do let _ ← hgAdd e ts)
    rw [hgAdd_single h1 h2, bind_assoc']
    exact (sync_addRaw e ts).bind fun _ => Sync.pure _
  obtain ⟨k1, k2, k3, _⟩ := hsync { s with cur := some true } s rfl (by simp [St.usable]) (St.usable_of_none hc)
  have hheld := (Pres.forEach (I := Held s.disk s.commits) (fun e (_ : e ∈ e0 :: es') =>
    ((held_blocks s.disk s.commits).addRaw e ts).bind fun _ => Pres.pure ())) { s with cur := some true }
      ⟨by simp, ha, rfl, rfl⟩
  cases hr : forEach (fun e => do let _ ← addRaw e ts) (e0 :: es') { s with cur := some true } with
  | mk r t =>
    rw [hr] at k1 k2 k3 hheld
    rw [hrun] at k1 k2
    simp only at k1 k2 k3
    subst k1
    have hc1 : s1.cur = none := by
      have := (hsync { s with cur := some true } s rfl (by simp [St.usable]) (St.usable_of_none hc)).2.2.2
      rw [hrun] at this
      exact this.trans hc
    obtain ⟨b1, b2, b3, _⟩ := sync_existsM bad t s1 k2 (by simp [St.usable, k3]) (St.usable_of_none hc1)
    have hstill : (existsM bad s1).2.work = s1.work := exists_still bad rfl
    cases hb : existsM bad t with
    | mk r2 t2 =>
      rw [hb] at b1 b2 b3
      rw [show (existsM bad s1).1 = .error er from hbad] at b1
      simp only at b1 b2 b3
      subst b1
      have hheld2 := (held_blocks s.disk s.commits).existsM bad t hheld
      rw [hb] at hheld2
      refine ⟨t2, ?_, b2.trans hstill, hheld2.2.2.1, ?_⟩
      · rw [hgAdd_coll_eq hh hq]
        refine bind_err _ _ _ ?_
        rw [bind_run _ _ _ (show openCursor false s = (.ok .shared, { s with cur := some true }) by
          simp [openCursor, hc])]
        refine bind_err _ _ _ ?_
        rw [bind_run _ _ _ (show liftE (Val.iter (.seq true (e0 :: es' ++ bad :: rest))) _ =
          (.ok (e0 :: es' ++ bad :: rest), { s with cur := some true }) from rfl)]
        rw [each_append, bind_run _ _ _ hr]
        exact bind_err _ _ _ (bind_err _ _ _ (bind_err _ _ _ hb))
      · obtain ⟨s3, c1, c2, c3, c4, _⟩ := C82_recover t2
        exact ⟨s3, c1, c3.trans (b2.trans hstill), c4⟩

/-! A session goes through all of this. -/

/-- A new session in which a bulk addition raised. -/
def exLeft : St := (hgAdd badBulk 1 (St.new false)).2

/-- An edge was added; the cursor is left over, nothing is on disk; then a degree closes it, everything raises, and the
empty batch repairs it. -/
example : exLeft.cur = some true ∧ exLeft.disk = DB.empty ∧ (hgExists exE3 exLeft).1 = .ok true ∧
    exLeft.work.selectVertex (edge2str (sy "sky/1")) ≠ [] ∧ (hgDegree (sy "sky/1") exLeft).1 = .ok 1 ∧
    (hgExists exE3 (hgDegree (sy "sky/1") exLeft).2).1 = .error .programmingError ∧
    (hgExists exE3 (hgBatchExec [] (hgDegree (sy "sky/1") exLeft).2).2).1 = .ok true ∧
    (hgBatchExec [] (hgDegree (sy "sky/1") exLeft).2).2.disk = exLeft.work := by decide +kernel

/-- The hypotheses of `C82_half`. -/
example : runOps ([exE3].map fun e => .prim (.add e 1)) (St.new false) =
      (.ok (), (runOps ([exE3].map fun e => .prim (.add e 1)) (St.new false)).2) ∧
    (hgExists (.int 7 : HVal) (runOps ([exE3].map fun e => .prim (.add e 1)) (St.new false)).2).1 = .error .typeError ∧
    exE3.isSeq = true ∧ exE3.head0 = .ok (sy "size") := by decide +kernel

/-- The additions of `C82_results` and `C82_not_durable` are allowed. -/
example : (Prim.add exE1 2).Single ∧ (AddsOrReads.add exE1 2).Single ∧
    (hgAdd exE1 2 exLeft).1 = .ok exE1 ∧ (hgAdd exE1 2 exLeft).2.disk = DB.empty := by
  have h : ∀ h, exE1.head0 = .ok h → h.isSeq = false := by
    intro h hh
    cases hh
    rfl
  exact ⟨h, h, by decide +kernel, by decide +kernel⟩

end GB
