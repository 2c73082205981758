import Verif.Model.HyperGraph

/-! Effect of the primitive storage methods on the connection state. -/

set_option linter.unusedSectionVars false

namespace GB

variable {F : Type} [PyFloat F]

/-- The shared cursor is not a closed one. -/
def St.usable (s : St) : Prop := s.cur ≠ some false

/-- `s'` is reached from `s` by methods that leave the cursor as it was, ending with contents `db`.
`q`: nothing is committed while a shared cursor is open (without autocommit).
`T`: an invariant of all committed contents. -/
structure Step (q : Bool) (T : DB → Prop) (s s' : St) (db : DB) : Prop where
  work : s'.work = db
  cur : s'.cur = s.cur
  auto : s'.autocommit = s.autocommit
  durable : (s.cur = none ∨ s.autocommit = true) → s.disk = s.work → s'.disk = s'.work
  quiet : q = true → s.cur ≠ none → s.autocommit = false → s'.disk = s.disk ∧ s'.commits = s.commits
  snaps : T s.work → T s'.work ∧ ∃ l, s'.commits = s.commits ++ l ∧ ∀ d ∈ l, T d
  disk : T s.work → s'.disk = s.disk ∨ T s'.disk

theorem Step.refl {q : Bool} {T : DB → Prop} (s : St) : Step q T s s s.work :=
  ⟨rfl, rfl, rfl, fun _ h => h, fun _ _ _ => ⟨rfl, rfl⟩, fun h => ⟨h, [], by simp, by simp⟩,
    fun _ => .inl rfl⟩

theorem Step.trans {q : Bool} {T : DB → Prop} {s s1 s2 : St} {db1 db2 : DB}
    (h1 : Step q T s s1 db1) (h2 : Step q T s1 s2 db2) : Step q T s s2 db2 where
  work := h2.work
  cur := h2.cur.trans h1.cur
  auto := h2.auto.trans h1.auto
  durable := fun hc hd => h2.durable (by rwa [h1.cur, h1.auto]) (h1.durable hc hd)
  quiet := fun hq hc ha => by
    have a := h1.quiet hq hc ha
    have b := h2.quiet hq (by rwa [h1.cur]) (by rwa [h1.auto])
    exact ⟨b.1.trans a.1, b.2.trans a.2⟩
  snaps := fun hT => by
    obtain ⟨t1, l1, e1, p1⟩ := h1.snaps hT
    obtain ⟨t2, l2, e2, p2⟩ := h2.snaps t1
    refine ⟨t2, l1 ++ l2, by rw [e2, e1, List.append_assoc], ?_⟩
    intro d hd
    rcases List.mem_append.1 hd with h | h
    · exact p1 d h
    · exact p2 d h
  disk := fun hT => by
    have t1 := (h1.snaps hT).1
    rcases h2.disk t1 with h | h
    · rcases h1.disk hT with h' | h'
      · exact .inl (h.trans h')
      · exact .inr (by rwa [h])
    · exact .inr h

theorem Step.weaken {q : Bool} {T : DB → Prop} {s s' : St} {db : DB} (h : Step q T s s' db) :
    Step false T s s' db := { h with quiet := fun h => by simp at h }

theorem Step.usable {q : Bool} {T : DB → Prop} {s s' : St} {db : DB} (h : Step q T s s' db)
    (hu : s.usable) : s'.usable := by
  unfold St.usable at *
  rwa [h.cur]

/-- `m` runs without error from `s`, with result `a` and contents `db` after it. -/
def Runs {α : Type} (q : Bool) (T : DB → Prop) (m : M α) (s : St) (a : α) (db : DB) : Prop :=
  ∃ s', m s = (.ok a, s') ∧ Step q T s s' db

theorem bind_run {α β : Type} (m : M α) (f : α → M β) (s : St) {a : α} {s' : St}
    (h : m s = (.ok a, s')) : (m >>= f) s = f a s' := by
  show (match m s with
    | (.ok a, s') => f a s'
    | (.error e, s') => (.error e, s')) = _
  rw [h]

theorem bind_err {α β : Type} (m : M α) (f : α → M β) (s : St) {e : PyErr} {s' : St}
    (h : m s = (.error e, s')) : (m >>= f) s = (.error e, s') := by
  show (match m s with
    | (.ok a, s') => f a s'
    | (.error e, s') => (.error e, s')) = _
  rw [h]

theorem Runs.bind {α β : Type} {q : Bool} {T : DB → Prop} {m : M α} {f : α → M β} {s : St} {a : α}
    {b : β} {db1 db2 : DB} (h1 : Runs q T m s a db1)
    (h2 : ∀ s1, Step q T s s1 db1 → Runs q T (f a) s1 b db2) : Runs q T (m >>= f) s b db2 := by
  obtain ⟨s1, e1, st1⟩ := h1
  obtain ⟨s2, e2, st2⟩ := h2 s1 st1
  exact ⟨s2, by rw [bind_run _ _ _ e1, e2], st1.trans st2⟩

theorem Runs.pure {α : Type} {q : Bool} {T : DB → Prop} {s : St} (a : α) :
    Runs q T (Pure.pure a : M α) s a s.work := ⟨s, rfl, Step.refl s⟩

theorem Runs.pure' {α : Type} {q : Bool} {T : DB → Prop} {s : St} {db : DB} (a : α) (h : s.work = db) :
    Runs q T (Pure.pure a : M α) s a db := h ▸ Runs.pure a

theorem Runs.weaken {α : Type} {q : Bool} {T : DB → Prop} {m : M α} {s : St} {a : α} {db : DB}
    (h : Runs q T m s a db) : Runs false T m s a db := by
  obtain ⟨s', e, st⟩ := h
  exact ⟨s', e, st.weaken⟩

theorem Runs.forEach {α : Type} {q : Bool} {T : DB → Prop} {f : α → M Unit} (g : DB → α → DB)
    (I : DB → Prop) {xs : List α}
    (h : ∀ x ∈ xs, ∀ s : St, s.usable → I s.work →
      Runs q T (f x) s () (g s.work x) ∧ I (g s.work x)) :
    ∀ s : St, s.usable → I s.work → Runs q T (forEach f xs) s () (xs.foldl g s.work) := by
  induction xs with
  | nil => intro s _ _; exact Runs.pure ()
  | cons x xs ih =>
    intro s hu hI
    obtain ⟨h1, h2⟩ := h x (by simp) s hu hI
    refine Runs.bind h1 ?_
    intro s1 st1
    have := ih (fun y hy => h y (by simp [hy])) s1 (st1.usable hu) (by rwa [st1.work])
    rw [st1.work] at this
    exact this

/-! ### cursors and statements -/

/-- State after one writing statement. -/
def St.wr (s : St) (db : DB) : St :=
  if s.autocommit then ({ s with work := db } : St).commit else { s with work := db }

/-- The cursor a local method obtains. -/
def St.lcur (s : St) : Cursor := match s.cur with | none => .own | some _ => .shared

theorem openCursor_local (s : St) : openCursor true s = (.ok s.lcur, s) := by
  unfold openCursor St.lcur
  cases s.cur <;> rfl

theorem execWrite_local {α : Type} {s : St} (hu : s.usable) {q : DB → Option (α × DB)} {a : α}
    {db : DB} (h : q s.work = some (a, db)) : execWrite s.lcur q s = (.ok a, s.wr db) := by
  unfold execWrite St.wr
  have : ¬ (s.lcur = .shared ∧ s.cur = some false) := fun h => hu h.2
  rw [if_neg this, h]

theorem execRead_local {α : Type} {s : St} (hu : s.usable) (q : DB → α) (c : Cursor) :
    execRead c q s = (.ok (q s.work), s) := by
  unfold execRead
  have : ¬ (c = .shared ∧ s.cur = some false) := fun h => hu h.2
  rw [if_neg this]

theorem wr_lcur (s : St) (db : DB) : (s.wr db).lcur = s.lcur := by
  unfold St.wr St.commit; cases s.autocommit <;> rfl

theorem wr_work (s : St) (db : DB) : (s.wr db).work = db := by
  unfold St.wr St.commit; cases s.autocommit <;> rfl

theorem wr_cur (s : St) (db : DB) : (s.wr db).cur = s.cur := by
  unfold St.wr St.commit; cases s.autocommit <;> rfl

/-- State after a local method committed on closing its cursor. -/
def St.fin (s : St) : St := if s.cur = none then s.commit else s

theorem closeCursor_local_commit (s : St) : closeCursor true true s = (.ok (), s.fin) := by
  unfold closeCursor St.fin
  cases h : s.cur <;> simp

theorem closeCursor_local (s : St) : closeCursor true false s = (.ok (), s) := by
  unfold closeCursor
  cases h : s.cur <;> simp

theorem step_wr {q : Bool} {T : DB → Prop} {s : St} {db : DB} (hT : T s.work → T db) :
    Step q T s (s.wr db).fin db := by
  cases hc : s.cur with
  | none =>
    cases ha : s.autocommit with
    | false =>
      refine ⟨?_, ?_, ?_, ?_, ?_, ?_, ?_⟩ <;> simp_all [St.fin, St.wr, St.commit]
    | true =>
      refine ⟨?_, ?_, ?_, ?_, ?_, ?_, ?_⟩ <;> simp_all [St.fin, St.wr, St.commit]
  | some b =>
    cases ha : s.autocommit with
    | false =>
      refine ⟨?_, ?_, ?_, ?_, ?_, ?_, ?_⟩ <;> simp_all [St.fin, St.wr, St.commit]
    | true =>
      refine ⟨?_, ?_, ?_, ?_, ?_, ?_, ?_⟩ <;> simp_all [St.fin, St.wr, St.commit]

theorem step_wr2 {q : Bool} {T : DB → Prop} {s : St} {db : DB} (hT : T s.work → T db) :
    Step q T s ((s.wr s.work).wr db).fin db := by
  cases hc : s.cur with
  | none =>
    cases ha : s.autocommit with
    | false =>
      refine ⟨?_, ?_, ?_, ?_, ?_, ?_, ?_⟩ <;> simp_all [St.fin, St.wr, St.commit]
    | true =>
      refine ⟨?_, ?_, ?_, ?_, ?_, ?_, ?_⟩ <;> simp_all [St.fin, St.wr, St.commit]
  | some b =>
    cases ha : s.autocommit with
    | false =>
      refine ⟨?_, ?_, ?_, ?_, ?_, ?_, ?_⟩ <;> simp_all [St.fin, St.wr, St.commit]
    | true =>
      refine ⟨?_, ?_, ?_, ?_, ?_, ?_, ?_⟩ <;> simp_all [St.fin, St.wr, St.commit]

/-! ### helper methods -/

theorem incDegree_run {q : Bool} {T : DB → Prop} {s : St} (hu : s.usable) (t : Str)
    (hT : T s.work → T (s.work.bumpDegree 1 t).2) :
    Runs q T (incDegree t) s (decide ((s.work.bumpDegree 1 t).1 > 0)) (s.work.bumpDegree 1 t).2 := by
  refine ⟨_, ?_, step_wr hT⟩
  unfold incDegree
  rw [bind_run _ _ _ (openCursor_local s)]
  rw [bind_run _ _ _ (execWrite_local hu rfl)]
  rw [bind_run _ _ _ (closeCursor_local_commit _)]
  rfl

theorem decDegree_run {q : Bool} {T : DB → Prop} {s : St} (hu : s.usable) (t : Str)
    (hT : T s.work → T (s.work.bumpDegree (-1) t).2) :
    Runs q T (decDegree t) s (decide ((s.work.bumpDegree (-1) t).1 > 0)) (s.work.bumpDegree (-1) t).2 := by
  refine ⟨_, ?_, step_wr hT⟩
  unfold decDegree
  rw [bind_run _ _ _ (openCursor_local s)]
  rw [bind_run _ _ _ (execWrite_local hu rfl)]
  rw [bind_run _ _ _ (closeCursor_local_commit _)]
  rfl

theorem removeStr_run {q : Bool} {T : DB → Prop} {s : St} (hu : s.usable) (t : Str)
    (hT : T s.work → T (s.work.deleteVertex t)) :
    Runs q T (removeStr t) s () (s.work.deleteVertex t) := by
  refine ⟨_, ?_, step_wr hT⟩
  unfold removeStr
  rw [bind_run _ _ _ (openCursor_local s)]
  rw [bind_run _ _ _ (execWrite_local hu rfl)]
  rw [closeCursor_local_commit _]

/-- Contents after `update_or_insert` on `vertices`. -/
def DB.upsertVertex (db : DB) (t : Str) (d ts : Int) : DB :=
  if db.vertices.any fun r => r.id = t then
    { db with vertices := db.vertices.map fun r => if r.id = t then ⟨t, d, ts⟩ else r }
  else { db with vertices := db.vertices ++ [⟨t, d, ts⟩] }

/-- Contents after `update_or_insert` on `perms`. -/
def DB.upsertPerm (db : DB) (t : Str) : DB :=
  if t ∈ db.perms then db else { db with perms := db.perms ++ [t] }

theorem upsertVertex_run {q : Bool} {T : DB → Prop} {s : St} (hu : s.usable) (t : Str) (d ts : Int)
    (hT : T s.work → T (s.work.upsertVertex t d ts)) :
    Runs q T (updateOrInsertVertex t d ts) s () (s.work.upsertVertex t d ts) := by
  unfold Runs updateOrInsertVertex
  rw [bind_run _ _ _ (openCursor_local s)]
  rw [bind_run _ _ _ (execWrite_local hu rfl)]
  by_cases h : s.work.vertices.any fun r => r.id = t
  · have hc : ¬ (s.work.updateVertex t d ts).1 = 0 := by
      simp only [DB.updateVertex, List.countP_eq_zero]
      simpa using h
    have hw : (s.work.updateVertex t d ts).2 = s.work.upsertVertex t d ts := by
      simp only [DB.updateVertex, DB.upsertVertex, if_pos h]
    refine ⟨_, ?_, step_wr hT⟩
    rw [← hw]
    simp only [DB.updateVertex] at hc ⊢
    rw [if_neg hc]
    exact closeCursor_local_commit _
  · have hc : (s.work.updateVertex t d ts).1 = 0 := by
      simp only [DB.updateVertex, List.countP_eq_zero]
      simpa using h
    have hw : (s.work.updateVertex t d ts).2 = s.work := by
      simp only [DB.updateVertex]
      have : s.work.vertices.map (fun r => if r.id = t then (⟨t, d, ts⟩ : VRow) else r) = s.work.vertices := by
        conv => rhs; rw [← List.map_id s.work.vertices]
        apply List.map_congr_left
        intro r hr
        have : r.id ≠ t := by
          intro h'; apply h; simp; exact ⟨r, hr, h'⟩
        simp [this]
      rw [this]
    refine ⟨_, ?_, step_wr2 hT⟩
    simp only [DB.updateVertex] at hc hw ⊢
    rw [if_pos hc, hw]
    have hins : (s.wr s.work).work.insertVertex t d ts = some ((), s.work.upsertVertex t d ts) := by
      rw [wr_work]
      simp only [DB.insertVertex, DB.upsertVertex, if_neg h]
    have hu' : (s.wr s.work).usable := by unfold St.usable at *; rwa [wr_cur]
    have := execWrite_local (q := fun db => db.insertVertex t d ts) hu' hins
    rw [wr_lcur] at this
    rw [bind_run _ _ _ this]
    exact closeCursor_local_commit _

theorem upsertPerm_run {q : Bool} {T : DB → Prop} {s : St} (hu : s.usable) (t : Str)
    (hT : T s.work → T (s.work.upsertPerm t)) :
    Runs q T (updateOrInsertPerm t) s () (s.work.upsertPerm t) := by
  unfold Runs updateOrInsertPerm
  rw [bind_run _ _ _ (openCursor_local s)]
  rw [bind_run _ _ _ (execWrite_local hu rfl)]
  have hw : (s.work.updatePerm t).2 = s.work := rfl
  by_cases h : t ∈ s.work.perms
  · have hc : ¬ (s.work.updatePerm t).1 = 0 := by
      simp only [DB.updatePerm, List.countP_eq_zero]
      simp; exact h
    refine ⟨_, ?_, step_wr hT⟩
    simp only [DB.upsertPerm, if_pos h]
    simp only [DB.updatePerm] at hc ⊢
    rw [if_neg hc]
    exact closeCursor_local_commit _
  · have hc : (s.work.updatePerm t).1 = 0 := by
      simp only [DB.updatePerm, List.countP_eq_zero]
      intro a ha hat
      simp at hat; subst hat; exact h ha
    refine ⟨_, ?_, step_wr2 hT⟩
    simp only [DB.updatePerm] at hc ⊢
    rw [if_pos hc]
    have hins : (s.wr s.work).work.insertPerm t = some ((), s.work.upsertPerm t) := by
      rw [wr_work]
      have : ¬ (s.work.perms.any fun r => r = t) = true := by simpa using h
      simp only [DB.insertPerm, DB.upsertPerm, if_neg h, if_neg this]
    have hu' : (s.wr s.work).usable := by unfold St.usable at *; rwa [wr_cur]
    have := execWrite_local (q := fun db => db.insertPerm t) hu' hins
    rw [wr_lcur] at this
    rw [bind_run _ _ _ this]
    exact closeCursor_local_commit _

theorem removePerm_run {T : DB → Prop} {s : St} (t : Str)
    (hT : T s.work → T (s.work.deletePerm t)) :
    Runs false T (removeEdgePermutation (F := F) t) s () (s.work.deletePerm t) := by
  have hrun : removeEdgePermutation (F := F) t s = (.ok (), (s.wr (s.work.deletePerm t)).commit) := by
    unfold removeEdgePermutation
    have : execWrite .own (fun db => some ((), db.deletePerm (edge2str (F := F) (.str t)))) s
        = (.ok (), s.wr (s.work.deletePerm t)) := by
      simp [execWrite, St.wr, edge2str]
    rw [bind_run _ _ _ this]
    rfl
  refine ⟨_, hrun, ?_⟩
  cases ha : s.autocommit with
  | false =>
    refine ⟨?_, ?_, ?_, ?_, ?_, ?_, ?_⟩ <;> simp_all [St.wr, St.commit]
  | true =>
    refine ⟨?_, ?_, ?_, ?_, ?_, ?_, ?_⟩ <;> simp_all [St.wr, St.commit]

theorem destroy_run {q : Bool} {s : St} (hu : s.usable) :
    Runs q (fun _ => True) sqlDestroy s () DB.empty := by
  refine ⟨((s.wr { s.work with vertices := [] }).wr DB.empty).fin, ?_, ?_⟩
  · unfold sqlDestroy
    rw [bind_run _ _ _ (openCursor_local s)]
    rw [bind_run _ _ _ (execWrite_local hu rfl)]
    have hu' : (s.wr { s.work with vertices := [] }).usable := by unfold St.usable at *; rwa [wr_cur]
    have hq : (fun db : DB => some ((), ({ db with perms := [] } : DB)))
        (s.wr { s.work with vertices := [] }).work = some ((), DB.empty) := by
      simp only [wr_work]; rfl
    have := execWrite_local (q := fun db : DB => some ((), ({ db with perms := [] } : DB))) hu' hq
    rw [wr_lcur] at this
    rw [bind_run _ _ _ this]
    exact closeCursor_local_commit _
  · cases hc : s.cur with
    | none =>
      cases ha : s.autocommit with
      | false =>
        refine ⟨?_, ?_, ?_, ?_, ?_, ?_, ?_⟩ <;> simp_all [St.fin, St.wr, St.commit]
      | true =>
        refine ⟨?_, ?_, ?_, ?_, ?_, ?_, ?_⟩ <;> simp_all [St.fin, St.wr, St.commit]
    | some b =>
      cases ha : s.autocommit with
      | false =>
        refine ⟨?_, ?_, ?_, ?_, ?_, ?_, ?_⟩ <;> simp_all [St.fin, St.wr, St.commit]
      | true =>
        refine ⟨?_, ?_, ?_, ?_, ?_, ?_, ?_⟩ <;> simp_all [St.fin, St.wr, St.commit]

end GB
