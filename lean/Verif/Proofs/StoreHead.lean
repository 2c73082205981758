import Verif.Proofs.Quiet

/-
What adding a tuple that starts with an edge leaves alone.
-/

namespace GB

variable {F : Type} [PyFloat F] [DecidableEq F]

/-- The rows with this key are as they were, and statements can be executed. -/
def Rests (k : Str) (R : List VRow) (s : St) : Prop := s.work.selectVertex k = R ∧ s.cur ≠ some false

variable {k : Str} {R : List VRow}

theorem Rests.openCursor (l : Bool) : Pres (Rests k R) (GB.openCursor l) := by
  intro s h
  unfold GB.openCursor
  rcases hc : s.cur with _ | b <;> cases l <;> simp only [hc] <;> first | exact h | exact ⟨h.1, by simp⟩

theorem Rests.commit {s : St} (h : Rests k R s) : Rests k R s.commit := h

theorem Rests.closeCursor (l c : Bool) : Pres (Rests k R) (GB.closeCursor l c) := by
  intro s h
  have hc : Rests k R (if c then s.commit else s) := by cases c <;> exact h
  unfold GB.closeCursor
  cases l
  · simp only [Bool.false_eq_true, if_false]
    split
    · exact hc
    · exact ⟨hc.1, by simp⟩
  · simp only [if_true]
    split
    · exact hc
    · exact h

theorem Rests.execRead {α : Type} (c : Cursor) (q : DB → α) : Pres (Rests k R) (GB.execRead c q) := by
  intro s h
  unfold GB.execRead
  split <;> exact h

theorem Rests.execWrite {α : Type} (c : Cursor) (q : DB → Option (α × DB))
    (hq : ∀ db a db', q db = some (a, db') → db'.selectVertex k = db.selectVertex k) : Pres (Rests k R) (GB.execWrite c q) := by
  intro s h
  unfold GB.execWrite
  split
  · exact h
  · split
    · exact h
    · next a db he =>
      have : Rests k R { s with work := db } := ⟨(hq _ _ _ he).trans h.1, h.2⟩
      dsimp only
      split
      · exact this.commit
      · exact this

theorem select_map (vs : List VRow) (id : Str) (f : VRow → VRow) (hid : id ≠ k) (hf : ∀ r, (f r).id = id ∨ (f r).id = r.id) :
    (vs.map fun r => if r.id = id then f r else r).filter (fun r => decide (r.id = k)) = vs.filter fun r => decide (r.id = k) := by
  induction vs with
  | nil => rfl
  | cons r vs ih =>
    rw [List.map_cons, List.filter_cons, List.filter_cons, ih]
    by_cases h : r.id = id
    · have h1 : (f r).id = id := (hf r).elim _root_.id (fun e => e.trans h)
      simp [h, h1, hid]
    · simp [h]

theorem Rests.incDegree (id : Str) (hid : id ≠ k) : Pres (Rests k R) (GB.incDegree id) := by
  unfold GB.incDegree
  refine (Rests.openCursor _).bind fun c => (Rests.execWrite _ _ ?_).bind fun _ => (Rests.closeCursor _ _).bind fun _ => Pres.pure _
  intro db a db' h
  cases h
  exact select_map db.vertices id (fun r => { r with degree := r.degree + 1 }) hid (fun r => .inr rfl)

theorem Rests.addStr (id : Str) (d ts : Int) (hid : id ≠ k) : Pres (Rests k R) (GB.addStr id d ts) := by
  unfold GB.addStr updateOrInsertVertex
  refine (Rests.openCursor _).bind fun c => (Rests.execWrite _ _ ?_).bind fun n => ?_
  · intro db a db' h
    cases h
    exact select_map db.vertices id (fun _ => ⟨id, d, ts⟩) hid (fun r => .inl rfl)
  · have hi : Pres (Rests k R) (GB.execWrite c fun db => db.insertVertex id d ts) := by
      refine Rests.execWrite _ _ ?_
      intro db a db' h
      unfold DB.insertVertex at h
      split at h
      · cases h
      · cases h
        show (db.vertices ++ [(⟨id, d, ts⟩ : VRow)]).filter (fun r => decide (r.id = k)) = db.vertices.filter _
        rw [List.filter_append]
        simp [hid]
    dsimp only
    split
    · exact hi.bind fun _ => Rests.closeCursor _ _
    · exact (Rests.closeCursor _ _)

theorem Rests.upPerm (p : Str) : Pres (Rests k R) (updateOrInsertPerm p) := by
  unfold updateOrInsertPerm
  refine (Rests.openCursor _).bind fun c => (Rests.execWrite _ _ ?_).bind fun n => ?_
  · intro db a db' h
    cases h
    rfl
  · have hi : Pres (Rests k R) (GB.execWrite c fun db => db.insertPerm p) := by
      refine Rests.execWrite _ _ ?_
      intro db a db' h
      unfold DB.insertPerm at h
      split at h
      · cases h
      · cases h
        rfl
    dsimp only
    split
    · exact hi.bind fun _ => Rests.closeCursor _ _
    · exact (Rests.closeCursor _ _)

theorem Rests.existsM (v : Val F) : Pres (Rests k R) (GB.existsM v) := by
  unfold GB.existsM GB.pattern2edges
  refine Pres.bind ?_ fun _ => Pres.pure _
  refine (Pres.liftE _).bind fun ps => (Pres.liftE _).bind fun e => (Rests.openCursor _).bind fun c =>
    (Rests.execRead _ _).bind fun _ => (Pres.liftE _).bind fun _ => (Rests.closeCursor _ _).bind fun _ =>
    (Pres.liftE _).bind fun _ => Pres.pure _

theorem Rests.addRaw (e : Val F) (ts : Int) (he : edge2str e ≠ k)
    (hv : ∀ xs, e.iter = .ok xs → ∀ x ∈ xs, edge2str x ≠ k) : Pres (Rests k R) (GB.addRaw e ts) := by
  unfold GB.addRaw
  refine (Rests.existsM _).bind fun b => ?_
  dsimp only
  split
  · intro s h
    cases hi : e.iter with
    | error x => exact h
    | ok vs =>
      rw [bind_run _ _ _ (show GB.liftE (.ok vs) s = _ from rfl)]
      refine Pres.bind (Pres.forEach fun v hm => ?_) (fun _ => (Rests.addStr _ _ _ he).bind fun _ => Pres.bind ?_ fun _ => Pres.pure _) s h
      · unfold GB.addVert
        refine (Rests.incDegree _ (hv vs hi v hm)).bind fun b => ?_
        split
        · exact Rests.addStr _ _ _ (hv vs hi v hm)
        · exact Pres.pure _
      · exact Pres.forEach fun _ _ => (Pres.liftE _).bind fun _ => Rests.upPerm _
  · exact Pres.pure _

omit [DecidableEq F] in
theorem join_length : ∀ (ss : List Str) (s : Str), s ∈ ss → s.length ≤ (pyJoin (lit " ") ss).length
  | [], _, h => by cases h
  | [a], s, h => by
    have : s = a := by simpa using h
    subst this
    simp [pyJoin]
  | a :: b :: ss, s, h => by
    have e : pyJoin (lit " ") (a :: b :: ss) = a ++ ' ' :: pyJoin (lit " ") (b :: ss) := by simp [pyJoin, lit]
    rw [e]
    rcases List.mem_cons.mp h with rfl | h
    · simp
    · have := join_length (b :: ss) s h
      simp only [List.length_append, List.length_cons] at this ⊢
      omega

omit [DecidableEq F] in
theorem nodeStrs_mem : ∀ (xs : List (Val F)) (x : Val F), x ∈ xs → edge2str x ∈ nodeStrs xs
  | [], _, h => by cases h
  | y :: ys, x, h => by
    rw [nodeStrs]
    rcases List.mem_cons.mp h with rfl | h
    · simp
    · exact List.mem_cons_of_mem _ (nodeStrs_mem ys x h)

omit [DecidableEq F] in
/-- The text of an element is shorter than the text of the tuple. -/
theorem text_shorter {b : Bool} {xs : List (Val F)} {x : Val F} (h : x ∈ xs) :
    (edge2str x).length + 2 ≤ (edge2str (.seq b xs)).length := by
  have := join_length _ _ (nodeStrs_mem xs x h)
  rw [show edge2str (.seq b xs) = lit "(" ++ pyJoin (lit " ") (nodeStrs xs) ++ lit ")" from by rw [edge2str]]
  have h1 : (lit "(").length = 1 := rfl
  have h2 : (lit ")").length = 1 := rfl
  simp only [List.length_append, h1, h2]
  omega

omit [DecidableEq F] in
/-- So is the text of what iterating over an element gives. -/
theorem inner_shorter {b : Bool} {xs : List (Val F)} {e : Val F} (h : e ∈ xs) {ys : List (Val F)} (hi : e.iter = .ok ys)
    {y : Val F} (hy : y ∈ ys) : (edge2str y).length < (edge2str (.seq b xs)).length := by
  have h1 := text_shorter (b := b) h
  cases e with
  | seq c zs =>
    have : zs = ys := by simpa [Val.iter] using hi
    subst this
    have := text_shorter (b := c) hy
    omega
  | str s =>
    have : s.map (fun c => Val.str [c]) = ys := by simpa [Val.iter] using hi
    subst this
    obtain ⟨c, _, rfl⟩ := List.mem_map.mp hy
    show 1 < _
    omega
  | int i => simp [Val.iter] at hi
  | flt i => simp [Val.iter] at hi
  | none => simp [Val.iter] at hi

/-- Adding a tuple (or list) that starts with an edge does not touch the row of the tuple. -/
theorem rests_add {b : Bool} {xs : List (Val F)} (hh : ∃ c zs t, xs = .seq c zs :: t) (ts : Int) :
    Pres (Rests (edge2str (.seq b xs)) R) (hgAdd (.seq b xs) ts) := by
  obtain ⟨c, zs, t, rfl⟩ := hh
  unfold hgAdd sqlAdd
  have hraw : ∀ e ∈ Val.seq c zs :: t, Pres (Rests (edge2str (.seq b (Val.seq c zs :: t))) R) (GB.addRaw e ts) := by
    intro e he
    refine Rests.addRaw e ts ?_ ?_
    · intro h
      have := text_shorter (b := b) he
      rw [h] at this
      omega
    · intro ys hi y hy h
      have := inner_shorter (b := b) he hi hy
      rw [h] at this
      omega
  have hloop : Pres (Rests (edge2str (.seq b (Val.seq c zs :: t))) R)
      (forEach (fun e => do let _ ← GB.addRaw e ts) (Val.seq c zs :: t)) :=
    Pres.forEach fun e he => (hraw e he).bind fun _ => Pres.pure _
  intro s h
  rw [bind_run _ _ _ (show GB.liftE (Val.head0 (.seq b (Val.seq c zs :: t))) s = (.ok (.seq c zs), s) from rfl)]
  simp only [Val.isSeq, if_true]
  refine Pres.bind (Rests.openCursor _) (fun _ => ?_) s h
  intro s h
  rw [bind_run _ _ _ (show GB.liftE (Val.iter (.seq b (Val.seq c zs :: t))) s = (.ok (Val.seq c zs :: t), s) from rfl)]
  exact Pres.bind hloop (fun _ => (Rests.closeCursor _ _).bind fun _ => Pres.pure _) s h

/-- `timestamp` is a function of the rows with the key. -/
theorem rests_timestamp {v : Val F} {R : List VRow} {s s' : St} (h' : Rests (edge2str v) R s') (h : Rests (edge2str v) R s) :
    (hgTimestamp v s').1 = (hgTimestamp v s).1 := by
  have key : ∀ s, Rests (edge2str v) R s → (hgTimestamp v s).1 = .ok (match R with | r :: _ => r.timestamp | [] => -1) := by
    intro s h
    unfold hgTimestamp sqlTimestamp
    obtain ⟨c, ho⟩ : ∃ c, openCursor true s = (.ok c, s) := by
      unfold openCursor; cases s.cur <;> exact ⟨_, rfl⟩
    rw [bind_run _ _ _ ho]
    have hr : execRead c (fun db => db.selectVertex (edge2str v)) s = (.ok R, s) := by
      unfold execRead
      rw [if_neg (fun hc => h.2 hc.2)]
      show (Except.ok (s.work.selectVertex (edge2str v)), s) = _
      rw [h.1]
    rw [bind_run _ _ _ hr]
    cases R with
    | nil =>
      have hc : closeCursor true false s = (.ok (), s) := by
        unfold closeCursor; cases s.cur <;> rfl
      show ((closeCursor true false >>= fun _ => Pure.pure (-1)) s).1 = _
      rw [bind_run _ _ _ hc]; rfl
    | cons r R => cases c <;> rfl
  rw [key s h, key s' h']

/-- `degree` is a function of the rows with the key. -/
theorem rests_degree {v : Val F} {R : List VRow} {s s' : St} (h' : Rests (edge2str v) R s') (h : Rests (edge2str v) R s) :
    (hgDegree v s').1 = (hgDegree v s).1 := by
  have key : ∀ s, Rests (edge2str v) R s → (hgDegree v s).1 = .ok (match R with | r :: _ => r.degree | [] => 0) := by
    intro s h
    unfold hgDegree sqlDegree
    obtain ⟨c, ho⟩ : ∃ c, openCursor true s = (.ok c, s) := by
      unfold openCursor; cases s.cur <;> exact ⟨_, rfl⟩
    rw [bind_run _ _ _ ho]
    have hr : execRead c (fun db => db.selectVertex (edge2str v)) s = (.ok R, s) := by
      unfold execRead
      rw [if_neg (fun hc => h.2 hc.2)]
      show (Except.ok (s.work.selectVertex (edge2str v)), s) = _
      rw [h.1]
    rw [bind_run _ _ _ hr]
    cases R with
    | nil =>
      have hc : closeCursor true false s = (.ok (), s) := by
        unfold closeCursor; cases s.cur <;> rfl
      show ((closeCursor true false >>= fun _ => Pure.pure 0) s).1 = _
      rw [bind_run _ _ _ hc]; rfl
    | cons r R => cases c <;> rfl
  rw [key s h, key s' h']

end GB
