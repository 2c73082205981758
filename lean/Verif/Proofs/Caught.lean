import Verif.Model.Caught
import Verif.Proofs.CountTame
import Verif.Props.Limit
import Verif.Proofs.MySqlRun

/-! A program that catches exceptions, next to one that leaves out the calls that raised. -/

set_option linter.unusedSectionVars false

namespace GB

variable {F : Type} [PyFloat F] [DecidableEq F] {V : Val F → Prop} {srv : Server} {I : List VRow → Prop} {T : Str → Prop} {k : Option Nat}

/-! ### states between calls -/

/-- Between calls: no cursor is open, and the index is on disk. -/
def Rested (s : St) : Prop := s.cur = none ∧ s.disk.perms = s.work.perms

/-- The call leaves the index alone. -/
def Aside {α : Type} (I : List VRow → Prop) (m : M α) : Prop :=
  ∀ s, Rested s → I s.work.vertices → Rested (m s).2 ∧ (m s).2.work.perms = s.work.perms ∧ I (m s).2.work.vertices

theorem Aside.pure {α : Type} (a : α) : Aside I (pure a : M α) := fun _ h hi => ⟨h, rfl, hi⟩

theorem Aside.bind {α β : Type} {m : M α} {f : α → M β} (h : Aside I m) (hf : ∀ x, Aside I (f x)) : Aside I (m >>= f) := by
  intro s hs hi
  obtain ⟨h1, h2, h3⟩ := h s hs hi
  cases hm : m s with
  | mk r t =>
    rw [hm] at h1 h2 h3
    cases r with
    | error e => rw [bind_err _ _ _ hm]; exact ⟨h1, h2, h3⟩
    | ok x =>
      rw [bind_run _ _ _ hm]
      obtain ⟨h4, h5, h6⟩ := hf x t h1 h3
      exact ⟨h4, h5.trans h2, h6⟩

theorem Aside.each {α : Type} {f : α → M Unit} (xs : List α) (h : ∀ x ∈ xs, Aside I (f x)) : Aside I (forEach f xs) := by
  induction xs with
  | nil => exact Aside.pure ()
  | cons x xs ih => exact (h x (by simp)).bind fun _ => ih fun y hy => h y (by simp [hy])

/-- A local cursor. -/
theorem Aside.local {α : Type} {f : Cursor → M α} (h : Aside I (f .own)) : Aside I (openCursor true >>= f) := by
  intro s hs hi
  have : openCursor true s = (.ok .own, s) := by unfold openCursor; simp [hs.1]
  rw [bind_run _ _ _ this]
  exact h s hs hi

theorem close_own {s : St} (h : s.cur = none) (c : Bool) : closeCursor true c s = (.ok (), if c then s.commit else s) := by
  unfold closeCursor; simp [h]

theorem Aside.close (c : Bool) : Aside I (closeCursor true c) := by
  intro s hs hi
  rw [close_own hs.1]
  cases c
  · exact ⟨hs, rfl, hi⟩
  · exact ⟨⟨hs.1, rfl⟩, rfl, hi⟩

/-- Where the call returns, it has a result. -/
def Succeeds {α : Type} (I : List VRow → Prop) (m : M α) : Prop :=
  ∀ s, Rested s → I s.work.vertices → ∃ x, (m s).1 = .ok x

theorem Succeeds.bind {α β : Type} {m : M α} {f : α → M β} (ha : Aside I m) (h : Succeeds I m) (hf : ∀ x, Succeeds I (f x)) :
    Succeeds I (m >>= f) := by
  intro s hs hi
  obtain ⟨x, hx⟩ := h s hs hi
  obtain ⟨h1, _, h3⟩ := ha s hs hi
  cases hm : m s with
  | mk r t =>
    rw [hm] at hx h1 h3
    cases hx
    rw [bind_run _ _ _ hm]
    exact hf x t h1 h3

theorem Succeeds.pure {α : Type} (a : α) : Succeeds I (Pure.pure a : M α) := fun _ _ _ => ⟨a, rfl⟩

theorem Succeeds.close (c : Bool) : Succeeds I (closeCursor true c) := fun s hs _ => ⟨(), by rw [close_own hs.1]⟩

theorem Succeeds.local {α : Type} {f : Cursor → M α} (h : Succeeds I (f .own)) : Succeeds I (openCursor true >>= f) := by
  intro s hs hi
  have : openCursor true s = (.ok .own, s) := by unfold openCursor; simp [hs.1]
  rw [bind_run _ _ _ this]
  exact h s hs hi

/-- Not longer than `k` characters, if there is a `k`. -/
def BoundedText (k : Option Nat) (t : Str) : Prop := ∀ n, k = some n → t.length ≤ n

/-- A server that treats the index as SQLite does, as long as its rows are not too long and not there yet, and that may refuse to count up or to store a vertex, but not to count down or to
forget one. -/
structure Polite (srv : Server) (I : List VRow → Prop) (T : Str → Prop) (k : Option Nat) : Prop where
  writes : ∀ (rows : List Str) (s : St), s.cur = none → I s.work.vertices → rows.Nodup →
    (∀ r ∈ rows, BoundedText k r ∧ r ∉ s.work.perms) → (∀ r ∈ s.work.perms, BoundedText k r) →
    forEach (updateOrInsertPermOn srv) rows s = forEach (updateOrInsertPermOn Server.sqlite) rows s
  deletePerm : srv.deletePerm = Server.sqlite.deletePerm
  range : srv.selectRange = Server.sqlite.selectRange
  update : ∀ id (d ts : Int), T id → d = 0 ∨ d = 1 → Aside I (srv.updateVertex .own id d ts)
  insert : ∀ id (d ts : Int), T id → d = 0 ∨ d = 1 → Aside I (srv.insertVertex .own id d ts)
  inc : ∀ id, Aside I (srv.bumpDegree .own 1 id)
  dec : ∀ id, Aside I (srv.bumpDegree .own (-1) id)
  dec_ok : ∀ id, Succeeds I (srv.bumpDegree .own (-1) id)
  delete : ∀ id, Aside I (srv.deleteVertex .own id)
  delete_ok : ∀ id, Succeeds I (srv.deleteVertex .own id)
  empty : I []
  named : ∀ vs, I vs → ∀ r ∈ vs, T r.id

/-- The program that catches exceptions, and the program that makes only the calls that returned. -/
structure Twin (I : List VRow → Prop) (s t : St) : Prop where
  left : Rested s
  right : Rested t
  perms : s.work.perms = t.work.perms
  inv : I s.work.vertices

/-- Where the one returns, the other returns the same. -/
def Follows {α : Type} (I : List VRow → Prop) (a m : M α) : Prop :=
  ∀ s t, Twin I s t → ∀ x, (m t).1 = .ok x → (a s).1 = .ok x ∧ Twin I (a s).2 (m t).2

theorem Follows.pure {α : Type} (x : α) : Follows I (Pure.pure x : M α) (Pure.pure x) := fun _ _ h _ hx => ⟨hx, h⟩

theorem Follows.liftE {α : Type} (r : Except PyErr α) : Follows I (GB.liftE r) (GB.liftE r) := fun _ _ h _ hx => by
  cases r <;> exact ⟨hx, h⟩

theorem Follows.bind {α β : Type} {a m : M α} {f g : α → M β} (h : Follows I a m) (hf : ∀ x, Follows I (f x) (g x)) :
    Follows I (a >>= f) (m >>= g) := by
  intro s t hst y hy
  cases hm : m t with
  | mk r t1 =>
    cases r with
    | error e => rw [bind_err _ _ _ hm] at hy; cases hy
    | ok x =>
      rw [bind_run _ _ _ hm] at hy ⊢
      obtain ⟨h1, h2⟩ := h s t hst x (by rw [hm])
      rw [hm] at h2
      cases ha : a s with
      | mk r' s1 =>
        rw [ha] at h1 h2
        cases h1
        rw [bind_run _ _ _ ha]
        exact hf x s1 t1 h2 y hy

theorem Follows.each {α : Type} {f g : α → M Unit} (xs : List α) (h : ∀ x, Follows I (f x) (g x)) :
    Follows I (forEach f xs) (forEach g xs) := by
  induction xs with
  | nil => exact Follows.pure ()
  | cons x xs ih => exact (h x).bind fun _ => ih

theorem Follows.ite {α : Type} {p : Prop} [Decidable p] {a m a' m' : M α} (h : Follows I a m) (h' : Follows I a' m') :
    Follows I (if p then a else a') (if p then m else m') := by split <;> assumption

/-- Steps that leave the index alone. -/
theorem Follows.aside {a m : M Unit} (ha : Aside I a) (hs : Succeeds I a) (hm : Aside (fun _ => True) m) : Follows I a m := by
  intro s t h x _
  obtain ⟨h1, h2, h3⟩ := ha s h.left h.inv
  obtain ⟨h4, h5, _⟩ := hm t h.right trivial
  obtain ⟨y, hy⟩ := hs s h.left h.inv
  exact ⟨hy, h1, h4, h2.trans (h.perms.trans h5.symm), h3⟩

/-- Calls that read the index, and write nothing. -/
def ReadsOnly {α : Type} (m : M α) : Prop := ∀ s, s.cur = none → (m s).2 = s

theorem ReadsOnly.pure {α : Type} (a : α) : ReadsOnly (Pure.pure a : M α) := fun _ _ => rfl

theorem ReadsOnly.liftE {α : Type} (r : Except PyErr α) : ReadsOnly (GB.liftE r) := fun _ _ => by cases r <;> rfl

theorem ReadsOnly.bind {α β : Type} {m : M α} {f : α → M β} (h : ReadsOnly m) (hf : ∀ x, ReadsOnly (f x)) :
    ReadsOnly (m >>= f) := by
  intro s hs
  have h1 := h s hs
  cases hm : m s with
  | mk r t =>
    rw [hm] at h1
    subst h1
    cases r with
    | error e => rw [bind_err _ _ _ hm]
    | ok x => rw [bind_run _ _ _ hm]; exact hf x t hs

theorem ReadsOnly.open_ : ReadsOnly (openCursor true) := fun s hs => by unfold openCursor; simp [hs]

theorem ReadsOnly.close : ReadsOnly (closeCursor true false) := fun s hs => by rw [close_own hs]; rfl

theorem ReadsOnly.read {α : Type} (c : Cursor) (q : DB → α) : ReadsOnly (execRead c q) := fun s _ => by
  unfold execRead
  split <;> rfl

theorem Follows.reads {α : Type} {m : M α} (hi : IndexOnly m) (hr : ReadsOnly m) : Follows I m m := by
  intro s t h x hx
  have h1 := (hi s t ⟨h.perms, h.left.1.trans h.right.1.symm⟩).1
  rw [hr s h.left.1, hr t h.right.1]
  exact ⟨h1.trans hx, h⟩

/-! ### methods -/

theorem reads_pattern (p : Val F) : ReadsOnly (hgPattern2edges p) :=
  (ReadsOnly.liftE _).bind fun _ => (ReadsOnly.liftE _).bind fun _ => ReadsOnly.open_.bind fun _ =>
    (ReadsOnly.read _ _).bind fun _ => (ReadsOnly.liftE _).bind fun _ => ReadsOnly.close.bind fun _ =>
      (ReadsOnly.liftE _).bind fun _ => ReadsOnly.pure _

theorem pattern_polite (hP : Polite srv I T k) (p : Val F) : pattern2edgesOn srv p = hgPattern2edges p := by
  unfold pattern2edgesOn
  rw [hP.range]
  rfl

theorem follows_pattern (hP : Polite srv I T k) (p : Val F) : Follows I (pattern2edgesOn srv p) (hgPattern2edges p) := by
  rw [pattern_polite hP]
  exact Follows.reads (index_pattern p) (reads_pattern p)

theorem follows_exists (hP : Polite srv I T k) (p : Val F) : Follows I (existsOn srv p) (existsM p) :=
  (follows_pattern hP p).bind fun _ => Follows.pure _

theorem aside_addStr (hP : Polite srv I T k) (t : Str) (d ts : Int) (ht : T t) (hd : d = 0 ∨ d = 1) : Aside I (addStrOn srv t d ts) :=
  Aside.local ((hP.update t d ts ht hd).bind fun n => by
    split
    · exact (hP.insert t d ts ht hd).bind fun _ => Aside.close _
    · exact Aside.close _)

theorem aside_inc (hP : Polite srv I T k) (t : Str) : Aside I (incDegreeOn srv t) :=
  Aside.local ((hP.inc t).bind fun _ => (Aside.close _).bind fun _ => Aside.pure _)

theorem aside_dec (hP : Polite srv I T k) (t : Str) : Aside I (decDegreeOn srv t) :=
  Aside.local ((hP.dec t).bind fun _ => (Aside.close _).bind fun _ => Aside.pure _)

theorem dec_succeeds (hP : Polite srv I T k) (t : Str) : Succeeds I (decDegreeOn srv t) :=
  Succeeds.local (Succeeds.bind (hP.dec t) (hP.dec_ok t) fun _ => Succeeds.bind (Aside.close _) (Succeeds.close _) fun _ =>
    Succeeds.pure _)

theorem aside_addVert (hP : Polite srv I T k) (ts : Int) (x : Val F) (hx : T (edge2str x)) : Aside I (addVertOn srv ts x) :=
  (aside_inc hP _).bind fun known => by
    cases known
    · exact aside_addStr hP _ 1 ts hx (.inr rfl)
    · exact Aside.pure ()

theorem aside_removeStr (hP : Polite srv I T k) (t : Str) : Aside I (removeStrOn srv t) :=
  Aside.local ((hP.delete t).bind fun _ => Aside.close _)

theorem removeStr_succeeds (hP : Polite srv I T k) (t : Str) : Succeeds I (removeStrOn srv t) :=
  Succeeds.local (Succeeds.bind (hP.delete t) (hP.delete_ok t) fun _ => Succeeds.close _)

/-! ### SQLite itself -/

theorem aside_write {α : Type} {q : DB → Option (α × DB)}
    (h : ∀ db a db', q db = some (a, db') → db'.perms = db.perms ∧ (I db.vertices → I db'.vertices)) : Aside I (execWrite .own q) := by
  intro s hs hi
  unfold execWrite
  simp only [reduceCtorEq, false_and, if_false]
  split
  · exact ⟨hs, rfl, hi⟩
  · next a db' hq =>
    obtain ⟨h1, h2⟩ := h _ _ _ hq
    cases s.autocommit
    · exact ⟨⟨hs.1, hs.2.trans h1.symm⟩, h1, h2 hi⟩
    · exact ⟨⟨hs.1, rfl⟩, h1, h2 hi⟩

theorem write_succeeds {α : Type} {q : DB → Option (α × DB)} (h : ∀ db, ∃ r, q db = some r) : Succeeds I (execWrite .own q) := by
  intro s _ _
  obtain ⟨⟨a, db⟩, hr⟩ := h s.work
  refine ⟨a, ?_⟩
  unfold execWrite
  simp only [reduceCtorEq, false_and, if_false, hr]

/-- Degrees up to `b`. -/
def UpTo (b : Nat) (vs : List VRow) : Prop := ∀ r ∈ vs, r.degree ≤ ((fun _ => b : Str → Nat) r.id : Int)

/-- All vertices have texts of a certain kind. -/
def Named (T : Str → Prop) (vs : List VRow) : Prop := ∀ r ∈ vs, T r.id

theorem Aside.and {α : Type} {J : List VRow → Prop} {m : M α} (h : Aside I m) (h' : Aside J m) : Aside (fun vs => I vs ∧ J vs) m := by
  intro s hs hi
  obtain ⟨h1, h2, h3⟩ := h s hs hi.1
  obtain ⟨_, _, h4⟩ := h' s hs hi.2
  exact ⟨h1, h2, h3, h4⟩

theorem Succeeds.mono {α : Type} {J : List VRow → Prop} {m : M α} (h : Succeeds I m) (hj : ∀ vs, J vs → I vs) : Succeeds J m :=
  fun s hs hi => h s hs (hj _ hi)

theorem upTo_update {b : Nat} (hb : 1 ≤ b) (t : Str) (d ts : Int) (hd : d = 0 ∨ d = 1) :
    Aside (UpTo b) (execWrite .own fun db => some (db.updateVertex t d ts)) :=
  aside_write fun db a db' hq => by
    cases hq
    exact ⟨rfl, fun h => rows_update (B := fun _ => b) h (by omega)⟩

theorem upTo_insert {b : Nat} (hb : 1 ≤ b) (t : Str) (d ts : Int) (hd : d = 0 ∨ d = 1) :
    Aside (UpTo b) (execWrite .own fun db => db.insertVertex t d ts) :=
  aside_write fun db a db' hq => by
    unfold DB.insertVertex at hq
    split at hq
    · cases hq
    · cases hq
      exact ⟨rfl, fun h => rows_insert (B := fun _ => b) h (by omega)⟩

theorem upTo_delete {b : Nat} (t : Str) : Aside (UpTo b) (execWrite .own fun db => some ((), db.deleteVertex t)) :=
  aside_write fun db a db' hq => by
    cases hq
    exact ⟨rfl, fun h => rows_filter (B := fun _ => b) h _⟩

theorem named_update (t : Str) (d ts : Int) (ht : T t) : Aside (Named T) (execWrite .own fun db => some (db.updateVertex t d ts)) :=
  aside_write fun db a db' hq => by
    cases hq
    refine ⟨rfl, fun h r hr => ?_⟩
    obtain ⟨r', hr', rfl⟩ := List.mem_map.1 hr
    split
    · exact ht
    · exact h r' hr'

theorem named_insert (t : Str) (d ts : Int) (ht : T t) : Aside (Named T) (execWrite .own fun db => db.insertVertex t d ts) :=
  aside_write fun db a db' hq => by
    unfold DB.insertVertex at hq
    split at hq
    · cases hq
    · cases hq
      refine ⟨rfl, fun h r hr => ?_⟩
      rcases List.mem_append.1 hr with hr | hr
      · exact h r hr
      · rw [List.mem_singleton] at hr; rw [hr]; exact ht

theorem named_bump (d : Int) (t : Str) : Aside (Named T) (execWrite .own fun db => some (db.bumpDegree d t)) :=
  aside_write fun db a db' hq => by
    cases hq
    refine ⟨rfl, fun h r hr => ?_⟩
    obtain ⟨r', hr', rfl⟩ := List.mem_map.1 hr
    split
    · exact h r' hr'
    · exact h r' hr'

theorem named_delete (t : Str) : Aside (Named T) (execWrite .own fun db => some ((), db.deleteVertex t)) :=
  aside_write fun db a db' hq => by
    cases hq
    exact ⟨rfl, fun h r hr => h r (List.mem_filter.1 hr).1⟩

theorem any_succeeds {α : Type} (q : DB → α × DB) : Succeeds I (execWrite .own fun db => some (q db)) :=
  write_succeeds fun _ => ⟨_, rfl⟩

theorem polite_named (T : Str → Prop) : Polite Server.sqlite (Named T) T none where
  writes _ _ _ _ _ _ _ := rfl
  deletePerm := rfl
  range := rfl
  update t d ts ht _ := named_update t d ts ht
  insert t d ts ht _ := named_insert t d ts ht
  inc t := named_bump 1 t
  dec t := named_bump (-1) t
  dec_ok t := any_succeeds fun db => db.bumpDegree (-1) t
  delete t := named_delete t
  delete_ok t := any_succeeds fun db => ((), db.deleteVertex t)
  empty := fun r hr => by simp at hr
  named := fun _ h => h

/-! ### the servers that refuse -/

theorem Guarded.aside {α : Type} {x m : M α} (h : Guarded x m) (hx : Aside I x) : Aside I m := by
  intro s hs hi
  rcases h s with h | h
  · rw [h]; exact ⟨hs, rfl, hi⟩
  · rw [h]; exact hx s hs hi

theorem Named.any {α : Type} {m : M α} (h : Aside (Named fun _ => True) m) : Aside (fun _ => True) m := fun s hs _ => by
  obtain ⟨h1, h2, _⟩ := h s hs fun _ _ => trivial
  exact ⟨h1, h2, trivial⟩

theorem polite_sqlite : Polite Server.sqlite (fun _ => True) (fun _ => True) none where
  writes _ _ _ _ _ _ _ := rfl
  deletePerm := rfl
  range := rfl
  update t d ts ht hd := Named.any ((polite_named _).update t d ts ht hd)
  insert t d ts ht hd := Named.any ((polite_named _).insert t d ts ht hd)
  inc t := Named.any ((polite_named _).inc t)
  dec t := Named.any ((polite_named _).dec t)
  dec_ok t := any_succeeds fun db => db.bumpDegree (-1) t
  delete t := Named.any ((polite_named _).delete t)
  delete_ok t := any_succeeds fun db => ((), db.deleteVertex t)
  empty := trivial
  named := fun _ _ _ _ => trivial

theorem guard_count {b : Nat} (x : M Nat) {s : St} : (countBump b x s).2 = s ∨ (countBump b x s).2 = (x s).2 := by
  unfold countBump
  cases x s with
  | mk r s' =>
    cases r with
    | error e => exact .inr rfl
    | ok n => dsimp only; split
              · exact .inr rfl
              · exact .inl rfl

theorem named_count {b : Nat} (d : Int) (t : Str) :
    Aside (Named T) (countBump b (execWrite .own fun db => some (db.bumpDegree d t))) := by
  intro s hs hi
  rcases guard_count (b := b) (execWrite .own fun db => some (db.bumpDegree d t)) (s := s) with h | h
  · rw [h]; exact ⟨hs, rfl, hi⟩
  · rw [h]; exact named_bump d t s hs hi

theorem aside_count {b : Nat} (d : Int) (t : Str) : Aside (UpTo b) (countBump b (execWrite .own fun db => some (db.bumpDegree d t))) := by
  intro s hs hi
  have h0 := Named.any (named_bump d t) s hs trivial
  unfold countBump
  cases hm : execWrite .own (fun db => some (db.bumpDegree d t)) s with
  | mk r s' =>
    rw [hm] at h0
    cases r with
    | error e =>
      exfalso
      obtain ⟨x, hx⟩ := any_succeeds (I := fun _ => True) (fun db => db.bumpDegree d t) s hs trivial
      rw [hm] at hx
      cases hx
    | ok n =>
      dsimp only
      split
      · next hall =>
        refine ⟨h0.1, h0.2.1, fun r hr => ?_⟩
        rcases Bool.or_eq_true_iff.1 (List.all_eq_true.1 hall r hr) with h | h
        · exact hi r (of_decide_eq_true h)
        · exact of_decide_eq_true h
      · exact ⟨hs, rfl, hi⟩

theorem count_dec {b : Nat} (t : Str) : Succeeds (UpTo b) (countBump b (execWrite .own fun db => some (db.bumpDegree (-1) t))) := by
  intro s hs hi
  have hw : DegWithin (fun _ => b) (execWrite .own (fun db => some (db.bumpDegree (-1) t)) s).2 :=
    tame_sqlite.dec .own t (fun _ => b) s hi
  rw [countBump_same (fun _ => Nat.le_refl _) hw]
  exact any_succeeds (I := fun _ => True) (fun db => db.bumpDegree (-1) t) s hs trivial

theorem polite_counts (T : Str → Prop) {b : Nat} (hb : 1 ≤ b) :
    Polite (Server.sqlite.counts b) (fun vs => UpTo b vs ∧ Named T vs) T none where
  writes _ _ _ _ _ _ _ := rfl
  deletePerm := rfl
  range := rfl
  update t d ts ht hd := (upTo_update hb t d ts hd).and (named_update t d ts ht)
  insert t d ts ht hd := (upTo_insert hb t d ts hd).and (named_insert t d ts ht)
  inc t := (aside_count 1 t).and (named_count 1 t)
  dec t := (aside_count (-1) t).and (named_count (-1) t)
  dec_ok t := (count_dec t).mono fun _ h => h.1
  delete t := (upTo_delete t).and (named_delete t)
  delete_ok t := any_succeeds fun db => ((), db.deleteVertex t)
  empty := ⟨fun r hr => by simp at hr, fun r hr => by simp at hr⟩
  named := fun _ h => h.2

theorem polite_sqlite64 (T : Str → Prop) : Polite Server.sqlite64 (Named T) T none :=
  { polite_named T with
    update := fun t d ts ht _ => (guard_bound (fits64 ts) .own fun db => some (db.updateVertex t d ts)).aside (named_update t d ts ht)
    insert := fun t d ts ht _ => (guard_bound (fits64 ts) .own fun db => db.insertVertex t d ts).aside (named_insert t d ts ht) }

theorem polite_both (T : Str → Prop) {b : Nat} (hb : 1 ≤ b) :
    Polite (Server.sqlite64.counts b) (fun vs => UpTo b vs ∧ Named T vs) T none :=
  { polite_counts T hb with
    update := fun t d ts ht hd => (guard_bound (fits64 ts) .own fun db => some (db.updateVertex t d ts)).aside
      ((polite_counts T hb).update t d ts ht hd)
    insert := fun t d ts ht hd => (guard_bound (fits64 ts) .own fun db => db.insertVertex t d ts).aside
      ((polite_counts T hb).insert t d ts ht hd) }

/-! ### MySQL -/

theorem mysql_update (k : Nat) (t : Str) (d ts : Int) (ht : T t) :
    Aside (Named T) (execWrite .own fun db => some (db.myUpdateVertex t d ts)) :=
  aside_write fun db a db' hq => by
    cases hq
    refine ⟨rfl, fun h r hr => ?_⟩
    obtain ⟨r', hr', rfl⟩ := List.mem_map.1 hr
    split
    · exact ht
    · exact h r' hr'

theorem mysql_insert (k : Nat) (t : Str) (d ts : Int) (ht : T t) :
    Aside (Named T) (execWrite .own fun db => db.myInsertVertex k t d ts) :=
  aside_write fun db a db' hq => by
    unfold DB.myInsertVertex at hq
    split at hq
    · cases hq
    · cases hq
      refine ⟨rfl, fun h r hr => ?_⟩
      rcases List.mem_append.1 hr with hr | hr
      · exact h r hr
      · rw [List.mem_singleton] at hr; rw [hr]; exact ht

theorem mysql_upTo {b : Nat} (hb : 1 ≤ b) (k : Nat) (t : Str) (d ts : Int) (hd : d = 0 ∨ d = 1) :
    Aside (UpTo b) (execWrite .own fun db => some (db.myUpdateVertex t d ts)) ∧
    Aside (UpTo b) (execWrite .own fun db => db.myInsertVertex k t d ts) := by
  constructor
  · exact aside_write fun db a db' hq => by
      cases hq
      exact ⟨rfl, fun h => rows_update (B := fun _ => b) h (by omega)⟩
  · exact aside_write fun db a db' hq => by
      unfold DB.myInsertVertex at hq
      split at hq
      · cases hq
      · cases hq
        exact ⟨rfl, fun h => rows_insert (B := fun _ => b) h (by omega)⟩

/-- MySQL writes rows that are new and short enough as SQLite does. -/
theorem mysql_writes (F : Type) [PyFloat F] [DecidableEq F] {k : Nat} (rows : List Str) (s : St) (hs : s.cur = none)
    (hi : ∀ r ∈ s.work.vertices, r.id.length ≤ k) (hnd : rows.Nodup)
    (hr : ∀ r ∈ rows, BoundedText (some k) r ∧ r ∉ s.work.perms) (hp : ∀ r ∈ s.work.perms, BoundedText (some k) r) :
    forEach (updateOrInsertPermOn (Server.mysqlExact k)) rows s = forEach (updateOrInsertPermOn Server.sqlite) rows s :=
  myWriteRows_same (F := F) hi rows s.work.perms s (St.usable_of_none hs) rfl (fun r h => (hr r h).2) hnd
    (fun r h => (hr r h).1 k rfl) (fun r h => hp r h k rfl)

theorem polite_mysql (F : Type) [PyFloat F] [DecidableEq F] {T : Str → Prop} (k : Nat) (hT : ∀ t, T t → t.length ≤ k) :
    Polite (Server.mysqlExact k) (Named T) T (some k) :=
  { polite_named T with
    writes := fun rows s hs hi hnd hr hp => mysql_writes F rows s hs (fun r h => hT _ (hi r h)) hnd hr hp
    update := fun t d ts ht _ => mysql_update k t d ts ht
    insert := fun t d ts ht _ => mysql_insert k t d ts ht }

theorem polite_mysqlInt (F : Type) [PyFloat F] [DecidableEq F] {T : Str → Prop} (k : Nat) (hT : ∀ t, T t → t.length ≤ k) {b : Nat}
    (hb : 1 ≤ b) : Polite ((Server.mysqlExact k).counts b) (fun vs => UpTo b vs ∧ Named T vs) T (some k) :=
  { polite_counts T hb with
    writes := fun rows s hs hi hnd hr hp => mysql_writes F rows s hs (fun r h => hT _ (hi.2 r h)) hnd hr hp
    update := fun t d ts ht hd => (mysql_upTo hb k t d ts hd).1.and (mysql_update k t d ts ht)
    insert := fun t d ts ht hd => (mysql_upTo hb k t d ts hd).2.and (mysql_insert k t d ts ht) }

/-! ### the index -/

/-- Calls that treat the index the same way, whatever else is in the database. -/
theorem Follows.index {a m : M Unit} (f : List Str → List Str)
    (ha : ∀ s, s.cur = none → (a s).1 = .ok () ∧ (a s).2.cur = none ∧ (a s).2.work = ⟨s.work.vertices, f s.work.perms⟩ ∧
      (a s).2.disk.perms = (a s).2.work.perms)
    (hm : ∀ s, s.cur = none → (m s).1 = .ok () ∧ (m s).2.cur = none ∧ (m s).2.work = ⟨s.work.vertices, f s.work.perms⟩ ∧
      (m s).2.disk.perms = (m s).2.work.perms) : Follows I a m := by
  intro s t h x _
  obtain ⟨a1, a2, a3, a4⟩ := ha s h.left.1
  obtain ⟨m1, m2, m3, m4⟩ := hm t h.right.1
  refine ⟨a1, ⟨a2, a4⟩, ⟨m2, m4⟩, ?_, ?_⟩
  · rw [a3, m3]
    show f s.work.perms = f t.work.perms
    rw [h.perms]
  · rw [a3]; exact h.inv

theorem write_index (t : Str) (s : St) (hs : s.cur = none) :
    (writeEdgePermutation (F := F) t s).1 = .ok () ∧ (writeEdgePermutation (F := F) t s).2.cur = none ∧
      (writeEdgePermutation (F := F) t s).2.work = ⟨s.work.vertices, if t ∈ s.work.perms then s.work.perms else s.work.perms ++ [t]⟩ ∧
      (writeEdgePermutation (F := F) t s).2.disk.perms = (writeEdgePermutation (F := F) t s).2.work.perms := by
  have ho : openCursor true s = (.ok .own, s) := by unfold openCursor; simp [hs]
  unfold writeEdgePermutation updateOrInsertPerm
  rw [show edge2str (F := F) (.str t) = t from rfl, bind_run _ _ _ ho]
  by_cases hm : t ∈ s.work.perms
  · have hc : 0 < s.work.perms.countP (fun r => r = t) := List.countP_pos_iff.2 ⟨t, hm, by simp⟩
    have hc' : ¬ s.work.perms.countP (fun r => r = t) = 0 := by omega
    cases ha : s.autocommit <;>
      simp [execWrite, DB.updatePerm, ha, hm, hc', closeCursor, St.commit, hs, Bind.bind, M.bind]
  · have hc : s.work.perms.countP (fun r => r = t) = 0 := by
      rw [List.countP_eq_zero]
      intro a ha' hat
      simp at hat; subst hat; exact hm ha'
    have hany : s.work.perms.any (fun r => r = t) = false := by
      rw [List.any_eq_false]
      intro a ha' hat
      simp at hat; subst hat; exact hm ha'
    cases ha : s.autocommit <;>
      simp [execWrite, DB.updatePerm, DB.insertPerm, ha, hm, hc, hany, closeCursor, St.commit, hs, Bind.bind, M.bind]

theorem remove_index (t : Str) (s : St) (hs : s.cur = none) :
    (removeEdgePermutation (F := F) t s).1 = .ok () ∧ (removeEdgePermutation (F := F) t s).2.cur = none ∧
      (removeEdgePermutation (F := F) t s).2.work = ⟨s.work.vertices, s.work.perms.filter fun r => decide (r ≠ t)⟩ ∧
      (removeEdgePermutation (F := F) t s).2.disk.perms = (removeEdgePermutation (F := F) t s).2.work.perms := by
  unfold removeEdgePermutation
  rw [show edge2str (F := F) (.str t) = t from rfl]
  cases ha : s.autocommit <;>
    simp [execWrite, DB.deletePerm, commitM, ha, St.commit, hs, Bind.bind, M.bind]

theorem removePerm_polite (hP : Polite srv I T k) : removeEdgePermutationOn F srv = removeEdgePermutation (F := F) := by
  funext t
  unfold removeEdgePermutationOn
  rw [hP.deletePerm]
  rfl

theorem writes_eq (srv : Server) {xs : List (Val F)} (hne : xs ≠ []) :
    writeEdgePermutationsOn srv xs = forEach (updateOrInsertPermOn srv) (rowsOf xs) := by
  unfold writeEdgePermutationsOn
  rw [doWithPerms_eq hne]
  rfl

/-- Writing the rows of an edge that has none. -/
theorem writes_follow (hP : Polite srv I T k) {xs : List (Val F)} (hne : xs ≠ []) (hnd : (rowsOf xs).Nodup) {s t : St}
    (hst : Twin I s t) (hr : ∀ r ∈ rowsOf xs, BoundedText k r ∧ r ∉ s.work.perms) (hp : ∀ r ∈ s.work.perms, BoundedText k r)
    (hok : (writeEdgePermutationsOn Server.sqlite xs t).1 = .ok ()) :
    (writeEdgePermutationsOn srv xs s).1 = .ok () ∧
      Twin I (writeEdgePermutationsOn srv xs s).2 (writeEdgePermutationsOn Server.sqlite xs t).2 := by
  rw [writes_eq _ hne] at hok ⊢
  rw [writes_eq _ hne, hP.writes _ _ hst.left.1 hst.inv hnd hr hp]
  have hf : Follows I (forEach (writeEdgePermutation (F := F)) (rowsOf xs)) (forEach (writeEdgePermutation (F := F)) (rowsOf xs)) :=
    Follows.each _ fun t => Follows.index (fun ps => if t ∈ ps then ps else ps ++ [t]) (write_index t) (write_index t)
  exact hf s t hst () hok

theorem follows_removes (hP : Polite srv I T k) (xs : List (Val F)) :
    Follows I (removeEdgePermutationsOn srv xs) (removeEdgePermutationsOn Server.sqlite xs) := by
  unfold removeEdgePermutationsOn
  rw [removePerm_polite hP, removePerm_polite polite_sqlite]
  exact Follows.each _ fun _ => (Follows.liftE _).bind fun t =>
    Follows.index (fun ps => ps.filter fun r => decide (r ≠ t)) (remove_index t) (remove_index t)

/-! ### calls that follow -/

theorem follows_patternOn (hP : Polite srv I T k) (p : Val F) : Follows I (pattern2edgesOn srv p) (pattern2edgesOn Server.sqlite p) := by
  rw [pattern_polite polite_sqlite]
  exact follows_pattern hP p

theorem follows_existsOn (hP : Polite srv I T k) (p : Val F) : Follows I (existsOn srv p) (existsOn Server.sqlite p) :=
  (follows_patternOn hP p).bind fun _ => Follows.pure _

theorem dec_follows (hP : Polite srv I T k) (t : Str) :
    Follows I (do let _ ← decDegreeOn srv t) (do let _ ← decDegreeOn Server.sqlite t) :=
  Follows.aside ((aside_dec hP t).bind fun _ => Aside.pure _)
    (Succeeds.bind (aside_dec hP t) (dec_succeeds hP t) fun _ => Succeeds.pure _)
    ((aside_dec polite_sqlite t).bind fun _ => Aside.pure _)

theorem follows_removeRaw (hP : Polite srv I T k) (e : Val F) : Follows I (removeRawOn srv e) (removeRawOn Server.sqlite e) := by
  unfold removeRawOn
  refine (follows_existsOn hP e).bind fun present => Follows.ite ?_ (Follows.pure _)
  exact (Follows.liftE _).bind fun vs => (Follows.each vs fun v => dec_follows hP _).bind fun _ =>
    (follows_removes hP vs).bind fun _ =>
      Follows.aside (aside_removeStr hP _) (removeStr_succeeds hP _) (aside_removeStr polite_sqlite _)

theorem follows_remove (hP : Polite srv I T k) (e : Val F) : Follows I (hgRemoveOn srv e) (hgRemoveOn Server.sqlite e) := by
  unfold hgRemoveOn
  refine (Follows.liftE _).bind fun first => Follows.ite ?_ (follows_removeRaw hP e)
  exact (Follows.liftE _).bind fun es => Follows.each es fun e => follows_removeRaw hP e

theorem follows_sources (hP : Polite srv I T k) (e : Val F) : Follows I (hgSourcesOn srv e) (hgSourcesOn Server.sqlite e) :=
  (follows_patternOn hP _).bind fun _ => (Follows.liftE _).bind fun _ => Follows.pure _

theorem follows_destroy (hP : Polite srv I T k) : Follows I hgDestroy hgDestroy := by
  have key : ∀ s : St, s.cur = none → (hgDestroy s).1 = .ok () ∧ Rested (hgDestroy s).2 ∧ (hgDestroy s).2.work = ⟨[], []⟩ := by
    intro s hs
    have ho : openCursor true s = (.ok .own, s) := by unfold openCursor; simp [hs]
    unfold hgDestroy sqlDestroy
    rw [bind_run _ _ _ ho]
    cases ha : s.autocommit <;>
      simp [execWrite, ha, closeCursor, St.commit, hs, Bind.bind, M.bind, Rested]
  intro s t h x hx
  obtain ⟨a1, a2, a3⟩ := key s h.left.1
  obtain ⟨b1, b2, b3⟩ := key t h.right.1
  exact ⟨a1, a2, b2, by rw [a3, b3], by rw [a3]; exact hP.empty⟩

/-! ### additions -/

/-- First the vertices, then the index: both happens, or the call is refused, and the other program leaves it out. -/
theorem frame_at {a m b n : M Unit} (ha : Aside I a) (hm : Aside (fun _ => True) m) {s t : St} (hst : Twin I s t)
    (h : ∀ s1 t1, Twin I s1 t1 → s1.work.perms = s.work.perms → (n t1).1 = .ok () →
      (b s1).1 = .ok () ∧ Twin I (b s1).2 (n t1).2)
    (hok : ((m >>= fun _ => n) t).1 = .ok ()) :
    (((a >>= fun _ => b) s).1 = .ok () ∧ Twin I ((a >>= fun _ => b) s).2 ((m >>= fun _ => n) t).2) ∨
      ((∃ e, ((a >>= fun _ => b) s).1 = .error e) ∧ Twin I ((a >>= fun _ => b) s).2 t) := by
  obtain ⟨a1, a2, a3⟩ := ha s hst.left hst.inv
  obtain ⟨m1, m2, _⟩ := hm t hst.right trivial
  cases hr : a s with
  | mk r s1 =>
    rw [hr] at a1 a2 a3
    cases r with
    | error e =>
      rw [bind_err _ _ _ hr]
      exact .inr ⟨⟨e, rfl⟩, a1, hst.right, a2.trans hst.perms, a3⟩
    | ok x =>
      rw [bind_run _ _ _ hr]
      cases hr' : m t with
      | mk r' t1 =>
        rw [hr'] at m1 m2
        cases r' with
        | error e => rw [bind_err _ _ _ hr'] at hok; cases hok
        | ok x' =>
          rw [bind_run _ _ _ hr'] at hok ⊢
          exact .inl (h s1 t1 ⟨a1, m1, a2.trans (hst.perms.trans m2.symm), a3⟩ a2 hok)

/-- `addRawOn` with its result thrown away. -/
theorem addRaw_shape (srv : Server) (e : Val F) (ts : Int) :
    (do let _ ← addRawOn srv e ts : M Unit) = (do
      let present ← existsOn srv e
      if present then pure () else do
        let vs ← liftE e.iter
        (do
          forEach (addVertOn srv ts) vs
          addStrOn srv (edge2str e) 0 ts)
        writeEdgePermutationsOn srv vs) := by
  unfold addRawOn
  rw [bind_assoc']
  congr 1
  funext present
  cases present
  · have hb : ∀ m : M Unit, (m >>= fun _ => (Pure.pure e : M (Val F)) >>= fun _ => (Pure.pure () : M Unit)) = m := by
      intro m
      funext s
      cases hm : m s with
      | mk r t => cases r with
        | ok x => rw [bind_run _ _ _ hm]; rfl
        | error x => rw [bind_err _ _ _ hm]
    simp only [Bool.not_false, if_true, Bool.false_eq_true, if_false, bind_assoc', hb]
  · rfl

theorem tried_add (hV : Vocab V) (hP : Polite srv I T k) {e : Val F} (he : EdgeOver V e)
    (hT : (∀ x ∈ e.elems, T (edge2str x)) ∧ T (edge2str e)) (hrows : ∀ r ∈ rowsOf e.elems, BoundedText k r)
    {A : Abs F} (hA : AbsOk V A) (hall : ∀ r ∈ A.conc.perms, BoundedText k r) (ts : Int) {s t : St} (hst : Twin I s t)
    (hw : t.work = A.conc) (hok : ((do let _ ← hgAddOn Server.sqlite e ts : M Unit) t).1 = .ok ()) :
    (((do let _ ← hgAddOn srv e ts : M Unit) s).1 = .ok () ∧
        Twin I ((do let _ ← hgAddOn srv e ts : M Unit) s).2 ((do let _ ← hgAddOn Server.sqlite e ts : M Unit) t).2) ∨
      ((∃ x, ((do let _ ← hgAddOn srv e ts : M Unit) s).1 = .error x) ∧ Twin I ((do let _ ← hgAddOn srv e ts : M Unit) s).2 t) := by
  obtain ⟨h, hh, hs⟩ := head0_edge he
  have hd : ∀ srv : Server, (do let _ ← hgAddOn srv e ts : M Unit) = (do let _ ← addRawOn srv e ts) := by
    intro srv
    rw [addOn_single hh hs, bind_assoc']
    rfl
  rw [hd, addRaw_shape, iter_edge he] at hok ⊢
  rw [hd, addRaw_shape, iter_edge he]
  have hex : existsOn Server.sqlite e t = (.ok (decide (e ∈ A.edges)), t) :=
    existsM_run hV hA he (St.usable_of_none hst.right.1) hw
  obtain ⟨h1, h2⟩ := follows_existsOn hP e s t hst _ (by rw [hex])
  rw [hex] at h2
  cases hes : existsOn srv e s with
  | mk r s0 =>
    rw [hes] at h1 h2
    cases h1
    rw [bind_run _ _ _ hex] at hok ⊢
    rw [bind_run _ _ _ hes]
    by_cases hm : e ∈ A.edges
    · simp only [hm, decide_true, if_true] at hok ⊢
      exact .inl ⟨rfl, h2⟩
    · simp only [hm, decide_false, Bool.false_eq_true, if_false] at hok ⊢
      have hperms : s0.work.perms = A.conc.perms := by rw [h2.perms, hw]
      refine frame_at
        ((Aside.each e.elems fun v hv => aside_addVert hP ts v (hT.1 v hv)).bind fun _ => aside_addStr hP _ 0 ts hT.2 (.inl rfl))
        ((Aside.each e.elems fun v _ => aside_addVert polite_sqlite ts v trivial).bind fun _ =>
          aside_addStr polite_sqlite _ 0 ts trivial (.inl rfl)) h2 (fun s1 t1 h3 h4 h5 => ?_) hok
      refine writes_follow hP he.elems_ne (rowsOf_nodup (edge_wf hV he)) h3 (fun r hr => ⟨hrows r hr, ?_⟩) ?_ h5
      · rw [h4, hperms]; exact rows_fresh hV hA he hm r hr
      · rw [h4, hperms]; exact hall

/-- Going through all the vertices. -/
theorem fAll_named {s : St} (hs : s.cur = none) (h : ∀ r ∈ s.work.vertices, ∃ v : Val F, WfVal v ∧ r.id = edge2str v) :
    (do let _ ← hgFAll (fun (v : Val F) (d : Int) => (v, d)) : M Unit) s = (.ok (), s) := by
  have hex : ∀ r : VRow, ∃ v : Val F, r ∈ s.work.vertices → str2edge r.id = .ok v := by
    intro r
    by_cases hr : r ∈ s.work.vertices
    · obtain ⟨v, hv, he⟩ := h r hr
      exact ⟨v, fun _ => by rw [he]; exact str2edge_edge2str hv⟩
    · exact ⟨.none, fun h => absurd h hr⟩
  obtain ⟨g, hg⟩ := Classical.axiomOfChoice hex
  have hu := St.usable_of_none hs
  have hm : mapE (fun row : VRow => do
      let v ← str2edge row.id
      Except.ok ((fun (v : Val F) (d : Int) => (v, d)) v row.degree)) s.work.vertices =
      .ok (s.work.vertices.map fun r => (g r, r.degree)) := by
    apply mapE_ok
    intro r hr
    rw [hg r hr]
    rfl
  unfold hgFAll sqlFAll
  rw [bind_assoc', bind_run _ _ _ (openCursor_local s), bind_assoc', bind_run _ _ _ (execRead_local hu _ _), bind_assoc',
    bind_run _ _ _ (liftE_ok hm s), bind_assoc', bind_run _ _ _ (closeCursor_local s)]
  rfl

end GB
