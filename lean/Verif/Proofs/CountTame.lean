import Verif.Proofs.Count

/-! The servers write the degrees they are told to write. -/

set_option linter.unusedSectionVars false

namespace GB

/-! ### rows -/

theorem rows_update {B : Str → Nat} {vs : List VRow} (h : ∀ r ∈ vs, r.degree ≤ (B r.id : Int)) {p : VRow → Prop} [DecidablePred p]
    {id : Str} {d ts : Int} (hd : d ≤ B id) : ∀ r ∈ vs.map (fun r => if p r then (⟨id, d, ts⟩ : VRow) else r), r.degree ≤ (B r.id : Int) := by
  intro r hr
  obtain ⟨r', hr', rfl⟩ := List.mem_map.1 hr
  split
  · exact hd
  · exact h r' hr'

theorem rows_insert {B : Str → Nat} {vs : List VRow} (h : ∀ r ∈ vs, r.degree ≤ (B r.id : Int))
    {id : Str} {d ts : Int} (hd : d ≤ B id) : ∀ r ∈ vs ++ [(⟨id, d, ts⟩ : VRow)], r.degree ≤ (B r.id : Int) := by
  intro r hr
  rcases List.mem_append.1 hr with hr | hr
  · exact h r hr
  · rw [List.mem_singleton] at hr; rw [hr]; exact hd

theorem rows_filter {B : Str → Nat} {vs : List VRow} (h : ∀ r ∈ vs, r.degree ≤ (B r.id : Int)) (p : VRow → Bool) :
    ∀ r ∈ vs.filter p, r.degree ≤ (B r.id : Int) := fun r hr => h r (List.mem_filter.1 hr).1

theorem rows_inc {B : Str → Nat} {vs : List VRow} (h : ∀ r ∈ vs, r.degree ≤ (B r.id : Int)) {p : VRow → Prop} [DecidablePred p]
    {same : Str → Str → Bool} {id : Str} (hp : ∀ r, p r → same r.id id = true) :
    ∀ r ∈ vs.map (fun r => if p r then { r with degree := r.degree + 1 } else r),
      r.degree ≤ ((B r.id + (same r.id id).toNat : Nat) : Int) := by
  intro r hr
  obtain ⟨r', hr', rfl⟩ := List.mem_map.1 hr
  have := h r' hr'
  split
  · next hpr => simp only [hp r' hpr, Bool.toNat_true]; omega
  · omega

theorem rows_dec {B : Str → Nat} {vs : List VRow} (h : ∀ r ∈ vs, r.degree ≤ (B r.id : Int)) {p : VRow → Prop} [DecidablePred p] :
    ∀ r ∈ vs.map (fun r => if p r then { r with degree := r.degree + -1 } else r), r.degree ≤ (B r.id : Int) := by
  intro r hr
  obtain ⟨r', hr', rfl⟩ := List.mem_map.1 hr
  have := h r' hr'
  split
  · dsimp only; omega
  · exact this

/-! ### statements -/

/-- `m` leaves the state as it is, or does what `x` does. -/
def Guarded {α : Type} (x m : M α) : Prop := ∀ s, (m s).2 = s ∨ m s = x s

theorem Guarded.within {α : Type} {x m : M α} (h : Guarded x m) {B C : Str → Nat} (hBC : ∀ t, B t ≤ C t) {s : St} (hs : DegWithin B s)
    (hx : DegWithin C (x s).2) : DegWithin C (m s).2 := by
  rcases h s with h | h
  · rw [h]; exact hs.mono hBC
  · rw [h]; exact hx

theorem Guarded.quiet {α : Type} {x m : M α} (h : Guarded x m) (hx : Quiet x) : Quiet m := fun B s hs =>
  h.within (fun _ => Nat.le_refl _) hs (hx B s hs)

theorem guard_writeEnc {α : Type} (cd : Codec) (ts : List Str) (c : Cursor) (q : DB → Option (α × DB)) :
    Guarded (execWrite c q) (execWriteEnc cd ts c q) := by
  intro s
  unfold execWriteEnc
  repeat' split
  all_goals first | exact .inl rfl | exact .inr rfl

theorem guard_insertEnc {α : Type} (cd : Codec) (t : Str) (c : Cursor) (q : DB → Option (α × DB)) :
    Guarded (execWrite c q) (execInsertEnc cd t c q) := by
  intro s
  unfold execInsertEnc
  repeat' split
  all_goals first | exact .inl rfl | exact .inr rfl

theorem guard_readEnc {α : Type} (cd : Codec) (ts : List Str) (c : Cursor) (q : DB → α) :
    Guarded (execRead c q) (execReadEnc cd ts c q) := by
  intro s
  unfold execReadEnc
  repeat' split
  all_goals first | exact .inl rfl | exact .inr rfl

theorem guard_bound {α : Type} (ok : Bool) (c : Cursor) (q : DB → Option (α × DB)) :
    Guarded (execWrite c q) (execBound ok c q) := by
  intro s
  unfold execBound
  repeat' split
  all_goals first | exact .inl rfl | exact .inr rfl

theorem guard_limit (n : Nat) (t : Str) (m : M Unit) : ∀ s, (limitInsert n t m s).2 = s ∨ (limitInsert n t m s).2 = (m s).2 := by
  intro s
  unfold limitInsert
  split
  · exact .inr rfl
  · split
    · exact .inl rfl
    · exact .inl rfl
    · next h => exact .inr (by rw [h])

/-! ### exact comparison -/

theorem quiet_perms {α : Type} {c : Cursor} {q : DB → Option (α × DB)}
    (h : ∀ db a db', q db = some (a, db') → db'.vertices = db.vertices) : Quiet (execWrite c q) := fun B s hs =>
  sql_within (fun _ => Nat.le_refl _) hs fun a db' hq => by rw [h _ _ _ hq]; exact hs

theorem tame_sqlite : SrvTame sameText Server.sqlite where
  refl t := by simp [sameText]
  update B c id d ts s hs hd := sql_within (fun _ => Nat.le_refl _) hs fun a db' hq => by
    cases hq; exact rows_update hs hd
  insert B c id d ts s hs hd := sql_within (fun _ => Nat.le_refl _) hs fun a db' hq => by
    unfold DB.insertVertex at hq
    split at hq
    · cases hq
    · cases hq; exact rows_insert hs hd
  updatePerm c id := quiet_perms fun db a db' hq => by cases hq; rfl
  insertPerm c id := quiet_perms fun db a db' hq => by
    unfold DB.insertPerm at hq
    split at hq
    · cases hq
    · cases hq; rfl
  deletePerm c id := quiet_perms fun db a db' hq => by cases hq; rfl
  delete c id := fun B s hs => sql_within (fun _ => Nat.le_refl _) hs fun a db' hq => by
    cases hq; exact rows_filter hs _
  dec c id := fun B s hs => sql_within (fun _ => Nat.le_refl _) hs fun a db' hq => by
    cases hq; exact rows_dec hs
  inc B c id s hs := sql_within (fun _ => Nat.le_add_right _ _) hs fun a db' hq => by
    cases hq; exact rows_inc hs fun r hr => decide_eq_true hr
  range c lo hi := quiet_read _ _
  select c id := quiet_read _ _

theorem tame_sqlite64 : SrvTame sameText Server.sqlite64 :=
  { tame_sqlite with
    update := fun B c id d ts s hs hd => (guard_bound _ _ _).within (fun _ => Nat.le_refl _) hs (tame_sqlite.update B c id d ts s hs hd)
    insert := fun B c id d ts s hs hd => (guard_bound _ _ _).within (fun _ => Nat.le_refl _) hs (tame_sqlite.insert B c id d ts s hs hd) }

theorem tame_mysqlExact (k : Nat) : SrvTame sameText (Server.mysqlExact k) :=
  { tame_sqlite with
    update := fun B c id d ts s hs hd => sql_within (fun _ => Nat.le_refl _) hs fun a db' hq => by
      cases hq; exact rows_update hs hd
    insert := fun B c id d ts s hs hd => sql_within (fun _ => Nat.le_refl _) hs fun a db' hq => by
      unfold DB.myInsertVertex at hq
      split at hq
      · cases hq
      · cases hq; exact rows_insert hs hd
    updatePerm := fun c id => quiet_perms fun db a db' hq => by cases hq; rfl
    insertPerm := fun c id => quiet_perms fun db a db' hq => by
      unfold DB.myInsertPerm at hq
      split at hq
      · cases hq
      · cases hq; rfl }

/-! ### collations and character sets -/

theorem tame_mysqlColl (w : Char → Nat) (k : Nat) : SrvTame (padEq w) (Server.mysqlColl w k) where
  refl t := by simp [padEq, padLt_self]
  update B c id d ts s hs hd := sql_within (fun _ => Nat.le_refl _) hs fun a db' hq => by
    cases hq; exact rows_update hs hd
  insert B c id d ts s hs hd := sql_within (fun _ => Nat.le_refl _) hs fun a db' hq => by
    unfold DB.coInsertVertex at hq
    split at hq
    · cases hq
    · cases hq; exact rows_insert hs hd
  updatePerm c id := quiet_perms fun db a db' hq => by cases hq; rfl
  insertPerm c id := quiet_perms fun db a db' hq => by
    unfold DB.coInsertPerm at hq
    split at hq
    · cases hq
    · cases hq; rfl
  deletePerm c id := quiet_perms fun db a db' hq => by cases hq; rfl
  delete c id := fun B s hs => sql_within (fun _ => Nat.le_refl _) hs fun a db' hq => by
    cases hq; exact rows_filter hs _
  dec c id := fun B s hs => sql_within (fun _ => Nat.le_refl _) hs fun a db' hq => by
    cases hq; exact rows_dec hs
  inc B c id s hs := sql_within (fun _ => Nat.le_add_right _ _) hs fun a db' hq => by
    cases hq; exact rows_inc hs fun r hr => hr
  range c lo hi := quiet_read _ _
  select c id := quiet_read _ _

theorem tame_coded (cd : Codec) : SrvTame sameText (Server.coded cd) where
  refl := tame_sqlite.refl
  update B c id d ts s hs hd := (guard_writeEnc _ _ _ _).within (fun _ => Nat.le_refl _) hs (tame_sqlite.update B c id d ts s hs hd)
  insert B c id d ts s hs hd := (guard_insertEnc _ _ _ _).within (fun _ => Nat.le_refl _) hs (tame_sqlite.insert B c id d ts s hs hd)
  updatePerm c id := (guard_writeEnc _ _ _ _).quiet (tame_sqlite.updatePerm c id)
  insertPerm c id := (guard_insertEnc _ _ _ _).quiet (tame_sqlite.insertPerm c id)
  deletePerm c id := (guard_writeEnc _ _ _ _).quiet (tame_sqlite.deletePerm c id)
  delete c id := (guard_writeEnc _ _ _ _).quiet (tame_sqlite.delete c id)
  dec c id := (guard_writeEnc _ _ _ _).quiet (tame_sqlite.dec c id)
  inc B c id s hs := (guard_writeEnc _ _ _ _).within (fun _ => Nat.le_add_right _ _) hs (tame_sqlite.inc B c id s hs)
  range c lo hi := (guard_readEnc _ _ _ _).quiet (quiet_read _ _)
  select c id := (guard_readEnc _ _ _ _).quiet (quiet_read _ _)

theorem tame_mysql (cd : Codec) (w : Char → Nat) (k : Nat) : SrvTame (padEq w) (Server.mysql cd w k) where
  refl := (tame_mysqlColl w k).refl
  update B c id d ts s hs hd := by
    have h : DegWithin B (execWriteEnc cd [id] c (fun db => some (db.coUpdateVertex w id d ts)) s).2 :=
      (guard_writeEnc _ _ _ _).within (fun _ => Nat.le_refl _) hs ((tame_mysqlColl w k).update B c id d ts s hs hd)
    simp only [Server.mysql]
    split
    · exact hs
    · split
      · exact hs
      · exact h
  insert B c id d ts s hs hd := by
    have h : DegWithin B (execInsertEnc cd id c (fun db => db.coInsertVertex w k id d ts) s).2 :=
      (guard_insertEnc _ _ _ _).within (fun _ => Nat.le_refl _) hs ((tame_mysqlColl w k).insert B c id d ts s hs hd)
    simp only [Server.mysql]
    split
    · exact hs
    · split
      · exact hs
      · exact h
  updatePerm c id := (guard_writeEnc _ _ _ _).quiet ((tame_mysqlColl w k).updatePerm c id)
  insertPerm c id := (guard_insertEnc _ _ _ _).quiet ((tame_mysqlColl w k).insertPerm c id)
  deletePerm c id := (guard_writeEnc _ _ _ _).quiet ((tame_mysqlColl w k).deletePerm c id)
  delete c id := (guard_writeEnc _ _ _ _).quiet ((tame_mysqlColl w k).delete c id)
  dec c id := (guard_writeEnc _ _ _ _).quiet ((tame_mysqlColl w k).dec c id)
  inc B c id s hs := (guard_writeEnc _ _ _ _).within (fun _ => Nat.le_add_right _ _) hs ((tame_mysqlColl w k).inc B c id s hs)
  range c lo hi := (guard_readEnc _ _ _ _).quiet (quiet_read _ _)
  select c id := (guard_readEnc _ _ _ _).quiet (quiet_read _ _)

theorem SrvTame.limit {same : Str → Str → Bool} {srv : Server} (h : SrvTame same srv) (n : Nat) : SrvTame same (srv.limit n) :=
  { h with
    insert := fun B c id d ts s hs hd => by
      show DegWithin B (limitInsert n id (srv.insertVertex c id d ts) s).2
      rcases guard_limit n id (srv.insertVertex c id d ts) s with h1 | h1
      · rw [h1]; exact hs
      · rw [h1]; exact h.insert B c id d ts s hs hd
    insertPerm := fun c id => fun B s hs => by
      show DegWithin B (limitInsert n id (srv.insertPerm c id) s).2
      rcases guard_limit n id (srv.insertPerm c id) s with h1 | h1
      · rw [h1]; exact hs
      · rw [h1]; exact h.insertPerm c id B s hs }

end GB
