import Verif.Model.Statements

/-! The methods statement by statement are those of Model/Sql.lean. -/

set_option linter.unusedSectionVars false

namespace GB

variable {F : Type} [PyFloat F] [DecidableEq F]

theorem Stm.exec_refused {α : Type} {u : DB → Option DB} {k : DB → Stm (Except PyErr α × Option Bool)}
    {e : Stm (Except PyErr α × Option Bool)} {s : St} (h : u s.work = none) : (Stm.write u k e).exec s = e.exec s := by
  rw [Stm.exec, h]

theorem Stm.exec_write {α : Type} {u : DB → Option DB} {k : DB → Stm (Except PyErr α × Option Bool)}
    {e : Stm (Except PyErr α × Option Bool)} {s : St} {w : DB} (h : u s.work = some w) : (Stm.write u k e).exec s =
      (k s.work).exec (if s.autocommit then St.commit { s with work := w } else { s with work := w }) := by
  rw [Stm.exec, h]

theorem Stm.exec_cur {α : Type} (p : Stm (Except PyErr α × Option Bool)) (s : St) (c : Option Bool) :
    p.exec { s with cur := c } = p.exec s := by
  induction p generalizing s with
  | ret b => rfl
  | read k ih => exact ih _ s
  | write u k e ih1 ih2 =>
    unfold Stm.exec
    simp only
    cases u s.work with
    | none => exact ih2 s
    | some w =>
      simp only
      split
      · exact ih1 _ (St.commit { s with work := w })
      · exact ih1 _ { s with work := w }
  | commit k ih => exact ih s.commit

theorem Stm.exec_bind {α β : Type} (p : Stm (Except PyErr α × Option Bool))
    (f : Except PyErr α × Option Bool → Stm (Except PyErr β × Option Bool)) (s : St) :
    (p.bind f).exec s = (f ((p.exec s).1, (p.exec s).2.cur)).exec (p.exec s).2 := by
  induction p generalizing s with
  | ret b =>
    obtain ⟨r, c⟩ := b
    exact ((f (r, c)).exec_cur s c).symm
  | read k ih => exact ih _ s
  | write u k e ih1 ih2 =>
    cases hu : u s.work with
    | none =>
      unfold Stm.bind
      rw [Stm.exec_refused hu, Stm.exec_refused hu]
      exact ih2 s
    | some w =>
      unfold Stm.bind
      rw [Stm.exec_write hu, Stm.exec_write hu]
      exact ih1 _ _
  | commit k ih => exact ih s.commit

theorem Conn.run_pure {α : Type} (a : α) : (Pure.pure a : Conn α).run = (Pure.pure a : M α) := rfl

theorem Conn.run_bind {α β : Type} (x : Conn α) (f : α → Conn β) :
    (x >>= f).run = x.run >>= fun a => (f a).run := by
  funext s
  show ((x s.cur).bind (Conn.next f)).exec s = M.bind x.run (fun a => (f a).run) s
  rw [Stm.exec_bind]
  unfold M.bind Conn.run
  rcases hx : (x s.cur).exec s with ⟨r, s'⟩
  cases r with
  | ok a => rfl
  | error e => rfl

theorem Conn.run_lift {α : Type} (x : Except PyErr α) : (cLift x).run = liftE x := rfl

theorem Conn.run_ite {α : Type} (p : Prop) [Decidable p] (x y : Conn α) :
    (if p then x else y).run = if p then x.run else y.run := by
  split <;> rfl

theorem Conn.run_each {α : Type} {f : α → Conn Unit} {g : α → M Unit} {xs : List α} (h : ∀ x ∈ xs, (f x).run = g x) :
    (cEach f xs).run = forEach g xs := by
  induction xs with
  | nil => rfl
  | cons x xs ih =>
    show (f x >>= fun _ => cEach f xs).run = (g x >>= fun _ => forEach g xs)
    rw [Conn.run_bind, h x (by simp), ih fun y hy => h y (by simp [hy])]

theorem Conn.run_commit : cCommit.run = commitM := rfl

theorem Conn.run_open (loc : Bool) : (cOpen loc).run = openCursor loc := by
  funext s
  obtain ⟨w, d, l, c, a⟩ := s
  cases loc <;> cases c <;> rfl

theorem Conn.run_close (loc commit : Bool) : (cClose loc commit).run = closeCursor loc commit := by
  funext s
  obtain ⟨w, d, l, c, a⟩ := s
  cases loc <;> cases commit <;> cases c <;> rfl

theorem Conn.run_read {α : Type} (cu : Cursor) (q : DB → α) : (cRead cu q).run = execRead cu q := by
  funext s
  unfold cRead execRead Conn.run
  simp only
  split <;> rfl

theorem Conn.run_write {α : Type} (cu : Cursor) (q : DB → Option (α × DB)) : (cWrite cu q).run = execWrite cu q := by
  funext s
  unfold cWrite execWrite Conn.run
  simp only
  split
  · rfl
  · cases hq : q s.work with
    | none => rw [Stm.exec_refused (by simp [hq])]; rfl
    | some x =>
      obtain ⟨a, db⟩ := x
      rw [Stm.exec_write (w := db) (by simp [hq])]
      simp only [hq, Stm.exec]
      split <;> rfl

/-! ### the methods -/

theorem run_vertex (id : Str) (deg ts : Int) :
    (cUpdateOrInsertVertex id deg ts).run = updateOrInsertVertex id deg ts := by
  unfold cUpdateOrInsertVertex updateOrInsertVertex
  simp only [Conn.run_bind, Conn.run_open, Conn.run_write, Conn.run_close, Conn.run_ite, Conn.run_pure]

theorem run_perm (id : Str) : (cUpdateOrInsertPerm id).run = updateOrInsertPerm id := by
  unfold cUpdateOrInsertPerm updateOrInsertPerm
  simp only [Conn.run_bind, Conn.run_open, Conn.run_write, Conn.run_close, Conn.run_ite, Conn.run_pure]

theorem run_perms {f : Str → Conn Unit} {g : Str → M Unit} (h : ∀ t, (f t).run = g t) (edge : List (Val F)) :
    (cPerms edge f).run = doWithEdgePermutations edge g := by
  refine Conn.run_each fun n _ => ?_
  rw [Conn.run_bind, Conn.run_lift]
  simp only [h]

theorem run_writePerm (t : Str) : (cWritePerm (F := F) t).run = writeEdgePermutation (F := F) t := run_perm _

theorem run_removePerm (t : Str) : (cRemovePerm (F := F) t).run = removeEdgePermutation (F := F) t := by
  unfold cRemovePerm removeEdgePermutation
  simp only [Conn.run_bind, Conn.run_write, Conn.run_commit]

theorem run_removeStr (t : Str) : (cRemoveStr t).run = removeStr t := by
  unfold cRemoveStr removeStr
  simp only [Conn.run_bind, Conn.run_open, Conn.run_write, Conn.run_close]

theorem run_pattern (p : Val F) : (cPattern2edges p).run = pattern2edges p := by
  unfold cPattern2edges pattern2edges
  simp only [Conn.run_bind, Conn.run_open, Conn.run_read, Conn.run_close, Conn.run_lift, Conn.run_pure]

theorem run_exists (e : Val F) : (cExists e).run = existsM e := by
  unfold cExists existsM
  simp only [Conn.run_bind, run_pattern, Conn.run_pure]

theorem run_inc (t : Str) : (cIncDegree t).run = incDegree t := by
  unfold cIncDegree incDegree
  simp only [Conn.run_bind, Conn.run_open, Conn.run_write, Conn.run_close, Conn.run_pure]

theorem run_dec (t : Str) : (cDecDegree t).run = decDegree t := by
  unfold cDecDegree decDegree
  simp only [Conn.run_bind, Conn.run_open, Conn.run_write, Conn.run_close, Conn.run_pure]

theorem run_addStr (t : Str) (d ts : Int) : (cAddStr t d ts).run = addStr t d ts := run_vertex t d ts

theorem run_addVert (ts : Int) (v : Val F) : (cAddVert ts v).run = addVert ts v := by
  unfold cAddVert addVert
  simp only [Conn.run_bind, run_inc, run_addStr, Conn.run_ite, Conn.run_pure]

theorem run_addNew (e : Val F) (ts : Int) : (cAddNew e ts).run = addNew e ts := by
  unfold cAddNew addNew writeEdgePermutations
  simp only [Conn.run_bind, Conn.run_lift, run_addStr, Conn.run_each fun v _ => run_addVert ts v,
    run_perms run_writePerm]

theorem M.bind_assoc' {α β γ : Type} (m : M α) (f : α → M β) (g : β → M γ) :
    ((m >>= f) >>= g) = (m >>= fun a => f a >>= g) := by
  funext s
  show M.bind (M.bind m f) g s = M.bind m (fun a => M.bind (f a) g) s
  unfold M.bind
  cases m s with
  | mk r t => cases r <;> rfl

theorem run_addRaw (e : Val F) (ts : Int) : (cAddRaw e ts).run = (do let _ ← addRaw e ts) := by
  unfold cAddRaw addRaw
  rw [Conn.run_bind, run_exists, M.bind_assoc']
  congr 1
  funext b
  cases b with
  | true => rfl
  | false =>
    show (cAddNew e ts).run = _
    rw [run_addNew]
    simp only [addNew, Bool.not_false, if_true, M.bind_assoc']
    congr 1
    funext vs
    congr 1
    funext _
    congr 1
    funext _
    funext s
    show _ = M.bind _ _ s
    unfold M.bind
    cases writeEdgePermutations vs s with
    | mk r t => cases r <;> rfl

theorem run_add (e : Val F) (ts : Int) : (cAdd e ts).run = (do let _ ← hgAdd e ts) := by
  unfold cAdd hgAdd sqlAdd
  rw [Conn.run_bind, Conn.run_lift, M.bind_assoc']
  congr 1
  funext f
  rw [Conn.run_ite]
  cases hf : f.isSeq with
  | false =>
    simp only [Bool.false_eq_true, if_false]
    rw [run_addRaw, M.bind_assoc']
    rfl
  | true =>
    simp only [if_true, Conn.run_bind, Conn.run_open, Conn.run_lift, Conn.run_close, M.bind_assoc',
      Conn.run_each fun x _ => run_addRaw x ts]
    congr 1
    funext _
    congr 1
    funext es
    congr 1
    funext _
    funext s
    show _ = M.bind _ _ s
    unfold M.bind
    cases closeCursor false true s with
    | mk r t => cases r <;> rfl

theorem run_removeRaw (e : Val F) : (cRemoveRaw e).run = removeRaw e := by
  unfold cRemoveRaw removeRaw removeEdgePermutations
  have hd : ∀ v : Val F, (do let _ ← cDecDegree (edge2str v) : Conn Unit).run =
      (do let _ ← decDegree (edge2str v) : M Unit) := by
    intro v
    rw [Conn.run_bind, run_dec]
    rfl
  simp only [Conn.run_bind, run_exists, Conn.run_ite, Conn.run_lift, run_removeStr, Conn.run_pure,
    Conn.run_each fun v _ => hd v, run_perms run_removePerm]

theorem run_remove (e : Val F) : (cRemove e).run = hgRemove e := by
  unfold cRemove hgRemove sqlRemove
  simp only [Conn.run_bind, Conn.run_ite, Conn.run_lift, run_removeRaw, Conn.run_each fun x _ => run_removeRaw x]

theorem run_sources (e : Val F) : (cSources e).run = hgSources e := by
  unfold cSources hgSources hgPattern2edges
  simp only [Conn.run_bind, run_pattern, Conn.run_lift, Conn.run_pure]

theorem run_act (a : PAct F) : a.conn.run = a.op.run := by
  have hb : ∀ (src e : Val F) (ts : Int), (cAddBelief src e ts).run = hgAddBelief src e ts := by
    intro src e ts
    unfold cAddBelief hgAddBelief
    rw [Conn.run_bind, Conn.run_lift]
    simp only [run_add]
  cases a with
  | add e ts => exact run_add e ts
  | addMany es ts => exact run_add _ ts
  | remove e => exact run_remove e
  | removeMany es => exact run_remove _
  | removeByPattern ps =>
    show (cRemoveByPattern (.tup ps)).run = hgRemoveByPattern (.tup ps)
    unfold cRemoveByPattern hgRemoveByPattern hgPattern2edges
    simp only [Conn.run_bind, run_pattern, Conn.run_each fun x _ => run_remove x]
  | addBelief src e ts => exact hb _ _ _
  | addBeliefs src es ts => exact hb _ _ _
  | removeBelief src e =>
    show (cRemoveBelief src e).run = hgRemoveBelief src e
    unfold cRemoveBelief hgRemoveBelief
    simp only [Conn.run_bind, run_remove, run_sources, Conn.run_ite, Conn.run_pure]

theorem run_batch (fs : List (Conn Unit)) : (cBatch fs).run = hgBatchExec (fs.map Conn.run) := by
  unfold cBatch hgBatchExec sqlBatchExec
  have h : (cEach (fun f => f) fs).run = forEach (fun f => f) (fs.map Conn.run) := by
    induction fs with
    | nil => rfl
    | cons f fs ih =>
      show (f >>= fun _ => cEach (fun f => f) fs).run = (f.run >>= fun _ => forEach (fun f => f) (fs.map Conn.run))
      rw [Conn.run_bind, ih]
  simp only [Conn.run_bind, Conn.run_open, Conn.run_close, h]

end GB
