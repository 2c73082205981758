import Verif.Proofs.Tame
import Verif.Spec.Crash

/-! Invariants of the connection preserved by every method, whatever its arguments and even when it raises. -/

set_option linter.unusedSectionVars false

namespace GB

variable {F : Type} [PyFloat F]

/-- `m` preserves `I`, also when it raises. -/
def Pres {α : Type} (I : St → Prop) (m : M α) : Prop := ∀ s, I s → I (m s).2

theorem Pres.pure {α : Type} {I : St → Prop} (a : α) : Pres I (Pure.pure a : M α) := fun _ h => h

theorem Pres.liftE {α : Type} {I : St → Prop} (x : Except PyErr α) : Pres I (GB.liftE x) := fun _ h => h

theorem Pres.bind {α β : Type} {I : St → Prop} {m : M α} {f : α → M β} (hm : Pres I m) (hf : ∀ a, Pres I (f a)) :
    Pres I (m >>= f) := by
  intro s h
  have h1 := hm s h
  cases hr : m s with
  | mk r t =>
    rw [hr] at h1
    cases r with
    | ok a => rw [bind_run _ _ _ hr]; exact hf a t h1
    | error e => rw [bind_err _ _ _ hr]; exact h1

theorem Pres.forEach {α : Type} {I : St → Prop} {f : α → M Unit} {xs : List α} (h : ∀ x ∈ xs, Pres I (f x)) :
    Pres I (GB.forEach f xs) := by
  induction xs with
  | nil => exact Pres.pure ()
  | cons x xs ih => exact Pres.bind (h x (by simp)) (fun _ => ih (fun y hy => h y (by simp [hy])))

/-- Invariants that all reading methods, `add_raw`, and their building blocks preserve. -/
structure Blocks (I : St → Prop) : Prop where
  upVertex : ∀ id d ts, Pres I (updateOrInsertVertex id d ts)
  upPerm : ∀ id, Pres I (updateOrInsertPerm id)
  inc : ∀ v, Pres I (incDegree v)
  read : ∀ {α : Type} (f : DB → α) {β : Type} (g : α → Except PyErr β),
    Pres I (openCursor true >>= fun c => execRead c f >>= fun a => liftE (g a) >>= fun b =>
      closeCursor true false >>= fun _ => Pure.pure b)

/-- Invariants that also the removing methods preserve. -/
structure Blocks' (I : St → Prop) : Prop extends Blocks I where
  dec : ∀ v, Pres I (decDegree v)
  delPerm : ∀ (F : Type) [PyFloat F] (p : Str), Pres I (removeEdgePermutation (F := F) p)
  delStr : ∀ v, Pres I (removeStr v)
  destroy : Pres I sqlDestroy

theorem bind_assoc' {α β γ : Type} (m : M α) (f : α → M β) (g : β → M γ) :
    (m >>= f) >>= g = m >>= fun a => f a >>= g := by
  funext s
  show M.bind (M.bind m f) g s = M.bind m (fun a => M.bind (f a) g) s
  unfold M.bind
  cases m s with
  | mk r t => cases r <;> rfl

theorem pure_bind' {α β : Type} (a : α) (f : α → M β) : (Pure.pure a >>= f : M β) = f a := rfl

namespace Blocks

variable {I : St → Prop} (hI : Blocks I)
include hI

theorem str2perms (c : Str) : Pres I (GB.str2perms (F := F) c) := by
  unfold GB.str2perms
  refine (Pres.liftE _).bind fun e => ?_
  have h := hI.read (fun db => db.selectRange (c ++ lit " ") e) (fun rows => cur2edges (F := F) rows)
  have := h.bind (f := fun edges => (Pure.pure (pySet edges) : M (List (Val F)))) (fun _ => Pres.pure _)
  simpa only [bind_assoc', pure_bind'] using this

theorem pattern2edges (p : Val F) : Pres I (GB.pattern2edges p) := by
  unfold GB.pattern2edges
  refine (Pres.liftE _).bind fun ps => ?_
  refine (Pres.liftE _).bind fun e => ?_
  have h := hI.read (fun db => db.selectRange (nodes2str (ps.filter fun n => !n.isNone)) e)
    (fun rows => cur2edges (F := F) rows)
  have := h.bind (f := fun edges => liftE (filterE (fun e => edgeMatchesPattern e p) edges) >>= fun res =>
    (Pure.pure (pySet res) : M (List (Val F)))) (fun _ => (Pres.liftE _).bind fun _ => Pres.pure _)
  simpa only [bind_assoc', pure_bind'] using this

theorem existsM (v : Val F) : Pres I (GB.existsM v) := (hI.pattern2edges v).bind fun _ => Pres.pure _

theorem addVert (ts : Int) (v : Val F) : Pres I (GB.addVert ts v) := by
  unfold GB.addVert
  refine (hI.inc _).bind fun b => ?_
  split
  · exact hI.upVertex _ _ _
  · exact Pres.pure _

theorem addRaw (e : Val F) (ts : Int) : Pres I (GB.addRaw e ts) := by
  unfold GB.addRaw
  refine (hI.existsM _).bind fun b => ?_
  dsimp only
  split
  · exact (Pres.liftE _).bind fun vs => (Pres.forEach fun v _ => hI.addVert ts v).bind fun _ =>
      (hI.upVertex _ _ _).bind fun _ =>
      (Pres.forEach (xs := List.range (factorial vs.length)) fun _ _ =>
        (Pres.liftE _).bind fun s => hI.upPerm _).bind fun _ => Pres.pure _
  · exact Pres.pure _

theorem star (c : Val F) : Pres I (hgStar c) := by
  unfold hgStar sqlStar
  split <;> exact hI.str2perms _

theorem symbolsWithRoot (r : Str) : Pres I (hgSymbolsWithRoot r) := by
  unfold hgSymbolsWithRoot GB.symbolsWithRoot
  refine (Pres.liftE _).bind fun e => ?_
  have h := hI.read (fun db => db.selectRange (r ++ lit "/") e) (fun rows => mapE rowFirstToken rows)
  have := h.bind (f := fun l => (Pure.pure (strSet l) : M (List Str))) (fun _ => Pres.pure _)
  simpa only [bind_assoc', pure_bind'] using this

theorem sources (e : Val F) : Pres I (hgSources e) :=
  (hI.pattern2edges _).bind fun _ => (Pres.liftE _).bind fun _ => Pres.pure _

theorem fAll {β : Type} (f : Val F → Int → β) : Pres I (hgFAll f) :=
  hI.read (fun db => db.vertices) _

variable [DecidableEq F]

theorem query (q : Query F) : Pres I q.run := by
  cases q with
  | «exists» e => exact (hI.existsM e).bind fun _ => Pres.pure _
  | pattern ps => exact (hI.pattern2edges _).bind fun _ => Pres.pure _
  | star c => exact (hI.star c).bind fun _ => Pres.pure _
  | symbolsWithRoot r => exact (hI.symbolsWithRoot r).bind fun _ => Pres.pure _
  | sources e => exact (hI.sources e).bind fun _ => Pres.pure _
  | fAll => exact (hI.fAll _).bind fun _ => Pres.pure _

end Blocks

namespace Blocks'

variable {I : St → Prop} (hI : Blocks' I)
include hI

theorem removeRaw (e : Val F) : Pres I (GB.removeRaw e) := by
  unfold GB.removeRaw
  refine (hI.existsM _).bind fun b => ?_
  split
  · exact (Pres.liftE _).bind fun vs =>
      (Pres.forEach fun v _ => (hI.dec _).bind fun _ => Pres.pure _).bind fun _ =>
      (Pres.forEach (xs := List.range (factorial vs.length)) fun _ _ =>
        (Pres.liftE _).bind fun s => hI.delPerm F _).bind fun _ => hI.delStr _
  · exact Pres.pure _

theorem remove (e : Val F) : Pres I (hgRemove e) := by
  unfold hgRemove sqlRemove
  refine (Pres.liftE _).bind fun b => ?_
  split
  · exact (Pres.liftE _).bind fun es => Pres.forEach fun x _ => hI.removeRaw x
  · exact hI.removeRaw e

theorem removeBelief (src e : Val F) : Pres I (hgRemoveBelief src e) := by
  unfold hgRemoveBelief
  refine (hI.remove _).bind fun _ => (hI.sources _).bind fun l => ?_
  split
  · exact hI.remove _
  · exact Pres.pure _

theorem removeByPattern (p : Val F) : Pres I (hgRemoveByPattern p) :=
  (hI.pattern2edges _).bind fun _ => Pres.forEach fun x _ => hI.remove x

end Blocks'

/-! ### nothing is committed while a shared cursor is open -/

/-- A shared cursor is open (or closed, but not `None`), there is no autocommit, and nothing was committed
since the disk was `d` and the history of commits `l`. -/
def Held (d : DB) (l : List DB) (s : St) : Prop :=
  s.cur ≠ none ∧ s.autocommit = false ∧ s.disk = d ∧ s.commits = l

theorem held_openCursor {d l} (b : Bool) : Pres (Held d l) (openCursor b) := by
  rintro s ⟨h1, h2, h3, h4⟩
  unfold openCursor
  cases b <;> cases hc : s.cur <;> simp_all [Held]

theorem held_closeLocal {d l} (b : Bool) : Pres (Held d l) (closeCursor true b) := by
  rintro s ⟨h1, h2, h3, h4⟩
  unfold closeCursor
  cases hc : s.cur <;> simp_all [Held]

theorem held_closeDirect {d l} (c : Cursor) : Pres (Held d l) (closeDirect c) := by
  rintro s ⟨h1, h2, h3, h4⟩
  cases c
  · exact ⟨h1, h2, h3, h4⟩
  · refine ⟨?_, h2, h3, h4⟩
    show s.cur.map _ ≠ none
    cases hc : s.cur <;> simp_all

theorem held_execRead {d l} {α : Type} (c : Cursor) (q : DB → α) : Pres (Held d l) (execRead c q) := by
  intro s h
  unfold execRead
  split <;> exact h

theorem held_execWrite {d l} {α : Type} (c : Cursor) (q : DB → Option (α × DB)) :
    Pres (Held d l) (execWrite c q) := by
  rintro s ⟨h1, h2, h3, h4⟩
  unfold execWrite
  split
  · exact ⟨h1, h2, h3, h4⟩
  · split
    · exact ⟨h1, h2, h3, h4⟩
    · simp only [h2, Bool.false_eq_true, if_false]
      exact ⟨h1, rfl, h3, h4⟩

theorem held_blocks (d : DB) (l : List DB) : Blocks (Held d l) where
  upVertex id dg ts := by
    unfold updateOrInsertVertex
    refine (held_openCursor _).bind fun c => (held_execWrite _ _).bind fun n => ?_
    dsimp only
    split
    · exact (held_execWrite _ _).bind fun _ => held_closeLocal _
    · exact held_closeLocal _
  upPerm id := by
    unfold updateOrInsertPerm
    refine (held_openCursor _).bind fun c => (held_execWrite _ _).bind fun n => ?_
    dsimp only
    split
    · exact (held_execWrite _ _).bind fun _ => held_closeLocal _
    · exact held_closeLocal _
  inc v := (held_openCursor _).bind fun _ => (held_execWrite _ _).bind fun _ =>
    (held_closeLocal _).bind fun _ => Pres.pure _
  read f _ g := (held_openCursor _).bind fun _ => (held_execRead _ _).bind fun _ =>
    (Pres.liftE _).bind fun _ => (held_closeLocal _).bind fun _ => Pres.pure _

theorem held_degree {d l} (v : Val F) : Pres (Held d l) (hgDegree v) := by
  unfold hgDegree sqlDegree
  refine (held_openCursor _).bind fun c => (held_execRead _ _).bind fun rows => ?_
  cases rows with
  | nil => exact (held_closeLocal _).bind fun _ => Pres.pure _
  | cons r rs => exact (held_closeDirect _).bind fun _ => Pres.pure _

theorem held_timestamp {d l} (v : Val F) : Pres (Held d l) (hgTimestamp v) := by
  unfold hgTimestamp sqlTimestamp
  refine (held_openCursor _).bind fun c => (held_execRead _ _).bind fun rows => ?_
  cases rows with
  | nil => exact (held_closeLocal _).bind fun _ => Pres.pure _
  | cons r rs => exact (held_closeDirect _).bind fun _ => Pres.pure _

/-! ### outside batches everything is on disk -/

/-- No shared cursor, and everything on disk. -/
def Solid (s : St) : Prop := s.cur = none ∧ s.disk = s.work

theorem solid_close {s : St} (hc : s.cur = none) : Solid (closeCursor true true s).2 := by
  unfold closeCursor
  simp [hc, Solid, St.commit]

/-- Opening a local cursor when there is no shared one. -/
theorem open_idle {s : St} (hc : s.cur = none) : openCursor true s = (.ok .own, s) := by
  unfold openCursor; rw [hc]; rfl

theorem write_own {α : Type} {s : St} {q : DB → Option (α × DB)} {a : α} {db : DB} (h : q s.work = some (a, db)) :
    ∃ s', execWrite .own q s = (.ok a, s') ∧ s'.work = db ∧ s'.cur = s.cur := by
  unfold execWrite
  rw [if_neg (by simp), h]
  refine ⟨_, rfl, ?_, ?_⟩ <;> (split <;> rfl)

theorem solid_write {α : Type} (q : DB → α × DB) : Pres Solid (openCursor true >>= fun c =>
    execWrite c (fun db => some (q db)) >>= fun a => closeCursor true true >>= fun _ => Pure.pure a) := by
  rintro s ⟨hc, hd⟩
  obtain ⟨s', h1, h2, h3⟩ := write_own (q := fun db => some (q db)) (s := s) (a := (q s.work).1)
    (db := (q s.work).2) rfl
  rw [bind_run _ _ _ (open_idle hc), bind_run _ _ _ h1]
  have := solid_close (h3.trans hc)
  cases hr : closeCursor true true s' with
  | mk r t =>
    rw [hr] at this
    cases r with
    | ok u => rw [bind_run _ _ _ hr]; exact this
    | error er => rw [bind_err _ _ _ hr]; exact this

theorem solid_blocks : Blocks Solid where
  upVertex id d ts := by
    rintro s ⟨hc, hd⟩
    unfold updateOrInsertVertex
    rw [bind_run _ _ _ (open_idle hc)]
    obtain ⟨s1, h1, h2, h3⟩ := write_own (q := fun db => some (db.updateVertex id d ts)) (s := s)
      (a := (s.work.updateVertex id d ts).1) (db := (s.work.updateVertex id d ts).2) rfl
    rw [bind_run _ _ _ h1]
    dsimp only
    split
    · rename_i h0
      have hno : ∀ r ∈ s.work.vertices, r.id ≠ id := by
        simpa [DB.updateVertex, List.countP_eq_zero] using h0
      have hsame : s1.work = s.work := by
        rw [h2]
        unfold DB.updateVertex
        have : (s.work.vertices.map fun r => if r.id = id then (⟨id, d, ts⟩ : VRow) else r) = s.work.vertices := by
          conv => rhs; rw [← List.map_id s.work.vertices]
          apply List.map_congr_left
          intro r hr
          simp [hno r hr]
        rw [this]
      have hins : s1.work.insertVertex id d ts =
          some ((), { s1.work with vertices := s1.work.vertices ++ [⟨id, d, ts⟩] }) := by
        unfold DB.insertVertex
        rw [if_neg]
        rw [hsame]
        simpa using hno
      obtain ⟨s2, k1, k2, k3⟩ := write_own (q := fun db => db.insertVertex id d ts) hins
      rw [bind_run _ _ _ k1]
      exact solid_close (k3.trans (h3.trans hc))
    · exact solid_close (h3.trans hc)
  upPerm id := by
    rintro s ⟨hc, hd⟩
    unfold updateOrInsertPerm
    rw [bind_run _ _ _ (open_idle hc)]
    obtain ⟨s1, h1, h2, h3⟩ := write_own (q := fun db => some (db.updatePerm id)) (s := s)
      (a := (s.work.updatePerm id).1) (db := (s.work.updatePerm id).2) rfl
    rw [bind_run _ _ _ h1]
    dsimp only
    split
    · rename_i h0
      have hno : ∀ r ∈ s.work.perms, r ≠ id := by
        simpa [DB.updatePerm, List.countP_eq_zero] using h0
      have hins : s1.work.insertPerm id = some ((), { s1.work with perms := s1.work.perms ++ [id] }) := by
        unfold DB.insertPerm
        rw [if_neg]
        rw [h2]
        simpa [DB.updatePerm] using fun h => hno id h rfl
      obtain ⟨s2, k1, k2, k3⟩ := write_own (q := fun db => db.insertPerm id) hins
      rw [bind_run _ _ _ k1]
      exact solid_close (k3.trans (h3.trans hc))
    · exact solid_close (h3.trans hc)
  inc v := by
    unfold incDegree
    have := (solid_write (fun db => db.bumpDegree 1 v)).bind
      (f := fun rc => (Pure.pure (decide (rc > 0)) : M Bool)) (fun _ => Pres.pure _)
    simpa only [bind_assoc', pure_bind'] using this
  read f _ g := by
    rintro s ⟨hc, hd⟩
    rw [bind_run _ _ _ (open_idle hc)]
    have h1 : execRead .own f s = (.ok (f s.work), s) := by unfold execRead; rw [if_neg (by simp)]
    rw [bind_run _ _ _ h1]
    cases hg : g (f s.work) with
    | error er =>
      rw [bind_err _ _ _ (show liftE (Except.error er) s = (.error er, s) from rfl)]
      exact ⟨hc, hd⟩
    | ok b =>
      rw [bind_run _ _ _ (show liftE (Except.ok b) s = (.ok b, s) from rfl)]
      have : closeCursor true false s = (.ok (), s) := by unfold closeCursor; rw [hc]; rfl
      rw [bind_run _ _ _ this]
      exact ⟨hc, hd⟩

theorem solid_blocks' : Blocks' Solid where
  toBlocks := solid_blocks
  dec v := by
    unfold decDegree
    have := (solid_write (fun db => db.bumpDegree (-1) v)).bind
      (f := fun rc => (Pure.pure (decide (rc > 0)) : M Bool)) (fun _ => Pres.pure _)
    simpa only [bind_assoc', pure_bind'] using this
  delPerm F _ p := by
    rintro s ⟨hc, hd⟩
    unfold removeEdgePermutation
    obtain ⟨s1, h1, h2, h3⟩ := write_own (q := fun db => some ((), db.deletePerm (edge2str (F := F) (.str p))))
      (s := s) (a := ()) rfl
    rw [bind_run _ _ _ h1]
    exact ⟨h3.trans hc, rfl⟩
  delStr v := by
    rintro s ⟨hc, hd⟩
    unfold removeStr
    rw [bind_run _ _ _ (open_idle hc)]
    obtain ⟨s1, h1, h2, h3⟩ := write_own (q := fun db => some ((), db.deleteVertex v)) (s := s) (a := ()) rfl
    rw [bind_run _ _ _ h1]
    exact solid_close (h3.trans hc)
  destroy := by
    rintro s ⟨hc, hd⟩
    unfold sqlDestroy
    rw [bind_run _ _ _ (open_idle hc)]
    obtain ⟨s1, h1, h2, h3⟩ := write_own (q := fun db => some ((), { db with vertices := [] })) (s := s) (a := ()) rfl
    rw [bind_run _ _ _ h1]
    obtain ⟨s2, k1, k2, k3⟩ := write_own (q := fun db => some ((), { db with perms := [] })) (s := s1) (a := ()) rfl
    rw [bind_run _ _ _ k1]
    exact solid_close (k3.trans (h3.trans hc))

theorem solid_degree (v : Val F) : Pres Solid (hgDegree v) := by
  rintro s ⟨hc, hd⟩
  unfold hgDegree sqlDegree
  rw [bind_run _ _ _ (open_idle hc)]
  have h1 : execRead .own (fun db => db.selectVertex (edge2str v)) s =
      (.ok (s.work.selectVertex (edge2str v)), s) := by unfold execRead; rw [if_neg (by simp)]
  rw [bind_run _ _ _ h1]
  cases s.work.selectVertex (edge2str v) with
  | nil =>
    have : closeCursor true false s = (.ok (), s) := by unfold closeCursor; rw [hc]; rfl
    simp only
    rw [bind_run _ _ _ this]
    exact ⟨hc, hd⟩
  | cons r rs => exact ⟨hc, hd⟩

theorem solid_timestamp (v : Val F) : Pres Solid (hgTimestamp v) := by
  rintro s ⟨hc, hd⟩
  unfold hgTimestamp sqlTimestamp
  rw [bind_run _ _ _ (open_idle hc)]
  have h1 : execRead .own (fun db => db.selectVertex (edge2str v)) s =
      (.ok (s.work.selectVertex (edge2str v)), s) := by unfold execRead; rw [if_neg (by simp)]
  rw [bind_run _ _ _ h1]
  cases s.work.selectVertex (edge2str v) with
  | nil =>
    have : closeCursor true false s = (.ok (), s) := by unfold closeCursor; rw [hc]; rfl
    simp only
    rw [bind_run _ _ _ this]
    exact ⟨hc, hd⟩
  | cons r rs => exact ⟨hc, hd⟩

/-- If a call that ends by closing the shared cursor with a commit returns, everything is on disk. -/
theorem close_ok {s s' : St} {a : Unit} (h : closeCursor false true s = (.ok a, s')) : Solid s' := by
  unfold closeCursor at h
  cases hc : s.commit.cur with
  | none => simp [hc] at h
  | some b =>
    simp [hc] at h
    rw [← h]
    exact ⟨rfl, rfl⟩

end GB
