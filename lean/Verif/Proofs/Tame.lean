import Verif.Proofs.Step
import Verif.Model.History

/-! Facts that hold of every method, whatever its arguments and the state: results depend only on the
contents seen and the cursor, and the disk changes only by commits, which are all recorded. -/

set_option linter.unusedSectionVars false

namespace GB

variable {F : Type} [PyFloat F]

/-- `m` looks only at the contents and the cursor, and commits are recorded. -/
structure Tame {α : Type} (m : M α) : Prop where
  indep : ∀ s s' : St, s.work = s'.work → s.cur = s'.cur →
    (m s).1 = (m s').1 ∧ (m s).2.work = (m s').2.work ∧ (m s).2.cur = (m s').2.cur
  trace : ∀ s : St, ∃ l, (m s).2.commits = s.commits ++ l ∧ (m s).2.disk = l.getLast?.getD s.disk
  auto : ∀ s : St, (m s).2.autocommit = s.autocommit

theorem Tame.pure {α : Type} (a : α) : Tame (Pure.pure a : M α) :=
  ⟨fun _ _ hw hc => ⟨rfl, hw, hc⟩, fun s => ⟨[], (List.append_nil _).symm, rfl⟩, fun _ => rfl⟩

theorem Tame.liftE {α : Type} (x : Except PyErr α) : Tame (GB.liftE x) :=
  ⟨fun _ _ hw hc => ⟨rfl, hw, hc⟩, fun s => ⟨[], (List.append_nil _).symm, rfl⟩, fun _ => rfl⟩

theorem Tame.raise {α : Type} (e : PyErr) : Tame (GB.raise e : M α) :=
  ⟨fun _ _ hw hc => ⟨rfl, hw, hc⟩, fun s => ⟨[], (List.append_nil _).symm, rfl⟩, fun _ => rfl⟩

theorem Tame.bind {α β : Type} {m : M α} {f : α → M β} (hm : Tame m) (hf : ∀ a, Tame (f a)) :
    Tame (m >>= f) := by
  constructor
  · intro s s' hw hc
    obtain ⟨h1, h2, h3⟩ := hm.indep s s' hw hc
    cases hr : m s with
    | mk r t =>
      cases hr' : m s' with
      | mk r' t' =>
        rw [hr, hr'] at h1 h2 h3
        simp only at h1 h2 h3
        subst h1
        cases r with
        | ok a =>
          rw [bind_run _ _ _ hr, bind_run _ _ _ hr']
          exact (hf a).indep t t' h2 h3
        | error e =>
          rw [bind_err _ _ _ hr, bind_err _ _ _ hr']
          exact ⟨rfl, h2, h3⟩
  · intro s
    obtain ⟨l, h1, h2⟩ := hm.trace s
    cases hr : m s with
    | mk r t =>
      rw [hr] at h1 h2
      simp only at h1 h2
      cases r with
      | ok a =>
        rw [bind_run _ _ _ hr]
        obtain ⟨l', h1', h2'⟩ := (hf a).trace t
        refine ⟨l ++ l', by rw [h1', h1, List.append_assoc], ?_⟩
        rw [h2', h2, List.getLast?_append]
        cases l'.getLast? <;> rfl
      | error e =>
        rw [bind_err _ _ _ hr]
        exact ⟨l, h1, h2⟩
  · intro s
    have h := hm.auto s
    cases hr : m s with
    | mk r t =>
      rw [hr] at h
      cases r with
      | ok a => rw [bind_run _ _ _ hr, (hf a).auto t]; exact h
      | error e => rw [bind_err _ _ _ hr]; exact h

theorem Tame.forEach {α : Type} {f : α → M Unit} {xs : List α} (h : ∀ x ∈ xs, Tame (f x)) :
    Tame (GB.forEach f xs) := by
  induction xs with
  | nil => exact Tame.pure ()
  | cons x xs ih =>
    exact Tame.bind (h x (by simp)) (fun _ => ih (fun y hy => h y (by simp [hy])))

theorem Tame.commitM : Tame GB.commitM :=
  ⟨fun _ _ hw hc => ⟨rfl, hw, hc⟩, fun s => ⟨[s.work], rfl, rfl⟩, fun _ => rfl⟩

theorem Tame.openCursor (b : Bool) : Tame (GB.openCursor b) := by
  constructor
  · intro s s' hw hc
    unfold GB.openCursor
    rw [← hc]
    cases b <;> cases s.cur <;> simp_all
  · intro s
    refine ⟨[], ?_⟩
    unfold GB.openCursor
    cases b <;> cases s.cur <;> simp
  · intro s
    unfold GB.openCursor
    cases b <;> cases s.cur <;> simp

theorem Tame.closeCursor (b c : Bool) : Tame (GB.closeCursor b c) := by
  constructor
  · intro s s' hw hc
    unfold GB.closeCursor St.commit
    cases b <;> cases c <;> cases hs : s.cur <;> cases hs' : s'.cur <;> simp_all
  · intro s
    unfold GB.closeCursor St.commit
    cases b <;> cases c <;> cases hs : s.cur <;> simp [hs] <;>
      first
        | exact ⟨[], by simp, rfl⟩
        | exact ⟨[s.work], rfl, rfl⟩
  · intro s
    unfold GB.closeCursor St.commit
    cases b <;> cases c <;> cases hs : s.cur <;> simp [hs]

theorem Tame.closeDirect (c : Cursor) : Tame (GB.closeDirect c) := by
  cases c with
  | own => exact Tame.pure ()
  | shared =>
    refine ⟨?_, fun s => ⟨[], (List.append_nil _).symm, rfl⟩, fun _ => rfl⟩
    intro s s' hw hc
    exact ⟨rfl, hw, by show s.cur.map _ = s'.cur.map _; rw [hc]⟩

theorem Tame.execRead {α : Type} (c : Cursor) (q : DB → α) : Tame (GB.execRead c q) := by
  constructor
  · intro s s' hw hc
    unfold GB.execRead
    rw [← hc, ← hw]
    split <;> exact ⟨rfl, hw, hc⟩
  · intro s
    refine ⟨[], ?_⟩
    unfold GB.execRead
    split <;> simp
  · intro s
    unfold GB.execRead
    split <;> rfl

theorem Tame.execWrite {α : Type} (c : Cursor) (q : DB → Option (α × DB)) : Tame (GB.execWrite c q) := by
  constructor
  · intro s s' hw hc
    unfold GB.execWrite
    rw [← hc, ← hw]
    split
    · exact ⟨rfl, hw, hc⟩
    · cases q s.work with
      | none => exact ⟨rfl, hw, hc⟩
      | some r =>
        obtain ⟨a, db⟩ := r
        refine ⟨rfl, ?_, ?_⟩
        · simp only; cases s.autocommit <;> cases s'.autocommit <;> rfl
        · simp only; cases s.autocommit <;> cases s'.autocommit <;> rfl
  · intro s
    unfold GB.execWrite
    split
    · exact ⟨[], (List.append_nil _).symm, rfl⟩
    · cases q s.work with
      | none => exact ⟨[], (List.append_nil _).symm, rfl⟩
      | some r =>
        obtain ⟨a, db⟩ := r
        cases ha : s.autocommit with
        | true => exact ⟨[db], rfl, rfl⟩
        | false => exact ⟨[], by simp, rfl⟩
  · intro s
    unfold GB.execWrite
    split
    · rfl
    · cases q s.work with
      | none => rfl
      | some r =>
        obtain ⟨a, db⟩ := r
        cases ha : s.autocommit with
        | true => simp [St.commit, ha]
        | false => simp [ha]

theorem Tame.ite {α : Type} {p : Prop} [Decidable p] {m n : M α} (hm : Tame m) (hn : Tame n) :
    Tame (if p then m else n) := by split <;> assumption

/-! ### methods -/

theorem tame_updateOrInsertVertex (id : Str) (d ts : Int) : Tame (updateOrInsertVertex id d ts) := by
  unfold updateOrInsertVertex
  refine (Tame.openCursor _).bind fun c => (Tame.execWrite _ _).bind fun n => ?_
  dsimp only
  split
  · exact (Tame.execWrite _ _).bind fun _ => Tame.closeCursor _ _
  · exact Tame.closeCursor _ _

theorem tame_updateOrInsertPerm (id : Str) : Tame (updateOrInsertPerm id) := by
  unfold updateOrInsertPerm
  refine (Tame.openCursor _).bind fun c => (Tame.execWrite _ _).bind fun n => ?_
  dsimp only
  split
  · exact (Tame.execWrite _ _).bind fun _ => Tame.closeCursor _ _
  · exact Tame.closeCursor _ _

theorem tame_doWithEdgePermutations (edge : List (Val F)) {f : Str → M Unit} (h : ∀ s, Tame (f s)) :
    Tame (doWithEdgePermutations edge f) :=
  Tame.forEach fun _ _ => (Tame.liftE _).bind fun s => h s

theorem tame_removeEdgePermutation (p : Str) : Tame (removeEdgePermutation (F := F) p) :=
  (Tame.execWrite _ _).bind fun _ => Tame.commitM

theorem tame_str2perms (c : Str) : Tame (str2perms (F := F) c) :=
  (Tame.liftE _).bind fun _ => (Tame.openCursor _).bind fun _ => (Tame.execRead _ _).bind fun _ =>
    (Tame.liftE _).bind fun _ => (Tame.closeCursor _ _).bind fun _ => Tame.pure _

theorem tame_pattern2edges (p : Val F) : Tame (pattern2edges p) :=
  (Tame.liftE _).bind fun _ => (Tame.liftE _).bind fun _ => (Tame.openCursor _).bind fun _ =>
    (Tame.execRead _ _).bind fun _ => (Tame.liftE _).bind fun _ => (Tame.closeCursor _ _).bind fun _ =>
    (Tame.liftE _).bind fun _ => Tame.pure _

theorem tame_existsM (v : Val F) : Tame (existsM v) := (tame_pattern2edges v).bind fun _ => Tame.pure _

theorem tame_incDegree (v : Str) : Tame (incDegree v) :=
  (Tame.openCursor _).bind fun _ => (Tame.execWrite _ _).bind fun _ => (Tame.closeCursor _ _).bind fun _ => Tame.pure _

theorem tame_decDegree (v : Str) : Tame (decDegree v) :=
  (Tame.openCursor _).bind fun _ => (Tame.execWrite _ _).bind fun _ => (Tame.closeCursor _ _).bind fun _ => Tame.pure _

theorem tame_addVert (ts : Int) (v : Val F) : Tame (addVert ts v) := by
  unfold addVert
  refine (tame_incDegree _).bind fun b => ?_
  split
  · exact tame_updateOrInsertVertex _ _ _
  · exact Tame.pure _

theorem tame_addRaw (e : Val F) (ts : Int) : Tame (addRaw e ts) := by
  unfold addRaw
  refine (tame_existsM _).bind fun b => ?_
  dsimp only
  split
  · exact (Tame.liftE _).bind fun vs => (Tame.forEach fun v _ => tame_addVert ts v).bind fun _ =>
      (tame_updateOrInsertVertex _ _ _).bind fun _ =>
      (tame_doWithEdgePermutations vs fun s => tame_updateOrInsertPerm _).bind fun _ => Tame.pure _
  · exact Tame.pure _

theorem tame_add (e : Val F) (ts : Int) : Tame (hgAdd e ts) := by
  unfold hgAdd sqlAdd
  refine (Tame.liftE _).bind fun b => ?_
  dsimp only
  split
  · exact (Tame.openCursor _).bind fun _ => (Tame.liftE _).bind fun es =>
      (Tame.forEach fun x _ => (tame_addRaw x ts).bind fun _ => Tame.pure _).bind fun _ =>
      (Tame.closeCursor _ _).bind fun _ => Tame.pure _
  · exact (tame_addRaw e ts).bind fun _ => Tame.pure _

theorem tame_removeRaw (e : Val F) : Tame (removeRaw e) := by
  unfold removeRaw
  refine (tame_existsM _).bind fun b => ?_
  split
  · exact (Tame.liftE _).bind fun vs =>
      (Tame.forEach fun v _ => (tame_decDegree _).bind fun _ => Tame.pure _).bind fun _ =>
      (tame_doWithEdgePermutations vs fun s => tame_removeEdgePermutation _).bind fun _ =>
      (Tame.openCursor _).bind fun _ => (Tame.execWrite _ _).bind fun _ => Tame.closeCursor _ _
  · exact Tame.pure _

theorem tame_remove (e : Val F) : Tame (hgRemove e) := by
  unfold hgRemove sqlRemove
  refine (Tame.liftE _).bind fun b => ?_
  split
  · exact (Tame.liftE _).bind fun es => Tame.forEach fun x _ => tame_removeRaw x
  · exact tame_removeRaw e

theorem tame_star (c : Val F) : Tame (hgStar c) := by
  unfold hgStar sqlStar
  split <;> exact tame_str2perms _

theorem tame_symbolsWithRoot (r : Str) : Tame (hgSymbolsWithRoot r) :=
  (Tame.liftE _).bind fun _ => (Tame.openCursor _).bind fun _ => (Tame.execRead _ _).bind fun _ =>
    (Tame.liftE _).bind fun _ => (Tame.closeCursor _ _).bind fun _ => Tame.pure _

theorem tame_destroy : Tame hgDestroy :=
  (Tame.openCursor _).bind fun _ => (Tame.execWrite _ _).bind fun _ => (Tame.execWrite _ _).bind fun _ =>
    Tame.closeCursor _ _

theorem tame_degree (v : Val F) : Tame (hgDegree v) := by
  unfold hgDegree sqlDegree
  refine (Tame.openCursor _).bind fun c => (Tame.execRead _ _).bind fun rows => ?_
  cases rows with
  | nil => exact (Tame.closeCursor _ _).bind fun _ => Tame.pure _
  | cons r rs => exact (Tame.closeDirect _).bind fun _ => Tame.pure _

theorem tame_timestamp (v : Val F) : Tame (hgTimestamp v) := by
  unfold hgTimestamp sqlTimestamp
  refine (Tame.openCursor _).bind fun c => (Tame.execRead _ _).bind fun rows => ?_
  cases rows with
  | nil => exact (Tame.closeCursor _ _).bind fun _ => Tame.pure _
  | cons r rs => exact (Tame.closeDirect _).bind fun _ => Tame.pure _

theorem tame_fAll {β : Type} (f : Val F → Int → β) : Tame (hgFAll f) :=
  (Tame.openCursor _).bind fun _ => (Tame.execRead _ _).bind fun _ =>
    (Tame.liftE _).bind fun _ => (Tame.closeCursor _ _).bind fun _ => Tame.pure _

theorem tame_sources (e : Val F) : Tame (hgSources e) :=
  (tame_pattern2edges _).bind fun _ => (Tame.liftE _).bind fun _ => Tame.pure _

theorem tame_removeBelief (src e : Val F) : Tame (hgRemoveBelief src e) := by
  unfold hgRemoveBelief
  refine (tame_remove _).bind fun _ => (tame_sources _).bind fun l => ?_
  split
  · exact tame_remove _
  · exact Tame.pure _

theorem tame_batchExec {fs : List (M Unit)} (h : ∀ f ∈ fs, Tame f) : Tame (hgBatchExec fs) :=
  (Tame.openCursor _).bind fun _ => (Tame.forEach h).bind fun _ => Tame.closeCursor _ _

theorem tame_addBelief (src e : Val F) (ts : Int) : Tame (hgAddBelief src e ts) :=
  (Tame.liftE _).bind fun _ => (tame_add _ _).bind fun _ => Tame.pure _

theorem tame_removeByPattern (p : Val F) : Tame (hgRemoveByPattern p) :=
  (tame_pattern2edges _).bind fun _ => Tame.forEach fun x _ => tame_remove x

variable [DecidableEq F]

theorem Query.tame (q : Query F) : Tame q.run := by
  cases q with
  | «exists» e => exact (tame_existsM e).bind fun _ => Tame.pure _
  | pattern ps => exact (tame_pattern2edges _).bind fun _ => Tame.pure _
  | star c => exact (tame_star c).bind fun _ => Tame.pure _
  | symbolsWithRoot r => exact (tame_symbolsWithRoot r).bind fun _ => Tame.pure _
  | sources e => exact (tame_sources e).bind fun _ => Tame.pure _
  | fAll => exact (tame_fAll _).bind fun _ => Tame.pure _

theorem Prim.tame (p : Prim F) : Tame p.run := by
  cases p with
  | add e ts => exact (tame_add e ts).bind fun _ => Tame.pure _
  | remove e => exact tame_remove e
  | removeMany es => exact tame_remove _
  | removeByPattern ps => exact tame_removeByPattern _
  | removeBelief src e => exact tame_removeBelief src e
  | destroy => exact tame_destroy
  | query q => exact q.tame

/-- Every operation, whatever its arguments. -/
theorem Op.tame (op : Op F) : Tame op.run := by
  cases op with
  | prim p => exact p.tame
  | addMany es ts => exact (tame_add _ ts).bind fun _ => Tame.pure _
  | addBelief src e ts => exact tame_addBelief src e ts
  | addBeliefs src es ts => exact tame_addBelief src _ ts
  | batch ps =>
    refine tame_batchExec fun f hf => ?_
    obtain ⟨p, _, rfl⟩ := List.mem_map.1 hf
    exact p.tame
  | degree v => exact (tame_degree v).bind fun _ => Tame.pure _
  | timestamp v => exact (tame_timestamp v).bind fun _ => Tame.pure _

theorem runOps_tame (ops : List (Op F)) : Tame (runOps ops) := Tame.forEach fun op _ => op.tame

end GB
