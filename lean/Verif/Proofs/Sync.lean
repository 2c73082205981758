import Verif.Proofs.Tame
import Verif.Spec.Added

/-! Methods that behave the same whether or not a shared cursor is open. -/

set_option linter.unusedSectionVars false

namespace GB

variable {F : Type} [PyFloat F]

/-- From usable states with the same contents, `m` and `m'` give the same result and contents, and leave
the shared cursor alone. -/
def Sync {α : Type} (m m' : M α) : Prop :=
  ∀ s s' : St, s.work = s'.work → s.usable → s'.usable →
    (m s).1 = (m' s').1 ∧ (m s).2.work = (m' s').2.work ∧ (m s).2.cur = s.cur ∧ (m' s').2.cur = s'.cur

theorem Sync.pure {α : Type} (a : α) : Sync (Pure.pure a : M α) (Pure.pure a) :=
  fun _ _ hw _ _ => ⟨rfl, hw, rfl, rfl⟩

theorem Sync.liftE {α : Type} (x : Except PyErr α) : Sync (GB.liftE x) (GB.liftE x) :=
  fun _ _ hw _ _ => ⟨rfl, hw, rfl, rfl⟩

theorem Sync.bind {α β : Type} {m m' : M α} {f f' : α → M β} (hm : Sync m m') (hf : ∀ a, Sync (f a) (f' a)) :
    Sync (m >>= f) (m' >>= f') := by
  intro s s' hw hu hu'
  obtain ⟨h1, h2, h3, h4⟩ := hm s s' hw hu hu'
  cases hr : m s with
  | mk r t =>
    cases hr' : m' s' with
    | mk r' t' =>
      rw [hr, hr'] at h1
      rw [hr, hr'] at h2
      rw [hr] at h3
      rw [hr'] at h4
      simp only at h1 h2 h3 h4
      subst h1
      cases r with
      | ok a =>
        rw [bind_run _ _ _ hr, bind_run _ _ _ hr']
        obtain ⟨k1, k2, k3, k4⟩ := hf a t t' h2 (by unfold St.usable; rwa [h3]) (by unfold St.usable; rwa [h4])
        exact ⟨k1, k2, k3.trans h3, k4.trans h4⟩
      | error e =>
        rw [bind_err _ _ _ hr, bind_err _ _ _ hr']
        exact ⟨rfl, h2, h3, h4⟩

theorem Sync.forEach {α : Type} {f f' : α → M Unit} {xs : List α} (h : ∀ x ∈ xs, Sync (f x) (f' x)) :
    Sync (GB.forEach f xs) (GB.forEach f' xs) := by
  induction xs with
  | nil => exact Sync.pure ()
  | cons x xs ih =>
    exact Sync.bind (h x (by simp)) (fun _ => ih (fun y hy => h y (by simp [hy])))

theorem Sync.commitM : Sync GB.commitM GB.commitM := fun _ _ hw _ _ => ⟨rfl, hw, rfl, rfl⟩

theorem Sync.withCursor {α : Type} {f f' : Cursor → M α} (h : ∀ c c', Sync (f c) (f' c')) :
    Sync (openCursor true >>= f) (openCursor true >>= f') := by
  intro s s' hw hu hu'
  have e : ∀ s : St, ∃ c, openCursor true s = (.ok c, s) := by
    intro s
    unfold openCursor
    cases s.cur
    · exact ⟨.own, rfl⟩
    · exact ⟨.shared, rfl⟩
  obtain ⟨c, hc⟩ := e s
  obtain ⟨c', hc'⟩ := e s'
  rw [bind_run _ _ _ hc, bind_run _ _ _ hc']
  exact h c c' s s' hw hu hu'

theorem Sync.closeCursor (b : Bool) : Sync (GB.closeCursor true b) (GB.closeCursor true b) := by
  intro s s' hw hu hu'
  unfold GB.closeCursor St.commit
  cases b <;> cases hs : s.cur <;> cases hs' : s'.cur <;> simp_all

theorem Sync.execRead {α : Type} (c c' : Cursor) (q : DB → α) : Sync (GB.execRead c q) (GB.execRead c' q) := by
  intro s s' hw hu hu'
  unfold GB.execRead
  have h1 : ¬ (c = .shared ∧ s.cur = some false) := fun h => hu h.2
  have h2 : ¬ (c' = .shared ∧ s'.cur = some false) := fun h => hu' h.2
  rw [if_neg h1, if_neg h2]
  exact ⟨by simp [hw], hw, rfl, rfl⟩

theorem Sync.execWrite {α : Type} (c c' : Cursor) (q : DB → Option (α × DB)) :
    Sync (GB.execWrite c q) (GB.execWrite c' q) := by
  intro s s' hw hu hu'
  unfold GB.execWrite
  have h1 : ¬ (c = .shared ∧ s.cur = some false) := fun h => hu h.2
  have h2 : ¬ (c' = .shared ∧ s'.cur = some false) := fun h => hu' h.2
  rw [if_neg h1, if_neg h2, hw]
  cases q s'.work with
  | none => exact ⟨rfl, hw, rfl, rfl⟩
  | some r =>
    obtain ⟨a, db⟩ := r
    refine ⟨rfl, ?_, ?_, ?_⟩
    · simp only; cases s.autocommit <;> cases s'.autocommit <;> rfl
    · simp only; cases s.autocommit <;> rfl
    · simp only; cases s'.autocommit <;> rfl

/-! ### methods -/

theorem sync_updateOrInsertVertex (id : Str) (d ts : Int) :
    Sync (updateOrInsertVertex id d ts) (updateOrInsertVertex id d ts) := by
  unfold updateOrInsertVertex
  refine Sync.withCursor fun c c' => (Sync.execWrite _ _ _).bind fun n => ?_
  dsimp only
  split
  · exact (Sync.execWrite _ _ _).bind fun _ => Sync.closeCursor _
  · exact Sync.closeCursor _

theorem sync_updateOrInsertPerm (id : Str) : Sync (updateOrInsertPerm id) (updateOrInsertPerm id) := by
  unfold updateOrInsertPerm
  refine Sync.withCursor fun c c' => (Sync.execWrite _ _ _).bind fun n => ?_
  dsimp only
  split
  · exact (Sync.execWrite _ _ _).bind fun _ => Sync.closeCursor _
  · exact Sync.closeCursor _

theorem sync_doWithEdgePermutations (edge : List (Val F)) {f : Str → M Unit} (h : ∀ s, Sync (f s) (f s)) :
    Sync (doWithEdgePermutations edge f) (doWithEdgePermutations edge f) :=
  Sync.forEach fun _ _ => (Sync.liftE _).bind fun s => h s

theorem sync_removeEdgePermutation (p : Str) :
    Sync (removeEdgePermutation (F := F) p) (removeEdgePermutation (F := F) p) :=
  (Sync.execWrite _ _ _).bind fun _ => Sync.commitM

theorem sync_str2perms (c : Str) : Sync (str2perms (F := F) c) (str2perms (F := F) c) :=
  (Sync.liftE _).bind fun _ => Sync.withCursor fun _ _ => (Sync.execRead _ _ _).bind fun _ =>
    (Sync.liftE _).bind fun _ => (Sync.closeCursor _).bind fun _ => Sync.pure _

theorem sync_pattern2edges (p : Val F) : Sync (pattern2edges p) (pattern2edges p) :=
  (Sync.liftE _).bind fun _ => (Sync.liftE _).bind fun _ => Sync.withCursor fun _ _ =>
    (Sync.execRead _ _ _).bind fun _ => (Sync.liftE _).bind fun _ => (Sync.closeCursor _).bind fun _ =>
    (Sync.liftE _).bind fun _ => Sync.pure _

theorem sync_existsM (v : Val F) : Sync (existsM v) (existsM v) := (sync_pattern2edges v).bind fun _ => Sync.pure _

theorem sync_incDegree (v : Str) : Sync (incDegree v) (incDegree v) :=
  Sync.withCursor fun _ _ => (Sync.execWrite _ _ _).bind fun _ => (Sync.closeCursor _).bind fun _ => Sync.pure _

theorem sync_decDegree (v : Str) : Sync (decDegree v) (decDegree v) :=
  Sync.withCursor fun _ _ => (Sync.execWrite _ _ _).bind fun _ => (Sync.closeCursor _).bind fun _ => Sync.pure _

theorem sync_addVert (ts : Int) (v : Val F) : Sync (addVert ts v) (addVert ts v) := by
  unfold addVert
  refine (sync_incDegree _).bind fun b => ?_
  split
  · exact sync_updateOrInsertVertex _ _ _
  · exact Sync.pure _

theorem sync_addRaw (e : Val F) (ts : Int) : Sync (addRaw e ts) (addRaw e ts) := by
  unfold addRaw
  refine (sync_existsM _).bind fun b => ?_
  dsimp only
  split
  · exact (Sync.liftE _).bind fun vs => (Sync.forEach fun v _ => sync_addVert ts v).bind fun _ =>
      (sync_updateOrInsertVertex _ _ _).bind fun _ =>
      (sync_doWithEdgePermutations vs fun s => sync_updateOrInsertPerm _).bind fun _ => Sync.pure _
  · exact Sync.pure _

theorem sync_removeRaw (e : Val F) : Sync (removeRaw e) (removeRaw e) := by
  unfold removeRaw
  refine (sync_existsM _).bind fun b => ?_
  split
  · exact (Sync.liftE _).bind fun vs =>
      (Sync.forEach fun v _ => (sync_decDegree _).bind fun _ => Sync.pure _).bind fun _ =>
      (sync_doWithEdgePermutations vs fun s => sync_removeEdgePermutation _).bind fun _ =>
      Sync.withCursor fun _ _ => (Sync.execWrite _ _ _).bind fun _ => Sync.closeCursor _
  · exact Sync.pure _

theorem sync_remove (e : Val F) : Sync (hgRemove e) (hgRemove e) := by
  unfold hgRemove sqlRemove
  refine (Sync.liftE _).bind fun b => ?_
  split
  · exact (Sync.liftE _).bind fun es => Sync.forEach fun x _ => sync_removeRaw x
  · exact sync_removeRaw e

theorem sync_star (c : Val F) : Sync (hgStar c) (hgStar c) := by
  unfold hgStar sqlStar
  split <;> exact sync_str2perms _

theorem sync_symbolsWithRoot (r : Str) : Sync (hgSymbolsWithRoot r) (hgSymbolsWithRoot r) :=
  (Sync.liftE _).bind fun _ => Sync.withCursor fun _ _ => (Sync.execRead _ _ _).bind fun _ =>
    (Sync.liftE _).bind fun _ => (Sync.closeCursor _).bind fun _ => Sync.pure _

theorem sync_destroy : Sync hgDestroy hgDestroy :=
  Sync.withCursor fun _ _ => (Sync.execWrite _ _ _).bind fun _ => (Sync.execWrite _ _ _).bind fun _ =>
    Sync.closeCursor _

theorem sync_fAll {β : Type} (f : Val F → Int → β) : Sync (hgFAll f) (hgFAll f) :=
  Sync.withCursor fun _ _ => (Sync.execRead _ _ _).bind fun _ =>
    (Sync.liftE _).bind fun _ => (Sync.closeCursor _).bind fun _ => Sync.pure _

theorem sync_sources (e : Val F) : Sync (hgSources e) (hgSources e) :=
  (sync_pattern2edges _).bind fun _ => (Sync.liftE _).bind fun _ => Sync.pure _

theorem sync_removeBelief (src e : Val F) : Sync (hgRemoveBelief src e) (hgRemoveBelief src e) := by
  unfold hgRemoveBelief
  refine (sync_remove _).bind fun _ => (sync_sources _).bind fun l => ?_
  split
  · exact sync_remove _
  · exact Sync.pure _

theorem sync_removeByPattern (p : Val F) : Sync (hgRemoveByPattern p) (hgRemoveByPattern p) :=
  (sync_pattern2edges _).bind fun _ => Sync.forEach fun x _ => sync_remove x

/-- Adding something whose first element is not a sequence is adding one edge. -/
theorem hgAdd_single {e h : Val F} (hh : e.head0 = .ok h) (hs : h.isSeq = false) (ts : Int) :
    hgAdd e ts = (addRaw e ts >>= fun _ => Pure.pure e) := by
  apply funext
  intro s
  unfold hgAdd sqlAdd
  rw [hh, bind_run _ _ _ (show GB.liftE (.ok h) s = _ from rfl)]
  simp only [hs, Bool.false_eq_true, if_false]

theorem sync_add_single {e h : Val F} (hh : e.head0 = .ok h) (hs : h.isSeq = false) (ts : Int) :
    Sync (hgAdd e ts) (hgAdd e ts) := by
  rw [hgAdd_single hh hs]
  exact (sync_addRaw e ts).bind fun _ => Sync.pure _

variable [DecidableEq F]

theorem Query.sync (q : Query F) : Sync q.run q.run := by
  cases q with
  | «exists» e => exact (sync_existsM e).bind fun _ => Sync.pure _
  | pattern ps => exact (sync_pattern2edges _).bind fun _ => Sync.pure _
  | star c => exact (sync_star c).bind fun _ => Sync.pure _
  | symbolsWithRoot r => exact (sync_symbolsWithRoot r).bind fun _ => Sync.pure _
  | sources e => exact (sync_sources e).bind fun _ => Sync.pure _
  | fAll => exact (sync_fAll _).bind fun _ => Sync.pure _

theorem Prim.sync (p : Prim F) (hp : p.Single) : Sync p.run p.run := by
  cases p with
  | add e ts =>
    refine Sync.bind ?_ fun _ => Sync.pure _
    cases hh : e.head0 with
    | ok h => exact sync_add_single hh (hp h hh) ts
    | error er =>
      have : hgAdd e ts = GB.liftE (.error er) := by
        apply funext
        intro s
        unfold hgAdd sqlAdd
        rw [hh, bind_err _ _ _ (show GB.liftE (.error er) s = (.error er, s) from rfl)]
        rfl
      rw [this]
      exact Sync.liftE _
  | remove e => exact sync_remove e
  | removeMany es => exact sync_remove _
  | removeByPattern ps => exact sync_removeByPattern _
  | removeBelief src e => exact sync_removeBelief src e
  | destroy => exact sync_destroy
  | query q => exact q.sync

end GB
