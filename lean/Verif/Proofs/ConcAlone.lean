import Verif.Proofs.ConcSys
import Verif.Proofs.Sync

/-! One process alone does what the calls do one after the other; a process makes finitely many steps. -/

set_option linter.unusedSectionVars false

namespace GB

variable {F : Type} [PyFloat F] [DecidableEq F] {V P : Val F → Prop}

/-! ### methods that only read -/

/-- The method changes nothing. -/
def ReadOnly {α : Type} (m : M α) : Prop := ∀ s, (m s).2 = s

theorem ReadOnly.bind {α β : Type} {m : M α} {f : α → M β} (hm : ReadOnly m) (hf : ∀ a, ReadOnly (f a)) :
    ReadOnly (m >>= f) := by
  intro s
  have h := hm s
  cases hr : m s with
  | mk r t =>
    rw [hr] at h
    simp only at h
    subst h
    cases r with
    | ok a => rw [bind_run _ _ _ hr]; exact hf a _
    | error e => rw [bind_err _ _ _ hr]

theorem ReadOnly.pure {α : Type} (a : α) : ReadOnly (Pure.pure a : M α) := fun _ => rfl

theorem ReadOnly.liftE {α : Type} (x : Except PyErr α) : ReadOnly (GB.liftE x) := fun _ => rfl

theorem ReadOnly.execRead {α : Type} (c : Cursor) (q : DB → α) : ReadOnly (GB.execRead c q) := by
  intro s
  unfold GB.execRead
  split <;> rfl

theorem ReadOnly.openLocal : ReadOnly (openCursor true) := fun s => by rw [openCursor_local]

theorem ReadOnly.closeLocal : ReadOnly (closeCursor true false) := fun s => by rw [closeCursor_local]

theorem readOnly_pattern (p : Val F) : ReadOnly (pattern2edges p) :=
  (ReadOnly.liftE _).bind fun _ => (ReadOnly.liftE _).bind fun _ => ReadOnly.openLocal.bind fun _ =>
    (ReadOnly.execRead _ _).bind fun _ => (ReadOnly.liftE _).bind fun _ => ReadOnly.closeLocal.bind fun _ =>
      (ReadOnly.liftE _).bind fun _ => ReadOnly.pure _

theorem readOnly_sources (e : Val F) : ReadOnly (hgSources e) :=
  (readOnly_pattern _).bind fun _ => (ReadOnly.liftE _).bind fun _ => ReadOnly.pure _

theorem readOnly_exists (v : Val F) : ReadOnly (existsM v) := (readOnly_pattern v).bind fun _ => ReadOnly.pure _

/-! ### running a process alone -/

/-- The result and the contents when nobody else does anything. -/
def Proc.run {α : Type} : Proc α → DB → Except PyErr α × DB
  | .ret r, db => (r, db)
  | .tx u n, db => (n db).run (u db)

theorem Proc.run_bind {α β : Type} {p : Proc α} {f : α → Proc β} {db db' : DB} {a : α} (h : p.run db = (.ok a, db')) :
    (p.bind f).run db = (f a).run db' := by
  induction p generalizing db with
  | ret r => cases h; rfl
  | tx u n ih => exact ih db h

/-- Whenever the method succeeds on an idle connection, the process alone does the same. -/
def Impl {α : Type} (m : M α) (p : Proc α) : Prop :=
  ∀ (s : St) (a : α) (s' : St), s.cur = none → m s = (.ok a, s') → s'.cur = none ∧ p.run s.work = (.ok a, s'.work)

theorem Impl.pure {α : Type} (a : α) : Impl (Pure.pure a : M α) (.ret (.ok a)) := by
  intro s b s' hc h
  cases h
  exact ⟨hc, rfl⟩

theorem Impl.liftE {α : Type} (x : Except PyErr α) : Impl (GB.liftE x) (.ret x) := by
  intro s b s' hc h
  unfold GB.liftE at h
  cases h
  exact ⟨hc, rfl⟩

theorem Impl.bind {α β : Type} {m : M α} {f : α → M β} {p : Proc α} {g : α → Proc β} (hm : Impl m p)
    (hf : ∀ a, Impl (f a) (g a)) : Impl (m >>= f) (p.bind g) := by
  intro s b s' hc h
  cases hr : m s with
  | mk r t =>
    cases r with
    | error e => rw [bind_err _ _ _ hr] at h; cases h
    | ok a =>
      rw [bind_run _ _ _ hr] at h
      obtain ⟨h1, h2⟩ := hm s a t hc hr
      obtain ⟨h3, h4⟩ := hf a t b s' h1 h
      exact ⟨h3, by rw [Proc.run_bind h2, h4]⟩

theorem Impl.each {α : Type} {f : α → M Unit} {g : α → Proc Unit} {xs : List α} (h : ∀ x ∈ xs, Impl (f x) (g x)) :
    Impl (forEach f xs) (Proc.each g xs) := by
  induction xs with
  | nil => exact Impl.pure ()
  | cons x xs ih => exact (h x (by simp)).bind fun _ => ih fun y hy => h y (by simp [hy])

theorem Impl.atom {α : Type} {m : M α} (hm : Sync m m)
    (hd : ∀ db, (m (reopen db false)).2.disk = (m (reopen db false)).2.work) : Impl m (Proc.atom m) := by
  intro s a s' hc h
  have hu : s.usable := St.usable_of_none hc
  obtain ⟨h1, h2, h3, _⟩ := hm s (reopen s.work false) rfl hu (by simp [St.usable, reopen])
  rw [h] at h1 h2 h3
  refine ⟨h3.trans hc, ?_⟩
  show ((m (reopen s.work false)).1, (m (reopen s.work false)).2.disk) = _
  rw [hd, ← h1, ← h2]

theorem work_here {α : Type} {q : Bool} {T : DB → Prop} {m : M α} {db : DB} {a : α} {db' : DB}
    (h : Runs q T m (reopen db false) a db') : (m (reopen db false)).2.disk = (m (reopen db false)).2.work := by
  obtain ⟨s', e, st⟩ := h
  rw [e]
  exact st.durable (.inl rfl) rfl

theorem usable_reopen (db : DB) (auto : Bool) : (reopen db auto).usable := by simp [St.usable, reopen]

theorem impl_exists (e : Val F) : Impl (existsM e) (Proc.atom (existsM e)) :=
  Impl.atom (sync_existsM e) fun db => by rw [readOnly_exists e]; rfl

theorem impl_pattern (p : Val F) : Impl (hgPattern2edges p) (Proc.atom (hgPattern2edges p)) :=
  Impl.atom (sync_pattern2edges p) fun db => by
    rw [show hgPattern2edges p (reopen db false) = pattern2edges p (reopen db false) from rfl, readOnly_pattern p]; rfl

theorem impl_sources (e : Val F) : Impl (hgSources e) (Proc.atom (hgSources e)) :=
  Impl.atom (sync_sources e) fun db => by rw [readOnly_sources e]; rfl

theorem impl_inc (t : Str) : Impl (incDegree t) (Proc.atom (incDegree t)) :=
  Impl.atom (sync_incDegree t) fun db =>
    work_here (incDegree_run (q := true) (T := fun _ => True) (usable_reopen db false) t fun _ => trivial)

theorem impl_dec (t : Str) : Impl (decDegree t) (Proc.atom (decDegree t)) :=
  Impl.atom (sync_decDegree t) fun db =>
    work_here (decDegree_run (q := true) (T := fun _ => True) (usable_reopen db false) t fun _ => trivial)

theorem impl_addStr (t : Str) (d ts : Int) : Impl (addStr t d ts) (Proc.atom (addStr t d ts)) :=
  Impl.atom (sync_updateOrInsertVertex t d ts) fun db =>
    work_here (upsertVertex_run (q := true) (T := fun _ => True) (usable_reopen db false) t d ts fun _ => trivial)

theorem impl_write (t : Str) :
    Impl (writeEdgePermutation (F := F) t) (Proc.atom (writeEdgePermutation (F := F) t)) := by
  rw [write_eq]
  exact Impl.atom (sync_updateOrInsertPerm t) fun db =>
    work_here (upsertPerm_run (q := true) (T := fun _ => True) (usable_reopen db false) t fun _ => trivial)

theorem impl_delete (t : Str) :
    Impl (removeEdgePermutation (F := F) t) (Proc.atom (removeEdgePermutation (F := F) t)) :=
  Impl.atom (sync_removeEdgePermutation t) fun db =>
    work_here (removePerm_run (T := fun _ => True) (s := reopen db false) t fun _ => trivial)

theorem sync_removeStr (t : Str) : Sync (removeStr t) (removeStr t) :=
  Sync.withCursor fun _ _ => (Sync.execWrite _ _ _).bind fun _ => Sync.closeCursor true

theorem impl_removeStr (t : Str) : Impl (removeStr t) (Proc.atom (removeStr t)) :=
  Impl.atom (sync_removeStr t) fun db =>
    work_here (removeStr_run (q := true) (T := fun _ => True) (usable_reopen db false) t fun _ => trivial)

theorem impl_perms {f : Str → M Unit} (hf : ∀ t, Impl (f t) (Proc.atom (f t))) (edge : List (Val F)) :
    Impl (doWithEdgePermutations edge f) (permsP edge f) :=
  Impl.each fun _ _ => (Impl.liftE _).bind fun t => hf t

theorem impl_addVert (ts : Int) (v : Val F) : Impl (addVert ts v) (addVertP ts v) := by
  refine (impl_inc _).bind fun known => ?_
  cases known
  · exact impl_addStr _ _ _
  · exact Impl.pure ()

theorem unit_end (m : M Unit) (e : Val F) : (m >>= fun _ => (pure e : M (Val F)) >>= fun _ => (pure () : M Unit)) = m := by
  funext s
  cases hr : m s with
  | mk r t =>
    cases r with
    | error x => rw [bind_err _ _ _ hr]
    | ok b => rw [bind_run _ _ _ hr]; rfl

/-- `add_raw` looks whether the edge exists, and if not adds it. -/
theorem addRaw_split (e : Val F) (ts : Int) :
    (do let _ ← addRaw e ts : M Unit) = (existsM e >>= fun present => if !present then addNew e ts else pure ()) := by
  funext s
  unfold addRaw addNew
  cases hr : existsM e s with
  | mk r t =>
    cases r with
    | error x => rw [bind_err _ _ _ hr, bind_err _ _ _ (bind_err _ _ _ hr)]
    | ok b =>
      rw [bind_assoc', bind_run _ _ _ hr, bind_run _ _ _ hr]
      cases b
      · simp only [Bool.not_false, if_true, bind_assoc', unit_end]
      · rfl

theorem impl_add (e : Val F) (ts : Int) : Impl (do let _ ← addRaw e ts) (addP e ts) := by
  have := addRaw_split e ts
  rw [this]
  refine (impl_exists e).bind fun present => ?_
  cases present
  · exact (Impl.liftE _).bind fun verts => (Impl.each fun v _ => impl_addVert ts v).bind fun _ =>
      (impl_addStr _ _ _).bind fun _ => impl_perms impl_write verts
  · exact Impl.pure ()

theorem impl_remove (e : Val F) : Impl (removeRaw e) (removeP e) := by
  refine (impl_exists e).bind fun present => ?_
  cases present
  · exact Impl.pure ()
  · exact (Impl.liftE _).bind fun verts => (Impl.each fun v _ => (impl_dec _).bind fun _ => Impl.pure ()).bind fun _ =>
      (impl_perms impl_delete verts).bind fun _ => impl_removeStr _

theorem sync_addNew (e : Val F) (ts : Int) : Sync (addNew e ts) (addNew e ts) :=
  (Sync.liftE _).bind fun _ => (Sync.forEach fun v _ => sync_addVert ts v).bind fun _ =>
    (sync_updateOrInsertVertex _ _ _).bind fun _ => sync_doWithEdgePermutations _ fun t => by
      rw [write_eq]; exact sync_updateOrInsertPerm t

theorem close_shared {s : St} (hc : s.cur = some true) :
    closeCursor false true s = (.ok (), { s.commit with cur := none }) := by
  unfold closeCursor
  simp [St.commit, hc]

/-- A bulk addition that is under way, its cursor open. -/
theorem impl_bulk (ts : Int) (es : List (Val F)) (s s' : St) (hc : s.cur = some true)
    (h : (forEach (fun e => do let _ ← addRaw e ts) es >>= fun _ => closeCursor false true : M Unit) s = (.ok (), s')) :
    s'.cur = none ∧ (addManyP ts es).run s.work = (.ok (), s'.work) := by
  induction es generalizing s with
  | nil =>
    have : closeCursor false true s = (.ok (), s') := h
    rw [close_shared hc] at this
    cases this
    exact ⟨rfl, rfl⟩
  | cons e es ih =>
    have hu : s.usable := by unfold St.usable; rw [hc]; simp
    have h : ((do let _ ← addRaw e ts : M Unit) >>= fun _ =>
        (forEach (fun e => do let _ ← addRaw e ts) es >>= fun _ => closeCursor false true)) s = (.ok (), s') := by
      have h' : (((do let _ ← addRaw e ts : M Unit) >>= fun _ => forEach (fun e => do let _ ← addRaw e ts) es) >>=
        fun _ => closeCursor false true) s = (.ok (), s') := h
      rw [bind_assoc'] at h'
      exact h'
    rw [addRaw_split, bind_assoc'] at h
    have hs := sync_existsM e s (reopen s.work false) rfl hu (usable_reopen _ _)
    have hro := readOnly_exists e s
    cases hr : existsM e s with
    | mk r t =>
      rw [hr] at hro hs
      simp only at hro
      subst hro
      cases r with
      | error x => rw [bind_err _ _ _ hr] at h; cases h
      | ok b =>
        rw [bind_run _ _ _ hr] at h
        have hrun : (Proc.atom (existsM e)).run t.work = (.ok b, t.work) := by
          show ((existsM e (reopen t.work false)).1, (existsM e (reopen t.work false)).2.disk) = _
          rw [← hs.1, readOnly_exists e]
          rfl
        unfold addManyP
        rw [Proc.run_bind hrun]
        cases b with
        | true => exact ih t hc h
        | false =>
          simp only [Bool.not_false, if_true] at h ⊢
          have hS : Sync (addNew e ts >>= fun _ => forEach (fun e => do let _ ← addRaw e ts) es)
              (addNew e ts >>= fun _ => forEach (fun e => do let _ ← addRaw e ts) es) :=
            (sync_addNew e ts).bind fun _ => Sync.forEach fun x _ => (sync_addRaw x ts).bind fun _ => Sync.pure ()
          generalize hm : (addNew e ts >>= fun _ => forEach (fun e => do let _ ← addRaw e ts) es : M Unit) = m at hS
          have h : (m >>= fun _ => closeCursor false true) t = (.ok (), s') := by
            rw [← h, ← hm, bind_assoc']
          have h0 : openCursor false (reopen t.work false) =
              (.ok .shared, { reopen t.work false with cur := some true }) := rfl
          obtain ⟨k1, k2, k3, k4⟩ := hS t { reopen t.work false with cur := some true } rfl hu (by simp [St.usable])
          cases hr1 : m t with
          | mk r1 t1 =>
            rw [hr1] at k1 k2 k3
            cases r1 with
            | error x => rw [bind_err _ _ _ hr1] at h; cases h
            | ok _ =>
              rw [bind_run _ _ _ hr1, close_shared (k3.trans hc)] at h
              cases h
              refine ⟨rfl, ?_⟩
              cases hr2 : m { reopen t.work false with cur := some true } with
              | mk r2 t2 =>
                rw [hr2] at k1 k2 k4
                simp only at k1 k2 k4
                subst k1
                have hall : (do
                    let _ ← openCursor false
                    addNew e ts
                    forEach (fun e => do let _ ← addRaw e ts) es
                    closeCursor false true : M Unit) (reopen t.work false) = (.ok (), { t2.commit with cur := none }) := by
                  rw [bind_run _ _ _ h0]
                  have : (addNew e ts >>= fun _ => forEach (fun e => do let _ ← addRaw e ts) es >>= fun _ =>
                      closeCursor false true : M Unit) { reopen t.work false with cur := some true } =
                      (m >>= fun _ => closeCursor false true) { reopen t.work false with cur := some true } := by
                    rw [← hm, bind_assoc']
                  rw [this, bind_run _ _ _ hr2, close_shared k4]
                show ((_ : M Unit) (reopen t.work false) |>.1, ((_ : M Unit) (reopen t.work false)).2.disk) = _
                rw [hall]
                show (Except.ok (), t2.work) = (Except.ok (), t1.work)
                rw [k2]

theorem impl_addAny (e : Val F) (ts : Int) : Impl (do let _ ← hgAdd e ts) (addAnyP e ts) := by
  intro s u s' hc h
  have h : (hgAdd e ts >>= fun _ => (pure () : M Unit)) s = (.ok u, s') := h
  unfold hgAdd sqlAdd at h
  unfold addAnyP
  cases hh : e.head0 with
  | error x => rw [hh] at h; cases h
  | ok f =>
    rw [hh, bind_assoc', bind_run _ _ _ (show GB.liftE (.ok f) s = _ from rfl)] at h
    simp only [Proc.bind]
    cases hs : f.isSeq with
    | true =>
      simp only [hs, if_true] at h ⊢
      have h0 : openCursor false s = (.ok .shared, { s with cur := some true }) := by
        unfold openCursor; simp [hc]
      rw [bind_assoc', bind_run _ _ _ h0, bind_assoc'] at h
      cases hi : e.iter with
      | error x => rw [hi] at h; cases h
      | ok es =>
        rw [hi, bind_run _ _ _ (liftE_ok rfl _)] at h
        simp only [bind_assoc', unit_end] at h
        exact impl_bulk ts es { s with cur := some true } s' rfl h
    | false =>
      simp only [hs, Bool.false_eq_true, if_false, bind_assoc'] at h ⊢
      exact impl_add e ts s u s' hc h

theorem impl_removeAny (e : Val F) : Impl (hgRemove e) (removeAnyP e) := by
  refine (Impl.liftE _).bind fun f => ?_
  cases f.isSeq
  · exact impl_remove e
  · exact (Impl.liftE _).bind fun es => Impl.each fun x _ => impl_remove x

theorem impl_addBelief (src e : Val F) (ts : Int) : Impl (hgAddBelief src e ts) (addBeliefP src e ts) :=
  (Impl.liftE _).bind fun arg => impl_addAny arg ts

theorem impl_act (a : PAct F) : Impl a.op.run a.proc := by
  cases a with
  | add e ts => exact impl_addAny e ts
  | addMany es ts => exact impl_addAny _ ts
  | remove e => exact impl_removeAny e
  | removeMany es => exact impl_removeAny _
  | removeByPattern ps => exact (impl_pattern _).bind fun es => Impl.each fun x _ => impl_removeAny x
  | addBelief src e ts => exact impl_addBelief src e ts
  | addBeliefs src es ts => exact impl_addBelief src _ ts
  | removeBelief src e =>
    refine (impl_removeAny _).bind fun _ => (impl_sources e).bind fun srcs => ?_
    by_cases hl : srcs.length = 0
    · simp only [if_pos hl]; exact impl_removeAny e
    · simp only [if_neg hl]; exact Impl.pure ()

theorem impl_program (prog : Program F) :
    Impl (runOps (prog.map PAct.op)) (programP prog) := by
  have : ∀ prog : Program F, runOps (prog.map PAct.op) = forEach (fun a => a.op.run) prog := by
    intro prog
    induction prog with
    | nil => rfl
    | cons a prog ih =>
      show (a.op.run >>= fun _ => runOps (prog.map PAct.op)) = _
      rw [ih]
      rfl
  rw [this]
  exact Impl.each fun a _ => impl_act a

/-! ### a single process is deterministic -/

theorem reach_single {db : DB} {p : Proc Unit} {τ : Sys} (h : (Sys.mk db [p]).Reach τ) :
    ∃ q, τ.procs = [q] ∧ q.run τ.db = p.run db := by
  induction h with
  | refl => exact ⟨p, rfl, rfl⟩
  | step _ hst ih =>
    obtain ⟨q, h1, h2⟩ := ih
    cases hst with
    | @tx db' procs i u n hi =>
      simp only at h1 h2
      subst h1
      cases i with
      | succ i => simp at hi
      | zero =>
        simp at hi
        subst hi
        exact ⟨n db', rfl, h2⟩

theorem single_end {db : DB} {p : Proc Unit} {τ : Sys} (h : (Sys.mk db [p]).Reach τ) (hf : τ.Finished) :
    τ.db = (p.run db).2 := by
  obtain ⟨q, h1, h2⟩ := reach_single h
  obtain ⟨r, rfl⟩ := hf q (by rw [h1]; simp)
  rw [← h2]
  rfl

/-- Some schedule runs a single process to its end. -/
theorem reach_step {σ τ υ : Sys} (h : σ.Step τ) (h' : τ.Reach υ) : σ.Reach υ := by
  induction h' with
  | refl => exact .step .refl h
  | step _ hs ih => exact .step ih hs

theorem reach_run {db : DB} (p : Proc Unit) : (Sys.mk db [p]).Reach ⟨(p.run db).2, [.ret (p.run db).1]⟩ := by
  induction p generalizing db with
  | ret r => exact .refl
  | tx u n ih => exact reach_step (.tx 0 rfl) (ih db)

/-! ### termination -/

/-- One of the processes makes a step. -/
def ProcStep (ps' ps : List (Proc Unit)) : Prop :=
  ∃ (i : Nat) (u : DB → DB) (n : DB → Proc Unit) (db : DB), ps[i]? = some (.tx u n) ∧ ps' = ps.set i (n db)

theorem lstep_nil : Acc ProcStep [] := by
  constructor
  rintro _ ⟨i, u, n, db, h, _⟩
  simp at h

theorem lstep_cons (p : Proc Unit) : ∀ {ps : List (Proc Unit)}, Acc ProcStep ps → Acc ProcStep (p :: ps) := by
  induction p with
  | ret r =>
    intro ps h
    induction h with
    | intro ps _ ih =>
      constructor
      rintro _ ⟨i, u, n, db, h, rfl⟩
      cases i with
      | zero => simp at h
      | succ i => exact ih _ ⟨i, u, n, db, by simpa using h, rfl⟩
  | tx u n ihp =>
    intro ps h
    induction h with
    | intro ps hps ih =>
      constructor
      rintro _ ⟨i, u', n', db, h, rfl⟩
      cases i with
      | zero =>
        simp at h
        obtain ⟨rfl, rfl⟩ := h
        exact ihp db ⟨ps, hps⟩
      | succ i => exact ih _ ⟨i, u', n', db, by simpa using h, rfl⟩

theorem lstep_acc (ps : List (Proc Unit)) : Acc ProcStep ps := by
  induction ps with
  | nil => exact lstep_nil
  | cons p ps ih => exact lstep_cons p ih

/-- All processes together make finitely many steps. -/
theorem step_acc (σ : Sys) : Acc (fun τ σ : Sys => σ.Step τ) σ := by
  have h := lstep_acc σ.procs
  generalize hp : σ.procs = ps at h
  induction h generalizing σ with
  | intro ps _ ih =>
    constructor
    intro τ hst
    cases hst with
    | @tx db procs i u n hi =>
      simp only at hp
      subst hp
      exact ih _ ⟨i, u, n, db, hi, rfl⟩ _ rfl

/-- A state that is not finished has a next step. -/
theorem step_progress {σ : Sys} (h : ¬ σ.Finished) : ∃ τ, σ.Step τ := by
  unfold Sys.Finished at h
  have : ∃ p ∈ σ.procs, ¬ ∃ r, p = .ret r := by
    apply Classical.byContradiction
    intro h'
    exact h fun p hp => Classical.byContradiction fun h'' => h' ⟨p, hp, h''⟩
  obtain ⟨p, hp, hn⟩ := this
  obtain ⟨i, hi⟩ := List.getElem?_of_mem hp
  cases p with
  | ret r => exact absurd ⟨r, rfl⟩ hn
  | tx u n => exact ⟨_, .tx (db := σ.db) (procs := σ.procs) i hi⟩

/-! ### degrees -/

theorem gainMany_congr (W : Option (Val F)) {es : List (Val F)} {P P' : Val F → Prop} (h : ∀ x ∈ es, (P x ↔ P' x)) :
    gainMany W P es = gainMany W P' es := by
  induction es generalizing P P' with
  | nil => rfl
  | cons e es ih =>
    unfold gainMany
    have h1 := h e (by simp)
    rw [ih (P := fun x => P x ∨ x = e) (P' := fun x => P' x ∨ x = e) (fun x hx => by rw [h x (by simp [hx])])]
    rw [propext h1]

theorem lossMany_congr (W : Option (Val F)) {es : List (Val F)} {P P' : Val F → Prop} (h : ∀ x ∈ es, (P x ↔ P' x)) :
    lossMany W P es = lossMany W P' es := by
  induction es generalizing P P' with
  | nil => rfl
  | cons e es ih =>
    unfold lossMany
    have h1 := h e (by simp)
    rw [ih (P := fun x => P x ∧ x ≠ e) (P' := fun x => P' x ∧ x ≠ e) (fun x hx => by rw [h x (by simp [hx])])]
    rw [propext h1]

theorem gain_congr (W : Option (Val F)) (a : PAct F) {P P' : Val F → Prop}
    (h : ∀ x, a.Touches x ∨ a.Sees x → (P x ↔ P' x)) : a.gain W P = a.gain W P' := by
  cases a with
  | add e ts => exact gainMany_congr W fun x hx => h x (.inl (List.mem_singleton.1 hx))
  | addMany es ts => exact gainMany_congr W fun x hx => h x (.inl hx)
  | addBelief src e ts => exact gainMany_congr W fun x hx => h x (.inl (by simpa [PAct.Touches] using hx))
  | addBeliefs src es ts => exact gainMany_congr W fun x hx => h x (.inl (mem_pairs.1 hx))
  | remove e =>
    simp only [PAct.gain]
    rw [lossMany_congr W fun x hx => h x (.inl (List.mem_singleton.1 hx))]
  | removeMany es =>
    simp only [PAct.gain]
    rw [lossMany_congr W fun x hx => h x (.inl hx)]
  | removeByPattern ps =>
    simp only [PAct.gain]
    congr 2
    funext x
    exact propext (and_congr_left fun hm => h x (.inl hm))
  | removeBelief src e =>
    have hc : (∃ src', P (support e src') ∧ support e src' ≠ support e src) ↔
        ∃ src', P' (support e src') ∧ support e src' ≠ support e src :=
      exists_congr fun src' => and_congr_left fun _ => h _ (.inr ⟨src', rfl⟩)
    have h1 : lossMany W P [support e src] = lossMany W P' [support e src] :=
      lossMany_congr W fun x hx => h x (.inl (.inr (List.mem_singleton.1 hx)))
    have h2 : lossMany W (fun x => P x ∧ x ≠ support e src) [e] = lossMany W (fun x => P' x ∧ x ≠ support e src) [e] :=
      lossMany_congr W fun x hx => and_congr_left fun _ => h x (.inl (.inl (List.mem_singleton.1 hx)))
    simp only [PAct.gain]
    rw [h1, h2]
    congr 1
    by_cases hd : ∃ src', P (support e src') ∧ support e src' ≠ support e src
    · rw [if_pos hd, if_pos (hc.1 hd)]
    · rw [if_neg hd, if_neg fun h => hd (hc.2 h)]

theorem gainAll_congr (W : Option (Val F)) {prog : Program F} {P P' : Val F → Prop}
    (h : ∀ x, prog.Touches x ∨ prog.Sees x → (P x ↔ P' x)) : gainAll W P prog = gainAll W P' prog := by
  suffices H : ∀ (O : Val F → Prop) (prog : Program F) (P P' : Val F → Prop),
      (∀ x, prog.Touches x ∨ prog.Sees x → O x) → (∀ x, O x → (P x ↔ P' x)) → gainAll W P prog = gainAll W P' prog from
    H _ prog P P' (fun _ h => h) h
  intro O prog
  induction prog with
  | nil => intros; rfl
  | cons a prog ih =>
    intro P P' hO h
    unfold gainAll
    rw [gain_congr W a fun x hx => h x (hO x (hx.imp (fun hx => ⟨a, by simp, hx⟩) fun hx => ⟨a, by simp, hx⟩))]
    rw [ih _ _ (fun x hx => hO x (hx.imp (fun ⟨b, hb, hx⟩ => ⟨b, by simp [hb], hx⟩) fun ⟨b, hb, hx⟩ => ⟨b, by simp [hb], hx⟩))
      (act_agree (fun x hx => hO x (.inr ⟨a, by simp, hx⟩)) h)]

theorem gainAll_append (W : Option (Val F)) (p q : Program F) (P : Val F → Prop) :
    gainAll W P (p ++ q) = gainAll W P p + gainAll W (afterAll p P) q := by
  induction p generalizing P with
  | nil => simp [gainAll, afterAll]
  | cons a p ih =>
    show a.gain W P + gainAll W (a.after P) (p ++ q) = _
    rw [ih]
    show _ = a.gain W P + gainAll W (a.after P) p + _
    rw [Int.add_assoc]
    rfl

theorem gainAll_flatten (W : Option (Val F)) {progs : List (Program F)} (h : Apart progs) (P : Val F → Prop) :
    gainAll W P progs.flatten = (progs.map (gainAll W P)).sum := by
  induction progs with
  | nil => rfl
  | cons p progs ih =>
    rw [List.flatten_cons, gainAll_append, List.map_cons, List.sum_cons, ← ih]
    · congr 1
      refine gainAll_congr W fun x hx => all_untouched fun hp => ?_
      rcases hx with hx | ⟨a, ha, hx⟩
      · obtain ⟨q, hq, hx⟩ := touches_flatten.1 hx
        obtain ⟨j, hj⟩ := List.getElem?_of_mem hq
        exact (h 0 (j + 1) p q rfl (by simpa using hj) (by omega) x hp).1 hx
      · obtain ⟨q, hq, ha⟩ := List.mem_flatten.1 ha
        obtain ⟨j, hj⟩ := List.getElem?_of_mem hq
        exact (h 0 (j + 1) p q rfl (by simpa using hj) (by omega) x hp).2 ⟨a, ha, hx⟩
    · intro i j p' q' hi hj hij
      exact h (i + 1) (j + 1) p' q' (by simpa using hi) (by simpa using hj) (by omega)

theorem Apart.single (p : Program F) : Apart [p] := by
  intro i j a b hi hj hij
  cases i <;> cases j <;> simp_all

theorem sum_ext {cs ds : List Int} (hl : cs.length = ds.length)
    (h : ∀ (i : Nat) (c d : Int), cs[i]? = some c → ds[i]? = some d → c = d) : cs.sum = ds.sum := by
  have : cs = ds := by
    apply List.ext_getElem? 
    intro i
    by_cases hi : i < cs.length
    · rw [List.getElem?_eq_getElem hi, List.getElem?_eq_getElem (hl ▸ hi)]
      rw [h i _ _ (List.getElem?_eq_getElem hi) (List.getElem?_eq_getElem (hl ▸ hi))]
    · rw [List.getElem?_eq_none (by omega), List.getElem?_eq_none (by omega)]
  rw [this]

/-- The degree of a symbol known from the start, when no two programs work on the same edge. -/
theorem degree_end (hV : Vocab V) {v : Val F} (hv : WfVal v) (ha : v.isAtom = true) {db : DB} (hI : IndexOf V P db)
    (hP : ∀ x, P x → EdgeOver V x) (hk : KnownRow v db) {progs : List (Program F)} (hp : ∀ p ∈ progs, ∀ a ∈ p, a.op.Over V) (hind : Apart progs)
    {τ : Sys} (h : (Sys.start db progs).Reach τ) (hf : τ.Finished) :
    degRow v τ.db = degRow v db + gainAll (some v) P progs.flatten := by
  have hW : WOk (some v) := by rintro _ ⟨⟩; exact ⟨hv, ha⟩
  have hC : CInv V (some v) db := ⟨hI.1, by rintro _ ⟨⟩; exact hk⟩
  let O : Nat → Val F → Prop := fun i x => EdgeOver V x ∧ ∃ p, progs[i]? = some p ∧ (p.Touches x ∨ p.Sees x)
  have hO : ∀ i x, O i x → EdgeOver V x := fun i x h => h.1
  obtain ⟨cs, hl, hc, hq, _⟩ := h.track (I := CInv V (some v)) (G := allowed V progs)
    (st := fun j db => ownRows (O j) db) (cnt := watched (some v))
    (Q := fun j _ c => ∀ p, progs[j]? = some p → c = gainAll (some v) P p) hC (start_safe hV hW hp) (by
      intro j k hj hk hjk a b hab
      refine only_own (V := V) (fun y hy => ⟨hO j y hy, ?_⟩) hab
      obtain ⟨_, p, h1, h2⟩ := hy
      rintro ⟨q, h3, h4⟩
      have := hind k j q p h3 h1 (fun h => hjk h.symm) y h4
      exact h2.elim this.1 this.2) (by
      intro j p hj
      obtain ⟨q, h1, rfl⟩ := start_proc hj
      have h0 : ownRows (O j) (Sys.start db progs).db = fullRows (O j) P := by
        funext y k
        unfold ownRows fullRows
        exact propext (and_congr_right fun hy => hI.2 _ (hO j y hy) k)
      rw [h0]
      refine (own_program hV hW (hO j) (hp q (List.mem_of_getElem? h1)) hP
        (fun x hx hs => ⟨hx, q, h1, .inr hs⟩) 0).mono ?_
      rintro _ S c ⟨_, h2⟩ p hp'
      rw [h1] at hp'
      cases hp'
      rw [h2 fun x hx ht => ⟨hx, q, h1, .inl ht⟩]
      simp)
  have hlen := h.length
  have : cs.sum = (progs.map (gainAll (some v) P)).sum := by
    have hl' : cs.length = progs.length := by rw [hl, hlen]; simp [Sys.start]
    refine sum_ext (by simpa using hl') ?_
    intro i c d hci hdi
    rw [List.getElem?_map] at hdi
    cases hpi : progs[i]? with
    | none => rw [hpi] at hdi; cases hdi
    | some p =>
      rw [hpi] at hdi
      cases hdi
      have hil : i < τ.procs.length := by rw [← hl]; exact (List.getElem?_eq_some_iff.1 hci).1
      have hpr := List.getElem?_eq_getElem hil
      obtain ⟨r, hr⟩ := hf τ.procs[i] (List.getElem_mem hil)
      have := hq i _ _ hpr hci
      rw [hr] at this
      obtain ⟨_, _, hS⟩ := this
      exact hS p hpi
  rw [gainAll_flatten _ hind, ← this]
  exact hc

end GB
