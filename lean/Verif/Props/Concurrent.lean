import Verif.Props.Durable
import Verif.Proofs.ConcAlone
import Verif.Spec.WitnessHist

/-!
Properties C65 and C66: several processes, each with its own connection, on one SQLite file.
-/

set_option linter.unusedSectionVars false
set_option linter.unusedVariables false

namespace GB

variable {F : Type} [PyFloat F] [DecidableEq F] {V : Val F → Prop}

/-! ### the steps of the model are transactions -/

/-- On an idle connection the call either leaves the file alone, or commits once and leaves nothing
uncommitted. -/
def OneTransaction {α : Type} (m : M α) : Prop :=
  ∀ db, ((m (reopen db false)).2.commits = [] ∧ (m (reopen db false)).2.disk = db) ∨
    ((m (reopen db false)).2.commits = [(m (reopen db false)).2.disk] ∧
      (m (reopen db false)).2.work = (m (reopen db false)).2.disk)

/-- Nothing is committed yet. -/
def Fresh (db : DB) (s : St) : Prop := s.cur = none ∧ s.autocommit = false ∧ s.disk = db ∧ s.commits = []

/-- From a state in which nothing is committed yet, at most one commit, and nothing left after it. -/
def Commits {α : Type} (m : M α) : Prop :=
  ∀ db s, Fresh db s → ((m s).2.commits = [] ∧ (m s).2.disk = db) ∨
    ((m s).2.commits = [(m s).2.disk] ∧ (m s).2.work = (m s).2.disk)

theorem Commits.one {α : Type} {m : M α} (h : Commits m) : OneTransaction m :=
  fun db => h db _ ⟨rfl, rfl, rfl, rfl⟩

theorem Commits.bind {α β : Type} {m : M α} {f : α → M β} (hm : ∀ db, Pres (Fresh db) m) (hf : ∀ a, Commits (f a)) :
    Commits (m >>= f) := by
  intro db s h
  have h1 := hm db s h
  cases hr : m s with
  | mk r t =>
    rw [hr] at h1
    cases r with
    | error e => rw [bind_err _ _ _ hr]; exact .inl ⟨h1.2.2.2, h1.2.2.1⟩
    | ok a => rw [bind_run _ _ _ hr]; exact hf a db t h1

theorem Commits.close {α : Type} (a : α) : Commits (closeCursor true true >>= fun _ => (pure a : M α)) := by
  rintro db s ⟨h1, h2, h3, h4⟩
  have : closeCursor true true s = (.ok (), s.commit) := by
    rw [closeCursor_local_commit]; simp [St.fin, h1]
  rw [bind_run _ _ _ this]
  right
  show s.commits ++ [s.work] = [s.work] ∧ s.work = s.work
  simp [h4]

theorem Commits.close' : Commits (closeCursor true true) := by
  rintro db s ⟨h1, h2, h3, h4⟩
  rw [closeCursor_local_commit]
  right
  simp [St.fin, h1, St.commit, h4]

theorem fresh_open {db : DB} : Pres (Fresh db) (openCursor true) := fun s h => by rw [openCursor_local]; exact h

theorem fresh_write {db : DB} {α : Type} (c : Cursor) (q : DB → Option (α × DB)) : Pres (Fresh db) (execWrite c q) := by
  rintro s ⟨h1, h2, h3, h4⟩
  unfold execWrite
  split
  · exact ⟨h1, h2, h3, h4⟩
  · split
    · exact ⟨h1, h2, h3, h4⟩
    · simp only [h2, Bool.false_eq_true, if_false]
      exact ⟨h1, rfl, h3, h4⟩

/-- C65: the calls that the model takes as one step each are single transactions. -/
theorem C65_atomic :
    (∀ e : Val F, OneTransaction (existsM e)) ∧ (∀ p : Val F, OneTransaction (hgPattern2edges p)) ∧
    (∀ e : Val F, OneTransaction (hgSources e)) ∧ (∀ t, OneTransaction (incDegree t)) ∧
    (∀ t, OneTransaction (decDegree t)) ∧ (∀ t d ts, OneTransaction (addStr t d ts)) ∧
    (∀ t, OneTransaction (writeEdgePermutation (F := F) t)) ∧ (∀ t, OneTransaction (removeEdgePermutation (F := F) t)) ∧
    (∀ t, OneTransaction (removeStr t)) ∧
    ∀ (e : Val F) (es : List (Val F)) (ts : Int), OneTransaction (do
      let _ ← openCursor false
      addNew e ts
      forEach (fun e => do let _ ← addRaw e ts) es
      closeCursor false true) := by
  refine ⟨fun e db => .inl (by rw [readOnly_exists]; exact ⟨rfl, rfl⟩),
    fun p db => .inl (by
      rw [show hgPattern2edges p (reopen db false) = pattern2edges p (reopen db false) from rfl, readOnly_pattern p]
      exact ⟨rfl, rfl⟩),
    fun e db => .inl (by rw [readOnly_sources]; exact ⟨rfl, rfl⟩), fun t => Commits.one ?_, fun t => Commits.one ?_,
    fun t d ts => Commits.one ?_, fun t => Commits.one ?_, fun t => Commits.one ?_, fun t => Commits.one ?_, ?_⟩
  · exact Commits.bind (fun _ => fresh_open) fun _ => Commits.bind (fun _ => fresh_write _ _) fun _ => Commits.close _
  · exact Commits.bind (fun _ => fresh_open) fun _ => Commits.bind (fun _ => fresh_write _ _) fun _ => Commits.close _
  · refine Commits.bind (fun _ => fresh_open) fun _ => Commits.bind (fun _ => fresh_write _ _) fun _ => ?_
    dsimp only
    split
    · exact Commits.bind (fun _ => fresh_write _ _) fun _ => Commits.close'
    · exact Commits.close'
  · refine Commits.bind (fun _ => fresh_open) fun _ => Commits.bind (fun _ => fresh_write _ _) fun _ => ?_
    dsimp only
    split
    · exact Commits.bind (fun _ => fresh_write _ _) fun _ => Commits.close'
    · exact Commits.close'
  · refine Commits.bind (fun _ => fresh_write _ _) fun _ => ?_
    rintro db s ⟨h1, h2, h3, h4⟩
    right
    show s.commits ++ [s.work] = [s.work] ∧ s.work = s.work
    simp [h4]
  · exact Commits.bind (fun _ => fresh_open) fun _ => Commits.bind (fun _ => fresh_write _ _) fun _ => Commits.close'
  · intro e es ts db
    have hI := held_blocks
    have hb := bracket (m := addNew e ts >>= fun _ => forEach (fun e => do let _ ← addRaw e ts) es) (fun d l => by
      have hI := held_blocks d l
      refine Pres.bind (m := addNew e ts) ?_ fun _ =>
        Pres.forEach fun x _ => (hI.addRaw x ts).bind fun _ => Pres.pure _
      exact (Pres.liftE _).bind fun (vs : List (Val F)) => (Pres.forEach fun v _ => hI.addVert ts v).bind fun _ =>
        (hI.upVertex _ _ _).bind fun _ =>
        (Pres.forEach (xs := List.range (factorial vs.length)) fun _ _ =>
          (Pres.liftE _).bind fun s => hI.upPerm _))
      (s := reopen db false) rfl rfl
    simp only [bind_assoc'] at hb
    rcases hb with ⟨x, h1, h2, h3, h4⟩ | ⟨h1, h2, h3, h4⟩
    · exact .inl ⟨h3, h2⟩
    · refine .inr ⟨?_, h3.symm⟩
      rw [h2, h3]
      rfl

/-! ### the system -/

/-- C65: however the processes are scheduled, they all return after finitely many steps. -/
theorem C65_terminates (db : DB) (progs : List (Program F)) :
    Acc (fun τ σ : Sys => σ.Step τ) (Sys.start db progs) ∧
      ∀ τ, (Sys.start db progs).Reach τ → (¬ ∃ υ, τ.Step υ) → τ.Finished :=
  ⟨step_acc _, fun τ _ h => Classical.byContradiction fun h' => h (step_progress h')⟩

/-- There is always a schedule that brings all processes to their end. -/
theorem reach_finished (σ : Sys) : ∃ τ, σ.Reach τ ∧ τ.Finished := by
  have h := step_acc σ
  induction h with
  | intro σ _ ih =>
    by_cases hf : σ.Finished
    · exact ⟨σ, .refl, hf⟩
    · obtain ⟨τ, hs⟩ := step_progress hf
      obtain ⟨υ, h1, h2⟩ := ih τ hs
      exact ⟨υ, reach_step hs h1, h2⟩

/-- C65: one process alone does what the same calls of a single user do. -/
theorem C65_alone {prog : Program F} {s s' : St} (hc : s.cur = none)
    (hs : runOps (prog.map PAct.op) s = (.ok (), s')) {τ : Sys} (h : (Sys.start s.work [prog]).Reach τ) (hf : τ.Finished) :
    τ.db = s'.work ∧ τ.procs = [.ret (.ok ())] := by
  obtain ⟨_, h2⟩ := impl_program prog s () s' hc hs
  obtain ⟨q, h3, h4⟩ := reach_single h
  obtain ⟨r, rfl⟩ := hf q (by rw [h3]; simp)
  have h5 : (Proc.ret r).run τ.db = (programP prog).run s.work := h4
  rw [h2] at h5
  have h6 : (r, τ.db) = (Except.ok (), s'.work) := h5
  refine ⟨congrArg Prod.snd h6, ?_⟩
  rw [h3, show r = .ok () from congrArg Prod.fst h6]

/-- C65: no call of any process raises. -/
theorem C65_no_error (hV : Vocab V) (ops : List (Op F)) (hops : ∀ op ∈ ops, op.Over V) (s : St)
    (hs : runOps ops (St.new false) = (.ok (), s)) {progs : List (Program F)} (hp : ∀ p ∈ progs, ∀ a ∈ p, a.op.Over V)
    {τ : Sys} (h : (Sys.start s.disk progs).Reach τ) : ∀ p ∈ τ.procs, ∀ r, p = .ret r → r = .ok () := by
  have hS := shows_of hV hops hs
  have hI := indexOf_shows hV hS
  rw [hS.disk] at h
  rintro p hpm r rfl
  obtain ⟨i, hi⟩ := List.getElem?_of_mem hpm
  obtain ⟨_, rfl⟩ := (reach_inv hV (W := none) (by simp [WOk]) ⟨hI.1, by simp⟩ hp h).2 i _ hi
  rfl

/-- C65: at every moment, whatever any process is in the middle of, no query of a new connection raises, and
about the edges that no process adds or removes they all say what they said before. -/
theorem C65_any_time (hV : Vocab V) (ops : List (Op F)) (hops : ∀ op ∈ ops, op.Over V) (s : St)
    (hs : runOps ops (St.new false) = (.ok (), s)) {progs : List (Program F)} (hp : ∀ p ∈ progs, ∀ a ∈ p, a.op.Over V)
    {τ : Sys} (h : (Sys.start s.disk progs).Reach τ) :
    SameOutside V (fun x => ∃ p ∈ progs, Program.Touches p x) (reopen τ.db false) s := by
  have hS := shows_of hV hops hs
  have hI := indexOf_shows hV hS
  rw [hS.disk] at h
  refine sameOutside_rows hV rfl hS.idle ?_ hI.1 ?_
  · exact (reach_inv hV (W := none) (by simp [WOk]) ⟨hI.1, by simp⟩ hp h).1.1
  · intro x hx hun n
    exact rows_untouched hV hI.1 hp h hx (fun p hpm ht => hun ⟨p, hpm, ht⟩) n

/-- C65: when no process removes or asks for an edge that another adds or removes, then in the end all queries answer as if
the programs had run one after the other. -/
theorem C65_result (hV : Vocab V) (ops : List (Op F)) (hops : ∀ op ∈ ops, op.Over V) (s : St)
    (hs : runOps ops (St.new false) = (.ok (), s)) {progs : List (Program F)} (hp : ∀ p ∈ progs, ∀ a ∈ p, a.op.Over V)
    (hind : Independent progs) {τ : Sys} (h : (Sys.start s.disk progs).Reach τ) (hf : τ.Finished) :
    ∃ s', runOps (progs.flatten.map PAct.op) s = (.ok (), s') ∧ SameEdges V (reopen τ.db false) s' := by
  have hS := shows_of hV hops hs
  have hI := indexOf_shows hV hS
  rw [hS.disk] at h
  have ho : ∀ op ∈ progs.flatten.map PAct.op, op.Over V := by
    intro op hop
    obtain ⟨a, ha, rfl⟩ := List.mem_map.1 hop
    obtain ⟨p, hpm, ha⟩ := List.mem_flatten.1 ha
    exact hp p hpm a ha
  obtain ⟨s', e, hS'⟩ := hS.ops hV ho
  have hI' := indexOf_shows hV hS'
  have hE := rows_end hV hI (shows_over hV hS) hp hind h hf
  refine ⟨s', e, sameEdges_rows hV rfl hS'.idle hE.1 hI'.1 ?_⟩
  intro x hx n
  show HasRow τ.db.perms x n ↔ _
  rw [hE.2 x hx, hI'.2 x hx, ops_present]

theorem exists_index (hV : Vocab V) {P : Val F → Prop} {s : St} (hc : s.cur = none) (hI : IndexOf V P s.work) {e : Val F}
    (he : EdgeOver V e) : (hgExists e s).1 = .ok true ↔ P e := by
  obtain ⟨b, h1, h2⟩ := exists_rows hV he (St.usable_of_none hc) hI.1
  have h3 : (hgExists e s).1 = .ok b := by unfold hgExists; rw [h1]
  rw [h3]
  have h4 : b = true ↔ P e := by
    rw [h2]
    constructor
    · rintro ⟨n, hn, _⟩
      exact ((hI.2 e he n).1 hn).1
    · exact fun hp => seen_all (db := s.work) hV he fun n hn => (hI.2 e he n).2 ⟨hp, hn⟩
  constructor
  · intro h; exact h4.1 (by injection h)
  · intro h; rw [h4.2 h]

/-- C65: when no process removes anything, then in the end an edge exists if and only if it existed before or some
process added it, be it by `add` or as part of a belief. -/
theorem C65_adds (hV : Vocab V) (ops : List (Op F)) (hops : ∀ op ∈ ops, op.Over V) (s : St)
    (hs : runOps ops (St.new false) = (.ok (), s)) {progs : List (Program F)} (hp : ∀ p ∈ progs, ∀ a ∈ p, a.op.Over V)
    (hno : ∀ p ∈ progs, ∀ x, ¬ Program.Removes p x) {τ : Sys} (h : (Sys.start s.disk progs).Reach τ) (hf : τ.Finished)
    (e : Val F) (he : EdgeOver V e) :
    (hgExists e (reopen τ.db false)).1 = .ok true ↔
      (hgExists e s).1 = .ok true ∨ ∃ p ∈ progs, Program.Touches p e := by
  have hS := shows_of hV hops hs
  have hI := indexOf_shows hV hS
  have hind : Independent progs := by
    intro i j p q hi hj hij x _
    refine ⟨hno q (List.mem_of_getElem? hj) x, ?_⟩
    rintro ⟨a, ha, h⟩
    cases a with
    | removeByPattern ps => exact hno q (List.mem_of_getElem? hj) x ⟨_, ha, h⟩
    | removeBelief src e => exact hno q (List.mem_of_getElem? hj) e ⟨_, ha, .inl rfl⟩
    | _ => exact h.elim
  rw [hS.disk] at h
  have hE := rows_end hV hI (shows_over hV hS) hp hind h hf
  rw [exists_index hV (s := reopen τ.db false) rfl hE he, exists_index hV hS.idle hI he]
  constructor
  · intro h'
    by_cases ht : Program.Touches progs.flatten e
    · exact .inr (touches_flatten.1 ht)
    · exact .inl ((all_untouched ht).1 h')
  · intro h'
    refine all_kept ?_ (h'.imp id touches_flatten.2)
    rintro ⟨a, ha, h⟩
    obtain ⟨q, hq, ha⟩ := List.mem_flatten.1 ha
    exact hno q hq e ⟨a, ha, h⟩

/-- C66, for symbols that the graph knows when the processes start and programs of which no two add or remove the
same edge: in the end the degree is as if the programs had run one after the other. -/
theorem C66_degree_partial (hV : Vocab V) (ops : List (Op F)) (hops : ∀ op ∈ ops, op.Over V) (s : St)
    (hs : runOps ops (St.new false) = (.ok (), s)) {progs : List (Program F)} (hp : ∀ p ∈ progs, ∀ a ∈ p, a.op.Over V)
    (hind : Apart progs) {τ : Sys} (h : (Sys.start s.disk progs).Reach τ) (hf : τ.Finished)
    (v : Val F) (hv : WfVal v) (ha : v.isAtom = true) (hk : (Spec.after ops).known v ≠ none) :
    ∃ s', runOps (progs.flatten.map PAct.op) s = (.ok (), s') ∧
      (hgDegree v (reopen τ.db false)).1 = (hgDegree v s').1 := by
  have hS := shows_of hV hops hs
  have hI := indexOf_shows hV hS
  rw [hS.disk] at h
  have hpf : ∀ a ∈ progs.flatten, a.op.Over V := by
    intro a ha
    obtain ⟨p, hpm, ha⟩ := List.mem_flatten.1 ha
    exact hp p hpm a ha
  have ho : ∀ op ∈ progs.flatten.map PAct.op, op.Over V := by
    intro op hop
    obtain ⟨a, ha, rfl⟩ := List.mem_map.1 hop
    exact hpf a ha
  obtain ⟨s', e, hS'⟩ := hS.ops hV ho
  refine ⟨s', e, ?_⟩
  have hknown : KnownRow v s.work := by
    obtain ⟨A, hA, hR, hw⟩ := hS.ex
    rw [hw]
    rw [hR.known v] at hk
    cases hl : lookV v A.verts with
    | none => exact absurd (by unfold tsOf; rw [hl]; rfl) hk
    | some r => exact known_of_lookV ⟨hA.keys, hA.wf⟩ hv hl _
  have h1 := degree_end hV hv ha hI (shows_over hV hS) hknown hp hind h hf
  have hseq := reach_run (db := s.work) (programP progs.flatten)
  obtain ⟨h2, _⟩ := C65_alone hS.idle e (τ := ⟨_, _⟩) hseq (by
    intro p hp
    simp only [List.mem_singleton] at hp
    exact ⟨_, hp⟩)
  have h3 := degree_end hV hv ha hI (shows_over hV hS) hknown (progs := [progs.flatten]) (by simpa using hpf) (Apart.single _) hseq (by
    intro p hp
    simp only [List.mem_singleton] at hp
    exact ⟨_, hp⟩)
  rw [degree_here, h1]
  have h4 : (hgDegree v s').1 = (hgDegree v (reopen s'.work false)).1 := by
    obtain ⟨A, hA, hR, hw⟩ := hS'.ex
    unfold hgDegree
    rw [degree_run hA.wf hv hS'.idle hw, degree_run hA.wf hv (s := reopen s'.work false) rfl hw]
  rw [h4, degree_here, ← h2, h3]
  simp

/-! ### schedules -/

/-- Process `i` makes its next step, if it has one. -/
def Sys.turn (σ : Sys) (i : Nat) : Sys :=
  match σ.procs[i]? with
  | some (.tx u n) => ⟨u σ.db, σ.procs.set i (n σ.db)⟩
  | _ => σ

/-- The processes make steps in this order. -/
def Sys.turns : Sys → List Nat → Sys
  | σ, [] => σ
  | σ, i :: is => (σ.turn i).turns is

/-- The process returned without an exception. -/
def Proc.done {α : Type} : Proc α → Bool
  | .ret (.ok _) => true
  | _ => false

theorem Sys.Reach.trans {σ τ υ : Sys} (h1 : σ.Reach τ) (h2 : τ.Reach υ) : σ.Reach υ := by
  induction h2 with
  | refl => exact h1
  | step _ hs ih => exact .step ih hs

theorem Sys.turn_reach (σ : Sys) (i : Nat) : σ.Reach (σ.turn i) := by
  unfold Sys.turn
  split
  · rename_i u n h
    exact .step .refl (.tx (db := σ.db) (procs := σ.procs) i h)
  · exact .refl

theorem Sys.turns_reach (is : List Nat) (σ : Sys) : σ.Reach (σ.turns is) := by
  induction is generalizing σ with
  | nil => exact .refl
  | cons i is ih => exact (σ.turn_reach i).trans (ih _)

theorem Sys.finished_of {σ : Sys} (h : (σ.procs.all Proc.done) = true) : σ.Finished := by
  intro p hp
  have := List.all_eq_true.1 h p hp
  cases p with
  | ret r => exact ⟨r, rfl⟩
  | tx u n => simp [Proc.done] at this

/-! ### C66 is false in general -/

/-- Two edges with a common symbol. -/
def exShareA : HVal := .tup [sy "is", sy "a"]
def exShareB : HVal := .tup [sy "is", sy "b"]

/-- What a schedule leads to, by evaluation. -/
theorem reach_turns {σ : Sys} (is : List Nat) {db : DB} (h1 : (σ.turns is).db = db)
    (h2 : ((σ.turns is).procs.all Proc.done) = true) : ∃ τ, σ.Reach τ ∧ τ.Finished ∧ τ.db = db :=
  ⟨_, σ.turns_reach is, Sys.finished_of h2, h1⟩

/-- C66 is false: two processes add one edge each to an empty graph.  Both find that the common symbol is new, both
insert it, and one of the two occurrences is lost. -/
theorem C66_lost_update_counterexample :
    ∃ τ, (Sys.start DB.empty [[PAct.add exShareA 1], [PAct.add exShareB 2]]).Reach τ ∧ τ.Finished ∧
      (hgExists exShareA (reopen τ.db false)).1 = .ok true ∧ (hgExists exShareB (reopen τ.db false)).1 = .ok true ∧
      (hgDegree (sy "is") (reopen τ.db false)).1 = .ok 1 := by
  obtain ⟨τ, h1, h2, h3⟩ := reach_turns (σ := Sys.start DB.empty [[PAct.add exShareA 1], [PAct.add exShareB 2]])
    [0, 1, 0, 1, 0, 1, 0, 0, 0, 0, 0, 1, 1, 1, 1, 1]
    (db := ⟨[⟨lit "is", 1, 2⟩, ⟨lit "a", 1, 1⟩, ⟨lit "(is a)", 0, 1⟩, ⟨lit "b", 1, 2⟩, ⟨lit "(is b)", 0, 2⟩],
      [lit "is a 0", lit "a is 1", lit "is b 0", lit "b is 1"]⟩) (by decide +kernel) (by decide +kernel)
  refine ⟨τ, h1, h2, ?_⟩
  rw [h3]
  decide +kernel

/-- C66 is false: two processes add the same edge; both find that it is absent, and its symbols are counted twice. -/
theorem C66_double_count_counterexample :
    ∃ τ, (Sys.start DB.empty [[PAct.add exShareA 1], [PAct.add exShareA 1]]).Reach τ ∧ τ.Finished ∧
      (hgStar (sy "is") (reopen τ.db false)).1 = .ok [exShareA] ∧
      (hgDegree (sy "is") (reopen τ.db false)).1 = .ok 2 := by
  obtain ⟨τ, h1, h2, h3⟩ := reach_turns (σ := Sys.start DB.empty [[PAct.add exShareA 1], [PAct.add exShareA 1]])
    [0, 1, 0, 0, 0, 0, 0, 0, 0, 1, 1, 1, 1, 1, 1]
    (db := ⟨[⟨lit "is", 2, 1⟩, ⟨lit "a", 2, 1⟩, ⟨lit "(is a)", 0, 1⟩], [lit "is a 0", lit "a is 1"]⟩)
    (by decide +kernel) (by decide +kernel)
  refine ⟨τ, h1, h2, ?_⟩
  rw [h3]
  decide +kernel

/-- A file with one edge. -/
def exShareDB : DB := ⟨[⟨lit "is", 1, 1⟩, ⟨lit "a", 1, 1⟩, ⟨lit "(is a)", 0, 1⟩], [lit "is a 0", lit "a is 1"]⟩

/-- The condition of C65_result is needed: two processes remove and add again the same edge, and in the end it
does not exist but is returned by `star` of one of its symbols. -/
theorem C65_add_remove_counterexample :
    (hgAdd exShareA 1 (St.new false)).2.disk = exShareDB ∧
    ∃ τ, (Sys.start exShareDB [[PAct.remove exShareA], [PAct.remove exShareA, PAct.add exShareA 2]]).Reach τ ∧
      τ.Finished ∧ (hgExists exShareA (reopen τ.db false)).1 = .ok false ∧
      (hgStar (sy "a") (reopen τ.db false)).1 = .ok [exShareA] := by
  refine ⟨by decide +kernel, ?_⟩
  obtain ⟨τ, h1, h2, h3⟩ := reach_turns
    (σ := Sys.start exShareDB [[PAct.remove exShareA], [PAct.remove exShareA, PAct.add exShareA 2]])
    [0, 0, 0, 1, 1, 1, 1, 1, 1, 1, 1, 1, 1, 1, 0, 0, 1, 0]
    (db := ⟨[⟨lit "is", 0, 1⟩, ⟨lit "a", 0, 1⟩], [lit "a is 1"]⟩)
    (by decide +kernel) (by decide +kernel)
  refine ⟨τ, h1, h2, ?_⟩
  rw [h3]
  decide +kernel

/-- The contents after `b`'s belief in an edge was added. -/
def exBeliefDB : DB := (hgAddBelief (sy "b") exShareA 1 (St.new false)).2.disk

/-- C65 needs its hypothesis for beliefs too: `b` believes the edge.  One process adds the same belief for `a`, while
another removes that of `b`: the first finds that the edge exists already, the second that nobody else believes it.
In the end `a` is a source of an edge that does not exist. -/
theorem C65_belief_counterexample :
    ∃ τ, (Sys.start exBeliefDB [[PAct.addBelief (sy "a") exShareA 2], [PAct.removeBelief (sy "b") exShareA]]).Reach τ ∧
      τ.Finished ∧ (hgSources exShareA (reopen τ.db false)).1 = .ok [sy "a"] ∧
      (hgExists exShareA (reopen τ.db false)).1 = .ok false := by
  obtain ⟨τ, h1, h2, h3⟩ := reach_turns
    (σ := Sys.start exBeliefDB [[PAct.addBelief (sy "a") exShareA 2], [PAct.removeBelief (sy "b") exShareA]])
    (List.replicate 12 1 ++ [0, 0, 0] ++ List.replicate 6 1) rfl (by decide +kernel)
  refine ⟨τ, h1, h2, ?_⟩
  rw [h3]
  decide +kernel

/-- Three programs: two add the same edge, the third removes another one and adds it again. -/
def exProgs : List (Program Half) :=
  [[.addMany [exE4, exShareB] 20], [.add exShareB 21], [.remove exShareA, .add exShareA 22]]

/-- Two programs that have no edge in common, but symbols. -/
def exApart : List (Program Half) := [[.add exShareB 21, .remove exShareB], [.remove exShareA, .addMany [exE4, exE3] 22]]

theorem exProgs_over : (∀ p ∈ exProgs, ∀ a ∈ p, a.op.Over PlainVocab) ∧ ∀ p ∈ exApart, ∀ a ∈ p, a.op.Over PlainVocab := by
  have h1 : EdgeOver PlainVocab exE4 := edge_of (by decide +kernel)
  have h2 : EdgeOver PlainVocab exShareA := edge_of (by decide +kernel)
  have h3 : EdgeOver PlainVocab exShareB := edge_of (by decide +kernel)
  have h4 : EdgeOver PlainVocab exE3 := edge_of (by decide +kernel)
  constructor
  · intro p hp a ha
    simp only [exProgs, List.mem_cons, List.not_mem_nil, or_false] at hp
    rcases hp with rfl | rfl | rfl <;> simp only [List.mem_cons, List.not_mem_nil, or_false] at ha
    · subst ha
      exact ⟨by simp, by simp [h1, h3]⟩
    · subst ha; exact h3
    · rcases ha with rfl | rfl <;> exact h2
  · intro p hp a ha
    simp only [exApart, List.mem_cons, List.not_mem_nil, or_false] at hp
    rcases hp with rfl | rfl <;> simp only [List.mem_cons, List.not_mem_nil, or_false] at ha
    · rcases ha with rfl | rfl <;> exact h3
    · rcases ha with rfl | rfl
      · exact h2
      · exact ⟨by simp, by simp [h1, h4]⟩

theorem exShare_ne : (exE4 ≠ exShareA ∧ exShareB ≠ exShareA ∧ exE3 ≠ exShareA ∧ exE4 ≠ exShareB ∧ exE3 ≠ exShareB) ∧
    exShareA ≠ exE4 ∧ exShareA ≠ exShareB ∧ exShareA ≠ exE3 ∧ exShareB ≠ exE4 ∧ exShareB ≠ exE3 := by
  decide +kernel

theorem exProgs_independent : Independent exProgs := by
  obtain ⟨⟨n1, n2, n3, n4, n5⟩, k1, k2, k3, k4, k5⟩ := exShare_ne
  intro i j p q hi hj hij x hp
  have hi' := (List.getElem?_eq_some_iff.1 hi).1
  have hj' := (List.getElem?_eq_some_iff.1 hj).1
  simp only [exProgs, List.length_cons, List.length_nil] at hi' hj'
  have hi2 : i = 0 ∨ i = 1 ∨ i = 2 := by omega
  have hj2 : j = 0 ∨ j = 1 ∨ j = 2 := by omega
  rcases hi2 with rfl | rfl | rfl <;> rcases hj2 with rfl | rfl | rfl <;> first
    | exact absurd rfl hij
    | (cases hi; cases hj
       simp [Program.Touches, Program.Removes, Program.Sees, PAct.Touches, PAct.Removes, PAct.Sees] at hp ⊢
       try grind)

theorem exApart_apart : Apart exApart := by
  obtain ⟨⟨n1, n2, n3, n4, n5⟩, k1, k2, k3, k4, k5⟩ := exShare_ne
  intro i j p q hi hj hij x hp
  have hi' := (List.getElem?_eq_some_iff.1 hi).1
  have hj' := (List.getElem?_eq_some_iff.1 hj).1
  simp only [exApart, List.length_cons, List.length_nil] at hi' hj'
  have hi2 : i = 0 ∨ i = 1 := by omega
  have hj2 : j = 0 ∨ j = 1 := by omega
  rcases hi2 with rfl | rfl <;> rcases hj2 with rfl | rfl <;> first
    | exact absurd rfl hij
    | (cases hi; cases hj
       simp [Program.Touches, Program.Sees, PAct.Touches, PAct.Sees] at hp ⊢
       grind)

/-- A history after which the common symbol is known. -/
def exShareOps : List (Op Half) := [.prim (.add exShareA 1)]

theorem exShareOps_over : ∀ op ∈ exShareOps, op.Over PlainVocab := ops_of (by decide +kernel)

/-- The hypotheses of the theorems are met by these programs, and the results are not trivial: both edges of the
first two programs exist in the end and the degree of the common symbol is the number of its occurrences. -/
example : ∃ s, runOps exShareOps (St.new false) = (.ok (), s) ∧
    (∃ τ, (Sys.start s.disk exProgs).Reach τ ∧ τ.Finished ∧ (hgExists exShareB (reopen τ.db false)).1 = .ok true ∧
      (hgExists exE4 (reopen τ.db false)).1 = .ok true) ∧
    (∃ τ, (Sys.start s.disk exApart).Reach τ ∧ τ.Finished ∧ (Spec.after exShareOps).known (sy "is") ≠ none ∧
      (hgDegree (sy "is") (reopen τ.db false)).1 = .ok 0) := by
  have hV : Vocab (PlainVocab (F := Half)) := plainVocab
  obtain ⟨s, A, hA⟩ := after_exists hV exShareOps exShareOps_over false
  obtain ⟨τ, h1, h2⟩ := reach_finished (Sys.start s.disk exProgs)
  obtain ⟨τ', h1', h2'⟩ := reach_finished (Sys.start s.disk exApart)
  have hk : (Spec.after exShareOps).known (sy "is") ≠ none := by decide +kernel
  obtain ⟨s', e, hS⟩ := C65_result hV exShareOps exShareOps_over s hA.run exProgs_over.1 exProgs_independent h1 h2
  obtain ⟨s2, e2, hD⟩ := C66_degree_partial hV exShareOps exShareOps_over s hA.run exProgs_over.2 exApart_apart h1' h2'
    (sy "is") (plain_of (by decide +kernel)).1 rfl hk
  have hs : s = (runOps exShareOps (St.new false)).2 := by rw [hA.run]
  refine ⟨s, hA.run, ⟨τ, h1, h2, ?_, ?_⟩, ⟨τ', h1', h2', hk, ?_⟩⟩
  · rw [hS.ex _ (edge_of (by decide +kernel)), show s' = (runOps (exProgs.flatten.map PAct.op) s).2 by rw [e], hs]
    decide +kernel
  · rw [hS.ex _ (edge_of (by decide +kernel)), show s' = (runOps (exProgs.flatten.map PAct.op) s).2 by rw [e], hs]
    decide +kernel
  · rw [hD, show s2 = (runOps (exApart.flatten.map PAct.op) s).2 by rw [e2], hs]
    decide +kernel

/-- Three programs with beliefs: one adds and removes beliefs in an edge, one removes by a pattern and adds a belief, the
third adds a belief in the same edge as the second. -/
def exBeliefProgs : List (Program Half) :=
  [[.addBelief (sy "b") exShareA 20, .removeBelief (sy "a") exShareA],
   [.removeByPattern [sy "size", .none, .none], .addBelief (sy "b") exE1 21],
   [.addBelief (sy "a") exE1 22]]

theorem exBeliefProgs_over : ∀ p ∈ exBeliefProgs, ∀ a ∈ p, a.op.Over PlainVocab := by
  have h1 : BeliefOver PlainVocab (sy "b") exShareA := belief_of (by decide +kernel)
  have h2 : BeliefOver PlainVocab (sy "a") exShareA := belief_of (by decide +kernel)
  have h3 : BeliefOver PlainVocab (sy "b") exE1 := belief_of (by decide +kernel)
  have h4 : BeliefOver PlainVocab (sy "a") exE1 := belief_of (by decide +kernel)
  have h5 : PatternOver PlainVocab [sy "size", .none, .none] := pattern_of (by decide +kernel)
  intro p hp a ha
  simp only [exBeliefProgs, List.mem_cons, List.not_mem_nil, or_false] at hp
  rcases hp with rfl | rfl | rfl <;> simp only [List.mem_cons, List.not_mem_nil, or_false] at ha
  · rcases ha with rfl | rfl
    · exact h1
    · exact h2
  · rcases ha with rfl | rfl
    · exact h5
    · exact h3
  · subst ha; exact h4

theorem exBeliefProgs_independent : Independent exBeliefProgs := by
  intro i j p q hi hj hij x hp
  have hi' := (List.getElem?_eq_some_iff.1 hi).1
  have hj' := (List.getElem?_eq_some_iff.1 hj).1
  simp only [exBeliefProgs, List.length_cons, List.length_nil] at hi' hj'
  have hi2 : i = 0 ∨ i = 1 ∨ i = 2 := by omega
  have hj2 : j = 0 ∨ j = 1 ∨ j = 2 := by omega
  have hne : (exE1 : HVal) ≠ exShareA ∧ support exE1 (sy "b") ≠ exShareA ∧ support exE1 (sy "a") ≠ exShareA := by
    decide +kernel
  have hsup : ∀ (src src' : HVal), support exE1 src ≠ support exShareA src' := by
    intro src src' h
    exact hne.1 (support_inj h).1
  have hsup' : ∀ src : HVal, exE1 ≠ support exShareA src := by
    intro src h
    have h : (some (sy "is/1") : Option HVal) = some (.str (lit "src/1")) := congrArg (fun v : HVal => v.elems.head?) h
    exact absurd h (by decide +kernel)
  have hpat : ∀ src : HVal, ¬ Matches [sy "size", .none, .none] (support exShareA src).elems := by
    intro src h
    exact absurd (h.1.resolve_left (by decide +kernel)) (by decide +kernel)
  have hpat' : ¬ Matches [sy "size", .none, .none] (exShareA : HVal).elems ∧
      ¬ Matches [sy "size", .none, .none] (exE1 : HVal).elems ∧
      ¬ Matches [sy "size", .none, .none] (support exE1 (sy "a") : HVal).elems := by decide +kernel
  rcases hi2 with rfl | rfl | rfl <;> rcases hj2 with rfl | rfl | rfl <;> first
    | exact absurd rfl hij
    | (cases hi; cases hj
       simp only [Program.Touches, Program.Removes, Program.Sees, PAct.Touches, PAct.Removes, PAct.Sees, List.mem_cons,
         List.not_mem_nil, or_false, exists_eq_or_imp, exists_eq_left, or_assoc] at hp ⊢
       grind)

/-- The hypotheses of the theorems are met by these programs: the edge that two processes believed has both sources in
the end, the edge matching the pattern is gone, and so is the belief that was removed, but not the edge. -/
example : ∃ s, runOps [.prim (.add exE3 1), .addBelief (sy "a") exShareA 2] (St.new false) = (.ok (), s) ∧
    ∃ τ, (Sys.start s.disk exBeliefProgs).Reach τ ∧ τ.Finished ∧
      (hgExists exE3 s).1 = .ok true ∧ (hgExists exE3 (reopen τ.db false)).1 = .ok false ∧
      (hgExists exShareA (reopen τ.db false)).1 = .ok true ∧
      SameSet (hgSources exE1 (reopen τ.db false)).1 (.ok [sy "b", sy "a"]) ∧
      SameSet (hgSources exShareA (reopen τ.db false)).1 (.ok [sy "b"]) := by
  have hV : Vocab (PlainVocab (F := Half)) := plainVocab
  have ho : ∀ op ∈ ([.prim (.add exE3 1), .addBelief (sy "a") exShareA 2] : List (Op Half)), op.Over PlainVocab :=
    ops_of (by decide +kernel)
  obtain ⟨s, A, hA⟩ := after_exists hV _ ho false
  obtain ⟨τ, h1, h2⟩ := reach_finished (Sys.start s.disk exBeliefProgs)
  obtain ⟨s', e, hS⟩ := C65_result hV _ ho s hA.run exBeliefProgs_over exBeliefProgs_independent h1 h2
  have hs : s = (runOps [.prim (.add exE3 1), .addBelief (sy "a") exShareA 2] (St.new false)).2 := by rw [hA.run]
  have hs' : s' = (runOps (exBeliefProgs.flatten.map PAct.op) s).2 := by rw [e]
  refine ⟨s, hA.run, τ, h1, h2, by rw [hs]; decide +kernel, ?_, ?_, ?_, ?_⟩
  · rw [hS.ex _ (edge_of (by decide +kernel)), hs', hs]; decide +kernel
  · rw [hS.ex _ (edge_of (by decide +kernel)), hs', hs]; decide +kernel
  · have := hS.sources exE1 (plain_of (by decide +kernel)) (plain_of (by decide +kernel))
    rw [show (hgSources exE1 s').1 = .ok [sy "b", sy "a"] by rw [hs', hs]; decide +kernel] at this
    exact this
  · have := hS.sources exShareA (plain_of (by decide +kernel)) (plain_of (by decide +kernel))
    rw [show (hgSources exShareA s').1 = .ok [sy "b"] by rw [hs', hs]; decide +kernel] at this
    exact this

/-- C65_adds: its hypotheses are met by the programs that only add. -/
example : ∃ s, runOps exShareOps (St.new false) = (.ok (), s) ∧
    ∃ τ, (Sys.start s.disk [[.addBelief (sy "a") exE1 3], [PAct.addBelief (sy "b") exE1 4]]).Reach τ ∧ τ.Finished ∧
      (hgExists exE1 (reopen τ.db false)).1 = .ok true ∧ (hgExists (support exE1 (sy "b")) (reopen τ.db false)).1 = .ok true ∧
      (hgExists exE4 (reopen τ.db false)).1 ≠ .ok true := by
  have hV : Vocab (PlainVocab (F := Half)) := plainVocab
  obtain ⟨s, A, hA⟩ := after_exists hV exShareOps exShareOps_over false
  obtain ⟨τ, h1, h2⟩ := reach_finished (Sys.start s.disk [[.addBelief (sy "a") exE1 3], [PAct.addBelief (sy "b") exE1 4]])
  have hp : ∀ p ∈ [[PAct.addBelief (sy "a") exE1 3], [PAct.addBelief (sy "b") exE1 4]], ∀ a ∈ p, a.op.Over (PlainVocab (F := Half)) := by
    have h3 : BeliefOver (PlainVocab (F := Half)) (sy "b") exE1 := belief_of (by decide +kernel)
    have h4 : BeliefOver (PlainVocab (F := Half)) (sy "a") exE1 := belief_of (by decide +kernel)
    intro p hp a ha
    simp only [List.mem_cons, List.not_mem_nil, or_false] at hp
    rcases hp with rfl | rfl <;> simp only [List.mem_cons, List.not_mem_nil, or_false] at ha <;> subst ha
    · exact h4
    · exact h3
  have hno : ∀ p ∈ [[PAct.addBelief (sy "a") exE1 3], [PAct.addBelief (sy "b") (exE1 : HVal) 4]], ∀ x, ¬ Program.Removes p x := by
    intro p hp x
    simp only [List.mem_cons, List.not_mem_nil, or_false] at hp
    rcases hp with rfl | rfl <;> simp [Program.Removes, PAct.Removes]
  have key := C65_adds hV exShareOps exShareOps_over s hA.run hp hno h1 h2
  have hs : s = (runOps exShareOps (St.new false)).2 := by rw [hA.run]
  refine ⟨s, hA.run, τ, h1, h2, ?_, ?_, ?_⟩
  · exact (key _ (edge_of (by decide +kernel))).2 (.inr ⟨_, List.mem_cons_self, _, List.mem_singleton.2 rfl, .inl rfl⟩)
  · exact (key _ (edge_of (by decide +kernel))).2 (.inr ⟨_, List.mem_cons_of_mem _ (List.mem_singleton.2 rfl), _, List.mem_singleton.2 rfl, .inr rfl⟩)
  · rw [Ne, key _ (edge_of (by decide +kernel)), hs]
    rintro (h | ⟨p, hp, h⟩)
    · exact absurd h (by decide +kernel)
    · simp only [List.mem_cons, List.not_mem_nil, or_false] at hp
      rcases hp with rfl | rfl <;> simp only [Program.Touches, PAct.Touches, List.mem_singleton, exists_eq_left] at h <;>
        exact absurd h (by decide +kernel)

end GB
