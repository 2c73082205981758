import Verif.Props.Statements
import Verif.Props.MySql
import Verif.Proofs.MyField

/-!
Property C74: several clients of one MySQL database.  Every statement is a transaction of its own (autocommit), so calls and
batches of different clients interleave statement by statement.
-/

set_option linter.unusedSectionVars false
set_option linter.unusedVariables false

namespace GB

variable {F : Type} [PyFloat F] [DecidableEq F] {V : Val F → Prop}

theorem run_myCall (k : Nat) (c : PCall F) : (c.myConn k).run = c.myRun k := by
  cases c with
  | one a => exact run_myAct k a
  | batch as =>
    show (cBatch (as.map (PAct.myConn k))).run = _
    rw [run_batch, List.map_map]
    congr 2
    funext a
    exact run_myAct k a

theorem exec_disk {α : Type} (p : Stm (Except PyErr α × Option Bool)) (s : St) (ha : s.autocommit = true)
    (hd : s.disk = s.work) : (p.exec s).2.disk = (p.exec s).2.work := by
  induction p generalizing s with
  | ret b => exact hd
  | read k ih => exact ih s.work s ha hd
  | write u k e ih1 ih2 =>
    cases hu : u s.work with
    | none => rw [Stm.exec_refused hu]; exact ih2 s ha hd
    | some w =>
      rw [Stm.exec_write hu, if_pos ha]
      exact ih1 s.work (St.commit { s with work := w }) ha rfl
  | commit k ih => exact ih s.commit ha rfl

/-- What a client does alone. -/
theorem run_solo (k : Nat) (p : List (PCall F)) {s : St} (ha : s.autocommit = true) (hc : s.cur = none) (hd : s.disk = s.work) :
    (cEach (PCall.myConn k) p none).auto.run s.disk =
      ((forEach (PCall.myRun k) p s).1, (forEach (PCall.myRun k) p s).2.disk) := by
  have h1 : forEach (PCall.myRun k) p = (cEach (PCall.myConn k) p).run :=
    (Conn.run_each fun c _ => run_myCall k c).symm
  have h2 : forEach (PCall.myRun k) p s = (cEach (PCall.myConn k) p none).exec s := by
    rw [h1, ← hc]; rfl
  rw [h2, exec_disk _ _ ha hd, hd]
  exact auto_exec _ s ha

theorem reach_ret {db d : DB} {p : Proc Unit} {r : Except PyErr Unit} (h : (Sys.mk db [p]).Reach ⟨d, [.ret r]⟩) :
    p.run db = (r, d) := by
  obtain ⟨q, h1, h2⟩ := reach_single h
  simp only [List.cons.injEq, and_true] at h1
  subst h1
  exact h2.symm

/-- C74: a program of statements, on a connection that nobody disturbs, is the program of Model/MySql.lean; also inside
`batch_exec`; and this is what the client does when it is the only one. -/
theorem C74_same_program (k : Nat) : (∀ (a : PAct F) (s : St), (a.myConn k).run s = a.op.myRun k s) ∧
    (∀ (as : List (PAct F)) (s : St), ((PCall.batch as).myConn k).run s = hgBatchExec (as.map fun a => a.op.myRun k) s) ∧
    ∀ (p : List (PCall F)) (s : St), s.autocommit = true → s.cur = none → s.disk = s.work →
      ∀ τ, (Sys.startMy k s.disk [p]).Reach τ → τ.Finished →
        τ.procs = [.ret (forEach (PCall.myRun k) p s).1] ∧ τ.db = (forEach (PCall.myRun k) p s).2.disk := by
  refine ⟨fun a s => by rw [run_myAct], fun as s => by rw [run_myCall]; rfl, ?_⟩
  intro p s ha hc hd τ h hf
  obtain ⟨q, h1, h2⟩ := reach_single h
  obtain ⟨r, rfl⟩ := hf q (by rw [h1]; simp)
  rw [run_solo k p ha hc hd] at h2
  have h3 : r = _ ∧ τ.db = _ := Prod.mk.inj h2
  exact ⟨by rw [h1, h3.1], h3.2⟩

/-- C74: however the statements are scheduled, the clients all return after finitely many of them. -/
theorem C74_terminates (k : Nat) (db : DB) (progs : List (List (PCall F))) :
    Acc (fun τ σ : Sys => σ.Step τ) (Sys.startMy k db progs) ∧
      ∀ τ, (Sys.startMy k db progs).Reach τ → (¬ ∃ υ, τ.Step υ) → τ.Finished :=
  ⟨step_acc _, fun τ _ h => Classical.byContradiction fun h' => h (step_progress h')⟩

/-! ### clients that do not disturb each other -/

/-- The symbols that are known. -/
def Spec.Symbol (S : Spec F) (v : Val F) : Prop := v.isAtom = true ∧ S.known v ≠ none

/-- The hypotheses about the history before the clients start: it went well, and all of it fits into the keys. -/
structure MyHistory (V : Val F → Prop) (k : Nat) (ops : List (Op F)) (s : St) : Prop where
  over : ∀ op ∈ ops, op.Over V
  smooth : Smooth k Spec.empty Tally.empty (ops.flatMap Op.steps)
  run : myRunOps k ops (St.new true) = (.ok (), s)

theorem MyHistory.sql (hV : Vocab V) {k : Nat} {ops : List (Op F)} {s : St} (h : MyHistory V k ops s) :
    runOps ops (St.new true) = (.ok (), s) := by
  rw [← C68_same_partial hV k ops h.over true h.smooth]; exact h.run

theorem MyHistory.room {k : Nat} {ops : List (Op F)} {s : St} (h : MyHistory V k ops s) : (Spec.after ops).Room k := by
  have hfold : (ops.flatMap Op.steps).foldl Spec.prim Spec.empty = Spec.after ops := by
    rw [foldl_flatMap]
    unfold Spec.after
    congr 1
    funext S o
    exact Op.steps_fold S o
  have hsteps : ∀ p ∈ ops.flatMap Op.steps, p.Over V := by
    intro p hp
    obtain ⟨o, ho, hp⟩ := List.mem_flatMap.1 hp
    exact Op.steps_over (h.over o ho) p hp
  have := Spec.Room.steps (ops.flatMap Op.steps) hsteps (Spec.Room.empty k) h.smooth
  rwa [hfold] at this

theorem known_row {A : Abs F} {S : Spec F} (hA : AbsOk V A) (hR : Rel A S) {v : Val F} (hv : WfVal v)
    (hk : S.known v ≠ none) : KnownRow v A.conc := by
  rw [hR.known v] at hk
  cases hl : lookV v A.verts with
  | none => exact absurd (by unfold tsOf; rw [hl]; rfl) hk
  | some r => exact known_of_lookV ⟨hA.keys, hA.wf⟩ hv hl _

theorem MyHistory.start (hV : Vocab V) {k : Nat} {ops : List (Op F)} {s : St} (h : MyHistory V k ops s) :
    MyStart V k (Spec.after ops).Present (fun v => (Spec.after ops).known v ≠ none) s.disk := by
  obtain ⟨A, hA⟩ := after_of hV h.over (h.sql hV)
  have hroom := h.room.abs hA.ok hA.rel
  have hw : s.disk = A.conc := hA.disk.trans hA.work
  rw [hw]
  refine ⟨⟨rowsOk_conc hA.ok, ⟨?_, ?_⟩, ?_⟩, ?_⟩
  · intro r hr
    obtain ⟨q, hq, rfl⟩ := List.mem_map.1 hr
    exact hroom.1 q hq
  · intro r hr
    obtain ⟨x, hx, hr⟩ := List.mem_flatMap.1 hr
    exact hroom.2 x hx r hr
  · rintro t ⟨v, hv, _, hk, rfl⟩
    exact known_row hA.ok hA.rel (hV.wf v hv) hk
  · intro x n hx hr
    rw [hasRow_conc hV hA.ok hx] at hr
    exact (hA.rel.present x).2 hr.1

/-- No program but number `i` may add or remove `x`. -/
def OnlyBy (progs : List (List (PCall F))) (i : Nat) (x : Val F) : Prop :=
  ∀ (j : Nat) (q : List (PCall F)), progs[j]? = some q → j ≠ i → ¬ Program.Touches (calls q) x

/-- No program but number `i` works on an edge that is `v` or has `v` as an element. -/
def AloneWith (V P : Val F → Prop) (progs : List (List (PCall F))) (i : Nat) (v : Val F) : Prop :=
  ∀ (j : Nat) (q : List (PCall F)), progs[j]? = some q → j ≠ i → ∀ x, EdgeOver V x → Program.Uses P (calls q) x →
    v ≠ x ∧ v ∉ x.elems

/-- The hypotheses about the clients: their calls are over the vocabulary, what they add fits into the keys, and the edges
of different clients have only symbols in common that are known from the start. -/
structure MyClients (V : Val F → Prop) (k : Nat) (S : Spec F) (progs : List (List (PCall F))) : Prop where
  over : ∀ p ∈ progs, ∀ a ∈ calls p, a.op.Over V
  fits : ∀ p ∈ progs, ∀ x, Program.Adds (calls p) x → KeyFits k x
  share : Shareable V S.Present S.Symbol (progs.map calls)

theorem adds_over {a : PAct F} (ha : a.op.Over V) {x : Val F} (h : a.Adds x) : EdgeOver V x := by
  cases a with
  | add e ts => cases h; exact ha
  | addMany es ts => exact ha.2 x h
  | addBelief src e ts =>
    rcases h with rfl | rfl
    · exact ha.edge
    · exact support_over ha
  | addBeliefs src es ts =>
    obtain ⟨e, he, rfl | rfl⟩ := h
    · exact (ha.2 x he).edge
    · exact support_over (ha.2 e he)
  | _ => exact h.elim

/-- The part of client `i`. -/
abbrev partOf (V : Val F → Prop) (S : Spec F) (progs : List (List (PCall F))) (i : Nat) : Field F :=
  fieldOf V S.Present (fun v => S.known v ≠ none) (progs.map calls) i

theorem startMy_proc {k : Nat} {db : DB} {progs : List (List (PCall F))} {i : Nat} {p : Proc Unit}
    (h : (Sys.startMy k db progs).procs[i]? = some p) :
    ∃ prog, progs[i]? = some prog ∧ p = (cEach (PCall.myConn k) prog none).auto := by
  unfold Sys.startMy at h
  rw [List.getElem?_map] at h
  cases hp : progs[i]? with
  | none => rw [hp] at h; cases h
  | some prog => rw [hp] at h; cases h; exact ⟨prog, rfl, rfl⟩

theorem loc_client (hV : Vocab V) {k : Nat} {S : Spec F} {progs : List (List (PCall F))} (hC : MyClients V k S progs) {db : DB}
    (hdb : MyStart V k S.Present (fun v => S.known v ≠ none) db) {i : Nat} {p : List (PCall F)} (hi : progs[i]? = some p) :
    (cEach (PCall.myConn k) p none).auto.Loc (Alike V k (partOf V S progs i)) (MyMoves V k (partOf V S progs i)) := by
  have hX := field_ok hV hC.share hdb i
  have hi' : (progs.map calls)[i]? = some (calls p) := by rw [List.getElem?_map, hi]; rfl
  have hpm := List.mem_of_getElem? hi
  refine Stm.Local.auto (fun db d h => MyMoves.refl h) (Conn.Loc.each (xs := p) (f := PCall.myConn k) ?_ none (by simp))
  intro c hc
  refine in_call fun a ha => ?_
  have hac : a ∈ calls p := List.mem_flatMap.2 ⟨c, hc, ha⟩
  have hov := hC.over p hpm a hac
  refine in_act hV hX hov (fun x hx => ?_) (fun x hx ht => ?_) (fun x hx hs => ?_)
  · exact ⟨⟨adds_over hov hx, calls p, hi', .inl ⟨a, hac, hx⟩⟩, hC.fits p hpm x ⟨a, hac, hx⟩⟩
  · exact ⟨own_sees hC.share.apart hi' hx (.inl ⟨a, hac, ht⟩), calls p, hi', a, hac, ht⟩
  · exact own_sees hC.share.apart hi' hx (.inr ⟨a, hac, hs⟩)

/-- Every client is where it could be alone. -/
theorem clients_alone (hV : Vocab V) {k : Nat} {S : Spec F} {progs : List (List (PCall F))} (hC : MyClients V k S progs)
    {db : DB} (hdb : MyStart V k S.Present (fun v => S.known v ≠ none) db) {τ : Sys}
    (h : (Sys.startMy k db progs).Reach τ) {cnt : DB → Int}
    (hcnt : ∀ i db db' d d', MyMoves V k (partOf V S progs i) db db' d d' → cnt db' - cnt db = cnt d' - cnt d) :
    ∃ ds : List DB, ds.length = progs.length ∧
      cnt τ.db - cnt db = (ds.map fun d => cnt d - cnt db).sum ∧
      ∀ (i : Nat) (p : List (PCall F)) (r : Except PyErr Unit) (d : DB), progs[i]? = some p → τ.procs[i]? = some (.ret r) →
        ds[i]? = some d → Alike V k (partOf V S progs i) τ.db d ∧ (cEach (PCall.myConn k) p none).auto.run db = (r, d) := by
  have hlen : (Sys.startMy k db progs).procs.length = progs.length := by simp [Sys.startMy]
  obtain ⟨ds, h1, h2, h3⟩ := Sys.Reach.alone (A := fun i => Alike V k (partOf V S progs i))
    (H := fun i => MyMoves V k (partOf V S progs i)) (cnt := cnt) h
    (fun i _ => start_alike hdb i)
    (fun i p hp => by
      obtain ⟨prog, hi, rfl⟩ := startMy_proc hp
      exact loc_client hV hC hdb hi)
    (fun i j _ _ hij db db' d d' x hm ha => moves_alike hV hij hm ha)
    (fun i _ db db' d d' hm => hcnt i db db' d d' hm)
  refine ⟨ds, by rw [h1, h.length, hlen], h2, ?_⟩
  intro i p r d hi hr hd
  obtain ⟨k1, _, p0, k2, k3⟩ := h3 i _ d hr hd
  obtain ⟨prog, k4, rfl⟩ := startMy_proc k2
  rw [hi] at k4
  cases k4
  exact ⟨k1, reach_ret k3⟩

theorem client_alike (hV : Vocab V) {k : Nat} {ops : List (Op F)} {s : St} (hH : MyHistory V k ops s)
    {progs : List (List (PCall F))} (hC : MyClients V k (Spec.after ops) progs) {τ : Sys}
    (h : (Sys.startMy k s.disk progs).Reach τ) {i : Nat} {p : List (PCall F)} (hi : progs[i]? = some p)
    {r : Except PyErr Unit} (hr : τ.procs[i]? = some (.ret r)) :
    (forEach (PCall.myRun k) p s).1 = r ∧
      Alike V k (partOf V (Spec.after ops) progs i) τ.db (forEach (PCall.myRun k) p s).2.disk := by
  obtain ⟨A, hA⟩ := after_of hV hH.over (hH.sql hV)
  obtain ⟨ds, h1, _, h3⟩ := clients_alone hV hC (hH.start hV) h (cnt := fun _ => 0) (fun _ _ _ _ _ _ => rfl)
  have hlt : i < ds.length := by rw [h1]; exact (List.getElem?_eq_some_iff.1 hi).1
  obtain ⟨k1, k2⟩ := h3 i p r ds[i] hi hr (List.getElem?_eq_getElem hlt)
  rw [run_solo k p hA.auto hA.idle hA.disk] at k2
  obtain ⟨k3, k4⟩ := Prod.mk.inj k2
  exact ⟨k3, k4 ▸ k1⟩

theorem onlyBy_own {S : Spec F} {progs : List (List (PCall F))} {i : Nat} {x : Val F} (hx : EdgeOver V x)
    (h : OnlyBy progs i x) : (partOf V S progs i).own x := by
  refine ⟨hx, fun j q hq hj ht => ?_⟩
  rw [List.getElem?_map] at hq
  cases hp : progs[j]? with
  | none => rw [hp] at hq; cases hq
  | some q' => rw [hp] at hq; cases hq; exact h j q' hp hj ht

theorem timestamp_here (v : Val F) (db : DB) (auto : Bool) : (hgTimestamp v (reopen db auto)).1 =
    .ok (match db.selectVertex (edge2str v) with | [] => -1 | r :: _ => r.timestamp) := by
  unfold hgTimestamp sqlTimestamp
  have hu : (reopen db auto).usable := by simp [St.usable, reopen]
  rw [bind_run _ _ _ (openCursor_local _), bind_run _ _ _ (execRead_local hu _ _)]
  have hw : (reopen db auto).work = db := rfl
  rw [hw]
  cases db.selectVertex (edge2str v) with
  | nil => rfl
  | cons r _ => rfl

/-- C74: whatever the order in which the server executes the statements of the clients, and wherever the others are, a
client that returned has the result it would have had alone (the same exception if it raised one), and it sees what it would
see alone: every edge that no other client may add or remove, every query for such edges, and the degree of
everything that the other clients do not work with. -/
theorem C74_alone (hV : Vocab V) (k : Nat) (ops : List (Op F)) (s : St) (hH : MyHistory V k ops s)
    (progs : List (List (PCall F))) (hC : MyClients V k (Spec.after ops) progs) (τ : Sys)
    (h : (Sys.startMy k s.disk progs).Reach τ) (i : Nat) (p : List (PCall F)) (hi : progs[i]? = some p)
    (r : Except PyErr Unit) (hr : τ.procs[i]? = some (.ret r)) :
    ∃ s', forEach (PCall.myRun k) p s = (r, s') ∧
      (∀ x, EdgeOver V x → OnlyBy progs i x →
        (hgExists x (reopen τ.db true)).1 = (hgExists x (reopen s'.disk true)).1) ∧
      (∀ ps, PatternOver V ps → (∀ x, EdgeOver V x → Matches ps x.elems → OnlyBy progs i x) →
        (hgPattern2edges (.tup ps) (reopen τ.db true)).1 = (hgPattern2edges (.tup ps) (reopen s'.disk true)).1) ∧
      (∀ v, V v → AloneWith V (Spec.after ops).Present progs i v →
        (hgDegree v (reopen τ.db true)).1 = (hgDegree v (reopen s'.disk true)).1 ∧
        (hgTimestamp v (reopen τ.db true)).1 = (hgTimestamp v (reopen s'.disk true)).1) := by
  obtain ⟨h1, h2⟩ := client_alike hV hH hC h hi hr
  have hpat : ∀ ps, PatternOver V ps → (∀ x, EdgeOver V x → Matches ps x.elems → OnlyBy progs i x) →
      (pattern2edges (.seq false ps) (reopen τ.db false)).1 =
        (pattern2edges (.seq false ps) (reopen (forEach (PCall.myRun k) p s).2.disk false)).1 := fun ps hps hm =>
    pattern_frame hV hps (fun x hx hx' => (onlyBy_own hx (hm x hx hx') : (partOf V (Spec.after ops) progs i).own x))
      h2.inv.rows h2.inv'.rows h2.rows
  have hre : ∀ (db : DB) (q : Val F), (pattern2edges q (reopen db true)).1 = (pattern2edges q (reopen db false)).1 :=
    fun db q => (sync_pattern2edges q (reopen db true) (reopen db false) rfl (usable_reopen db true) (usable_reopen db false)).1
  refine ⟨(forEach (PCall.myRun k) p s).2, Prod.ext h1 rfl, ?_, ?_, ?_⟩
  · intro x hx hu
    have hre' : ∀ db : DB, (existsM x (reopen db true)).1 = (existsM x (reopen db false)).1 :=
      fun db => (sync_existsM x (reopen db true) (reopen db false) rfl (usable_reopen db true) (usable_reopen db false)).1
    have hself : ∀ y, EdgeOver V y → Matches x.elems y.elems → x = y := fun y hy hm =>
      hx.eq_of_elems hy ((Matches.self_iff (fun p hp => V_ne_none hV (hx.mem p hp))).1 hm)
    have := hpat x.elems hx.pattern fun y hy hm => hself y hy hm ▸ hu
    rw [show (Val.seq false x.elems) = x from hx.tup_elems.symm] at this
    unfold hgExists
    rw [hre', hre']
    obtain ⟨b, e1, _⟩ := exists_rows hV hx (usable_reopen τ.db false) h2.inv.rows
    unfold existsM
    revert this
    have hro := readOnly_pattern x (F := F)
    generalize hA : pattern2edges x (reopen τ.db false) = a
    generalize hB : pattern2edges x (reopen (forEach (PCall.myRun k) p s).2.disk false) = b
    intro hab
    have h3 : ∀ (m : M (List (Val F))) (t : St), ((m >>= fun es => (pure (decide (es.length > 0)) : M Bool)) t).1 =
        (m t).1.map fun es => decide (es.length > 0) := by
      intro m t
      cases hm : m t with
      | mk r t' =>
        cases r with
        | ok a => rw [bind_run _ _ _ hm]; rfl
        | error e => rw [bind_err _ _ _ hm]; rfl
    rw [h3, h3, hA, hB, hab]
  · intro ps hps hm
    unfold hgPattern2edges
    rw [hre, hre]
    exact hpat ps hps hm
  · intro v hv hal
    have hsel : τ.db.selectVertex (edge2str v) = (forEach (PCall.myRun k) p s).2.disk.selectVertex (edge2str v) := by
      refine h2.verts _ ?_
      rintro j q hq hj ⟨y, ⟨hy, hu⟩, hw⟩
      rw [List.getElem?_map] at hq
      cases hp : progs[j]? with
      | none => rw [hp] at hq; cases hq
      | some q' =>
        rw [hp] at hq
        cases hq
        obtain ⟨n1, n2⟩ := hal j q' hp hj y hy hu
        rcases hw with hw | ⟨w, hw, he⟩
        · exact n1 (edge2str_inj (hV.wf v hv) (hy.wf hV) hw)
        · exact n2 (edge2str_inj (hV.wf v hv) (hV.wf w (hy.mem w hw)) he ▸ hw)
    refine ⟨?_, ?_⟩
    · rw [degree_here, degree_here]
      unfold degRow
      rw [hsel]
    · rw [timestamp_here, timestamp_here, hsel]

/-! ### the order does not matter -/

/-- What client `p` does alone on `db`. -/
abbrev soloRun (k : Nat) (p : List (PCall F)) (db : DB) : Except PyErr Unit × DB :=
  (cEach (PCall.myConn k) p none).auto.run db

theorem clients_end (hV : Vocab V) {k : Nat} {S : Spec F} {progs : List (List (PCall F))} (hC : MyClients V k S progs)
    {db : DB} (hdb : MyStart V k S.Present (fun v => S.known v ≠ none) db) {τ : Sys}
    (h : (Sys.startMy k db progs).Reach τ) (hf : τ.Finished) :
    τ.procs = progs.map (fun p => .ret (soloRun k p db).1) ∧
    (∀ (i : Nat) (p : List (PCall F)), progs[i]? = some p → Alike V k (partOf V S progs i) τ.db (soloRun k p db).2) ∧
    ∀ cnt : DB → Int, (∀ i db db' d d', MyMoves V k (partOf V S progs i) db db' d d' → cnt db' - cnt db = cnt d' - cnt d) →
      cnt τ.db - cnt db = (progs.map fun p => cnt (soloRun k p db).2 - cnt db).sum := by
  have hlen : τ.procs.length = progs.length := by rw [h.length]; simp [Sys.startMy]
  have key : ∀ cnt : DB → Int,
      (∀ i db db' d d', MyMoves V k (partOf V S progs i) db db' d d' → cnt db' - cnt db = cnt d' - cnt d) →
      (∀ (i : Nat) (p : List (PCall F)), progs[i]? = some p → τ.procs[i]? = some (.ret (soloRun k p db).1) ∧
        Alike V k (partOf V S progs i) τ.db (soloRun k p db).2) ∧
      cnt τ.db - cnt db = (progs.map fun p => cnt (soloRun k p db).2 - cnt db).sum := by
    intro cnt hcnt
    obtain ⟨ds, h1, h2, h3⟩ := clients_alone hV hC hdb h hcnt
    have hat : ∀ (i : Nat) (p : List (PCall F)), progs[i]? = some p → ∃ r d, τ.procs[i]? = some (.ret r) ∧ ds[i]? = some d ∧
        Alike V k (partOf V S progs i) τ.db d ∧ soloRun k p db = (r, d) := by
      intro i p hi
      have hlt := (List.getElem?_eq_some_iff.1 hi).1
      have hp : τ.procs[i]? = some τ.procs[i] := List.getElem?_eq_getElem (by omega)
      obtain ⟨r, hr⟩ := hf _ (List.mem_of_getElem? hp)
      rw [hr] at hp
      have hd : ds[i]? = some ds[i] := List.getElem?_eq_getElem (by omega)
      exact ⟨r, ds[i], hp, hd, h3 i p r _ hi hp hd⟩
    refine ⟨fun i p hi => ?_, ?_⟩
    · obtain ⟨r, d, e1, _, e3, e4⟩ := hat i p hi
      rw [e4]
      exact ⟨e1, e3⟩
    · rw [h2]
      refine sum_ext (by simp [h1]) ?_
      intro i c d hc hd
      rw [List.getElem?_map] at hc hd
      cases hi : progs[i]? with
      | none => rw [hi] at hd; cases hd
      | some p =>
        obtain ⟨r, d', _, e2, _, e4⟩ := hat i p hi
        rw [hi] at hd
        rw [e2] at hc
        cases hc
        cases hd
        show cnt d' - cnt db = cnt (soloRun k p db).2 - cnt db
        rw [e4]
  obtain ⟨k1, _⟩ := key (fun _ => 0) (fun _ _ _ _ _ _ => rfl)
  refine ⟨?_, fun i p hi => (k1 i p hi).2, fun cnt hcnt => (key cnt hcnt).2⟩
  apply List.ext_getElem?
  intro i
  rw [List.getElem?_map]
  cases hi : progs[i]? with
  | none => exact List.getElem?_eq_none (by rw [hlen]; exact List.getElem?_eq_none_iff.1 hi)
  | some p => exact (k1 i p hi).1

theorem reach_nil {db : DB} {τ : Sys} (h : (Sys.mk db []).Reach τ) : τ = ⟨db, []⟩ := by
  induction h with
  | refl => rfl
  | step _ hs ih =>
    subst ih
    cases hs with
    | tx i hp => simp at hp

theorem hasRow_alike {X : Field F} {k : Nat} {a d : DB} (h : Alike V k X a d) {x : Val F} (hx : EdgeOver V x) (ho : X.own x)
    (n : Nat) : HasRow a.perms x n ↔ HasRow d.perms x n := by
  refine and_congr_right fun hn => ?_
  have hr : RowIn V X.own (rowOf x.elems n) := rowIn_of ho hx hn
  have : rowOf x.elems n ∈ rowsIn V X.own a.perms ↔ rowOf x.elems n ∈ rowsIn V X.own d.perms := by rw [h.rows]
  rw [mem_rowsIn, mem_rowsIn] at this
  simpa [hr] using this

theorem getElem?_calls {progs : List (List (PCall F))} {j : Nat} {q : Program F} (h : (progs.map calls)[j]? = some q) :
    ∃ q', progs[j]? = some q' ∧ q = calls q' := by
  rw [List.getElem?_map] at h
  cases hp : progs[j]? with
  | none => rw [hp] at h; cases h
  | some q' => rw [hp] at h; cases h; exact ⟨q', rfl, rfl⟩

/-- Two finished executions. -/
theorem ends_same (hV : Vocab V) {k : Nat} {S : Spec F} {progs : List (List (PCall F))} (hC : MyClients V k S progs)
    {db : DB} (hdb : MyStart V k S.Present (fun v => S.known v ≠ none) db) {τ υ : Sys}
    (h : (Sys.startMy k db progs).Reach τ) (hf : τ.Finished) (h' : (Sys.startMy k db progs).Reach υ) (hf' : υ.Finished) :
    τ.procs = υ.procs ∧ (RowsOk V τ.db.perms ∧ RowsOk V υ.db.perms ∧ SameRows V τ.db.perms υ.db.perms) ∧
      ∀ t, degAt t τ.db = degAt t υ.db ∧ tsAt t τ.db = tsAt t υ.db := by
  cases hnil : progs with
  | nil =>
    rw [hnil] at h h'
    rw [reach_nil h, reach_nil h']
    exact ⟨rfl, ⟨hdb.inv.rows, hdb.inv.rows, fun _ _ _ => Iff.rfl⟩, fun _ => ⟨rfl, rfl⟩⟩
  | cons p0 ps =>
    have h0 : progs[0]? = some p0 := by rw [hnil]; rfl
    obtain ⟨a1, a2, a3⟩ := clients_end hV hC hdb h hf
    obtain ⟨b1, b2, b3⟩ := clients_end hV hC hdb h' hf'
    refine ⟨by rw [a1, b1], ⟨(a2 0 p0 h0).inv.rows, (b2 0 p0 h0).inv.rows, ?_⟩, ?_⟩
    · intro x hx n
      have hown : ∃ (i : Nat) (p : List (PCall F)), progs[i]? = some p ∧ (partOf V S progs i).own x := by
        by_cases ht : ∃ (i : Nat) (p : List (PCall F)), progs[i]? = some p ∧ Program.Touches (calls p) x
        · obtain ⟨i, p, hi, ht⟩ := ht
          exact ⟨i, p, hi, own_sees hC.share.apart (by rw [List.getElem?_map, hi]; rfl) hx (.inl ht)⟩
        · refine ⟨0, p0, h0, onlyBy_own hx fun j q hq _ hqt => ht ⟨j, q, hq, hqt⟩⟩
      obtain ⟨i, p, hi, ho⟩ := hown
      rw [hasRow_alike (a2 i p hi) hx ho, hasRow_alike (b2 i p hi) hx ho]
    · intro t
      by_cases hs : SymText V (fun v => S.known v ≠ none) t
      · have c1 := a3 (degAt t) fun i _ _ _ _ hm => (hm.deg t hs).1
        have c2 := b3 (degAt t) fun i _ _ _ _ hm => (hm.deg t hs).1
        have c3 := a3 (tsAt t) fun i _ _ _ _ hm => (hm.deg t hs).2
        have c4 := b3 (tsAt t) fun i _ _ _ _ hm => (hm.deg t hs).2
        omega
      · have hown : ∃ (i : Nat) (p : List (PCall F)), progs[i]? = some p ∧ (partOf V S progs i).verts t := by
          by_cases hw : ∃ (i : Nat) (p : List (PCall F)), progs[i]? = some p ∧ WorksOn V S.Present (calls p) t
          · obtain ⟨i, p, hi, hw⟩ := hw
            refine ⟨i, p, hi, fun j q hq hj hwq => hs ?_⟩
            have hi' : (progs.map calls)[i]? = some (calls p) := by rw [List.getElem?_map, hi]; rfl
            obtain ⟨y, ⟨hy, huy⟩, hyt⟩ := hw
            obtain ⟨z, ⟨hz, huz⟩, hzt⟩ := hwq
            have hel := hC.share.elems i j _ _ hi' hq (fun h => hj h.symm) y z hy hz huy huz
            have hel' := hC.share.elems j i _ _ hq hi' hj z y hz hy huz huy
            have hap := hC.share.apart i j _ _ hi' hq (fun h => hj h.symm) y (uses_touches huy)
            rcases hyt with hyt | ⟨v, hv, hyt⟩ <;> rcases hzt with hzt | ⟨w, hw, hzt⟩
            · have : y = z := edge2str_inj (hy.wf hV) (hz.wf hV) (hyt.symm.trans hzt)
              exact absurd (this ▸ uses_touches huz) hap.1
            · have : y = w := edge2str_inj (hy.wf hV) (hV.wf w (hz.mem w hw)) (hyt.symm.trans hzt)
              exact absurd (this ▸ hw) hel.1
            · have : z = v := edge2str_inj (hz.wf hV) (hV.wf v (hy.mem v hv)) (hzt.symm.trans hyt)
              exact absurd (this ▸ hv) hel'.1
            · have : v = w := edge2str_inj (hV.wf v (hy.mem v hv)) (hV.wf w (hz.mem w hw)) (hyt.symm.trans hzt)
              subst this
              have hk := hel.2 v hv hw
              exact ⟨v, hy.mem v hv, hk.1, hk.2, hyt⟩
          · refine ⟨0, p0, h0, fun j q hq _ hwq => ?_⟩
            obtain ⟨q', hq', rfl⟩ := getElem?_calls hq
            exact hw ⟨j, q', hq', hwq⟩
        obtain ⟨i, p, hi, hv⟩ := hown
        have e : τ.db.selectVertex t = υ.db.selectVertex t := by rw [(a2 i p hi).verts t hv, (b2 i p hi).verts t hv]
        exact ⟨degAt_eq e, tsAt_eq e⟩

/-- All queries over the vocabulary agree, and so do all degrees and time stamps. -/
structure SameGraph (V : Val F → Prop) (s s' : St) : Prop where
  edges : SameEdges V s s'
  degree : ∀ v : Val F, (hgDegree v s).1 = (hgDegree v s').1
  timestamp : ∀ v : Val F, (hgTimestamp v s).1 = (hgTimestamp v s').1

theorem sameGraph_of (hV : Vocab V) {a b : DB} (h1 : RowsOk V a.perms) (h2 : RowsOk V b.perms) (h3 : SameRows V a.perms b.perms)
    (h4 : ∀ t, degAt t a = degAt t b ∧ tsAt t a = tsAt t b) : SameGraph V (reopen a true) (reopen b true) := by
  refine ⟨sameEdges_rows hV rfl rfl h1 h2 h3, fun v => ?_, fun v => ?_⟩
  · rw [degree_here, degree_here]
    exact congrArg Except.ok (h4 (edge2str v)).1
  · rw [timestamp_here, timestamp_here]
    exact congrArg Except.ok (h4 (edge2str v)).2

/-- C74: whatever the order of the statements, when all clients have returned their results are the same, and so are the
answers to all queries. -/
theorem C74_order (hV : Vocab V) (k : Nat) (ops : List (Op F)) (s : St) (hH : MyHistory V k ops s)
    (progs : List (List (PCall F))) (hC : MyClients V k (Spec.after ops) progs) (τ υ : Sys)
    (h : (Sys.startMy k s.disk progs).Reach τ) (hf : τ.Finished) (h' : (Sys.startMy k s.disk progs).Reach υ)
    (hf' : υ.Finished) : τ.procs = υ.procs ∧ SameGraph V (reopen τ.db true) (reopen υ.db true) := by
  obtain ⟨k1, ⟨k2, k3, k4⟩, k5⟩ := ends_same hV hC (hH.start hV) h hf h' hf'
  exact ⟨k1, sameGraph_of hV k2 k3 k4 k5⟩

/-- The clients one after the other, each with a connection of its own: their results, and the contents in the end. -/
def oneByOne (k : Nat) : List (List (PCall F)) → DB → List (Except PyErr Unit) × DB
  | [], db => ([], db)
  | p :: ps, db =>
    let (r, s) := forEach (PCall.myRun k) p (reopen db true)
    let (rs, d) := oneByOne k ps s.disk
    (r :: rs, d)

theorem reach_first {a : DB} (p : Proc Unit) (pre ps : List (Proc Unit)) :
    (Sys.mk a (pre ++ p :: ps)).Reach ⟨(p.run a).2, pre ++ .ret (p.run a).1 :: ps⟩ := by
  induction p generalizing a with
  | ret r => exact .refl
  | tx u n ih =>
    refine reach_step (τ := ⟨u a, pre ++ n a :: ps⟩) ?_ (ih a)
    have := Sys.Step.tx (db := a) (procs := pre ++ .tx u n :: ps) (upd := u) (next := n) pre.length (by simp)
    simpa using this

theorem reach_oneByOne (k : Nat) (progs : List (List (PCall F))) (pre : List (Proc Unit)) (db : DB) :
    (Sys.mk db (pre ++ (Sys.startMy k db progs).procs)).Reach
      ⟨(oneByOne k progs db).2, pre ++ (oneByOne k progs db).1.map .ret⟩ := by
  induction progs generalizing pre db with
  | nil => exact .refl
  | cons p ps ih =>
    have h1 := run_solo k p (s := reopen db true) rfl rfl rfl
    have h2 := reach_first (a := db) (cEach (PCall.myConn k) p none).auto pre (Sys.startMy k db ps).procs
    rw [show db = (reopen db true).disk from rfl, h1] at h2
    refine reach_trans h2 ?_
    have := ih (pre ++ [.ret (forEach (PCall.myRun k) p (reopen db true)).1]) (forEach (PCall.myRun k) p (reopen db true)).2.disk
    simpa [List.append_assoc, oneByOne, Sys.startMy] using this

/-- C74: whatever the order of the statements, in the end the clients have the results they would have had one after the
other, and all queries get the answers they would get then. -/
theorem C74_serial (hV : Vocab V) (k : Nat) (ops : List (Op F)) (s : St) (hH : MyHistory V k ops s)
    (progs : List (List (PCall F))) (hC : MyClients V k (Spec.after ops) progs) (τ : Sys)
    (h : (Sys.startMy k s.disk progs).Reach τ) (hf : τ.Finished) :
    τ.procs = (oneByOne k progs s.disk).1.map .ret ∧
      SameGraph V (reopen τ.db true) (reopen (oneByOne k progs s.disk).2 true) := by
  refine C74_order hV k ops s hH progs hC τ ⟨_, _⟩ h hf (reach_oneByOne k progs [] s.disk) ?_
  intro p hp
  obtain ⟨r, _, rfl⟩ := List.mem_map.1 hp
  exact ⟨r, rfl⟩

/-! ### no exceptions -/

/-- The call as an operation of Spec/History.lean (in a batch, the single calls). -/
def PCall.op : PCall F → Op F
  | .one a => a.op
  | .batch as => .batch (as.flatMap fun a => a.op.steps)

theorem single_steps {a : PAct F} (h : a.Single) : ∃ q, a.op = .prim q := by
  cases a <;> first | exact ⟨_, rfl⟩ | exact h.elim

theorem PCall.op_run (k : Nat) {c : PCall F} (hc : c.Over V) : c.myRun k = c.op.myRun k := by
  cases c with
  | one a => rfl
  | batch as =>
    show hgBatchExec _ = hgBatchExec ((as.flatMap fun a => a.op.steps).map (Prim.myRun k))
    congr 1
    induction as with
    | nil => rfl
    | cons a as ih =>
      obtain ⟨q, hq⟩ := single_steps (hc a (by simp)).2
      rw [List.map_cons, List.flatMap_cons, List.map_append, ih fun b hb => hc b (by simp [hb]), hq]
      rfl

theorem PCall.op_steps (c : PCall F) : c.op.steps = c.acts.flatMap fun a => a.op.steps := by
  cases c with
  | one a => simp [PCall.op, PCall.acts]
  | batch as => rfl

theorem PCall.op_over {c : PCall F} (hc : c.Over V) : c.op.Over V := by
  cases c with
  | one a => exact hc
  | batch as =>
    intro q hq
    obtain ⟨a, ha, hq⟩ := List.mem_flatMap.1 hq
    exact Op.steps_over (hc a ha).1 q hq

/-- The edges that the calls add and remove, one by one. -/
def stepsOf (p : Program F) : List (Prim F) := p.flatMap fun a => a.op.steps

theorem steps_calls (p : List (PCall F)) : (p.map PCall.op).flatMap Op.steps = stepsOf (calls p) := by
  unfold stepsOf calls
  rw [List.flatMap_map, List.flatMap_assoc]
  congr 1
  funext c
  exact PCall.op_steps c

theorem fold_steps (ops : List (Op F)) (S : Spec F) : (ops.flatMap Op.steps).foldl Spec.prim S = ops.foldl Spec.op S := by
  rw [foldl_flatMap]
  congr 1
  funext S o
  exact Op.steps_fold S o

theorem solo_ok (hV : Vocab V) {k : Nat} {ops : List (Op F)} {s : St} (hH : MyHistory V k ops s) {p : List (PCall F)}
    (hp : ∀ c ∈ p, c.Over V) (hsm : Smooth k (Spec.after ops) (Tally.after ops) (stepsOf (calls p))) :
    ∃ s', forEach (PCall.myRun k) p s = (.ok (), s') ∧
      Shows V s' (((calls p).map PAct.op).foldl Spec.op (Spec.after ops)) := by
  have hov : ∀ o ∈ p.map PCall.op, o.Over V := by
    intro o ho
    obtain ⟨c, hc, rfl⟩ := List.mem_map.1 ho
    exact PCall.op_over (hp c hc)
  have hS := shows_of hV hH.over (hH.sql hV)
  obtain ⟨B, hB, hT, _, hw⟩ := tallied_of hV hH.over (hH.sql hV)
  have h1 : forEach (PCall.myRun k) p s = myRunOps k (p.map PCall.op) s := by
    unfold myRunOps
    rw [forEach_map, forEach_congr fun c hc => PCall.op_run k (hp c hc)]
  have h2 : myRunOps k (p.map PCall.op) s = runOps (p.map PCall.op) s :=
    myRunOps_same hV _ hov ⟨hS.ex, B, hB, hT, hw⟩ hS.idle hH.room (by rw [steps_calls]; exact hsm)
  obtain ⟨s', h3, h4⟩ := hS.ops hV hov
  refine ⟨s', by rw [h1, h2, h3], ?_⟩
  have h5 : (p.map PCall.op).foldl Spec.op (Spec.after ops) = ((calls p).map PAct.op).foldl Spec.op (Spec.after ops) := by
    rw [← fold_steps, ← fold_steps, steps_calls, List.flatMap_map]
    rfl
  rwa [h5] at h4

/-- The further hypotheses for the absence of exceptions: in batches are only calls that work there (see C35), and no
program alone adds an edge whose old vertex, without occurrences, has just the time stamp of the addition (see C68). -/
structure MyCalm (V : Val F → Prop) (k : Nat) (ops : List (Op F)) (progs : List (List (PCall F))) : Prop where
  batches : ∀ p ∈ progs, ∀ c ∈ p, c.Over V
  smooth : ∀ p ∈ progs, Smooth k (Spec.after ops) (Tally.after ops) (stepsOf (calls p))

/-- C74: then no call of any client raises. -/
theorem C74_no_error (hV : Vocab V) (k : Nat) (ops : List (Op F)) (s : St) (hH : MyHistory V k ops s)
    (progs : List (List (PCall F))) (hC : MyClients V k (Spec.after ops) progs) (hM : MyCalm V k ops progs) (τ : Sys)
    (h : (Sys.startMy k s.disk progs).Reach τ) (p : Proc Unit) (hp : p ∈ τ.procs) (r : Except PyErr Unit)
    (hr : p = .ret r) : r = .ok () := by
  subst hr
  obtain ⟨i, hi⟩ := List.getElem?_of_mem hp
  have hlen : τ.procs.length = progs.length := by rw [h.length]; simp [Sys.startMy]
  have hlt : i < progs.length := by rw [← hlen]; exact (List.getElem?_eq_some_iff.1 hi).1
  have hpi : progs[i]? = some progs[i] := List.getElem?_eq_getElem hlt
  obtain ⟨h1, _⟩ := client_alike hV hH hC h hpi hi
  obtain ⟨s', h2, _⟩ := solo_ok hV hH (hM.batches _ (List.mem_of_getElem? hpi)) (hM.smooth _ (List.mem_of_getElem? hpi))
  rw [h2] at h1
  exact h1.symm

theorem solo_degree (hV : Vocab V) {ops : List (Op F)} {auto : Bool} {s : St} (hops : ∀ o ∈ ops, o.Over V)
    (hs : runOps ops (St.new auto) = (.ok (), s)) {p : Program F} (hp : ∀ a ∈ p, a.op.Over V) {s' : St}
    (hS' : Shows V s' ((p.map PAct.op).foldl Spec.op (Spec.after ops))) {v : Val F} (hv : WfVal v) (ha : v.isAtom = true)
    (hk : (Spec.after ops).known v ≠ none) :
    degRow v s'.work = degRow v s.work + gainAll (some v) (Spec.after ops).Present p := by
  have hS := shows_of hV hops hs
  have hI := indexOf_shows hV hS
  have hknown : KnownRow v s.work := by
    obtain ⟨A, hA, hR, hw⟩ := hS.ex
    rw [hw]
    exact known_row hA hR hv hk
  have ho : ∀ o ∈ p.map PAct.op, o.Over V := by
    intro o ho
    obtain ⟨a, ha, rfl⟩ := List.mem_map.1 ho
    exact hp a ha
  obtain ⟨s1, e, hS1⟩ := hS.ops hV ho
  have hseq := reach_run (db := s.work) (programP p)
  have hfin : (Sys.mk ((programP p).run s.work).2 [Proc.ret ((programP p).run s.work).1]).Finished := by
    intro q hq
    simp only [List.mem_singleton] at hq
    exact ⟨_, hq⟩
  obtain ⟨h2, _⟩ := C65_alone hS.idle e (τ := ⟨_, _⟩) hseq hfin
  change ((programP p).run s.work).2 = s1.work at h2
  have h3 := degree_end hV hv ha hI (shows_over hV hS) hknown (progs := [p]) (by simpa using hp) (Apart.single _) hseq hfin
  simp only [List.flatten_cons, List.flatten_nil, List.append_nil] at h3
  rw [h2] at h3
  rw [← h3]
  obtain ⟨l, hl⟩ := hS'.lists
  have d1 := hS'.degree hv ha hl
  have d2 := hS1.degree hv ha hl
  have d3 : ∀ {t : St} {S : Spec F}, Shows V t S → (hgDegree v t).1 = .ok (degRow v t.work) := by
    intro t S ht
    obtain ⟨A, hA, hR, hw⟩ := ht.ex
    rw [← degree_here v t.work true]
    unfold hgDegree
    rw [degree_run hA.wf hv ht.idle hw, degree_run hA.wf hv (s := reopen t.work true) rfl hw]
  have d4 := (d3 hS').symm.trans ((congrArg Prod.fst (d1.trans rfl)).trans ((congrArg Prod.fst d2).symm.trans (d3 hS1)))
  exact Except.ok.inj d4

/-- C74: and in the end the graph has the edges, and the symbols known from the start have the degrees, as if all the calls
had been made one after the other on one connection. -/
theorem C74_result (hV : Vocab V) (k : Nat) (ops : List (Op F)) (s : St) (hH : MyHistory V k ops s)
    (progs : List (List (PCall F))) (hC : MyClients V k (Spec.after ops) progs) (hM : MyCalm V k ops progs) (τ : Sys)
    (h : (Sys.startMy k s.disk progs).Reach τ) (hf : τ.Finished) :
    ∃ s', runOps ((progs.map calls).flatten.map PAct.op) s = (.ok (), s') ∧ SameEdges V (reopen τ.db true) s' ∧
      ∀ v, V v → (Spec.after ops).Symbol v → (hgDegree v (reopen τ.db true)).1 = (hgDegree v s').1 := by
  have hS := shows_of hV hH.over (hH.sql hV)
  have hdb := hH.start hV
  obtain ⟨A, hA⟩ := after_of hV hH.over (hH.sql hV)
  have hover : ∀ a ∈ (progs.map calls).flatten, a.op.Over V := by
    intro a ha
    obtain ⟨q, hq, ha⟩ := List.mem_flatten.1 ha
    obtain ⟨p, hp, rfl⟩ := List.mem_map.1 hq
    exact hC.over p hp a ha
  have ho : ∀ o ∈ (progs.map calls).flatten.map PAct.op, o.Over V := by
    intro o ho
    obtain ⟨a, ha, rfl⟩ := List.mem_map.1 ho
    exact hover a ha
  obtain ⟨s', e, hS'⟩ := hS.ops hV ho
  have hI' := indexOf_shows hV hS'
  obtain ⟨_, a2, a3⟩ := clients_end hV hC hdb h hf
  have hsolo : ∀ p ∈ progs, ∃ t, soloRun k p s.disk = (.ok (), t.disk) ∧
      Shows V t (((calls p).map PAct.op).foldl Spec.op (Spec.after ops)) := by
    intro p hp
    obtain ⟨t, h1, h2⟩ := solo_ok hV hH (hM.batches p hp) (hM.smooth p hp)
    refine ⟨t, ?_, h2⟩
    rw [soloRun, run_solo k p hA.auto hA.idle hA.disk, h1]
  refine ⟨s', e, ?_, ?_⟩
  · have hI := indexOf_shows hV hS
    have hrows : RowsOk V τ.db.perms ∧ ∀ x, EdgeOver V x → ∀ n, HasRow τ.db.perms x n ↔ HasRow s'.work.perms x n := by
      cases hnil : progs with
      | nil =>
        subst hnil
        rw [reach_nil h]
        refine ⟨hdb.inv.rows, fun x hx n => ?_⟩
        cases e
        rw [hS.disk]
      | cons p0 ps =>
        have h0 : progs[0]? = some p0 := by rw [hnil]; rfl
        refine ⟨(a2 0 p0 h0).inv.rows, fun x hx n => ?_⟩
        rw [hI'.2 x hx n, ops_present]
        by_cases ht : ∃ (i : Nat) (p : List (PCall F)), progs[i]? = some p ∧ Program.Touches (calls p) x
        · obtain ⟨i, p, hi, ht⟩ := ht
          have hi' : (progs.map calls)[i]? = some (calls p) := by rw [List.getElem?_map, hi]; rfl
          rw [hasRow_alike (a2 i p hi) hx (own_sees hC.share.apart hi' hx (.inl ht))]
          obtain ⟨t, e1, hSt⟩ := hsolo p (List.mem_of_getElem? hi)
          rw [e1]
          show HasRow t.disk.perms x n ↔ _
          rw [hSt.disk, (indexOf_shows hV hSt).2 x hx n, ops_present,
            all_flatten hi' (fun j q hq hj hqt => (hC.share.apart j i q _ hq hi' hj x hqt).1 ht)
              (fun j q hq hj y hy hqt => (hC.share.apart j i q _ hq hi' hj y hqt).2 hy)]
        · have hno : ¬ Program.Touches (progs.map calls).flatten x := by
            intro hh
            obtain ⟨q, hq, hqt⟩ := touches_flatten.1 hh
            obtain ⟨j, hj⟩ := List.getElem?_of_mem hq
            obtain ⟨q', hq', rfl⟩ := getElem?_calls hj
            exact ht ⟨j, q', hq', hqt⟩
          have hno0 : ¬ Program.Touches (calls p0) x := fun hh => ht ⟨0, p0, h0, hh⟩
          rw [hasRow_alike (a2 0 p0 h0) hx (onlyBy_own hx fun j q hq _ hqt => ht ⟨j, q, hq, hqt⟩)]
          obtain ⟨t, e1, hSt⟩ := hsolo p0 (List.mem_of_getElem? h0)
          rw [e1]
          show HasRow t.disk.perms x n ↔ _
          rw [hSt.disk, (indexOf_shows hV hSt).2 x hx n, ops_present, all_untouched hno, all_untouched hno0]
    exact sameEdges_rows hV rfl hS'.idle hrows.1 hI'.1 hrows.2
  · rintro v hv ⟨ha, hk⟩
    have hw := hV.wf v hv
    have hsym : SymText V (fun v => (Spec.after ops).known v ≠ none) (edge2str v) := ⟨v, hv, ha, hk, rfl⟩
    have c1 := a3 (degAt (edge2str v)) fun i _ _ _ _ hm => (hm.deg _ hsym).1
    have c2 : (progs.map fun p => degAt (edge2str v) (soloRun k p s.disk).2 - degAt (edge2str v) s.disk) =
        (progs.map calls).map (gainAll (some v) (Spec.after ops).Present) := by
      rw [List.map_map]
      apply List.map_congr_left
      intro p hp
      obtain ⟨t, e1, hSt⟩ := hsolo p hp
      rw [e1, hS.disk]
      have := solo_degree hV hH.over (hH.sql hV) (hC.over p hp) hSt hw ha hk
      show degRow v t.disk - degRow v s.work = _
      rw [hSt.disk, this]
      simp only [Function.comp_apply]
      omega
    rw [c2, ← gainAll_flatten _ hC.share.apart] at c1
    have c3 := solo_degree hV hH.over (hH.sql hV) hover hS' hw ha hk
    have c4 : (hgDegree v s').1 = .ok (degRow v s'.work) := by
      obtain ⟨A, hA, hR, hwk⟩ := hS'.ex
      rw [← degree_here v s'.work true]
      unfold hgDegree
      rw [degree_run hA.wf hw hS'.idle hwk, degree_run hA.wf hw (s := reopen s'.work true) rfl hwk]
    rw [degree_here, c4, c3, ← hS.disk]
    congr 1
    have c5 : degRow v τ.db - degRow v s.disk = _ := c1
    omega

/-! ### at any time -/

theorem reach_watched {σ τ : Sys} (h : σ.Reach τ) (q : Proc Unit) : (Sys.mk σ.db (σ.procs ++ [q])).Reach ⟨τ.db, τ.procs ++ [q]⟩ := by
  induction h with
  | refl => exact .refl
  | step _ hs ih =>
    refine .step ih ?_
    cases hs with
    | @tx db procs i upd next hp =>
      have hlt := (List.getElem?_eq_some_iff.1 hp).1
      have := Sys.Step.tx (db := db) (procs := procs ++ [q]) (upd := upd) (next := next) i
        (by rw [List.getElem?_append_left hlt]; exact hp)
      rwa [List.set_append_left _ _ hlt] at this

theorem clients_watched {k : Nat} {S : Spec F} {progs : List (List (PCall F))} (hC : MyClients V k S progs) :
    MyClients V k S (progs ++ [[]]) := by
  have hcases : ∀ (j : Nat) (q : Program F), ((progs ++ [[]]).map calls)[j]? = some q →
      (progs.map calls)[j]? = some q ∨ q = [] := by
    intro j q hj
    rw [List.map_append] at hj
    by_cases hlt : j < (progs.map calls).length
    · rw [List.getElem?_append_left hlt] at hj; exact .inl hj
    · rw [List.getElem?_append_right (by omega)] at hj
      have := List.mem_of_getElem? hj
      simp [calls] at this
      exact .inr this
  have hmem : ∀ p ∈ progs ++ [[]], p ∈ progs ∨ p = [] := by
    intro p hp
    rcases List.mem_append.1 hp with hp | hp
    · exact .inl hp
    · exact .inr (List.mem_singleton.1 hp)
  refine ⟨fun p hp a ha => ?_, fun p hp x hx => ?_, ⟨?_, ?_⟩⟩
  · rcases hmem p hp with hp | rfl
    · exact hC.over p hp a ha
    · simp [calls] at ha
  · rcases hmem p hp with hp | rfl
    · exact hC.fits p hp x hx
    · obtain ⟨a, ha, _⟩ := hx; simp [calls] at ha
  · intro i j p q hi hj hij x ht
    rcases hcases i p hi with hi' | rfl
    · rcases hcases j q hj with hj' | rfl
      · exact hC.share.apart i j p q hi' hj' hij x ht
      · exact ⟨fun ⟨a, ha, _⟩ => by simp at ha, fun ⟨a, ha, _⟩ => by simp at ha⟩
    · obtain ⟨a, ha, _⟩ := ht; simp at ha
  · intro i j p q hi hj hij x y hx hy hu hu'
    rcases hcases i p hi with hi' | rfl
    · rcases hcases j q hj with hj' | rfl
      · exact hC.share.elems i j p q hi' hj' hij x y hx hy hu hu'
      · obtain ⟨a, ha, _⟩ := uses_touches hu'; simp at ha
    · obtain ⟨a, ha, _⟩ := uses_touches hu; simp at ha

/-- C74: at every moment, whatever statement any client is at (and also if some never go on), no query of another
connection raises, and about the edges that no client adds or removes they say what they said before; and the degrees and time
stamps of everything that no client works with are what they were before. -/
theorem C74_any_time (hV : Vocab V) (k : Nat) (ops : List (Op F)) (s : St) (hH : MyHistory V k ops s)
    (progs : List (List (PCall F))) (hC : MyClients V k (Spec.after ops) progs) (τ : Sys)
    (h : (Sys.startMy k s.disk progs).Reach τ) :
    SameOutside V (fun x => ∃ p ∈ progs, Program.Touches (calls p) x) (reopen τ.db true) s ∧
      ∀ v, V v → (∀ p ∈ progs, ∀ x, EdgeOver V x → Program.Uses (Spec.after ops).Present (calls p) x → v ≠ x ∧ v ∉ x.elems) →
        (hgDegree v (reopen τ.db true)).1 = (hgDegree v s).1 ∧
        (hgTimestamp v (reopen τ.db true)).1 = (hgTimestamp v s).1 := by
  have hw := reach_watched h (.ret (.ok ()))
  have hC' := clients_watched hC
  have hst : (Sys.mk s.disk ((Sys.startMy k s.disk progs).procs ++ [.ret (.ok ())])) = Sys.startMy k s.disk (progs ++ [[]]) := by
    unfold Sys.startMy
    rw [List.map_append]
    rfl
  have hw' : (Sys.startMy k s.disk (progs ++ [[]])).Reach ⟨τ.db, τ.procs ++ [.ret (.ok ())]⟩ := by rw [← hst]; exact hw
  have hlen : τ.procs.length = progs.length := by rw [h.length]; simp [Sys.startMy]
  have hi : (progs ++ [[]])[progs.length]? = some ([] : List (PCall F)) := by simp
  have hr : (τ.procs ++ [Proc.ret (.ok ())])[progs.length]? = some (.ret (.ok ())) := by rw [← hlen]; simp
  have hother : ∀ (j : Nat) (q : List (PCall F)), (progs ++ [[]])[j]? = some q → j ≠ progs.length → q ∈ progs := by
    intro j q hq hj
    have hlt := (List.getElem?_eq_some_iff.1 hq).1
    simp at hlt
    rw [List.getElem?_append_left (by omega)] at hq
    exact List.mem_of_getElem? hq
  obtain ⟨_, h2⟩ := client_alike hV hH hC' hw' hi hr
  have hS := shows_of hV hH.over (hH.sql hV)
  have h2' : Alike V k (partOf V (Spec.after ops) (progs ++ [[]]) progs.length) τ.db s.disk := h2
  constructor
  · refine sameOutside_rows hV rfl hS.idle h2.inv.rows (indexOf_shows hV hS).1 ?_
    intro x hx hT n
    rw [← hS.disk]
    refine hasRow_alike h2' hx (onlyBy_own hx fun j q hq hj hqt => hT ⟨q, hother j q hq hj, hqt⟩) n
  · intro v hv hno
    obtain ⟨A, hA⟩ := after_of hV hH.over (hH.sql hV)
    obtain ⟨s', e, _, _, h5⟩ := C74_alone hV k ops s hH (progs ++ [[]]) hC' _ hw' progs.length [] hi _ hr
    cases e
    obtain ⟨h6, h7⟩ := h5 v hv fun j q hq hj x hx hu => hno q (hother j q hq hj) x hx hu
    refine ⟨h6.trans ?_, h7.trans ?_⟩
    · have hs : s.disk = A.conc := hA.disk.trans hA.work
      unfold hgDegree
      rw [degree_run hA.ok.wf (hV.wf v hv) hA.idle hA.work,
        degree_run hA.ok.wf (hV.wf v hv) (s := reopen s.disk true) rfl hs]
    · have hs : s.disk = A.conc := hA.disk.trans hA.work
      unfold hgTimestamp
      rw [timestamp_run hA.ok.wf (hV.wf v hv) hA.idle hA.work,
        timestamp_run hA.ok.wf (hV.wf v hv) (s := reopen s.disk true) rfl hs]

/-! ### the hypotheses are needed -/

/-- Two edges with a common symbol. -/
def exMyA : HVal := .tup [sy "a", sy "is"]
def exMyB : HVal := .tup [sy "b", sy "is"]

/-- What the processes returned. -/
def Sys.results (σ : Sys) : List (Option (Except PyErr Unit)) :=
  σ.procs.map fun p => match p with | .ret r => some r | _ => none

theorem Sys.results_finished {σ : Sys} (h : σ.results.all Option.isSome = true) : σ.Finished := by
  intro p hp
  rw [List.all_eq_true] at h
  have := h _ (List.mem_map.2 ⟨p, hp, rfl⟩)
  cases p with
  | ret r => exact ⟨r, rfl⟩
  | tx u n => cases this

theorem reach_results {σ : Sys} (is : List Nat) {db : DB} {rs : List (Except PyErr Unit)} (h1 : (σ.turns is).db = db)
    (h2 : (σ.turns is).results = rs.map some) : ∃ τ, σ.Reach τ ∧ τ.Finished ∧ τ.results = rs.map some ∧ τ.db = db :=
  ⟨_, σ.turns_reach is, Sys.results_finished (by rw [h2]; simp), h2, h1⟩

/-- C74 needs its hypothesis about symbols: two clients add one edge each to an empty graph, and the edges have a symbol in
common.  Both find that it is new, and the one that is slower raises; its edge is not added, but the other symbol of the edge
has a degree although it is in no edge.  One after the other, both succeed. -/
theorem C74_new_symbol_counterexample :
    (∃ τ, (Sys.startMy 250 DB.empty [[PCall.one (.add exMyA 1)], [.one (.add exMyB 2)]]).Reach τ ∧ τ.Finished ∧
      τ.results = [some (.ok ()), some (.error .integrityError)] ∧
      (hgExists exMyA (reopen τ.db true)).1 = .ok true ∧ (hgExists exMyB (reopen τ.db true)).1 = .ok false ∧
      (hgStar (sy "b") (reopen τ.db true)).1 = .ok [] ∧ (hgDegree (sy "b") (reopen τ.db true)).1 = .ok 1) ∧
    (oneByOne 250 [[PCall.one (.add exMyA 1)], [.one (.add exMyB 2)]] DB.empty).1 = [.ok (), .ok ()] := by
  refine ⟨?_, by decide +kernel⟩
  obtain ⟨τ, h1, h2, h3, h4⟩ := reach_results
    (σ := Sys.startMy 250 DB.empty [[PCall.one (.add exMyA 1)], [.one (.add exMyB 2)]])
    ([0, 1, 0, 0, 0, 1, 1, 1, 0, 1, 0, 1, 0, 1, 0, 1] ++ List.replicate 10 0)
    (db := ⟨[⟨lit "a", 1, 1⟩, ⟨lit "b", 1, 2⟩, ⟨lit "is", 1, 1⟩, ⟨lit "(a is)", 0, 1⟩], [lit "a is 0", lit "is a 1"]⟩)
    (rs := [.ok (), .error .integrityError]) (by decide +kernel) (by decide +kernel)
  refine ⟨τ, h1, h2, h3, ?_⟩
  rw [h4]
  decide +kernel

/-- C74 needs its hypothesis about edges: two clients add the same edge, all of whose symbols are known.  Both find that it is
absent, both count it, and the slower one raises: the degrees are greater than the number of edges. -/
theorem C74_same_edge_counterexample :
    (hgAdd exShareA 1 (St.new false)).2.disk = exShareDB ∧
    (∃ τ, (Sys.startMy 250 exShareDB [[PCall.one (.add exMyA 5)], [.one (.add exMyA 6)]]).Reach τ ∧ τ.Finished ∧
      τ.results = [some (.ok ()), some (.error .integrityError)] ∧
      (hgStar (sy "a") (reopen τ.db true)).1 = .ok [exShareA, exMyA] ∧ (hgDegree (sy "a") (reopen τ.db true)).1 = .ok 3) ∧
    (oneByOne 250 [[PCall.one (.add exMyA 5)], [.one (.add exMyA 6)]] exShareDB).1 = [.ok (), .ok ()] := by
  refine ⟨by decide +kernel, ?_, by decide +kernel⟩
  obtain ⟨τ, h1, h2, h3, h4⟩ := reach_results
    (σ := Sys.startMy 250 exShareDB [[PCall.one (.add exMyA 5)], [.one (.add exMyA 6)]])
    ([0, 1, 0, 1, 0, 1, 0, 1, 0, 1, 0, 1, 0, 1] ++ List.replicate 10 0)
    (db := ⟨[⟨lit "is", 3, 1⟩, ⟨lit "a", 3, 1⟩, ⟨lit "(is a)", 0, 1⟩, ⟨lit "(a is)", 0, 5⟩],
      [lit "is a 0", lit "a is 1", lit "a is 0", lit "is a 1"]⟩)
    (rs := [.ok (), .error .integrityError]) (by decide +kernel) (by decide +kernel)
  refine ⟨τ, h1, h2, h3, ?_⟩
  rw [h4]
  decide +kernel

/-- Unlike on SQLite (C73), additions of several edges at once and batches are not atomic among clients: another client can
see a part of them (and a client that is killed leaves a part). -/
theorem C74_not_atomic_counterexample : ∀ c ∈ [PCall.one (.addMany [exMyA, exMyB] 1), .batch [.add exMyA 1, .add exMyB 1]],
    c.Atomic ∧ ∃ τ, (Sys.startMy 250 DB.empty [[c]]).Reach τ ∧
      (hgExists exMyA (reopen τ.db true)).1 = .ok true ∧ (hgExists exMyB (reopen τ.db true)).1 = .ok false := by
  intro c hc
  simp only [List.mem_cons, List.not_mem_nil, or_false] at hc
  rcases hc with rfl | rfl
  · exact ⟨trivial, _, Sys.turns_reach (List.replicate 15 0) _, by decide +kernel⟩
  · refine ⟨by simp [PCall.Atomic], _, Sys.turns_reach (List.replicate 15 0) _, by decide +kernel⟩

/-! ### the hypotheses are met -/

def exMyC : HVal := .tup [sy "is", sy "c"]
def exMyD : HVal := .tup [sy "is", sy "d"]

/-- Two clients that have only a known symbol in common: one adds and removes an edge, the other removes an edge and adds one in a
batch, and then adds a belief. -/
def exMyProgs : List (List (PCall Half)) :=
  [[.one (.add exShareB 21), .one (.remove exShareB), .one (.add exShareB 23)],
   [.batch [.remove exShareA, .add exMyC 22], .one (.addBelief (sy "e") exMyD 24)]]

theorem exMyProgs_over : ∀ p ∈ exMyProgs, ∀ c ∈ p, c.Over PlainVocab := by
  have h2 : EdgeOver PlainVocab exShareA := edge_of (by decide +kernel)
  have h3 : EdgeOver PlainVocab exShareB := edge_of (by decide +kernel)
  have h4 : EdgeOver PlainVocab exMyC := edge_of (by decide +kernel)
  have h5 : BeliefOver PlainVocab (sy "e") exMyD := belief_of (by decide +kernel)
  intro p hp c hc
  simp only [exMyProgs, List.mem_cons, List.not_mem_nil, or_false] at hp
  rcases hp with rfl | rfl <;> simp only [List.mem_cons, List.not_mem_nil, or_false] at hc
  · rcases hc with rfl | rfl | rfl <;> exact h3
  · rcases hc with rfl | rfl
    · intro a ha
      simp only [List.mem_cons, List.not_mem_nil, or_false] at ha
      rcases ha with rfl | rfl
      · exact ⟨h2, trivial⟩
      · exact ⟨h4, trivial⟩
    · exact h5

/-- The edges the clients work on. -/
def exMyEdges : Nat → List HVal
  | 0 => [exShareB]
  | _ => [exShareA, exMyC, exMyD, support exMyD (sy "e")]

theorem exMyProgs_touches {i : Nat} {p : Program Half} (hi : (exMyProgs.map calls)[i]? = some p) {x : HVal} (h : p.Touches x) :
    i < 2 ∧ x ∈ exMyEdges i := by
  have hlt := (List.getElem?_eq_some_iff.1 hi).1
  simp [exMyProgs] at hlt
  refine ⟨hlt, ?_⟩
  have hi2 : i = 0 ∨ i = 1 := by omega
  rcases hi2 with rfl | rfl
  · simp [exMyProgs] at hi
    subst hi
    simpa [Program.Touches, calls, PCall.acts, PAct.Touches, exMyEdges] using h
  · simp [exMyProgs] at hi
    subst hi
    simp [Program.Touches, calls, PCall.acts, PAct.Touches] at h
    simp [exMyEdges]
    exact h

theorem exMyProgs_sees {i : Nat} {p : Program Half} (hi : (exMyProgs.map calls)[i]? = some p) {x : HVal} : ¬ p.Sees x := by
  have hlt := (List.getElem?_eq_some_iff.1 hi).1
  simp [exMyProgs] at hlt
  have hi2 : i = 0 ∨ i = 1 := by omega
  rcases hi2 with rfl | rfl <;> simp [exMyProgs] at hi <;> subst hi <;>
    simp [Program.Sees, calls, PCall.acts, PAct.Sees]

/-- Test for the conditions on two edges of different clients. -/
def shareB (x y : HVal) : Bool :=
  decide (x ≠ y) && decide (x ∉ y.elems) && x.elems.all fun v => decide (v ∉ y.elems) || decide (v = sy "is")

theorem share_of {x y : HVal} (h : shareB x y = true) : x ≠ y ∧ x ∉ y.elems ∧ ∀ v ∈ x.elems, v ∈ y.elems → v = sy "is" := by
  simp only [shareB, Bool.and_eq_true, decide_eq_true_eq, List.all_eq_true, Bool.or_eq_true] at h
  exact ⟨h.1.1, h.1.2, fun v hv hv' => (h.2 v hv).resolve_left fun hn => hn hv'⟩

theorem exMyEdges_ok : ∀ i < 2, ∀ j < 2, i ≠ j → ∀ x ∈ exMyEdges i, ∀ y ∈ exMyEdges j,
    x ≠ y ∧ x ∉ y.elems ∧ ∀ v ∈ x.elems, v ∈ y.elems → v = sy "is" := by
  have h01 : (exMyEdges 0).all (fun x => (exMyEdges 1).all fun y => shareB x y && shareB y x) = true := by decide +kernel
  simp only [List.all_eq_true, Bool.and_eq_true] at h01
  intro i hi j hj hij x hx y hy
  have hi2 : i = 0 ∨ i = 1 := by omega
  have hj2 : j = 0 ∨ j = 1 := by omega
  rcases hi2 with rfl | rfl <;> rcases hj2 with rfl | rfl
  · exact absurd rfl hij
  · exact share_of (h01 x hx y hy).1
  · exact share_of (h01 y hy x hx).2
  · exact absurd rfl hij

theorem exMyProgs_clients : MyClients PlainVocab 250 (Spec.after exShareOps) exMyProgs := by
  have hA : ∀ p ∈ exMyProgs, ∀ a ∈ calls p, a.op.Over PlainVocab := fun p hp a ha =>
    over_calls exMyProgs_over (calls p) (List.mem_map.2 ⟨p, hp, rfl⟩) a ha
  refine ⟨hA, ?_, ?_, ?_⟩
  · intro p hp x hx
    obtain ⟨i, hi⟩ := List.getElem?_of_mem hp
    have hi' : (exMyProgs.map calls)[i]? = some (calls p) := by rw [List.getElem?_map, hi]; rfl
    obtain ⟨h1, h2⟩ := exMyProgs_touches hi' (uses_touches (P := fun _ => False) (.inl hx))
    have : ∀ i < 2, ∀ x ∈ exMyEdges i, fitsB 250 x = true := by decide +kernel
    exact fits_of (this i h1 x h2)
  · intro i j p q hi hj hij x hx
    obtain ⟨h1, h2⟩ := exMyProgs_touches hi hx
    refine ⟨fun hy => ?_, exMyProgs_sees hj⟩
    obtain ⟨h3, h4⟩ := exMyProgs_touches hj hy
    exact (exMyEdges_ok i h1 j h3 hij x h2 x h4).1 rfl
  · intro i j p q hi hj hij x y _ _ hx hy
    obtain ⟨h1, h2⟩ := exMyProgs_touches hi (uses_touches hx)
    obtain ⟨h3, h4⟩ := exMyProgs_touches hj (uses_touches hy)
    obtain ⟨_, h5, h6⟩ := exMyEdges_ok i h1 j h3 hij x h2 y h4
    refine ⟨h5, fun v hv hv' => ?_⟩
    rw [h6 v hv hv']
    exact ⟨rfl, by decide +kernel⟩

theorem exMy_history : ∃ s, MyHistory PlainVocab 250 exShareOps s := by
  have hsm : Smooth 250 Spec.empty Tally.empty (exShareOps.flatMap Op.steps) := by
    refine ⟨?_, trivial⟩
    rintro e ts ⟨rfl, rfl⟩
    exact ⟨fits_of (by decide +kernel), fun h => by have := h.2.1; simp [Tally.empty] at this⟩
  obtain ⟨s, A, hA⟩ := after_exists (plainVocab (F := Half)) exShareOps exShareOps_over true
  exact ⟨s, exShareOps_over, hsm, by rw [C68_same_partial plainVocab 250 exShareOps exShareOps_over true hsm]; exact hA.run⟩

theorem exMy_calm : MyCalm PlainVocab 250 exShareOps exMyProgs := by
  refine ⟨exMyProgs_over, ?_⟩
  intro p hp
  simp only [exMyProgs, List.mem_cons, List.not_mem_nil, or_false] at hp
  rcases hp with rfl | rfl
  · refine ⟨?_, ?_, ?_, trivial⟩
    · rintro e ts ⟨rfl, rfl⟩
      exact ⟨fits_of (by decide +kernel), fun h => absurd h.2.2 (by decide +kernel)⟩
    · rintro e ts ⟨⟩
    · rintro e ts ⟨rfl, rfl⟩
      exact ⟨fits_of (by decide +kernel), fun h => absurd h.2.2 (by decide +kernel)⟩
  · refine ⟨?_, ?_, ?_, ?_, trivial⟩
    · rintro e ts ⟨⟩
    · rintro e ts ⟨rfl, rfl⟩
      exact ⟨fits_of (by decide +kernel), fun h => absurd h.2.2 (by decide +kernel)⟩
    · rintro e ts ⟨rfl, rfl⟩
      exact ⟨fits_of (by decide +kernel), fun h => absurd h.2.2 (by decide +kernel)⟩
    · rintro e ts ⟨rfl, rfl⟩
      exact ⟨fits_of (by decide +kernel), fun h => absurd h.2.2 (by decide +kernel)⟩

/-- The hypotheses of the theorems are met: there is a finished execution of these clients; no one raises, the edges are
those of a serial execution, and the degree of the common symbol is the number of its occurrences. -/
example : ∃ s, MyHistory PlainVocab 250 exShareOps s ∧
    ∃ τ, (Sys.startMy 250 s.disk exMyProgs).Reach τ ∧ τ.Finished ∧ (∀ p ∈ τ.procs, p = .ret (.ok ())) ∧
      (hgExists exShareB (reopen τ.db true)).1 = .ok true ∧ (hgExists exShareA (reopen τ.db true)).1 = .ok false ∧
      (hgExists (support exMyD (sy "e")) (reopen τ.db true)).1 = .ok true ∧
      (Spec.after exShareOps).Symbol (sy "is") ∧ (hgDegree (sy "is") (reopen τ.db true)).1 = .ok 3 := by
  obtain ⟨s, hs⟩ := exMy_history
  obtain ⟨τ, h1, h2⟩ := reach_finished (Sys.startMy 250 s.disk exMyProgs)
  have hV : Vocab (PlainVocab (F := Half)) := plainVocab
  obtain ⟨s', e, hE, hD⟩ := C74_result hV 250 exShareOps s hs exMyProgs exMyProgs_clients exMy_calm τ h1 h2
  have hs' : s' = (runOps ((exMyProgs.map calls).flatten.map PAct.op) (runOps exShareOps (St.new true)).2).2 := by
    rw [hs.sql hV]
    show s' = (runOps ((exMyProgs.map calls).flatten.map PAct.op) s).2
    rw [e]
  have hsy : (Spec.after exShareOps).Symbol (sy "is") := ⟨rfl, by decide +kernel⟩
  refine ⟨s, hs, τ, h1, h2, fun p hp => ?_, ?_, ?_, ?_, hsy, ?_⟩
  · obtain ⟨r, rfl⟩ := h2 p hp
    rw [C74_no_error hV 250 exShareOps s hs exMyProgs exMyProgs_clients exMy_calm τ h1 _ hp r rfl]
  · rw [hE.ex _ (edge_of (by decide +kernel)), hs']; decide +kernel
  · rw [hE.ex _ (edge_of (by decide +kernel)), hs']; decide +kernel
  · rw [hE.ex _ (edge_of (by decide +kernel)), hs']; decide +kernel
  · rw [hD _ (plain_of (by decide +kernel)) hsy, hs']; decide +kernel

/-- The hypotheses of `C74_alone` and `C74_any_time`: the first client has returned while the second is in the middle of its batch. -/
example : ∃ s, MyHistory PlainVocab 250 exShareOps s ∧
    ∃ τ, (Sys.startMy 250 s.disk exMyProgs).Reach τ ∧ τ.results = [some (.ok ()), none] ∧ OnlyBy exMyProgs 0 exShareB ∧
      (hgExists exShareB (reopen τ.db true)).1 = .ok true ∧ (hgExists exMyC (reopen τ.db true)).1 = .ok false := by
  obtain ⟨s, hs⟩ := exMy_history
  have hd : s.disk = exShareDB := by
    have h1 : s = (runOps exShareOps (St.new true)).2 := by rw [hs.sql plainVocab]
    rw [h1]; decide +kernel
  refine ⟨s, hs, _, Sys.turns_reach ([1, 1] ++ List.replicate 40 0 ++ [1, 1, 1]) _, ?_, ?_, ?_, ?_⟩
  · rw [hd]; decide +kernel
  · intro j q hq hj ht
    have hj' : (exMyProgs.map calls)[j]? = some (calls q) := by rw [List.getElem?_map, hq]; rfl
    obtain ⟨h1, h2⟩ := exMyProgs_touches hj' ht
    exact (exMyEdges_ok 0 (by omega) j h1 (fun h => hj h.symm) exShareB (by simp [exMyEdges]) exShareB h2).1 rfl
  · rw [hd]; decide +kernel
  · rw [hd]; decide +kernel

end GB
