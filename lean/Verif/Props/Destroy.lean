import Verif.Props.Concurrent
import Verif.Proofs.ConcDestroy

/-!
Property C87: several processes on one SQLite file, some of which erase the graph with `destroy`.
-/

set_option linter.unusedSectionVars false
set_option linter.unusedVariables false

namespace GB

variable {F : Type} [PyFloat F] [DecidableEq F] {V : Val F → Prop}

/-- C87: `destroy` is one transaction, like the other calls the model takes as one step. -/
theorem C87_atomic : OneTransaction hgDestroy :=
  Commits.one (Commits.bind (fun _ => fresh_open) fun _ => Commits.bind (fun _ => fresh_write _ _) fun _ =>
    Commits.bind (fun _ => fresh_write _ _) fun _ => Commits.close')

/-- C87: however the processes are scheduled, they all return after finitely many steps. -/
theorem C87_terminates (db : DB) (progs : List (DProgram F)) :
    Acc (fun τ σ : Sys => σ.Step τ) (Sys.startD db progs) ∧
      ∀ τ, (Sys.startD db progs).Reach τ → (¬ ∃ υ, τ.Step υ) → τ.Finished :=
  ⟨step_acc _, fun τ _ h => Classical.byContradiction fun h' => h (step_progress h')⟩

theorem reach_noNew (hV : Vocab V) {A : Val F → Prop} {db : DB} (hR : RowsOk V db.perms) {progs : List (DProgram F)}
    (hp : ∀ p ∈ progs, ∀ a ∈ p, a.op.Over V) (hA : ∀ p ∈ progs, ∀ x, DProgram.Adds p x → A x) {τ : Sys}
    (h : (Sys.startD db progs).Reach τ) :
    CInv V none τ.db ∧ (∀ p ∈ τ.procs, p.Safe (CInv V none) (NoNew V A)) ∧
      ∀ x, EdgeOver V x → ¬ A x → ∀ n, HasRow τ.db.perms x n → HasRow db.perms x n := by
  have h0 : ∀ (i : Nat) (p : Proc Unit), (Sys.startD db progs).procs[i]? = some p → p.Safe (CInv V none) (NoNew V A) := by
    intro i p hi
    obtain ⟨prog, h1, rfl⟩ := startD_proc hi
    have hm := List.mem_of_getElem? h1
    exact fewer_program hV (hp _ hm) (hA _ hm)
  obtain ⟨h1, h2⟩ := h.safe (G := fun _ => NoNew V A) (⟨hR, by simp⟩ : CInv V none db) h0
  refine ⟨h1, fun p hpm => ?_, ?_⟩
  · obtain ⟨i, hi⟩ := List.getElem?_of_mem hpm
    exact h2 i p hi
  · clear h1 h2
    induction h with
    | refl => exact fun _ _ _ _ h => h
    | step hr hst ih =>
      obtain ⟨h1, h2⟩ := hr.safe (G := fun _ => NoNew V A) (⟨hR, by simp⟩ : CInv V none db) h0
      cases hst with
      | tx i hi => exact fun x hx ha n hn => ih x hx ha n ((h2 i _ hi _ h1).2.1 x hx ha n hn)

/-- C87: no call of any process raises. -/
theorem C87_no_error (hV : Vocab V) (ops : List (Op F)) (hops : ∀ op ∈ ops, op.Over V) (s : St)
    (hs : runOps ops (St.new false) = (.ok (), s)) {progs : List (DProgram F)} (hp : ∀ p ∈ progs, ∀ a ∈ p, a.op.Over V)
    {τ : Sys} (h : (Sys.startD s.disk progs).Reach τ) : ∀ p ∈ τ.procs, ∀ r, p = .ret r → r = .ok () := by
  have hS := shows_of hV hops hs
  rw [hS.disk] at h
  rintro p hpm r rfl
  obtain ⟨_, rfl⟩ := (reach_noNew (A := fun _ => True) hV (indexOf_shows hV hS).1 hp (fun _ _ _ _ => trivial) h).2.1 _ hpm
  rfl

theorem onlyShows_rows (hV : Vocab V) {K : Val F → Prop} {s : St} (hc : s.cur = none) (hR : RowsOk V s.work.perms)
    (hrow : ∀ x, EdgeOver V x → ∀ n, HasRow s.work.perms x n → K x) : OnlyShows V K s := by
  have hu := St.usable_of_none hc
  constructor
  · intro e he
    obtain ⟨b, hb, h2⟩ := exists_rows hV he hu hR
    refine ⟨b, by unfold hgExists; rw [hb], fun hb => ?_⟩
    obtain ⟨n, hn, _⟩ := h2.1 hb
    exact hrow e he n hn
  · intro ps hp
    obtain ⟨r, e1, _, e3⟩ := pattern_rows hV (b := false) hp hu hR
    refine ⟨r, by unfold hgPattern2edges; rw [show (Val.tup ps : Val F) = .seq false ps from rfl, e1], fun x hx => ?_⟩
    obtain ⟨h1, _, n, hn, _⟩ := (e3 x).1 hx
    exact hrow x h1 n hn
  · intro c hcV ha
    obtain ⟨r, e1, _, e3⟩ := star_rows hV hcV ha hu hR
    refine ⟨r, by unfold hgStar; rw [e1], fun x hx => ?_⟩
    obtain ⟨h1, n, hn, _⟩ := (e3 x).1 hx
    exact hrow x h1 n hn
  · intro e h1 h2
    obtain ⟨r, e1, _, e3⟩ := sources_rows hV h1 h2 hu hR
    refine ⟨r, by rw [e1], fun x hx => ?_⟩
    obtain ⟨k1, n, hn, _⟩ := (e3 x).1 hx
    exact hrow _ k1 n hn

/-- C87: at every moment, whatever any process is in the middle of, no query of a new connection raises, and no edge is
shown that did not exist before and that no program adds. -/
theorem C87_no_phantom (hV : Vocab V) (ops : List (Op F)) (hops : ∀ op ∈ ops, op.Over V) (s : St)
    (hs : runOps ops (St.new false) = (.ok (), s)) {progs : List (DProgram F)} (hp : ∀ p ∈ progs, ∀ a ∈ p, a.op.Over V)
    {τ : Sys} (h : (Sys.startD s.disk progs).Reach τ) :
    OnlyShows V (fun x => (hgExists x s).1 = .ok true ∨ ∃ p ∈ progs, DProgram.Adds p x) (reopen τ.db false) := by
  have hS := shows_of hV hops hs
  have hI := indexOf_shows hV hS
  rw [hS.disk] at h
  obtain ⟨h1, _, h3⟩ := reach_noNew (A := fun x => ∃ p ∈ progs, DProgram.Adds p x) hV hI.1 hp
    (fun p hpm x hx => ⟨p, hpm, hx⟩) h
  refine onlyShows_rows hV rfl h1.1 fun x hx n hn => ?_
  by_cases hA : ∃ p ∈ progs, DProgram.Adds p x
  · exact .inr hA
  · exact .inl ((exists_index hV hS.idle hI hx).2 ((hI.2 x hx n).1 (h3 x hx hA n hn)).1)

/-- C87: if every program that may take an edge away, be it by a removal or by erasing the graph, adds it afterwards, then
in the end the edge exists, provided that it existed before or some program adds it. -/
theorem C87_restored (hV : Vocab V) (ops : List (Op F)) (hops : ∀ op ∈ ops, op.Over V) (s : St)
    (hs : runOps ops (St.new false) = (.ok (), s)) {progs : List (DProgram F)} (hp : ∀ p ∈ progs, ∀ a ∈ p, a.op.Over V)
    {x : Val F} (hx : EdgeOver V x) (hlast : ∀ p ∈ progs, DProgram.RestoresLast p x)
    (hsome : (hgExists x s).1 = .ok true ∨ ∃ p ∈ progs, DProgram.Adds p x)
    {τ : Sys} (h : (Sys.startD s.disk progs).Reach τ) (hf : τ.Finished) :
    (hgExists x (reopen τ.db false)).1 = .ok true := by
  have hS := shows_of hV hops hs
  have hI := indexOf_shows hV hS
  rw [hS.disk] at h
  have hmem : ∀ q ∈ (Sys.startD s.work progs).procs, ∃ p ∈ progs, q = programD p := by
    intro q hq
    obtain ⟨p, hpm, rfl⟩ := List.mem_map.1 hq
    exact ⟨p, hpm, rfl⟩
  obtain ⟨k1, _, k3⟩ := h.pending (I := CInv V none) (K := Visible x) (G := Stays x) (fun _ _ => stays_visible)
    ⟨hI.1, by simp⟩ (by
      intro q hq
      obtain ⟨p, hpm, rfl⟩ := hmem q hq
      rcases hlast p hpm with hd | ⟨pre, post, he, hd, ha⟩
      · exact .inl (kept_program hV hx (hp p hpm) hd)
      · exact .inr (pending_restores hV hx (hp p hpm) he hd ha)) (by
      rcases hsome with hs | ⟨p, hpm, ha⟩
      · left
        have := (exists_index hV hS.idle hI hx).1 hs
        exact seen_all (db := s.work) hV hx fun n hn => (hI.2 x hx n).2 ⟨this, hn⟩
      · refine .inr ⟨programD p, List.mem_map.2 ⟨p, hpm, rfl⟩, ?_⟩
        rcases hlast p hpm with hd | ⟨pre, post, he, hd, ha⟩
        · exact pending_restores (pre := []) (post := p) hV hx (hp p hpm) rfl hd ha
        · exact pending_restores hV hx (hp p hpm) he hd ha)
  have hvis : Visible x τ.db := by
    rcases k3 with k3 | ⟨q, hq, hpend⟩
    · exact k3
    · obtain ⟨r, rfl⟩ := hf q hq
      exact absurd hpend id
  obtain ⟨b, h1, h2⟩ := exists_rows hV hx (s := reopen τ.db false) (St.usable_of_none rfl) k1.1
  have : b = true := h2.2 hvis
  subst this
  unfold hgExists
  rw [h1]

/-- C87: if every program that adds an edge erases the graph afterwards, then in the end no query shows it, provided that
it did not exist before or some program erases the graph. -/
theorem C87_erased (hV : Vocab V) (ops : List (Op F)) (hops : ∀ op ∈ ops, op.Over V) (s : St)
    (hs : runOps ops (St.new false) = (.ok (), s)) {progs : List (DProgram F)} (hp : ∀ p ∈ progs, ∀ a ∈ p, a.op.Over V)
    {x : Val F} (hx : EdgeOver V x) (hlast : ∀ p ∈ progs, DProgram.ErasesLast p x)
    (hsome : (hgExists x s).1 = .ok false ∨ ∃ p ∈ progs, .destroy ∈ p)
    {τ : Sys} (h : (Sys.startD s.disk progs).Reach τ) (hf : τ.Finished) :
    OnlyShows V (fun y => y ≠ x) (reopen τ.db false) := by
  have hS := shows_of hV hops hs
  have hI := indexOf_shows hV hS
  rw [hS.disk] at h
  obtain ⟨k1, _, k3⟩ := h.pending (I := CInv V none) (K := NoRows x) (G := NoNew V fun y => y ≠ x)
    (fun a b h hN n hn => hN n (h x hx (by simp) n hn)) ⟨hI.1, by simp⟩ (by
      intro q hq
      obtain ⟨p, hpm, rfl⟩ := List.mem_map.1 hq
      rcases hlast p hpm with hd | ⟨pre, post, he, hd, ha⟩
      · exact .inl (fewer_program hV (hp p hpm) fun y hy hyx => hd (hyx ▸ hy))
      · exact .inr (pending_erases hV hx (hp p hpm) he hd ha)) (by
      rcases hsome with hs | ⟨p, hpm, hd⟩
      · left
        intro n hn
        have := (exists_index hV hS.idle hI hx).2 ((hI.2 x hx n).1 hn).1
        rw [hs] at this
        cases this
      · refine .inr ⟨programD p, List.mem_map.2 ⟨p, hpm, rfl⟩, ?_⟩
        rcases hlast p hpm with ha | ⟨pre, post, he, ha, hd⟩
        · exact pending_erases (pre := []) (post := p) hV hx (hp p hpm) rfl ha hd
        · exact pending_erases hV hx (hp p hpm) he ha hd)
  have hno : NoRows x τ.db := by
    rcases k3 with k3 | ⟨q, hq, hpend⟩
    · exact k3
    · obtain ⟨r, rfl⟩ := hf q hq
      exact absurd hpend id
  refine onlyShows_rows hV rfl k1.1 ?_
  rintro y hy n hn rfl
  exact hno n hn

/-- C87: when a single process erases the graph, then as soon as it has returned all queries say about the edges that
no other process names what they would say had it run alone; only what it asks for must not be named by others either. -/
theorem C87_own (hV : Vocab V) (ops : List (Op F)) (hops : ∀ op ∈ ops, op.Over V) (s : St)
    (hs : runOps ops (St.new false) = (.ok (), s)) {progs : List (DProgram F)} (hp : ∀ p ∈ progs, ∀ a ∈ p, a.op.Over V)
    {i : Nat} {p : DProgram F} (hi : progs[i]? = some p)
    (hno : ∀ (j : Nat) (q : DProgram F), progs[j]? = some q → j ≠ i → .destroy ∉ q)
    (hsee : ∀ (j : Nat) (q : DProgram F), progs[j]? = some q → j ≠ i → ∀ y, (∃ a ∈ p, a.Sees y) → ¬ ∃ a ∈ q, a.Names y)
    {τ : Sys} (h : (Sys.startD s.disk progs).Reach τ) (hf : ∀ q, τ.procs[i]? = some q → ∃ r, q = .ret r) :
    ∃ s', runOps (p.map DAct.op) s = (.ok (), s') ∧
      SameOutside V (fun x => ∃ (j : Nat) (q : DProgram F), progs[j]? = some q ∧ j ≠ i ∧ ∃ a ∈ q, a.Names x)
        (reopen τ.db false) s' := by
  have hS := shows_of hV hops hs
  have hI := indexOf_shows hV hS
  rw [hS.disk] at h
  have ho : ∀ op ∈ p.map DAct.op, op.Over V := by
    intro op hop
    obtain ⟨a, ha, rfl⟩ := List.mem_map.1 hop
    exact hp p (List.mem_of_getElem? hi) a ha
  obtain ⟨s', e, hS'⟩ := hS.ops hV ho
  have hI' := indexOf_shows hV hS'
  refine ⟨s', e, sameOutside_rows hV rfl hS'.idle
    (reach_noNew (A := fun _ => True) hV hI.1 hp (fun _ _ _ _ => trivial) h).1.1 hI'.1 ?_⟩
  intro x hx hun n
  show HasRow τ.db.perms x n ↔ _
  rw [rows_owned_d hV hI (shows_over hV hS) hp h hx hi hf hno
    (fun j q hj hji hq => hun ⟨j, q, hj, hji, hq⟩) hsee, hI'.2 x hx, ops_present_d]

/-! ### what does not hold -/

/-- The conditions are needed: one process adds an edge, another erases the graph in the middle of it.  In the end the
edge does not exist, but `star` of one of its symbols returns it. -/
theorem C87_torn_counterexample :
    ∃ τ, (Sys.startD DB.empty [[.call (PAct.add exShareA 1)], [DAct.destroy]]).Reach τ ∧ τ.Finished ∧
      (hgExists exShareA (reopen τ.db false)).1 = .ok false ∧ (hgStar (sy "a") (reopen τ.db false)).1 = .ok [exShareA] := by
  obtain ⟨τ, h1, h2, h3⟩ := reach_turns (σ := Sys.startD DB.empty [[.call (PAct.add exShareA 1)], [DAct.destroy]])
    [0, 0, 0, 0, 0, 0, 0, 1, 0] (db := ⟨[], [lit "a is 1"]⟩) (by decide +kernel) (by decide +kernel)
  refine ⟨τ, h1, h2, ?_⟩
  rw [h3]
  decide +kernel

/-- An edge in which a symbol occurs twice. -/
def exDouble : HVal := .tup [sy "a", sy "b", sy "a"]

/-- `C87_restored` is about `exists` only: one process adds an edge in which a symbol occurs twice, another erases the graph
in the middle of that and adds the same edge.  In the end the edge exists, but `star` of its other symbol does not return
it. -/
theorem C87_star_counterexample :
    ∃ τ, (Sys.startD DB.empty [[.call (PAct.add exDouble 1)], [.destroy, .call (PAct.add exDouble 2)]]).Reach τ ∧
      τ.Finished ∧ (hgExists exDouble (reopen τ.db false)).1 = .ok true ∧
      (hgStar (sy "b") (reopen τ.db false)).1 = .ok ([] : List HVal) := by
  obtain ⟨τ, h1, h2, h3⟩ := reach_turns
    (σ := Sys.startD DB.empty [[.call (PAct.add exDouble 1)], [.destroy, .call (PAct.add exDouble 2)]])
    (List.replicate 12 0 ++ [1, 0, 1]) (db := ⟨[], [lit "a b a 5"]⟩) (by decide +kernel) (by decide +kernel)
  refine ⟨τ, h1, h2, ?_⟩
  rw [h3]
  decide +kernel

/-! ### the hypotheses are met -/

/-- Three programs: the first erases the graph and adds two edges, the second removes one of them, adds it again, and adds
another edge for a while, the third erases the graph in the middle of its own work. -/
def exErase : List (DProgram Half) :=
  [[.call (.remove exE4), .destroy, .call (.addMany [exShareB, exE4] 20)],
   [.call (.removeByPattern [sy "is", .none]), .call (.addBelief (sy "a") exShareB 21)],
   [.call (.add exE3 22), .destroy, .call (.add exShareB 23)]]

theorem exErase_over : ∀ p ∈ exErase, ∀ a ∈ p, a.op.Over PlainVocab := by
  have h1 : EdgeOver PlainVocab exE4 := edge_of (by decide +kernel)
  have h3 : EdgeOver PlainVocab exShareB := edge_of (by decide +kernel)
  have h4 : EdgeOver PlainVocab exE3 := edge_of (by decide +kernel)
  have h5 : PatternOver PlainVocab [sy "is", .none] := pattern_of (by decide +kernel)
  have h6 : BeliefOver PlainVocab (sy "a") exShareB := belief_of (by decide +kernel)
  intro p hp a ha
  simp only [exErase, List.mem_cons, List.not_mem_nil, or_false] at hp
  rcases hp with rfl | rfl | rfl <;> simp only [List.mem_cons, List.not_mem_nil, or_false] at ha
  · rcases ha with rfl | rfl | rfl
    · exact h1
    · trivial
    · exact ⟨by simp, by simp [h1, h3]⟩
  · rcases ha with rfl | rfl
    · exact h5
    · exact h6
  · rcases ha with rfl | rfl | rfl
    · exact h4
    · trivial
    · exact h3

theorem exErase_restores : ∀ p ∈ exErase, DProgram.RestoresLast p exShareB := by
  intro p hp
  simp only [exErase, List.mem_cons, List.not_mem_nil, or_false] at hp
  rcases hp with rfl | rfl | rfl
  · exact .inr ⟨[_, _], [_], rfl, by simp [DProgram.Drops, DAct.Drops, PAct.Removes],
      ⟨_, List.mem_cons_self, by simp [DAct.Adds, PAct.Adds]⟩⟩
  · exact .inr ⟨[_], [_], rfl, by simp [DProgram.Drops, DAct.Drops, PAct.Removes],
      ⟨_, List.mem_cons_self, by simp [DAct.Adds, PAct.Adds]⟩⟩
  · exact .inr ⟨[_, _], [_], rfl, by simp [DProgram.Drops, DAct.Drops, PAct.Removes],
      ⟨_, List.mem_cons_self, by simp [DAct.Adds, PAct.Adds]⟩⟩

theorem exErase_erases : ∀ p ∈ exErase, DProgram.ErasesLast p exE3 := by
  have hne : exE3 ≠ exShareB ∧ exE3 ≠ exE4 ∧ exE3 ≠ support exShareB (sy "a") := by decide +kernel
  intro p hp
  simp only [exErase, List.mem_cons, List.not_mem_nil, or_false] at hp
  rcases hp with rfl | rfl | rfl
  · exact .inl (by simp [DProgram.Adds, DAct.Adds, PAct.Adds, hne])
  · exact .inl (by simp [DProgram.Adds, DAct.Adds, PAct.Adds, hne])
  · exact .inr ⟨[_], [_, _], rfl, by simp [DProgram.Adds, DAct.Adds, PAct.Adds, hne], List.mem_cons_self⟩

/-- The hypotheses of `C87_restored` and `C87_erased` are met: in the end the edge that all three programs add last exists,
and the edge that was there before, that one program adds and that two erase, is shown by no query. -/
example : ∃ s, runOps [.prim (.add exE3 1), .prim (.add exShareA 2)] (St.new false) = (.ok (), s) ∧
    (hgExists exE3 s).1 = .ok true ∧
    ∃ τ, (Sys.startD s.disk exErase).Reach τ ∧ τ.Finished ∧ (hgExists exShareB (reopen τ.db false)).1 = .ok true ∧
      OnlyShows PlainVocab (fun y => y ≠ exE3) (reopen τ.db false) := by
  have hV : Vocab (PlainVocab (F := Half)) := plainVocab
  have ho : ∀ op ∈ ([.prim (.add exE3 1), .prim (.add exShareA 2)] : List (Op Half)), op.Over PlainVocab :=
    ops_of (by decide +kernel)
  obtain ⟨s, A, hA⟩ := after_exists hV _ ho false
  obtain ⟨τ, h1, h2⟩ := reach_finished (Sys.startD s.disk exErase)
  have hs : s = (runOps [.prim (.add exE3 1), .prim (.add exShareA 2)] (St.new false)).2 := by rw [hA.run]
  refine ⟨s, hA.run, by rw [hs]; decide +kernel, τ, h1, h2, ?_, ?_⟩
  · exact C87_restored hV _ ho s hA.run exErase_over (edge_of (by decide +kernel)) exErase_restores
      (.inr ⟨_, List.mem_cons_self, _, List.mem_cons_of_mem _ (List.mem_cons_of_mem _ List.mem_cons_self),
        by simp [DAct.Adds, PAct.Adds]⟩) h1 h2
  · exact C87_erased hV _ ho s hA.run exErase_over (edge_of (by decide +kernel)) exErase_erases
      (.inr ⟨_, List.mem_cons_self, List.mem_cons_of_mem _ List.mem_cons_self⟩) h1 h2

/-- The hypotheses of `C87_own` are met: the process that erases the graph finds its own edge again, whatever the other
one does, and the edge that was there before is gone. -/
example : ∃ s, runOps exShareOps (St.new false) = (.ok (), s) ∧
    ∃ τ, (Sys.startD s.disk [[.destroy, .call (.add exE4 20)], [.call (PAct.add exShareB 21)]]).Reach τ ∧ τ.Finished ∧
      (hgExists exE4 (reopen τ.db false)).1 = .ok true ∧ (hgExists exShareA (reopen τ.db false)).1 = .ok false := by
  have hV : Vocab (PlainVocab (F := Half)) := plainVocab
  obtain ⟨s, A, hA⟩ := after_exists hV exShareOps exShareOps_over false
  obtain ⟨τ, h1, h2⟩ := reach_finished (Sys.startD s.disk [[.destroy, .call (.add exE4 20)], [.call (PAct.add exShareB 21)]])
  have hs : s = (runOps exShareOps (St.new false)).2 := by rw [hA.run]
  have hp : ∀ p ∈ [[.destroy, .call (.add exE4 20)], [.call (PAct.add exShareB 21)]], ∀ a ∈ p,
      DAct.op a |>.Over (PlainVocab (F := Half)) := by
    have h1 : EdgeOver (PlainVocab (F := Half)) exE4 := edge_of (by decide +kernel)
    have h3 : EdgeOver (PlainVocab (F := Half)) exShareB := edge_of (by decide +kernel)
    intro p hp a ha
    simp only [List.mem_cons, List.not_mem_nil, or_false] at hp
    rcases hp with rfl | rfl <;> simp only [List.mem_cons, List.not_mem_nil, or_false] at ha
    · rcases ha with rfl | rfl
      · trivial
      · exact h1
    · subst ha; exact h3
  have hne : exE4 ≠ exShareB ∧ exShareA ≠ exShareB := by decide +kernel
  have h0 : ∀ (j : Nat) (q : DProgram Half), [[.destroy, .call (.add exE4 20)], [.call (PAct.add exShareB 21)]][j]? = some q →
      j ≠ 0 → q = [.call (PAct.add exShareB 21)] := by
    intro j q hj hj0
    match j, hj, hj0 with
    | 0, _, h => exact absurd rfl h
    | 1, hj, _ => exact (Option.some.inj hj).symm
    | j + 2, hj, _ => cases hj
  obtain ⟨s', e, hO⟩ := C87_own hV exShareOps exShareOps_over s hA.run hp (i := 0) rfl (by
      intro j q hj hj0
      rw [h0 j q hj hj0]
      simp) (by
      rintro j q hj hj0 y ⟨a, ha, hsee⟩
      simp only [List.mem_cons, List.not_mem_nil, or_false] at ha
      rcases ha with rfl | rfl <;> exact absurd hsee id) h1 (fun q hq => h2 q (List.mem_of_getElem? hq))
  have hT : ∀ x : HVal, x ≠ exShareB → ¬ ∃ (j : Nat) (q : DProgram Half),
      [[.destroy, .call (.add exE4 20)], [.call (PAct.add exShareB 21)]][j]? = some q ∧ j ≠ 0 ∧ ∃ a ∈ q, a.Names x := by
    rintro x hx ⟨j, q, hj, hj0, a, ha, hn⟩
    rw [h0 j q hj hj0] at ha
    rw [List.mem_singleton.1 ha] at hn
    exact hx hn
  have hs' : s' = (runOps ([.destroy, .call (.add exE4 20)].map DAct.op) s).2 := by rw [e]
  refine ⟨s, hA.run, τ, h1, h2, ?_, ?_⟩
  · rw [hO.ex _ (edge_of (by decide +kernel)) (hT _ hne.1), hs', hs]; decide +kernel
  · rw [hO.ex _ (edge_of (by decide +kernel)) (hT _ hne.2), hs', hs]; decide +kernel

end GB
