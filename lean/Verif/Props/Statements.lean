import Verif.Props.Killed
import Verif.Proofs.StmEnds

/-!
Property C72: several processes whose single SQL statements interleave, with the lock of SQLite, `batch_exec`, and
processes that are killed (or give up waiting for the lock) between any two statements.
-/

set_option linter.unusedSectionVars false
set_option linter.unusedVariables false

namespace GB

variable {F : Type} [PyFloat F] [DecidableEq F] {V : Val F → Prop}

/-- The calls of a program, those in batches too. -/
def calls (p : List (PCall F)) : Program F := p.flatMap PCall.acts

/-- C72: a program of statements, on a connection that nobody disturbs, is the program of Model/Sql.lean; also
inside `batch_exec`. -/
theorem C72_same_program : (∀ (a : PAct F) (s : St), a.conn.run s = a.op.run s) ∧
    ∀ (as : List (PAct F)) (s : St), (PCall.batch as).conn.run s = hgBatchExec (as.map fun a => a.op.run) s := by
  refine ⟨fun a s => by rw [run_act], fun as s => ?_⟩
  show (cBatch (as.map PAct.conn)).run s = _
  rw [run_batch, List.map_map]
  congr 2
  funext a
  exact run_act a

theorem Box.Reach.length {b c : Box} (h : b.Reach c) : c.clients.length = b.clients.length := by
  induction h with
  | refl => rfl
  | step _ hs ih =>
    rw [← ih]
    cases hs with
    | leave i h => simp [Box.release, Box.set]
    | move h => cases h <;> simp [Box.release, Box.set]

theorem over_calls {progs : List (List (PCall F))} (ho : ∀ p ∈ progs, ∀ c ∈ p, c.Over V) :
    ∀ p ∈ progs.map calls, ∀ a ∈ p, a.op.Over V := by
  intro p hp a ha
  obtain ⟨q, hq, rfl⟩ := List.mem_map.1 hp
  obtain ⟨c, hc, ha⟩ := List.mem_flatMap.1 ha
  have := ho q hq c hc
  cases c with
  | one b => simp only [PCall.acts, List.mem_singleton] at ha; subst ha; exact this
  | batch as => exact (this a ha).1

theorem touches_calls (progs : List (List (PCall F))) :
    (fun x : Val F => ∃ p ∈ progs.map calls, Program.Touches p x) = fun x => ∃ p ∈ progs, Program.Touches (calls p) x := by
  funext x
  apply propext
  constructor
  · rintro ⟨p, hp, h⟩
    obtain ⟨q, hq, rfl⟩ := List.mem_map.1 hp
    exact ⟨q, hq, h⟩
  · rintro ⟨q, hq, h⟩
    exact ⟨_, List.mem_map_of_mem hq, h⟩

theorem noFail_start (hV : Vocab V) {ops : List (Op F)} (hops : ∀ op ∈ ops, op.Over V) {s : St}
    (hs : runOps ops (St.new false) = (.ok (), s)) {progs : List (Program F)} (hp : ∀ p ∈ progs, ∀ a ∈ p, a.op.Over V) :
    NoFail (Sys.start s.disk progs) := by
  intro τ h e he
  have := C65_no_error hV ops hops s hs hp h _ he _ rfl
  cases this

/-- C72: every state of the file that statements of several processes bring about, in whatever order they are executed, and
whichever processes are gone in the middle, is one that the transactions of Model/Concurrent.lean bring about, the batches
being the calls in them one after the other; and the processes that returned did so there. -/
theorem C72_refines (hV : Vocab V) (ops : List (Op F)) (hops : ∀ op ∈ ops, op.Over V) (s : St)
    (hs : runOps ops (St.new false) = (.ok (), s)) {progs : List (List (PCall F))}
    (hp : ∀ p ∈ progs, ∀ c ∈ p, c.Over V) {b : Box} (h : (Box.start s.disk progs).Reach b) :
    ∃ τ, (Sys.start s.disk (progs.map calls)).Reach τ ∧ τ.db = b.disk ∧
      ∀ (i : Nat) r, b.clients[i]? = some (.live (.ret r)) → τ.procs[i]? = some (.ret r.1) :=
  box_refines hp (noFail_start hV hops hs (over_calls hp)) h

/-- C72: no call of any process raises (if it does not give up waiting for the lock). -/
theorem C72_no_error (hV : Vocab V) (ops : List (Op F)) (hops : ∀ op ∈ ops, op.Over V) (s : St)
    (hs : runOps ops (St.new false) = (.ok (), s)) {progs : List (List (PCall F))}
    (hp : ∀ p ∈ progs, ∀ c ∈ p, c.Over V) {b : Box} (h : (Box.start s.disk progs).Reach b) :
    ∀ (i : Nat) r, b.clients[i]? = some (.live (.ret r)) → r.1 = .ok () := by
  intro i r hi
  obtain ⟨τ, h1, _, h3⟩ := C72_refines hV ops hops s hs hp h
  exact C65_no_error hV ops hops s hs (over_calls hp) h1 _ (List.mem_of_getElem? (h3 i r hi)) _ rfl

/-- C72: at every moment, whatever statement any process is at and whatever transaction is open, no query of a new
connection raises, and about the edges that no process adds or removes they say what they said before. -/
theorem C72_any_time (hV : Vocab V) (ops : List (Op F)) (hops : ∀ op ∈ ops, op.Over V) (s : St)
    (hs : runOps ops (St.new false) = (.ok (), s)) {progs : List (List (PCall F))}
    (hp : ∀ p ∈ progs, ∀ c ∈ p, c.Over V) {b : Box} (h : (Box.start s.disk progs).Reach b) :
    SameOutside V (fun x => ∃ p ∈ progs, Program.Touches (calls p) x) (reopen b.disk false) s := by
  obtain ⟨τ, h1, h2, _⟩ := C72_refines hV ops hops s hs hp h
  rw [← h2]
  have := C65_any_time hV ops hops s hs (over_calls hp) h1
  rwa [touches_calls] at this

theorem finished_of_box {db : DB} {progs : List (List (PCall F))} {b : Box} (h : (Box.start db progs).Reach b) {τ : Sys}
    (h1 : (Sys.start db (progs.map calls)).Reach τ) {k : Nat} (hk : k ≤ progs.length) (hf : b.FirstDone k)
    (h3 : ∀ (i : Nat) r, b.clients[i]? = some (.live (.ret r)) → τ.procs[i]? = some (.ret r.1)) : FirstDone k τ := by
  intro i p hi hp
  have hl : b.clients.length = progs.length := by rw [h.length]; simp [Box.start]
  obtain ⟨r, hr⟩ := hf i hi (by omega)
  have := h3 i r hr
  rw [hp] at this
  exact ⟨r.1, by injection this⟩

/-- C72: when no process removes or asks for an edge that another adds or removes, and all return, then in the end all
queries answer as if the programs had run one after the other. -/
theorem C72_result (hV : Vocab V) (ops : List (Op F)) (hops : ∀ op ∈ ops, op.Over V) (s : St)
    (hs : runOps ops (St.new false) = (.ok (), s)) {progs : List (List (PCall F))}
    (hp : ∀ p ∈ progs, ∀ c ∈ p, c.Over V) (hind : Independent (progs.map calls)) {b : Box}
    (h : (Box.start s.disk progs).Reach b) (hf : b.Finished) :
    ∃ s', runOps ((progs.flatMap calls).map PAct.op) s = (.ok (), s') ∧ SameEdges V (reopen b.disk false) s' := by
  obtain ⟨τ, h1, h2, h3⟩ := C72_refines hV ops hops s hs hp h
  have hl : b.clients.length = progs.length := by rw [h.length]; simp [Box.start]
  have hd := finished_of_box h h1 (Nat.le_refl _) (hl ▸ hf) h3
  have hfin : τ.Finished := by
    intro p hpm
    obtain ⟨i, hi⟩ := List.getElem?_of_mem hpm
    refine hd i p ?_ hi
    have := (List.getElem?_eq_some_iff.1 hi).1
    rw [h1.length] at this
    simpa [Sys.start] using this
  rw [← h2, List.flatMap_def]
  exact C65_result hV ops hops s hs (over_calls hp) hind h1 hfin

/-- C72: in the end the degree of a symbol known from the start is as if the programs had run one after the other, when
no two of them work on the same edge. -/
theorem C72_degree (hV : Vocab V) (ops : List (Op F)) (hops : ∀ op ∈ ops, op.Over V) (s : St)
    (hs : runOps ops (St.new false) = (.ok (), s)) {progs : List (List (PCall F))}
    (hp : ∀ p ∈ progs, ∀ c ∈ p, c.Over V) (hind : Apart (progs.map calls)) {b : Box}
    (h : (Box.start s.disk progs).Reach b) (hf : b.Finished)
    (v : Val F) (hv : WfVal v) (ha : v.isAtom = true) (hk : (Spec.after ops).known v ≠ none) :
    ∃ s', runOps ((progs.flatMap calls).map PAct.op) s = (.ok (), s') ∧
      (hgDegree v (reopen b.disk false)).1 = (hgDegree v s').1 := by
  obtain ⟨τ, h1, h2, h3⟩ := C72_refines hV ops hops s hs hp h
  have hl : b.clients.length = progs.length := by rw [h.length]; simp [Box.start]
  have hd := finished_of_box h h1 (Nat.le_refl _) (hl ▸ hf) h3
  have hfin : τ.Finished := by
    intro p hpm
    obtain ⟨i, hi⟩ := List.getElem?_of_mem hpm
    refine hd i p ?_ hi
    have := (List.getElem?_eq_some_iff.1 hi).1
    rw [h1.length] at this
    simpa [Sys.start] using this
  rw [← h2, List.flatMap_def]
  exact C66_degree_partial hV ops hops s hs (over_calls hp) hind h1 hfin v hv ha hk

/-- C72: processes `alive` return; those of `killed` are killed between any two statements, or stopped, or give up
waiting for the lock; none of these adds or removes an edge that one of `alive` asks for.  Then what the queries say
about the edges that the killed programs do not add or remove is as if only `alive` had run, and no query raises. -/
theorem C72_killed (hV : Vocab V) (ops : List (Op F)) (hops : ∀ op ∈ ops, op.Over V) (s : St)
    (hs : runOps ops (St.new false) = (.ok (), s)) {alive killed : List (List (PCall F))}
    (hp : ∀ p ∈ alive ++ killed, ∀ c ∈ p, c.Over V) (hind : Independent (alive.map calls))
    (hsee : ∀ p ∈ alive, ∀ q ∈ killed, ∀ x, Program.Sees (calls p) x → ¬ Program.Touches (calls q) x) {b : Box}
    (h : (Box.start s.disk (alive ++ killed)).Reach b) (hf : b.FirstDone alive.length) :
    ∃ s', runOps ((alive.flatMap calls).map PAct.op) s = (.ok (), s') ∧
      SameOutside V (fun x => ∃ p ∈ killed, Program.Touches (calls p) x) (reopen b.disk false) s' := by
  obtain ⟨τ, h1, h2, h3⟩ := C72_refines hV ops hops s hs hp h
  have hd := finished_of_box h h1 (by simp) hf h3
  have ho := over_calls hp
  rw [List.map_append] at h1 ho
  rw [← h2, List.flatMap_def]
  have := C69_killed hV ops hops s hs ho hind (by
    intro p hp q hq x hx hx'
    obtain ⟨p', hp', rfl⟩ := List.mem_map.1 hp
    obtain ⟨q', hq', rfl⟩ := List.mem_map.1 hq
    exact hsee p' hp' q' hq' x hx hx') h1 (by simpa using hd)
  rwa [touches_calls] at this

/-- C72: processes that wait for each other's lock never block each other for ever: there is no endless run, and when no
request can be made any more, every process that is still there returned and no transaction is open. -/
theorem C72_terminates (db : DB) (progs : List (List (PCall F))) :
    Acc (fun c b : Box => b.Step c) (Box.start db progs) ∧
      ∀ b, (Box.start db progs).Reach b → (∀ c, ¬ b.Move c) →
        b.tx = none ∧ ∀ (i : Nat) p, b.clients[i]? = some (.live p) → ∃ r, p = .ret r :=
  ⟨box_acc _, fun b h hn => box_progress (held_reach (held_start db progs) h) hn⟩

/-! ### examples -/

/-- Process `i` need not wait for the lock. -/
def Box.freeFor (b : Box) (i : Nat) : Bool :=
  match b.tx with
  | some (j, _) => decide (j = i)
  | none => true

/-- Process `i` makes its next request, if it need not wait. -/
def Box.turn (b : Box) (i : Nat) : Box :=
  match b.clients[i]? with
  | some (.live (.read k)) => b.set i (.live (k (b.view i)))
  | some (.live (.write u k e)) =>
    if b.freeFor i then
      match u (b.view i) with
      | some w => { b.set i (.live (k (b.view i))) with tx := some (i, w) }
      | none => { b.set i (.live e) with tx := some (i, b.view i) }
    else b
  | some (.live (.commit k)) =>
    match b.tx with
    | some (j, w) => if j = i then { b.set i (.live k) with disk := w, tx := none } else b.set i (.live k)
    | none => b.set i (.live k)
  | _ => b

/-- The processes make requests in this order. -/
def Box.turns : Box → List Nat → Box
  | b, [] => b
  | b, i :: is => (b.turn i).turns is

theorem Box.turn_reach (b : Box) (i : Nat) : b.Reach (b.turn i) := by
  unfold Box.turn
  split
  · rename_i k h
    exact .step .refl (.move (.read i h))
  · rename_i u k e h
    split
    · rename_i hf
      have hfree : b.free i := by
        intro j w hj
        unfold Box.freeFor at hf
        rw [hj] at hf
        simpa using hf
      split
      · rename_i w hw
        exact .step .refl (.move (.write i w h hfree hw))
      · rename_i hw
        exact .step .refl (.move (.refused i h hfree hw))
    · exact .refl
  · rename_i k h
    split
    · rename_i j w hj
      split
      · rename_i hji
        subst hji
        exact .step .refl (.move (.commit j w h hj))
      · rename_i hji
        refine .step .refl (.move (.idle i h ?_))
        rintro ⟨w', hw'⟩
        rw [hj] at hw'
        cases hw'
        exact hji rfl
    · rename_i hj
      refine .step .refl (.move (.idle i h ?_))
      rintro ⟨w', hw'⟩
      rw [hj] at hw'
      cases hw'
  · exact .refl

theorem Box.Reach.trans {b c d : Box} (h1 : b.Reach c) (h2 : c.Reach d) : b.Reach d := by
  induction h2 with
  | refl => exact h1
  | step _ hs ih => exact .step ih hs

theorem Box.turns_reach (is : List Nat) (b : Box) : b.Reach (b.turns is) := by
  induction is generalizing b with
  | nil => exact .refl
  | cons i is ih => exact (b.turn_reach i).trans (ih _)

/-- The process returned without an exception. -/
def Client.done : Client → Bool
  | .live (.ret (.ok _, _)) => true
  | _ => false

theorem Box.firstDone_of {b : Box} {k : Nat} (h : ((b.clients.take k).all Client.done) = true) : b.FirstDone k := by
  intro i hi hl
  have hm : b.clients[i] ∈ b.clients.take k := by
    refine List.mem_of_getElem? (i := i) ?_
    rw [List.getElem?_take_of_lt hi]
    exact List.getElem?_eq_getElem hl
  have h1 := List.all_eq_true.1 h _ hm
  rw [List.getElem?_eq_getElem hl]
  generalize b.clients[i] = c at h1
  match c, h1 with
  | .live (.ret (.ok a, c)), _ => exact ⟨_, rfl⟩

/-- Three programs: two add edges in one transaction each, one of them in a batch that also removes an edge; the third
removes an edge by a pattern and adds it again. -/
def exCalls : List (List (PCall Half)) :=
  [[.batch [.add exShareB 21, .remove exE4]], [.one (.addMany [exE3, exShareB] 20)],
   [.one (.removeByPattern [sy "is", sy "a"]), .one (.add exShareA 22)]]

theorem exCalls_over : ∀ p ∈ exCalls, ∀ c ∈ p, c.Over PlainVocab := by
  have h1 : EdgeOver PlainVocab exE4 := edge_of (by decide +kernel)
  have h2 : EdgeOver PlainVocab exShareA := edge_of (by decide +kernel)
  have h3 : EdgeOver PlainVocab exShareB := edge_of (by decide +kernel)
  have h4 : EdgeOver PlainVocab exE3 := edge_of (by decide +kernel)
  have h5 : PatternOver PlainVocab [sy "is", sy "a"] := pattern_of (by decide +kernel)
  intro p hp c hc
  simp only [exCalls, List.mem_cons, List.not_mem_nil, or_false] at hp
  rcases hp with rfl | rfl | rfl <;> simp only [List.mem_cons, List.not_mem_nil, or_false] at hc
  · subst hc
    intro a ha
    simp only [List.mem_cons, List.not_mem_nil, or_false] at ha
    rcases ha with rfl | rfl
    · exact ⟨h3, trivial⟩
    · exact ⟨h1, trivial⟩
  · subst hc; exact ⟨by simp, by simp [h3, h4]⟩
  · rcases hc with rfl | rfl
    · exact h5
    · exact h2

theorem exCalls_independent : Independent (exCalls.map calls) := by
  obtain ⟨⟨n1, n2, n3, n4, n5⟩, k1, k2, k3, k4, k5⟩ := exShare_ne
  have m1 : ¬ Matches [sy "is", sy "a"] exE4.elems := by decide +kernel
  have m2 : ¬ Matches [sy "is", sy "a"] exShareB.elems := by decide +kernel
  have m3 : ¬ Matches [sy "is", sy "a"] exE3.elems := by decide +kernel
  have n6 : exE3 ≠ exE4 := by decide +kernel
  intro i j p q hi hj hij x hp
  have hi' := (List.getElem?_eq_some_iff.1 hi).1
  have hj' := (List.getElem?_eq_some_iff.1 hj).1
  simp only [exCalls, List.map_cons, List.map_nil, List.length_cons, List.length_nil] at hi' hj'
  have hi2 : i = 0 ∨ i = 1 ∨ i = 2 := by omega
  have hj2 : j = 0 ∨ j = 1 ∨ j = 2 := by omega
  rcases hi2 with rfl | rfl | rfl <;> rcases hj2 with rfl | rfl | rfl <;> first
    | exact absurd rfl hij
    | (cases hi; cases hj
       simp [calls, PCall.acts, Program.Touches, Program.Removes, Program.Sees, PAct.Touches, PAct.Removes, PAct.Sees] at hp ⊢
       try grind)

/-- A history of two edges. -/
def exCallOps : List (Op Half) := exShareOps ++ [.prim (.add exE4 2)]

theorem exCallOps_over : ∀ op ∈ exCallOps, op.Over PlainVocab := ops_of (by decide +kernel)

/-- The hypotheses of `C72_result` are met by a schedule in which the three processes make one request each in turn,
and wait for the lock: all return, the batch added and removed its edges, and the edge that was removed and added
again is there. -/
example : ∃ s, runOps exCallOps (St.new false) = (.ok (), s) ∧
    ∃ b, (Box.start s.disk exCalls).Reach b ∧ b.Finished ∧ (hgExists exShareB (reopen b.disk false)).1 = .ok true ∧
      (hgExists exE4 (reopen b.disk false)).1 = .ok false ∧ (hgExists exShareA (reopen b.disk false)).1 = .ok true := by
  have hV : Vocab (PlainVocab (F := Half)) := plainVocab
  obtain ⟨s, A, hA⟩ := after_exists hV exCallOps exCallOps_over false
  have hs : s = (runOps exCallOps (St.new false)).2 := by rw [hA.run]
  have h1 := (Box.start s.disk exCalls).turns_reach ((List.range 100).flatMap fun _ => [0, 1, 2])
  have h2 : ((Box.start s.disk exCalls).turns ((List.range 100).flatMap fun _ => [0, 1, 2])).Finished := by
    refine Box.firstDone_of ?_
    rw [hs]
    decide +kernel
  obtain ⟨s', e, hS⟩ := C72_result hV exCallOps exCallOps_over s hA.run exCalls_over exCalls_independent h1 h2
  have hs' : s' = (runOps ((exCalls.flatMap calls).map PAct.op) s).2 := by rw [e]
  refine ⟨s, hA.run, _, h1, h2, ?_, ?_, ?_⟩
  · rw [hS.ex _ (edge_of (by decide +kernel)), hs', hs]; decide +kernel
  · rw [hS.ex _ (edge_of (by decide +kernel)), hs', hs]; decide +kernel
  · rw [hS.ex _ (edge_of (by decide +kernel)), hs', hs]; decide +kernel

/-- One process removes by a pattern and adds one of the edges again in a batch; another has begun a batch. -/
def exAliveCalls : List (List (PCall Half)) := [[.one (.removeByPattern [sy "is", .none]), .batch [.add exShareA 5]]]
def exKilledCalls : List (List (PCall Half)) := [[.batch [.add exE3 7, .remove exE4]]]

theorem exKilledCalls_over : ∀ p ∈ exAliveCalls ++ exKilledCalls, ∀ c ∈ p, c.Over PlainVocab := by
  have h1 : EdgeOver PlainVocab exE4 := edge_of (by decide +kernel)
  have h2 : EdgeOver PlainVocab exShareA := edge_of (by decide +kernel)
  have h4 : EdgeOver PlainVocab exE3 := edge_of (by decide +kernel)
  have h5 : PatternOver PlainVocab [sy "is", .none] := pattern_of (by decide +kernel)
  intro p hp c hc
  simp only [exAliveCalls, exKilledCalls, List.cons_append, List.nil_append, List.mem_cons, List.not_mem_nil, or_false] at hp
  rcases hp with rfl | rfl <;> simp only [List.mem_cons, List.not_mem_nil, or_false] at hc
  · rcases hc with rfl | rfl
    · exact h5
    · intro a ha
      simp only [List.mem_cons, List.not_mem_nil, or_false] at ha
      subst ha
      exact ⟨h2, trivial⟩
  · subst hc
    intro a ha
    simp only [List.mem_cons, List.not_mem_nil, or_false] at ha
    rcases ha with rfl | rfl
    · exact ⟨h4, trivial⟩
    · exact ⟨h1, trivial⟩

/-- Process `i` is killed. -/
def Box.kill (b : Box) (i : Nat) : Box :=
  match b.clients[i]? with
  | some (.live _) => (b.set i .gone).release i
  | _ => b

theorem Box.kill_reach (b : Box) (i : Nat) : b.Reach (b.kill i) := by
  unfold Box.kill
  split
  · rename_i p h
    exact .step .refl (.leave i h)
  · exact .refl

/-- The hypotheses of `C72_killed` are met by a schedule in which the second process holds the lock (the first waits
for it) when it is killed: nothing of its batch remains, and the first returns. -/
example : ∃ s, runOps exCallOps (St.new false) = (.ok (), s) ∧
    ∃ b c, (Box.start s.disk (exAliveCalls ++ exKilledCalls)).Reach b ∧ b.holds 1 ∧ (∃ u k e, b.clients[0]? = some (.live (.write u k e))) ∧
      b.Reach c ∧ c.FirstDone exAliveCalls.length ∧
      (hgExists exShareA (reopen c.disk false)).1 = .ok true ∧ (hgExists exE3 (reopen c.disk false)).1 = .ok false ∧
      (hgDegree (sy "size") (reopen c.disk false)).1 = .ok 0 := by
  have hV : Vocab (PlainVocab (F := Half)) := plainVocab
  obtain ⟨s, A, hA⟩ := after_exists hV exCallOps exCallOps_over false
  have hs : s = (runOps exCallOps (St.new false)).2 := by rw [hA.run]
  have h1 := (Box.start s.disk (exAliveCalls ++ exKilledCalls)).turns_reach (List.replicate 12 1 ++ List.replicate 20 0)
  have h2 := ((Box.start s.disk (exAliveCalls ++ exKilledCalls)).turns (List.replicate 12 1 ++ List.replicate 20 0)).kill_reach 1
  have h3 := (((Box.start s.disk (exAliveCalls ++ exKilledCalls)).turns (List.replicate 12 1 ++ List.replicate 20 0)).kill 1).turns_reach (List.replicate 60 0)
  have h4 : ((((Box.start s.disk (exAliveCalls ++ exKilledCalls)).turns (List.replicate 12 1 ++ List.replicate 20 0)).kill 1).turns
      (List.replicate 60 0)).FirstDone exAliveCalls.length := by
    refine Box.firstDone_of ?_
    rw [hs]
    decide +kernel
  have hind : Independent (exAliveCalls.map calls) := by
    intro i j p q hi hj hij
    have hi' := (List.getElem?_eq_some_iff.1 hi).1
    have hj' := (List.getElem?_eq_some_iff.1 hj).1
    simp only [exAliveCalls, List.map_cons, List.map_nil, List.length_cons, List.length_nil] at hi' hj'
    omega
  have m1 : ¬ Matches [sy "is", .none] exE3.elems := by decide +kernel
  have m2 : ¬ Matches [sy "is", .none] exE4.elems := by decide +kernel
  have hsee : ∀ p ∈ exAliveCalls, ∀ q ∈ exKilledCalls, ∀ x, Program.Sees (calls p) x → ¬ Program.Touches (calls q) x := by
    intro p hp q hq x hx hx'
    simp only [exAliveCalls, exKilledCalls, List.mem_singleton] at hp hq
    subst hp hq
    simp [calls, PCall.acts, Program.Touches, Program.Sees, PAct.Touches, PAct.Sees] at hx hx'
    rcases hx' with rfl | rfl
    · exact m1 hx
    · exact m2 hx
  obtain ⟨s', e, hS⟩ := C72_killed hV exCallOps exCallOps_over s hA.run exKilledCalls_over hind hsee
    ((h1.trans h2).trans h3) h4
  have hs' : s' = (runOps ((exAliveCalls.flatMap calls).map PAct.op) s).2 := by rw [e]
  have hb : ((((Box.start s.disk (exAliveCalls ++ exKilledCalls)).turns (List.replicate 12 1 ++ List.replicate 20 0)).tx.map (·.1)) = some 1) := by
    rw [hs]; decide +kernel
  have hw : (match ((Box.start s.disk (exAliveCalls ++ exKilledCalls)).turns (List.replicate 12 1 ++ List.replicate 20 0)).clients[0]? with
      | some (.live (.write _ _ _)) => true
      | _ => false) = true := by
    rw [hs]; decide +kernel
  refine ⟨s, hA.run, _, _, h1, ?_, ?_, h2.trans h3, h4, ?_, ?_, ?_⟩
  · obtain ⟨⟨j, w⟩, hj, hj1⟩ := Option.map_eq_some_iff.1 hb
    cases hj1
    exact ⟨w, hj⟩
  · generalize ((Box.start s.disk (exAliveCalls ++ exKilledCalls)).turns (List.replicate 12 1 ++ List.replicate 20 0)).clients[0]? = o at hw ⊢
    match o, hw with
    | some (.live (.write u k e)), _ => exact ⟨u, k, e, rfl⟩
  · rw [hS.ex _ (edge_of (by decide +kernel)), hs', hs]
    · decide +kernel
    · rintro ⟨p, hp, ht⟩
      simp only [exKilledCalls, List.mem_singleton] at hp
      subst hp
      simp [calls, PCall.acts, Program.Touches, PAct.Touches] at ht
      rcases ht with ht | ht <;> exact absurd ht (by decide +kernel)
  · rw [hs]; decide +kernel
  · rw [hs]; decide +kernel

end GB
