import Verif.Props.Concurrent
import Verif.Proofs.ConcKilled

/-!
Property C69: processes that are killed in the middle of their calls, while others go on.
-/

set_option linter.unusedSectionVars false
set_option linter.unusedVariables false

namespace GB

variable {F : Type} [PyFloat F] [DecidableEq F] {V : Val F → Prop}

/-- C69: processes `alive` and `killed` work on one file, in any order of their steps; those of `alive` return,
those of `killed` stop anywhere; none of `killed` adds or removes an edge that one of `alive` asks for (by pattern, or as
a source of a belief it removes).  Then what the queries say about the edges that the killed programs do not add or
remove is as if only `alive` had run, one program after the other; and no query raises. -/
theorem C69_killed (hV : Vocab V) (ops : List (Op F)) (hops : ∀ op ∈ ops, op.Over V) (s : St)
    (hs : runOps ops (St.new false) = (.ok (), s)) {alive killed : List (Program F)}
    (hp : ∀ p ∈ alive ++ killed, ∀ a ∈ p, a.op.Over V) (hind : Independent alive)
    (hsee : ∀ p ∈ alive, ∀ q ∈ killed, ∀ x, Program.Sees p x → ¬ Program.Touches q x) {τ : Sys}
    (h : (Sys.start s.disk (alive ++ killed)).Reach τ) (hf : FirstDone alive.length τ) :
    ∃ s', runOps (alive.flatten.map PAct.op) s = (.ok (), s') ∧
      SameOutside V (fun x => ∃ p ∈ killed, Program.Touches p x) (reopen τ.db false) s' := by
  have hS := shows_of hV hops hs
  have hI := indexOf_shows hV hS
  rw [hS.disk] at h
  have ho : ∀ op ∈ alive.flatten.map PAct.op, op.Over V := by
    intro op hop
    obtain ⟨a, ha, rfl⟩ := List.mem_map.1 hop
    obtain ⟨p, hpm, ha⟩ := List.mem_flatten.1 ha
    exact hp p (List.mem_append.2 (.inl hpm)) a ha
  obtain ⟨s', e, hS'⟩ := hS.ops hV ho
  have hI' := indexOf_shows hV hS'
  refine ⟨s', e, sameOutside_rows hV rfl hS'.idle ?_ hI'.1 ?_⟩
  · exact (reach_inv hV (W := none) (by simp [WOk]) ⟨hI.1, by simp⟩ hp h).1.1
  · intro x hx hun n
    show HasRow τ.db.perms x n ↔ _
    rw [rows_killed hV hI (shows_over hV hS) hp hind h hf hx (fun p hpm ht => hun ⟨p, hpm, ht⟩) hsee, hI'.2 x hx, ops_present]

/-- C69: the degree of a symbol known from the start, when no two of the programs that return work on the same edge
and the killed programs work on other edges, in which the symbol does not occur, is as if only the programs that
return had run. -/
theorem C69_degree (hV : Vocab V) (ops : List (Op F)) (hops : ∀ op ∈ ops, op.Over V) (s : St)
    (hs : runOps ops (St.new false) = (.ok (), s)) {alive killed : List (Program F)}
    (hp : ∀ p ∈ alive ++ killed, ∀ a ∈ p, a.op.Over V) (hind : Apart alive)
    (hun : ∀ p ∈ alive, ∀ q ∈ killed, ∀ x, Program.Touches p x ∨ Program.Sees p x → ¬ Program.Touches q x)
    {τ : Sys} (h : (Sys.start s.disk (alive ++ killed)).Reach τ) (hf : FirstDone alive.length τ)
    (v : Val F) (hv : WfVal v) (ha : v.isAtom = true) (hk : (Spec.after ops).known v ≠ none)
    (hne : ∀ q ∈ killed, ∀ x, EdgeOver V x → Program.Touches q x → v ∉ x.elems) :
    ∃ s', runOps (alive.flatten.map PAct.op) s = (.ok (), s') ∧
      (hgDegree v (reopen τ.db false)).1 = (hgDegree v s').1 := by
  have hS := shows_of hV hops hs
  have hI := indexOf_shows hV hS
  rw [hS.disk] at h
  have hpf : ∀ a ∈ alive.flatten, a.op.Over V := by
    intro a ha
    obtain ⟨p, hpm, ha⟩ := List.mem_flatten.1 ha
    exact hp p (List.mem_append.2 (.inl hpm)) a ha
  have ho : ∀ op ∈ alive.flatten.map PAct.op, op.Over V := by
    intro op hop
    obtain ⟨a, ha, rfl⟩ := List.mem_map.1 hop
    exact hpf a ha
  obtain ⟨s', e, hS'⟩ := hS.ops hV ho
  refine ⟨s', e, ?_⟩
  have hknown : KnownRow v s.work := by
    obtain ⟨A, hA, hR, hw⟩ := hS.ex
    rw [hw]
    rw [hR.known v] at hk
    cases hl : lookV v A.verts with
    | none => exact absurd (by unfold tsOf; rw [hl]; rfl) hk
    | some r => exact known_of_lookV ⟨hA.keys, hA.wf⟩ hv hl _
  have h1 := degree_killed hV hv ha hI (shows_over hV hS) hknown hp hind hun hne h hf
  have hseq := reach_run (db := s.work) (programP alive.flatten)
  obtain ⟨h2, _⟩ := C65_alone hS.idle e (τ := ⟨_, _⟩) hseq (by
    intro p hp
    simp only [List.mem_singleton] at hp
    exact ⟨_, hp⟩)
  have h3 := degree_end hV hv ha hI (shows_over hV hS) hknown (progs := [alive.flatten]) (by simpa using hpf) (Apart.single _) hseq (by
    intro p hp
    simp only [List.mem_singleton] at hp
    exact ⟨_, hp⟩)
  rw [degree_here, h1]
  have h4 : (hgDegree v s').1 = (hgDegree v (reopen s'.work false)).1 := by
    obtain ⟨A, hA, hR, hw⟩ := hS'.ex
    unfold hgDegree
    rw [degree_run hA.wf hv hS'.idle hw, degree_run hA.wf hv (s := reopen s'.work false) rfl hw]
  rw [h4, degree_here, ← h2, h3]
  simp

/-- What a schedule leads to, by evaluation, when some processes are left in the middle. -/
theorem killed_turns {σ : Sys} (k : Nat) (is : List Nat) {db : DB} (h1 : (σ.turns is).db = db)
    (h2 : (((σ.turns is).procs.take k).all Proc.done) = true) : ∃ τ, σ.Reach τ ∧ FirstDone k τ ∧ τ.db = db := by
  refine ⟨_, σ.turns_reach is, ?_, h1⟩
  intro i p hi hp
  have hm : p ∈ (σ.turns is).procs.take k := by
    refine List.mem_of_getElem? (i := i) ?_
    rw [List.getElem?_take_of_lt hi]
    exact hp
  have := List.all_eq_true.1 h2 p hm
  cases p with
  | ret r => exact ⟨r, rfl⟩
  | tx u n => simp [Proc.done] at this

/-- C69 says nothing of the edges that a killed program works on, and nothing more can be said: a process removes an
edge and is killed after the first index entry; another removes the same edge and returns.  The edge does not exist
any more, but `star` of one of its symbols still returns it. -/
theorem C69_shared_counterexample :
    (hgAdd exShareA 1 (St.new false)).2.disk = exShareDB ∧
    ∃ τ, (Sys.start exShareDB ([[PAct.remove exShareA]] ++ [[PAct.remove exShareA]])).Reach τ ∧ FirstDone 1 τ ∧
      (hgExists exShareA (reopen τ.db false)).1 = .ok false ∧
      (hgStar (sy "a") (reopen τ.db false)).1 = .ok [exShareA] := by
  refine ⟨by decide +kernel, ?_⟩
  obtain ⟨τ, h1, h2, h3⟩ := killed_turns
    (σ := Sys.start exShareDB ([[PAct.remove exShareA]] ++ [[PAct.remove exShareA]])) 1
    [1, 1, 1, 1, 0]
    (db := ⟨[⟨lit "is", 0, 1⟩, ⟨lit "a", 0, 1⟩, ⟨lit "(is a)", 0, 1⟩], [lit "a is 1"]⟩)
    (by decide +kernel) (by decide +kernel)
  refine ⟨τ, h1, h2, ?_⟩
  rw [h3]
  decide +kernel

/-- Two groups of programs: the first removes edges by a pattern and adds one of them again, the second adds another
one. -/
def exAlive : List (Program Half) := [[.removeByPattern [sy "is", .none], .add exShareA 5]]
def exKilled : List (Program Half) := [[.add exE3 7]]

theorem exKilled_over : ∀ p ∈ exAlive ++ exKilled, ∀ a ∈ p, a.op.Over PlainVocab := by
  have h2 : EdgeOver PlainVocab exShareA := edge_of (by decide +kernel)
  have h4 : EdgeOver PlainVocab exE3 := edge_of (by decide +kernel)
  intro p hp a ha
  simp only [exAlive, exKilled, List.cons_append, List.nil_append, List.mem_cons, List.not_mem_nil, or_false] at hp
  rcases hp with rfl | rfl <;> simp only [List.mem_cons, List.not_mem_nil, or_false] at ha
  · rcases ha with rfl | rfl
    · exact pattern_of (by decide +kernel)
    · exact h2
  · subst ha; exact h4

/-- The hypotheses are met by a schedule in which the second process is killed in the middle of adding its edge
(the degree of its first symbol is set, the edge does not exist), while the first one removes and adds. -/
example : ∃ s, runOps exShareOps (St.new false) = (.ok (), s) ∧
    ∃ τ, (Sys.start s.disk (exAlive ++ exKilled)).Reach τ ∧ FirstDone exAlive.length τ ∧
      (hgDegree (sy "size") (reopen τ.db false)).1 = .ok 1 ∧ (hgExists exE3 (reopen τ.db false)).1 = .ok false ∧
      (hgExists exShareA (reopen τ.db false)).1 = .ok true ∧ (hgDegree (sy "a") (reopen τ.db false)).1 = .ok 1 := by
  have hV : Vocab (PlainVocab (F := Half)) := plainVocab
  obtain ⟨s, A, hA⟩ := after_exists hV exShareOps exShareOps_over false
  have hs : s = (runOps exShareOps (St.new false)).2 := by rw [hA.run]
  have hd : s.disk = exShareDB := by rw [hs]; decide +kernel
  have hind : Apart exAlive := Apart.single _
  have hind' : Independent exAlive := fun i j p q hi hj hij x hp =>
    ⟨fun h => (hind i j p q hi hj hij x hp).1 (program_removes h), (hind i j p q hi hj hij x hp).2⟩
  have htA : ∀ p ∈ exAlive, ∀ x, Program.Touches p x ∨ Program.Sees p x → Matches [sy "is", .none] x.elems := by
    intro p hp x hx
    simp only [exAlive, List.mem_singleton] at hp
    subst hp
    simp only [Program.Touches, PAct.Touches, Program.Sees, PAct.Sees, List.mem_cons, List.not_mem_nil, or_false,
      exists_eq_or_imp, exists_eq_left] at hx
    rcases hx with (h | rfl) | h
    · exact h
    · decide +kernel
    · exact h
  have htK : ∀ p ∈ exKilled, ∀ x, Program.Touches p x → x = exE3 := by
    intro p hp x hx
    simp only [exKilled, List.mem_singleton] at hp
    subst hp
    simpa [Program.Touches, PAct.Touches] using hx
  have hsep : ∀ p ∈ exAlive, ∀ q ∈ exKilled, ∀ x, Program.Touches p x ∨ Program.Sees p x → ¬ Program.Touches q x := by
    intro p hp q hq x hx hx'
    have := htA p hp x hx
    rw [htK q hq x hx'] at this
    exact absurd this (by decide +kernel)
  have hsee : ∀ p ∈ exAlive, ∀ q ∈ exKilled, ∀ x, Program.Sees p x → ¬ Program.Touches q x :=
    fun p hp q hq x hx => hsep p hp q hq x (.inr hx)
  obtain ⟨τ, h1, h2, h3⟩ := killed_turns (σ := Sys.start exShareDB (exAlive ++ exKilled)) 1
    [1, 0, 0, 0, 1, 0, 0, 0, 1, 0, 0, 0, 0, 0, 0, 0, 0, 0, 0] rfl (by decide +kernel)
  refine ⟨s, hA.run, τ, by rw [hd]; exact h1, h2, by rw [h3]; decide +kernel, by rw [h3]; decide +kernel, ?_, ?_⟩
  · obtain ⟨s', e, hO⟩ := C69_killed hV exShareOps exShareOps_over s hA.run exKilled_over hind' hsee (by rw [hd]; exact h1) h2
    rw [hO.ex _ (edge_of (by decide +kernel)), show s' = (runOps (exAlive.flatten.map PAct.op) s).2 by rw [e], hs]
    · decide +kernel
    · rintro ⟨p, hp, ht⟩
      exact absurd (htK p hp _ ht) (by decide +kernel)
  · obtain ⟨s', e, hD⟩ := C69_degree hV exShareOps exShareOps_over s hA.run exKilled_over hind hsep (by rw [hd]; exact h1) h2 (sy "a") (plain_of (by decide +kernel)).1 rfl
      (by decide +kernel) (by
      intro q hq x _ hx
      rw [htK q hq x hx]
      decide +kernel)
    rw [hD, show s' = (runOps (exAlive.flatten.map PAct.op) s).2 by rw [e], hs]
    decide +kernel

end GB
