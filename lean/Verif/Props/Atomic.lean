import Verif.Props.Statements
import Verif.Proofs.StmAtomic

/-!
Property C73: a call that adds edges in one transaction (`add` of a list of edges, `add_belief`, `batch_exec` of additions) is
all or nothing, also when other processes work on the file and when any of them is killed.
-/

set_option linter.unusedSectionVars false
set_option linter.unusedVariables false

namespace GB

variable {F : Type} [PyFloat F] [DecidableEq F] {V : Val F → Prop}

/-- An edge that a process other than the `i`-th adds or removes. -/
def OthersTouch (progs : List (List (PCall F))) (i : Nat) (x : Val F) : Prop :=
  ∃ (j : Nat) (p : List (PCall F)), progs[j]? = some p ∧ j ≠ i ∧ Program.Touches (calls p) x

theorem over_take {prog : List (PCall F)} (hp : ∀ c ∈ prog, c.Over V) (k : Nat) :
    ∀ a ∈ calls (prog.take k), a.op.Over V := by
  intro a ha
  refine over_calls (progs := [prog.take k]) ?_ (calls (prog.take k)) (by simp) a ha
  intro p hpm c hc
  simp only [List.mem_singleton] at hpm
  subst hpm
  exact hp c (List.mem_of_mem_take hc)

theorem over_ops {p : Program F} (hp : ∀ a ∈ p, a.op.Over V) : ∀ op ∈ p.map PAct.op, op.Over V := by
  intro op hop
  obtain ⟨a, ha, rfl⟩ := List.mem_map.1 hop
  exact hp a ha

/-- The rows of the edges `O`, when they are those of the calls made so far. -/
theorem rows_of_part {P O K : Val F → Prop} {db : DB} {f : {v // K v} → Int}
    {p : Program F} (h : part O K db = partAfter O P f p) {x : Val F} (hx : O x) (n : Nat) :
    HasRow db.perms x n ↔ afterAll p P x ∧ n < factorial x.elems.length := by
  have h1 : ownRows O db x n = fullRows O (afterAll p P) x n := congrFun (congrFun (congrArg Prod.fst h) x) n
  unfold ownRows fullRows at h1
  constructor
  · intro hr
    exact (h1.mp ⟨hx, hr⟩).2
  · intro hr
    exact (h1.mpr ⟨hx, hr⟩).2

/-- C73: process `i` makes calls that add edges in one transaction each.  At every moment, whatever statement each of the
processes is at and whichever of them are gone, there is a number `k` of its calls such that the queries of a new connection say, about
the edges that no other process adds or removes, what they say when exactly its first `k` calls have been made: none of
the edges of the next call is there by halves.  When the process returned, these are all its calls. -/
theorem C73_all_or_nothing (hV : Vocab V) (ops : List (Op F)) (hops : ∀ op ∈ ops, op.Over V) (s : St)
    (hs : runOps ops (St.new false) = (.ok (), s)) {progs : List (List (PCall F))}
    (hp : ∀ p ∈ progs, ∀ c ∈ p, c.Over V) {i : Nat} {prog : List (PCall F)} (hi : progs[i]? = some prog)
    (hat : ∀ c ∈ prog, c.Atomic) {b : Box} (h : (Box.start s.disk progs).Reach b) :
    ∃ k s', k ≤ prog.length ∧ runOps ((calls (prog.take k)).map PAct.op) s = (.ok (), s') ∧
      SameOutside V (OthersTouch progs i) (reopen b.disk false) s' ∧
      ∀ r, b.clients[i]? = some (.live (.ret r)) → k = prog.length := by
  have hS := shows_of hV hops hs
  have hI := indexOf_shows hV hS
  rw [hS.disk] at h
  obtain ⟨hR, k, hk, hpart, hret⟩ := box_part (K := fun _ => False) hV (fun v h => h.elim) hI (shows_over hV hS)
    (fun v h => h.elim) hp hi hat (O := fun x => EdgeOver V x ∧ ∀ (j : Nat) p, progs[j]? = some p → j ≠ i →
      ¬ Program.Touches (p.flatMap PCall.acts) x) (fun x => Iff.rfl) (fun j p _ _ x _ _ v h => h.elim)
    (fun ⟨v, h⟩ => h.elim) h
  obtain ⟨s', e, hS'⟩ := hS.ops hV (over_ops (over_take (hp prog (List.mem_of_getElem? hi)) k))
  have hI' := indexOf_shows hV hS'
  refine ⟨k, s', hk, e, sameOutside_rows hV rfl hS'.idle hR hI'.1 ?_, hret⟩
  intro x hx hun n
  show HasRow b.disk.perms x n ↔ _
  rw [rows_of_part hpart ⟨hx, fun j p hj hji ht => hun ⟨j, p, hj, hji, ht⟩⟩, hI'.2 x hx, ops_present]
  rfl

/-- C73: the same with the degrees, for the same number `k` of calls: when no other process works on the edges that
process `i` adds, the degree of every symbol known from the start that is in no edge the others work on is that after
the first `k` calls. -/
theorem C73_degrees (hV : Vocab V) (ops : List (Op F)) (hops : ∀ op ∈ ops, op.Over V) (s : St)
    (hs : runOps ops (St.new false) = (.ok (), s)) {progs : List (List (PCall F))}
    (hp : ∀ p ∈ progs, ∀ c ∈ p, c.Over V) {i : Nat} {prog : List (PCall F)} (hi : progs[i]? = some prog)
    (hat : ∀ c ∈ prog, c.Atomic) (hown : ∀ x, Program.Touches (calls prog) x → ¬ OthersTouch progs i x)
    {b : Box} (h : (Box.start s.disk progs).Reach b) :
    ∃ k s', k ≤ prog.length ∧ runOps ((calls (prog.take k)).map PAct.op) s = (.ok (), s') ∧
      SameOutside V (OthersTouch progs i) (reopen b.disk false) s' ∧
      (∀ v, WfVal v → v.isAtom = true → (Spec.after ops).known v ≠ none →
        (∀ x, EdgeOver V x → OthersTouch progs i x → v ∉ x.elems) →
        (hgDegree v (reopen b.disk false)).1 = (hgDegree v s').1) ∧
      ∀ r, b.clients[i]? = some (.live (.ret r)) → k = prog.length := by
  have hS := shows_of hV hops hs
  have hI := indexOf_shows hV hS
  rw [hS.disk] at h
  have hknown : ∀ v, WfVal v → (Spec.after ops).known v ≠ none → KnownRow v s.work := by
    intro v hv hk
    obtain ⟨A, hA, hR, hw⟩ := hS.ex
    rw [hw]
    rw [hR.known v] at hk
    cases hl : lookV v A.verts with
    | none => exact absurd (by unfold tsOf; rw [hl]; rfl) hk
    | some r => exact known_of_lookV ⟨hA.keys, hA.wf⟩ hv hl _
  obtain ⟨hR, k, hk, hpart, hret⟩ := box_part
    (K := fun v => WfVal v ∧ v.isAtom = true ∧ (Spec.after ops).known v ≠ none ∧
      ∀ x, EdgeOver V x → OthersTouch progs i x → v ∉ x.elems) hV (fun v h => ⟨h.1, h.2.1⟩) hI (shows_over hV hS)
    (fun v h => hknown v h.1 h.2.2.1) hp hi hat (O := fun x => EdgeOver V x ∧ ∀ (j : Nat) p, progs[j]? = some p → j ≠ i →
      ¬ Program.Touches (p.flatMap PCall.acts) x) (fun x => Iff.rfl)
    (fun j p hj hji x hx ht v h => h.2.2.2 x hx ⟨j, p, hj, hji, ht⟩)
    (fun _ x hx ht => ⟨hx, fun j p hj hji ht' => hown x ht ⟨j, p, hj, hji, ht'⟩⟩) h
  have hpk := over_take (hp prog (List.mem_of_getElem? hi)) k
  obtain ⟨s', e, hS'⟩ := hS.ops hV (over_ops hpk)
  have hI' := indexOf_shows hV hS'
  refine ⟨k, s', hk, e, sameOutside_rows hV rfl hS'.idle hR hI'.1 ?_, ?_, hret⟩
  · intro x hx hun n
    show HasRow b.disk.perms x n ↔ _
    rw [rows_of_part hpart ⟨hx, fun j p hj hji ht => hun ⟨j, p, hj, hji, ht⟩⟩, hI'.2 x hx, ops_present]
    rfl
  · intro v hv ha hkv hne
    have h1 : degRow v b.disk = degRow v s.work + gainAll (some v) (Spec.after ops).Present (calls (prog.take k)) :=
      congrFun (congrArg Prod.snd hpart) ⟨v, hv, ha, hkv, hne⟩
    have hseq := reach_run (db := s.work) (programP (calls (prog.take k)))
    obtain ⟨h2, _⟩ := C65_alone hS.idle e (τ := ⟨_, _⟩) hseq (by
      intro p hp
      simp only [List.mem_singleton] at hp
      exact ⟨_, hp⟩)
    have h3 := degree_end hV hv ha hI (shows_over hV hS) (hknown v hv hkv) (progs := [calls (prog.take k)])
      (by simpa using hpk) (Apart.single _) hseq (by
        intro p hp
        simp only [List.mem_singleton] at hp
        exact ⟨_, hp⟩)
    rw [degree_here, h1]
    have h4 : (hgDegree v s').1 = (hgDegree v (reopen s'.work false)).1 := by
      obtain ⟨A, hA, hR, hw⟩ := hS'.ex
      unfold hgDegree
      rw [degree_run hA.wf hv hS'.idle hw, degree_run hA.wf hv (s := reopen s'.work false) rfl hw]
    rw [h4, degree_here, ← h2, h3]
    simp

/-- C73 for one `add` of a list of edges: at every moment either all of the edges that no other process works on are there, or
none but those that were there before. -/
theorem C73_add_list (hV : Vocab V) (ops : List (Op F)) (hops : ∀ op ∈ ops, op.Over V) (s : St)
    (hs : runOps ops (St.new false) = (.ok (), s)) {progs : List (List (PCall F))}
    (hp : ∀ p ∈ progs, ∀ c ∈ p, c.Over V) {i : Nat} {es : List (Val F)} {ts : Int}
    (hi : progs[i]? = some [.one (.addMany es ts)])
    {b : Box} (h : (Box.start s.disk progs).Reach b) :
    (∀ x ∈ es, ¬ OthersTouch progs i x → (hgExists x (reopen b.disk false)).1 = .ok true) ∨
    (∀ x ∈ es, ¬ OthersTouch progs i x → (hgExists x (reopen b.disk false)).1 = (hgExists x s).1) := by
  obtain ⟨k, s', hk, e, hsame, _⟩ := C73_all_or_nothing hV ops hops s hs hp hi (by
    intro c hc
    simp only [List.mem_singleton] at hc
    subst hc
    trivial) h
  have hov := hp _ (List.mem_of_getElem? hi) _ (List.mem_singleton.2 rfl)
  have hes : ∀ x ∈ es, EdgeOver V x := hov.2
  have hk' : k = 0 ∨ k = 1 := by simp at hk; omega
  rcases hk' with rfl | rfl
  · right
    intro x hx hun
    rw [hsame.ex x (hes x hx) hun]
    have e' : runOps ([] : List (Op F)) s = (.ok (), s') := e
    have : s = s' := congrArg Prod.snd e'
    rw [this]
  · left
    intro x hx hun
    rw [hsame.ex x (hes x hx) hun]
    have hS := shows_of hV hops hs
    obtain ⟨s'', e2, hS'⟩ := hS.ops hV (over_ops (over_take (prog := [PCall.one (.addMany es ts)]) (by
      intro c hc
      simp only [List.mem_singleton] at hc
      subst hc
      exact hov) 1))
    rw [e] at e2
    cases e2
    have hpr : ((calls ([PCall.one (.addMany es ts)].take 1)).map PAct.op).foldl Spec.op (Spec.after ops) |>.Present x := by
      rw [ops_present]
      exact .inr hx
    rw [hS'.exists_ hV (hes x hx)]
    exact congrArg Except.ok hpr

/-! ### examples -/

/-- The first process adds two edges in one call, then two in a batch; the second removes edges and adds one. -/
def exAtomicCalls : List (List (PCall Half)) :=
  [[.one (.addMany [exE3, exShareB] 20), .batch [.add exE1 21, .add exE2 22]],
   [.one (.remove exE4), .one (.add exE4 7)]]

theorem exAtomicCalls_over : ∀ p ∈ exAtomicCalls, ∀ c ∈ p, c.Over PlainVocab := by
  have h1 : EdgeOver PlainVocab exE1 := edge_of (by decide +kernel)
  have h2 : EdgeOver PlainVocab exE2 := edge_of (by decide +kernel)
  have h3 : EdgeOver PlainVocab exE3 := edge_of (by decide +kernel)
  have h4 : EdgeOver PlainVocab exE4 := edge_of (by decide +kernel)
  have h5 : EdgeOver PlainVocab exShareB := edge_of (by decide +kernel)
  intro p hp c hc
  simp only [exAtomicCalls, List.mem_cons, List.not_mem_nil, or_false] at hp
  rcases hp with rfl | rfl <;> simp only [List.mem_cons, List.not_mem_nil, or_false] at hc
  · rcases hc with rfl | rfl
    · exact ⟨by simp, by simp [h3, h5]⟩
    · intro a ha
      simp only [List.mem_cons, List.not_mem_nil, or_false] at ha
      rcases ha with rfl | rfl
      · exact ⟨h1, trivial⟩
      · exact ⟨h2, trivial⟩
  · rcases hc with rfl | rfl
    · exact h4
    · exact h4

theorem exAtomicCalls_atomic : ∀ c ∈ [PCall.one (.addMany [exE3, exShareB] 20), .batch [.add exE1 21, .add exE2 22]],
    PCall.Atomic (F := Half) c := by
  intro c hc
  simp only [List.mem_cons, List.not_mem_nil, or_false] at hc
  rcases hc with rfl | rfl
  · trivial
  · intro a ha
    simp only [List.mem_cons, List.not_mem_nil, or_false] at ha
    rcases ha with rfl | rfl <;> exact ⟨_, _, rfl⟩

theorem exAtomicCalls_apart : ∀ x, Program.Touches (calls [PCall.one (.addMany [exE3, exShareB] 20), .batch [.add exE1 21, .add exE2 22]]) x →
    ¬ OthersTouch exAtomicCalls 0 x := by
  have n1 : exE1 ≠ exE4 := by decide +kernel
  have n2 : exE2 ≠ exE4 := by decide +kernel
  have n3 : exE3 ≠ exE4 := by decide +kernel
  have n5 : exShareB ≠ exE4 := by decide +kernel
  rintro x hx ⟨j, p, hj, hji, ht⟩
  have hj' := (List.getElem?_eq_some_iff.1 hj).1
  simp only [exAtomicCalls, List.length_cons, List.length_nil] at hj'
  have : j = 1 := by omega
  subst this
  cases hj
  simp [calls, PCall.acts, Program.Touches, PAct.Touches] at hx ht
  grind

/-- The hypotheses are met by a schedule in which the processes take turns and the first is killed with its batch
almost done: its first call is there completely, of its batch there is nothing. -/
example : ∃ s, runOps exCallOps (St.new false) = (.ok (), s) ∧
    ∃ b c, (Box.start s.disk exAtomicCalls).Reach b ∧ b.holds 0 ∧
      (hgExists exE1 (reopen (b.view 0) false)).1 = .ok true ∧ b.Reach c ∧
      (hgExists exE3 (reopen c.disk false)).1 = .ok true ∧ (hgExists exShareB (reopen c.disk false)).1 = .ok true ∧
      (hgExists exE1 (reopen c.disk false)).1 = .ok false ∧ (hgExists exE2 (reopen c.disk false)).1 = .ok false ∧
      ∃ k s', k ≤ 2 ∧ runOps ((calls ([PCall.one (.addMany [exE3, exShareB] 20), .batch [.add exE1 21, .add exE2 22]].take k)).map PAct.op) s = (.ok (), s') ∧
        SameOutside PlainVocab (OthersTouch exAtomicCalls 0) (reopen c.disk false) s' := by
  have hV : Vocab (PlainVocab (F := Half)) := plainVocab
  obtain ⟨s, A, hA⟩ := after_exists hV exCallOps exCallOps_over false
  have hs : s = (runOps exCallOps (St.new false)).2 := by rw [hA.run]
  have h1 := (Box.start s.disk exAtomicCalls).turns_reach (((List.range 70).flatMap fun _ => [0, 1]))
  have h2 := ((Box.start s.disk exAtomicCalls).turns (((List.range 70).flatMap fun _ => [0, 1]))).kill_reach 0
  have hb : ((((Box.start s.disk exAtomicCalls).turns (((List.range 70).flatMap fun _ => [0, 1]))).tx.map (·.1)) = some 0) := by
    rw [hs]; decide +kernel
  obtain ⟨k, s', hk, e, hS, _⟩ := C73_degrees hV exCallOps exCallOps_over s hA.run exAtomicCalls_over (i := 0) rfl
    exAtomicCalls_atomic exAtomicCalls_apart (h1.trans h2)
  refine ⟨s, hA.run, _, _, h1, ?_, ?_, h2, ?_, ?_, ?_, ?_, k, s', hk, e, hS⟩
  · obtain ⟨⟨j, w⟩, hj, hj1⟩ := Option.map_eq_some_iff.1 hb
    cases hj1
    exact ⟨w, hj⟩
  all_goals rw [hs]; decide +kernel

end GB
