import Verif.Props.Statements
import Verif.Proofs.ConcBudget

/-!
Property C78: degrees while several processes add edges to one SQLite file, possibly the same edges.  (C66 shows that
they need not be right; this says how wrong they can be.)
-/

set_option linter.unusedSectionVars false
set_option linter.unusedVariables false

namespace GB

variable {F : Type} [PyFloat F] [DecidableEq F] {V : Val F → Prop}

/-- An edge that `star` finds has the symbol in it. -/
theorem star_holds (hV : Vocab V) {c e : Val F} (hc : V c) (hca : c.isAtom = true) (he : EdgeOver V e) {n : Nat}
    (hn : n < factorial e.elems.length) (hp : (edge2str c ++ lit " ") <+: rowOf e.elems n) : c ∈ e.elems := by
  have hcw := hV.wf c hc
  obtain ⟨ch, s0, hs0, hch⟩ := edge2str_head_atom hcw hca
  have hperm := permN_perm hn
  cases hpn : permN e.elems n with
  | nil => rw [hpn] at hperm; exact absurd (List.nil_perm.1 hperm) he.elems_ne
  | cons x r =>
    rw [rowOf, hpn] at hp
    have hxm : x ∈ e.elems := hperm.subset (by simp [hpn])
    have hxw := hV.wf x (he.mem x hxm)
    have hxa : x.isAtom = true := by
      rw [hs0] at hp
      exact atom_of_prefix hxw hch hp
    rw [List.cons_append, nodes2str_cons (by simp)] at hp
    have := (word_prefix (atom_noSpace hcw hca) (atom_noSpace hxw hxa)).1 hp
    rw [edge2str_inj hcw hxw this]
    exact hxm

/-- What the processes start from. -/
theorem bounds_start (hV : Vocab V) {ops : List (Op F)} (hops : ∀ op ∈ ops, op.Over V) {auto : Bool} {s : St}
    (hs : runOps ops (St.new auto) = (.ok (), s)) {v : Val F} (hv : WfVal v) (ha : v.isAtom = true) :
    (∀ d, (hgDegree v s).1 = .ok d ↔ d = degRow v s.disk) ∧ RowsOk V s.disk.perms ∧ 0 ≤ degRow v s.disk ∧
      ∃ l : List (Val F), degRow v s.disk = (occurrences v l : Nat) ∧
        ∀ x, EdgeOver V x → ∀ n, HasRow s.disk.perms x n → x ∈ l := by
  have hS := shows_of hV hops hs
  have hI := indexOf_shows hV hS
  obtain ⟨l, hl⟩ := hS.lists
  have h1 := C22_degree hV ops hops auto s hs v hv ha l hl
  have h2 : (hgDegree v s).1 = (hgDegree v (reopen s.work false)).1 := by
    obtain ⟨A, hA, hR, hw⟩ := hS.ex
    unfold hgDegree
    rw [degree_run hA.wf hv hS.idle hw, degree_run hA.wf hv (s := reopen s.work false) rfl hw]
  rw [degree_here] at h2
  rw [hS.disk]
  have h3 : degRow v s.work = (occurrences v l : Nat) := by
    rw [h1] at h2
    injection h2 with h2
    exact h2.symm
  refine ⟨fun d => ?_, hI.1, by omega, l, h3, fun x hx n h => (hl.2 x).2 ((hI.2 x hx n).1 h).1⟩
  rw [h2]
  constructor
  · intro h; injection h with h; exact h.symm
  · intro h; rw [h]

theorem calls_no_removes {progs : List (List (PCall F))} (hno : ∀ p ∈ progs, ∀ x, ¬ Program.Removes (calls p) x) :
    ∀ p ∈ progs.map calls, ∀ x, ¬ Program.Removes p x := by
  intro p hp x
  obtain ⟨q, hq, rfl⟩ := List.mem_map.1 hp
  exact hno q hq x

theorem bounds_box (hV : Vocab V) {ops : List (Op F)} (hops : ∀ op ∈ ops, op.Over V) {s : St}
    (hs : runOps ops (St.new false) = (.ok (), s)) {progs : List (List (PCall F))}
    (hp : ∀ p ∈ progs, ∀ c ∈ p, c.Over V) (hno : ∀ p ∈ progs, ∀ x, ¬ Program.Removes (calls p) x)
    {b : Box} (h : (Box.start s.disk progs).Reach b) {v : Val F} (hv : WfVal v) (ha : v.isAtom = true) :
    RowsOk V b.disk.perms ∧ degRow v b.disk ≤ degRow v s.disk + (occurrences v (addsOf (progs.map calls)) : Nat) ∧
      0 ≤ degRow v b.disk ∧ (RowWith V v b.disk → 1 ≤ degRow v b.disk) := by
  obtain ⟨τ, h1, h2, _⟩ := C72_refines hV ops hops s hs hp h
  obtain ⟨_, k1, k2, l, k3, k4⟩ := bounds_start hV hops hs hv ha
  have hR := (reach_inv hV (W := none) (by simp [WOk]) ⟨k1, by simp⟩ (over_calls hp) h1).1.1
  rw [← h2]
  refine ⟨hR, reach_purse hV hv ha k1 k2 ?_ (over_calls hp) (calls_no_removes hno) h1⟩
  rintro ⟨x, n, hx, hm, hr⟩
  have := occurrences_pos (v := v) (k4 x hx n hr) hm
  omega

theorem exists_row (hV : Vocab V) {db : DB} (hR : RowsOk V db.perms) {e : Val F} (he : EdgeOver V e)
    (h : (hgExists e (reopen db false)).1 = .ok true) : ∃ n, HasRow db.perms e n := by
  obtain ⟨b, h1, _, h3⟩ := here_exists hV hR he
  have h : ((existsM e) (reopen db false)).1 = .ok true := h
  rw [h1] at h
  injection h with h
  obtain ⟨n, hn, _⟩ := h3.1 h
  exact ⟨n, hn⟩

theorem star_row (hV : Vocab V) {db : DB} (hR : RowsOk V db.perms) {v : Val F} (hv : V v) (ha : v.isAtom = true) :
    ∃ res, (hgStar v (reopen db false)).1 = .ok res ∧ res.Nodup ∧
      ∀ x ∈ res, EdgeOver V x ∧ v ∈ x.elems ∧ ∃ n, HasRow db.perms x n := by
  obtain ⟨res, h1, h2, h3⟩ := star_rows hV hv ha (s := reopen db false) (by simp [St.usable, reopen]) hR
  refine ⟨res, by unfold hgStar; rw [h1], h2, fun x hx => ?_⟩
  obtain ⟨k1, n, k2, k3⟩ := (h3 x).1 hx
  exact ⟨k1, star_holds hV hv ha k1 k2.1 k3, n, k2⟩

/-- C78: several processes add edges (no matter which: also the same ones), one by one, several at once, as beliefs or in
batches.  At every moment, whatever statement each of them is at, and whichever of them are gone in the middle, the degree of
a symbol is at most what it was, plus its occurrences in the edges they are asked to add (as often as they are
asked to). -/
theorem C78_upper (hV : Vocab V) (ops : List (Op F)) (hops : ∀ op ∈ ops, op.Over V) (s : St)
    (hs : runOps ops (St.new false) = (.ok (), s)) {progs : List (List (PCall F))}
    (hp : ∀ p ∈ progs, ∀ c ∈ p, c.Over V) (hno : ∀ p ∈ progs, ∀ x, ¬ Program.Removes (calls p) x)
    {b : Box} (h : (Box.start s.disk progs).Reach b) (v : Val F) (hv : WfVal v) (ha : v.isAtom = true) :
    ∃ d0 d : Int, (hgDegree v s).1 = .ok d0 ∧ (hgDegree v (reopen b.disk false)).1 = .ok d ∧ 0 ≤ d ∧
      d ≤ d0 + (occurrences v (addsOf (progs.map calls)) : Nat) := by
  obtain ⟨_, h1, h2, _⟩ := bounds_box hV hops hs hp hno h hv ha
  exact ⟨_, _, ((bounds_start hV hops hs hv ha).1 _).2 rfl, degree_here v b.disk false, h2, h1⟩

/-- C78: then also, as soon as an edge with the symbol in it exists, or its star shows one, its degree is positive. -/
theorem C78_positive (hV : Vocab V) (ops : List (Op F)) (hops : ∀ op ∈ ops, op.Over V) (s : St)
    (hs : runOps ops (St.new false) = (.ok (), s)) {progs : List (List (PCall F))}
    (hp : ∀ p ∈ progs, ∀ c ∈ p, c.Over V) (hno : ∀ p ∈ progs, ∀ x, ¬ Program.Removes (calls p) x)
    {b : Box} (h : (Box.start s.disk progs).Reach b) (v : Val F) (hv : V v) (ha : v.isAtom = true) :
    ∃ d : Int, (hgDegree v (reopen b.disk false)).1 = .ok d ∧
      ((∃ e, EdgeOver V e ∧ v ∈ e.elems ∧ (hgExists e (reopen b.disk false)).1 = .ok true) → 1 ≤ d) ∧
      ((hgStar v (reopen b.disk false)).1 ≠ .ok [] → 1 ≤ d) := by
  obtain ⟨hR, _, _, h3⟩ := bounds_box hV hops hs hp hno h (hV.wf v hv) ha
  refine ⟨_, degree_here v b.disk false, ?_, ?_⟩
  · rintro ⟨e, he, hm, hx⟩
    obtain ⟨n, hn⟩ := exists_row hV hR he hx
    exact h3 ⟨e, n, he, hm, hn⟩
  · intro hne
    obtain ⟨res, k1, _, k3⟩ := star_row hV hR hv ha
    cases res with
    | nil => exact absurd k1 hne
    | cons x res =>
      obtain ⟨j1, j2, n, j3⟩ := k3 x (by simp)
      exact h3 ⟨x, n, j1, j2, j3⟩

/-- C78: then also, the degree of a symbol that the graph knew when the processes started is never too small: it is at least
the number of its occurrences in the edges that exist, and at least the size of its star. -/
theorem C78_never_below (hV : Vocab V) (ops : List (Op F)) (hops : ∀ op ∈ ops, op.Over V) (s : St)
    (hs : runOps ops (St.new false) = (.ok (), s)) {progs : List (List (PCall F))}
    (hp : ∀ p ∈ progs, ∀ c ∈ p, c.Over V) (hno : ∀ p ∈ progs, ∀ x, ¬ Program.Removes (calls p) x)
    {b : Box} (h : (Box.start s.disk progs).Reach b) (v : Val F) (hv : V v) (ha : v.isAtom = true)
    (hk : (Spec.after ops).known v ≠ none) :
    ∃ d : Int, (hgDegree v (reopen b.disk false)).1 = .ok d ∧
      (∀ l : List (Val F), l.Nodup →
        (∀ e ∈ l, EdgeOver V e ∧ (hgExists e (reopen b.disk false)).1 = .ok true) → (occurrences v l : Nat) ≤ d) ∧
      ∃ res, (hgStar v (reopen b.disk false)).1 = .ok res ∧ (res.length : Int) ≤ d := by
  have hw := hV.wf v hv
  obtain ⟨hR, _⟩ := bounds_box hV hops hs hp hno h hw ha
  obtain ⟨τ, h1, h2, _⟩ := C72_refines hV ops hops s hs hp h
  obtain ⟨_, k1, k2, l, k3, k4⟩ := bounds_start hV hops hs hw ha
  have hS := shows_of hV hops hs
  have hknown : KnownRow v s.disk := by
    obtain ⟨A, hA, hR, hw'⟩ := hS.ex
    rw [hS.disk, hw']
    rw [hR.known v] at hk
    cases hl : lookV v A.verts with
    | none => exact absurd (by unfold tsOf; rw [hl]; rfl) hk
    | some r => exact known_of_lookV ⟨hA.keys, hA.wf⟩ hw hl _
  obtain ⟨D, d1, d2⟩ := reach_ledger hV hw ha (db := s.disk) ⟨k1, fun w hw => by cases hw; exact hknown⟩ (over_calls hp)
    (calls_no_removes hno) h1
  rw [h2] at d1 d2
  have key : ∀ m : List (Val F), m.Nodup → (∀ e ∈ m, EdgeOver V e ∧ ∃ n, HasRow b.disk.perms e n) →
      ((occurrences v m : Nat) : Int) ≤ degRow v b.disk := by
    intro m hm hme
    have : occurrences v m ≤ occurrences v (l ++ D) := by
      refine occurrences_le hm fun x hx => ?_
      obtain ⟨hxe, n, hn⟩ := hme x hx
      rw [List.mem_append]
      exact (d2 x hxe n hn).imp (k4 x hxe n) id
    rw [occurrences_append] at this
    omega
  refine ⟨_, degree_here v b.disk false, ?_, ?_⟩
  · exact fun m hm hme => key m hm fun e he => ⟨(hme e he).1, exists_row hV hR (hme e he).1 (hme e he).2⟩
  · obtain ⟨res, j1, j2, j3⟩ := star_row hV hR hv ha
    refine ⟨res, j1, ?_⟩
    have h4 := key res j2 fun e he => ⟨(j3 e he).1, (j3 e he).2.2⟩
    have h5 : res.length ≤ occurrences v res := by
      clear h4 j1 j2
      induction res with
      | nil => simp
      | cons x res ih =>
        have h6 := ih fun e he => j3 e (by simp [he])
        have h7 := List.count_pos_iff.2 (j3 x (by simp)).2.1
        rw [occurrences_cons, List.length_cons]
        omega
    omega

/-! ### the bounds are attained -/

/-- Two processes add the same edge, one of them in a batch. -/
def exSameCalls : List (List (PCall Half)) := [[.one (.add exShareB 2)], [.batch [.add exShareB 3]]]

/-- Two processes add different edges with a common symbol, one of them as a belief. -/
def exNewCalls : List (List (PCall Half)) := [[.one (.add exShareA 2)], [.one (.addBelief (sy "a") exShareB 3)]]

theorem exBounds_over : (∀ p ∈ exSameCalls, ∀ c ∈ p, c.Over PlainVocab) ∧ ∀ p ∈ exNewCalls, ∀ c ∈ p, c.Over PlainVocab := by
  have h2 : EdgeOver PlainVocab exShareA := edge_of (by decide +kernel)
  have h3 : EdgeOver PlainVocab exShareB := edge_of (by decide +kernel)
  have h4 : BeliefOver PlainVocab (sy "a") exShareB := belief_of (by decide +kernel)
  constructor
  · intro p hp c hc
    simp only [exSameCalls, List.mem_cons, List.not_mem_nil, or_false] at hp
    rcases hp with rfl | rfl <;> simp only [List.mem_cons, List.not_mem_nil, or_false] at hc <;> subst hc
    · exact h3
    · intro a ha
      simp only [List.mem_cons, List.not_mem_nil, or_false] at ha
      subst ha
      exact ⟨h3, trivial⟩
  · intro p hp c hc
    simp only [exNewCalls, List.mem_cons, List.not_mem_nil, or_false] at hp
    rcases hp with rfl | rfl <;> simp only [List.mem_cons, List.not_mem_nil, or_false] at hc <;> subst hc
    · exact h2
    · exact h4

theorem exBounds_adds : (∀ p ∈ exSameCalls, ∀ x, ¬ Program.Removes (calls p) x) ∧
    ∀ p ∈ exNewCalls, ∀ x, ¬ Program.Removes (calls p) x := by
  constructor <;> intro p hp x <;>
    simp only [exSameCalls, exNewCalls, List.mem_cons, List.not_mem_nil, or_false] at hp <;>
    rcases hp with rfl | rfl <;> simp [Program.Removes, PAct.Removes, calls, PCall.acts]

/-- The processes make requests in this order and all return; the file has these contents then. -/
theorem Box.turns_finished {b : Box} (is : List Nat) {db : DB} (h1 : (b.turns is).disk = db)
    (h2 : ((b.turns is).clients.all Client.done) = true) : ∃ c, b.Reach c ∧ c.Finished ∧ c.disk = db := by
  refine ⟨_, b.turns_reach is, Box.firstDone_of ?_, h1⟩
  rw [List.take_length]
  exact h2

/-- C78: none of the bounds can be improved.  Two processes that add the same edge with a known symbol in it may count it
twice: the degree is 3 with two edges, all that `C78_upper` allows.  And for a symbol that was not known at the start
`C78_never_below` is false: two edges exist with the symbol in them, and its degree is 1, which is all that
`C78_positive` says. -/
theorem C78_tight :
    (∃ s, runOps exShareOps (St.new false) = (.ok (), s) ∧ (hgDegree (sy "is") s).1 = .ok 1 ∧
      occurrences (sy "is") (addsOf (exSameCalls.map calls)) = 2 ∧
      ∃ b, (Box.start s.disk exSameCalls).Reach b ∧ b.Finished ∧
        (hgDegree (sy "is") (reopen b.disk false)).1 = .ok 3 ∧
        (hgStar (sy "is") (reopen b.disk false)).1 = .ok [exShareA, exShareB]) ∧
    ∃ b, (Box.start DB.empty exNewCalls).Reach b ∧ b.Finished ∧
      (hgExists exShareA (reopen b.disk false)).1 = .ok true ∧ (hgExists exShareB (reopen b.disk false)).1 = .ok true ∧
      (hgDegree (sy "is") (reopen b.disk false)).1 = .ok 1 := by
  have hV : Vocab (PlainVocab (F := Half)) := plainVocab
  obtain ⟨s, A, hA⟩ := after_exists hV exShareOps exShareOps_over false
  have hs : s = (runOps exShareOps (St.new false)).2 := by rw [hA.run]
  have hd : s.disk = exShareDB := by rw [hs]; decide +kernel
  have h0 : (hgDegree (sy "is") s).1 = .ok 1 := by rw [hs]; decide +kernel
  clear hs
  obtain ⟨b, hb1, hb2, hb3⟩ := Box.turns_finished (b := Box.start exShareDB exSameCalls)
    ([0, 1] ++ List.replicate 40 0 ++ List.replicate 40 1)
    (db := ⟨[⟨lit "is", 3, 1⟩, ⟨lit "a", 1, 1⟩, ⟨lit "(is a)", 0, 1⟩, ⟨lit "b", 2, 2⟩, ⟨lit "(is b)", 0, 3⟩],
      [lit "is a 0", lit "a is 1", lit "is b 0", lit "b is 1"]⟩) (by decide +kernel) (by decide +kernel)
  obtain ⟨c, hc1, hc2, hc3⟩ := Box.turns_finished (b := Box.start DB.empty exNewCalls)
    ([0, 0, 0] ++ List.replicate 60 1 ++ List.replicate 40 0)
    (db := ⟨[⟨lit "is", 1, 2⟩, ⟨lit "b", 1, 3⟩, ⟨lit "(is b)", 1, 3⟩, ⟨lit "src/1", 1, 3⟩, ⟨lit "a", 2, 3⟩,
        ⟨lit "(src/1 (is b) a)", 0, 3⟩, ⟨lit "(is a)", 0, 2⟩],
      [lit "is b 0", lit "b is 1", lit "src/1 (is b) a 0", lit "src/1 a (is b) 1", lit "(is b) src/1 a 2",
        lit "(is b) a src/1 3", lit "a src/1 (is b) 4", lit "a (is b) src/1 5", lit "is a 0", lit "a is 1"]⟩)
    (by decide +kernel) (by decide +kernel)
  refine ⟨⟨s, hA.run, h0, by decide +kernel, b, by rw [hd]; exact hb1, hb2, ?_, ?_⟩, c, hc1, hc2, ?_, ?_, ?_⟩
  · rw [hb3]; decide +kernel
  · rw [hb3]; decide +kernel
  · rw [hc3]; decide +kernel
  · rw [hc3]; decide +kernel
  · rw [hc3]; decide +kernel

/-- The processes make requests in this order, then process `i` is killed; the file has these contents then. -/
theorem Box.turns_killed {b : Box} (is : List Nat) (i : Nat) {db : DB} (h1 : ((b.turns is).kill i).disk = db) :
    ∃ c, b.Reach c ∧ c.disk = db :=
  ⟨_, (b.turns_reach is).trans (Box.kill_reach _ i), h1⟩

/-- The hypotheses of the theorems are met by these programs, in the middle of which the bounds say something: the first
process is killed after one row of the index. -/
example : ∃ s, runOps exShareOps (St.new false) = (.ok (), s) ∧ ∃ b, (Box.start s.disk exSameCalls).Reach b ∧
    (hgStar (sy "is") (reopen b.disk false)).1 = .ok [exShareA, exShareB] ∧
    (∃ d : Int, (hgDegree (sy "is") (reopen b.disk false)).1 = .ok d ∧ 2 ≤ d ∧ d ≤ 3) ∧
    ∃ d : Int, (hgDegree (sy "b") (reopen b.disk false)).1 = .ok d ∧ 1 ≤ d := by
  have hV : Vocab (PlainVocab (F := Half)) := plainVocab
  obtain ⟨s, A, hA⟩ := after_exists hV exShareOps exShareOps_over false
  have hs : s = (runOps exShareOps (St.new false)).2 := by rw [hA.run]
  have hd : s.disk = exShareDB := by rw [hs]; decide +kernel
  have h0 : (hgDegree (sy "is") s).1 = .ok 1 := by rw [hs]; decide +kernel
  obtain ⟨b, hr, hbd⟩ := Box.turns_killed (b := Box.start exShareDB exSameCalls) (List.replicate 16 0) 0
    (db := ⟨[⟨lit "is", 2, 1⟩, ⟨lit "a", 1, 1⟩, ⟨lit "(is a)", 0, 1⟩, ⟨lit "b", 1, 2⟩, ⟨lit "(is b)", 0, 2⟩],
      [lit "is a 0", lit "a is 1", lit "is b 0"]⟩) (by decide +kernel)
  rw [← hd] at hr
  have hstar : (hgStar (sy "is") (reopen b.disk false)).1 = .ok [exShareA, exShareB] := by
    rw [hbd]; decide +kernel
  have hex : (hgExists exShareB (reopen b.disk false)).1 = .ok true := by
    rw [hbd]; decide +kernel
  have his : PlainVocab (F := Half) (sy "is") := plain_of (by decide +kernel)
  have hb : PlainVocab (F := Half) (sy "b") := plain_of (by decide +kernel)
  clear hbd hs
  refine ⟨s, hA.run, b, hr, hstar, ?_, ?_⟩
  · obtain ⟨d0, d, h1, h2, _, h4⟩ := C78_upper hV exShareOps exShareOps_over s hA.run exBounds_over.1 exBounds_adds.1 hr
      (sy "is") his.1 rfl
    obtain ⟨d', h2', _, res, h5, h6⟩ := C78_never_below hV exShareOps exShareOps_over s hA.run exBounds_over.1 exBounds_adds.1 hr
      (sy "is") his rfl (by decide +kernel)
    rw [h2] at h2'
    injection h2' with h2'
    rw [hstar] at h5
    injection h5 with h5
    rw [h0] at h1
    injection h1 with h1
    have h7 : occurrences (sy "is") (addsOf (exSameCalls.map calls)) = 2 := by decide +kernel
    rw [h7] at h4
    have h8 : res.length = 2 := by rw [← h5]; rfl
    exact ⟨d, h2, by omega, by omega⟩
  · obtain ⟨d, h1, h2, _⟩ := C78_positive hV exShareOps exShareOps_over s hA.run exBounds_over.1 exBounds_adds.1 hr
      (sy "b") hb rfl
    exact ⟨d, h1, h2 ⟨exShareB, edge_of (by decide +kernel), by decide +kernel, hex⟩⟩

end GB
