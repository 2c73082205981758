import Verif.Proofs.CountRun
import Verif.Props.Limit

/-
Property C96: the degree column holds numbers of limited size.
-/

set_option linter.unusedSectionVars false

namespace GB

variable {F : Type} [PyFloat F] [DecidableEq F] {V : Val F → Prop} {w : Char → Nat} {cd : Codec} {srv : Server} {b n : Nat}

/-! ### histories -/

/-- C96: on any server, in any state, every history of calls does what it does without a limit on degrees, or raises
`DataError`.  No degree wraps around, none is cut off, nothing else is raised. -/
theorem C96_or_raises (srv : Server) (b : Nat) (ops : List (Op F)) (s : St) :
    runOpsOn (srv.counts b) ops s = runOpsOn srv ops s ∨ (runOpsOn (srv.counts b) ops s).1 = .error .dataError :=
  Stops.each ops (fun op => stops_opC op) s

/-- C96: on SQLite with such a column (it has none), and on MySQL with its row count and its keys: a history that adds no text
more than `b` times, counting its occurrences in all the edges that are added, runs from an empty graph as if there was no
limit, whatever else it does. -/
theorem C96_same (b : Nat) (ops : List (Op F)) (hops : ∀ op ∈ ops, op.Over V) (h : ∀ t, mentions sameText t ops ≤ b) (auto : Bool) :
    runOpsOn (Server.sqlite.counts b) ops (St.new auto) = runOps ops (St.new auto) ∧
    ∀ k, runOpsOn ((Server.mysqlExact k).counts b) ops (St.new auto) = runOpsOn (Server.mysqlExact k) ops (St.new auto) := by
  have h0 : DegWithin (fun _ => 0) (St.new auto) := fun r hr => by simp [St.new, DB.empty] at hr
  refine ⟨?_, fun k => ?_⟩
  · rw [← (C89_instances ops _).1]
    exact (calm_ops tame_sqlite ops hops _ _ (fun t => by simpa using h t) h0).1
  · exact (calm_ops (tame_mysqlExact k) ops hops _ _ (fun t => by simpa using h t) h0).1

/-- C96: MySQL with all its deviations at once (see C89, C91), and degrees up to `b`: here texts that the collation takes for
the same count together. -/
theorem C96_mysql (hG : GeneralOnAscii w) (ha : HasAscii cd.sends) (hb : HasAscii cd.stores) (hV : Vocab V)
    (hL : LowerVocab V) (k n b : Nat) (hkn : k ≤ n) (ops : List (Op F)) (hops : ∀ op ∈ ops, op.Over V) (hpl : ∀ op ∈ ops, op.Plain)
    (hq : ∀ op ∈ ops, op.Stamped fun n => -(2 ^ 63) ≤ n ∧ n < 2 ^ 63) (auto : Bool)
    (h : Smooth k Spec.empty Tally.empty (ops.flatMap Op.steps)) (hc : ∀ t, mentions (padEq w) t ops ≤ b) :
    runOpsOn (((Server.mysql cd w k).limit n).counts b) ops (St.new auto) = runOps ops (St.new auto) := by
  have h0 : DegWithin (fun _ => 0) (St.new auto) := fun r hr => by simp [St.new, DB.empty] at hr
  rw [(calm_ops ((tame_mysql cd w k).limit n) ops hops _ _ (fun t => by simpa using hc t) h0).1]
  exact C91_mysql hG ha hb hV hL k n hkn ops hops hpl hq auto h

/-! ### one edge more -/

/-- A history that went well with degrees up to `b`. -/
structure CountHistory (V : Val F → Prop) (b : Nat) (ops : List (Op F)) (auto : Bool) (s : St) : Prop where
  over : ∀ op ∈ ops, op.Over V
  run : runOpsOn (counting b) ops (St.new auto) = (.ok (), s)

theorem CountHistory.sql {ops : List (Op F)} {auto : Bool} {s : St} (h : CountHistory V b ops auto s) :
    runOps ops (St.new auto) = (.ok (), s) := by
  rw [← (C89_instances ops _).1]
  have hr := h.run
  rcases C96_or_raises Server.sqlite b ops (St.new auto) with h1 | h1
  · rw [← h1]; exact hr
  · rw [hr] at h1; cases h1

/-- The numbers reported for the elements of the edge leave room for counting them once more, as often as they occur. -/
def HasCounts (b : Nat) (e : Val F) (s : St) : Prop :=
  ∀ x ∈ e.elems, ∀ d : Int, (hgDegree x s).1 = .ok d → d + e.elems.count x ≤ b

theorem hasCounts_iff (hV : Vocab V) {ops : List (Op F)} {auto : Bool} {s : St} {A : Abs F} (hA : After V ops auto s A)
    {e : Val F} (he : EdgeOver V e) : HasCounts b e s ↔ ∀ x ∈ e.elems, degOf x A.verts + e.elems.count x ≤ b := by
  have hd : ∀ x ∈ e.elems, (hgDegree x s).1 = .ok (degOf x A.verts) := fun x hx =>
    degree_at hA.ok.wf (edge_wf hV he x hx) hA.idle (by rw [hA.work]; rfl)
  constructor
  · intro h x hx
    exact h x hx _ (hd x hx)
  · intro h x hx d hdx
    rw [hd x hx] at hdx
    cases hdx
    exact h x hx

/-- What the tables look like after an edge was refused. -/
theorem count_refused (hV : Vocab V) (hb : 1 ≤ b) {ops : List (Op F)} {auto : Bool} {s : St} (h : CountHistory V b ops auto s) {e : Val F}
    (he : EdgeOver V e) (hnot : ¬ (Spec.after ops).Present e) (hbad : ¬ HasCounts b e s) (ts : Int) :
    ∃ A s1 pre x post, After V ops auto s A ∧ e.elems = pre ++ x :: post ∧
      hgAddOn (counting b) e ts s = (.error .dataError, s1) ∧
      Step true TT s s1 ⟨(pre.foldl (touchV ts) A.verts).map VEnt.row, A.conc.perms⟩ ∧
      (∀ y ∈ pre, degOf y A.verts + pre.count y ≤ b) ∧ ¬ degOf x A.verts + pre.count x + 1 ≤ b := by
  obtain ⟨A, hA⟩ := after_of hV h.over h.sql
  rw [hasCounts_iff hV hA he] at hbad
  have hwx := edge_wf hV he
  have hn : e ∉ A.edges := fun hm => hnot ((hA.rel.present e).2 hm)
  have hbad' : ∃ x ∈ e.elems, ¬ degOf x A.verts + e.elems.count x ≤ b := by
    apply Classical.byContradiction
    intro hno
    exact hbad fun x hx => Classical.byContradiction fun hx' => hno ⟨x, hx, hx'⟩
  obtain ⟨pre, x, post, s1, h1, h2, h3, h4, h5⟩ := loop_full hb ts A.conc.perms e.elems hwx ⟨hA.ok.keys, hA.ok.wf⟩ hbad'
    hA.usable (show s.work = ⟨A.verts.map VEnt.row, A.conc.perms⟩ by rw [hA.work]; rfl)
  refine ⟨A, s1, pre, x, post, hA, h1, ?_, h3, h4, h5⟩
  have hex : existsOn (counting b) e s = (.ok false, s) := by
    have := existsM_run hV hA.ok he hA.usable hA.work
    simp only [hn, decide_false] at this
    exact this
  obtain ⟨k, hk, hks⟩ := head0_edge he
  rw [addOn_single hk hks]
  refine bind_err _ _ _ ?_
  unfold addRawOn
  rw [bind_run _ _ _ hex]
  simp only [Bool.not_false, if_true]
  rw [bind_run _ _ _ (liftE_ok (iter_edge he) s)]
  have hb := bind_err (forEach (addVertOn (counting b) ts) e.elems) (fun _ => do
    addStrOn (counting b) (edge2str e) 0 ts
    writeEdgePermutationsOn (counting b) e.elems
    (Pure.pure e : M (Val F))) _ h2
  exact hb

/-- C96: after a history that went well, adding an edge succeeds, as without a limit, if it is there already or there is room for
counting its elements once more, and raises `DataError` otherwise. -/
theorem C96_accepts (hV : Vocab V) (hb : 1 ≤ b) {ops : List (Op F)} {auto : Bool} {s : St} (h : CountHistory V b ops auto s) (e : Val F)
    (he : EdgeOver V e) (ts : Int) :
    (((Spec.after ops).Present e ∨ HasCounts b e s) →
      hgAddOn (counting b) e ts s = hgAdd e ts s ∧ (hgAdd e ts s).1 = .ok e) ∧
    (¬ ((Spec.after ops).Present e ∨ HasCounts b e s) → (hgAddOn (counting b) e ts s).1 = .error .dataError) := by
  obtain ⟨A, hA⟩ := after_of hV h.over h.sql
  have hok : (hgAdd e ts s).1 = .ok e := by
    obtain ⟨s', e1, _⟩ := crash_add hV hA.ok hA.usable hA.work hA.disk he ts
    rw [e1]
  obtain ⟨k, hk, hks⟩ := head0_edge he
  refine ⟨fun hor => ⟨?_, hok⟩, fun hor => ?_⟩
  · have hraw : addRawOn (counting b) e ts s = addRawOn Server.sqlite e ts s := by
      unfold addRawOn
      have hex := existsM_run hV hA.ok he hA.usable hA.work
      rw [bind_run _ _ _ (show existsOn (counting b) e s = _ from hex),
        bind_run _ _ _ (show existsOn Server.sqlite e s = _ from hex)]
      by_cases hm : e ∈ A.edges
      · simp only [hm, decide_true, Bool.not_true]; rfl
      · have hc := (hasCounts_iff hV hA he).1 (hor.resolve_left fun hp => hm ((hA.rel.present e).1 hp))
        have hl := loop_room ts A.conc.perms e.elems (edge_wf hV he) ⟨hA.ok.keys, hA.ok.wf⟩ hc hA.usable
          (show s.work = ⟨A.verts.map VEnt.row, A.conc.perms⟩ by rw [hA.work]; rfl)
        simp only [hm, decide_false, Bool.not_false, if_true]
        rw [iter_edge he]
        simp only [liftE_bind]
        have hl' : forEach (addVertOn (counting b) ts) e.elems s = forEach (addVertOn Server.sqlite ts) e.elems s := hl
        cases hm' : forEach (addVertOn Server.sqlite ts) e.elems s with
        | mk r s1 =>
          rw [hm'] at hl'
          cases r with
          | error x => rw [bind_err _ _ _ hl', bind_err _ _ _ hm']
          | ok u => rw [bind_run _ _ _ hl', bind_run _ _ _ hm']; rfl
    show _ = hgAddOn Server.sqlite e ts s
    rw [addOn_single hk hks, addOn_single hk hks]
    cases hm : addRawOn Server.sqlite e ts s with
    | mk r s1 =>
      rw [hm] at hraw
      cases r with
      | error x => rw [bind_err _ _ _ hraw, bind_err _ _ _ hm]
      | ok u => rw [bind_run _ _ _ hraw, bind_run _ _ _ hm]
  · obtain ⟨A, s1, _, _, _, _, _, h1, _⟩ := count_refused hV hb h he (fun x => hor (.inl x)) (fun x => hor (.inr x)) ts
    rw [h1]

/-- C96: after an edge was refused no answer about edges has changed; but the elements before the first one that is full are
counted, as if the edge had been added.  All of it is on disk, and nothing is left open. -/
theorem C96_refused (hV : Vocab V) (hb : 1 ≤ b) {ops : List (Op F)} {auto : Bool} {s : St} (h : CountHistory V b ops auto s) (e : Val F)
    (he : EdgeOver V e) (hnot : ¬ (Spec.after ops).Present e) (hbad : ¬ HasCounts b e s) (ts : Int) :
    ∃ s1 pre x post, hgAddOn (counting b) e ts s = (.error .dataError, s1) ∧ e.elems = pre ++ x :: post ∧
      (∃ d : Int, (hgDegree x s1).1 = .ok d ∧ b ≤ d) ∧
      (∀ v : Val F, WfVal v → ∃ d : Int, (hgDegree v s).1 = .ok d ∧ (hgDegree v s1).1 = .ok (d + pre.count v) ∧
        (v ∈ pre → d + pre.count v ≤ b)) ∧
      (∀ y : Val F, (hgExists y s1).1 = (hgExists y s).1) ∧ (hgExists e s1).1 = .ok false ∧
      (∀ p : Val F, (hgPattern2edges p s1).1 = (hgPattern2edges p s).1) ∧
      (∀ c : Val F, (hgStar c s1).1 = (hgStar c s).1) ∧
      (∀ r, (hgSymbolsWithRoot r s1).1 = (hgSymbolsWithRoot r s).1) ∧
      (∀ y : Val F, (hgSources y s1).1 = (hgSources y s).1) ∧
      s1.disk = s1.work ∧ s1.cur = none := by
  obtain ⟨A, s1, pre, x, post, hA, hsp, h1, st, h4, h5⟩ := count_refused hV hb h he hnot hbad ts
  have hwx : ∀ y ∈ pre, WfVal y := fun y hy => edge_wf hV he y (by rw [hsp]; simp [hy])
  have hk : KeysOk (pre.foldl (touchV ts) A.verts) := KeysOk.foldTouch ⟨hA.ok.keys, hA.ok.wf⟩ ts hwx
  have hc1 : s1.cur = none := st.cur.trans hA.idle
  have hi : SameIndex s1 s := ⟨by rw [st.work, hA.work], hc1.trans hA.idle.symm⟩
  have hE : ∀ y : Val F, (hgExists y s1).1 = (hgExists y s).1 := fun y =>
    (((index_pattern y).bind fun _ => IndexOnly.pure _) s1 s hi).1
  have hdeg : ∀ v : Val F, WfVal v → (hgDegree v s1).1 = .ok (degOf v A.verts + pre.count v) := fun v hv => by
    rw [degree_at hk.2 hv hc1 (by rw [st.work]), degOf_foldTouch]
  refine ⟨s1, pre, x, post, h1, hsp, ⟨_, hdeg x (edge_wf hV he x (by rw [hsp]; simp)), by omega⟩, ?_, hE, ?_,
    fun p => (index_pattern p s1 s hi).1, fun c => (index_star c s1 s hi).1,
    fun r => (index_symbols r s1 s hi).1, fun y => (index_sources y s1 s hi).1, st.durable (.inl hA.idle) hA.disk, hc1⟩
  · intro v hv
    exact ⟨_, degree_at hA.ok.wf hv hA.idle (by rw [hA.work]; rfl), hdeg v hv, h4 v⟩
  · rw [hE e]
    show (existsM e s).1 = _
    rw [existsM_run hV hA.ok he hA.usable hA.work]
    show (Except.ok (decide (e ∈ A.edges)) : Except PyErr Bool) = .ok false
    rw [decide_eq_false fun hm => hnot ((hA.rel.present e).2 hm)]

/-! ### Examples: degrees up to 2 -/


/-- An edge whose last element is full after `exBlues`. -/
def exBlueSky : HVal := .tup [sy "is/1", sy "sky/1", sy "blue/1"]

/-- A history. -/
def exBlues : List (Op Half) :=
  [.prim (.add (.tup [sy "has/1", sy "sea/1", sy "blue/1"]) 5), .prim (.add (.tup [sy "has/1", sy "eye/1", sy "blue/1"]) 6)]

theorem exBlues_over : ∀ op ∈ exBlues, op.Over PlainVocab := ops_of (by decide +kernel)

/-- C96, counterexample: every attempt to add the same refused edge counts its first elements once more, until they are full
too; the edge is never there. -/
theorem C96_retry_counterexample :
    (runOpsOn (counting 2) exBlues (St.new true)).1 = .ok () ∧
    (hgAddOn (counting 2) exBlueSky 7 (runOpsOn (counting 2) exBlues (St.new true)).2).1 = .error .dataError ∧
    (hgDegree (sy "is/1") (hgAddOn (counting 2) exBlueSky 7 (runOpsOn (counting 2) exBlues (St.new true)).2).2).1 = .ok 1 ∧
    (hgDegree (sy "is/1") (hgAddOn (counting 2) exBlueSky 8
      (hgAddOn (counting 2) exBlueSky 7 (runOpsOn (counting 2) exBlues (St.new true)).2).2).2).1 = .ok 2 ∧
    (hgExists exBlueSky (hgAddOn (counting 2) exBlueSky 8
      (hgAddOn (counting 2) exBlueSky 7 (runOpsOn (counting 2) exBlues (St.new true)).2).2).2).1 = .ok false := by
  refine ⟨?_, ?_, ?_, ?_, ?_⟩ <;> decide +kernel

theorem went_well {r : Except PyErr Unit × St} (h : r.1 = .ok ()) : r = (.ok (), r.2) := by
  obtain ⟨a, s⟩ := r
  subst h
  rfl

theorem exBlues_degree : (hgDegree (sy "blue/1") (runOpsOn (counting 2) exBlues (St.new true)).2).1 = .ok 2 := by decide +kernel

theorem exBlues_absent : ¬ (Spec.after exBlues).Present exBlueSky := by
  unfold Spec.Present
  decide +kernel

/-- The hypotheses of `C96_accepts` and `C96_refused`, for an edge that is refused. -/
example : ∃ s, CountHistory PlainVocab 2 exBlues true s ∧ EdgeOver PlainVocab exBlueSky ∧ ¬ (Spec.after exBlues).Present exBlueSky ∧
    ¬ HasCounts 2 exBlueSky s :=
  ⟨_, ⟨exBlues_over, went_well C96_retry_counterexample.1⟩, edge_of (by decide +kernel), exBlues_absent, fun h =>
    absurd (h (sy "blue/1") (by decide +kernel) 2 exBlues_degree) (by decide +kernel)⟩

/-- All texts that a history adds, as often as it adds them. -/
def textsOf (ops : List (Op F)) : List Str :=
  (ops.flatMap Op.steps).flatMap fun p => match p with
    | .add e _ => e.elems.map edge2str
    | _ => []

theorem mentions_count (t : Str) (ops : List (Op F)) : mentions sameText t ops = (textsOf ops).count t := by
  unfold mentions textsOf
  induction ops.flatMap Op.steps with
  | nil => rfl
  | cons p ps ih =>
    rw [List.map_cons, List.sum_cons, List.flatMap_cons, List.count_append, ih]
    congr 1
    cases p with
    | add e ts =>
      show e.elems.countP (fun x => sameText t (edge2str x)) = (e.elems.map edge2str).countP (· == t)
      rw [List.countP_map]
      congr 1
      funext x
      unfold sameText
      rw [Bool.eq_iff_iff, decide_eq_true_iff]
      exact ⟨fun h => beq_iff_eq.2 h.symm, fun h => (beq_iff_eq.1 h).symm⟩
    | _ => rfl

/-- The hypothesis of `C96_same`: no text occurs more than twice. -/
example : ∀ t, mentions sameText t exBlues ≤ 2 := by
  intro t
  rw [mentions_count]
  have h : ∀ t ∈ textsOf exBlues, (textsOf exBlues).count t ≤ 2 := by decide +kernel
  by_cases hm : t ∈ textsOf exBlues
  · exact h t hm
  · rw [List.count_eq_zero.2 hm]; omega

end GB
