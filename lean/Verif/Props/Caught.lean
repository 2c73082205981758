import Verif.Proofs.Caught
import Verif.Props.Count
import Verif.Props.MySql
import Verif.Spec.Caught

/-
Property C97: a program that catches exceptions and goes on.
-/

set_option linter.unusedSectionVars false

namespace GB

variable {F : Type} [PyFloat F] [DecidableEq F] {V : Val F → Prop} {srv : Server} {I : List VRow → Prop} {T : Str → Prop} {k : Option Nat}

theorem reads_range (c : Cursor) (lo hi : Str) : ReadsOnly (Server.sqlite.selectRange c lo hi) := ReadsOnly.read _ _

theorem reads_starOn (c : Val F) (hP : Polite srv I T k) : ReadsOnly (hgStarOn srv c) := by
  have : ∀ t, ReadsOnly (str2permsOn (F := F) srv t) := fun t => by
    unfold str2permsOn
    rw [hP.range]
    exact (ReadsOnly.liftE _).bind fun _ => ReadsOnly.open_.bind fun _ => (reads_range _ _ _).bind fun _ =>
      (ReadsOnly.liftE _).bind fun _ => ReadsOnly.close.bind fun _ => ReadsOnly.pure _
  unfold hgStarOn
  split <;> exact this _

theorem starOn_polite (c : Val F) (hP : Polite srv I T k) : hgStarOn srv c = hgStar c := by
  unfold hgStarOn str2permsOn
  rw [hP.range]
  rfl

theorem follows_star (c : Val F) (hP : Polite srv I T k) : Follows I (hgStarOn srv c) (hgStarOn Server.sqlite c) := by
  have hr := reads_starOn c hP
  rw [starOn_polite c polite_sqlite]
  rw [starOn_polite c hP] at hr ⊢
  exact Follows.reads (index_star c) hr

theorem follows_symbols (r : Str) (hP : Polite srv I T k) :
    Follows I (hgSymbolsWithRootOn srv r) (hgSymbolsWithRootOn Server.sqlite r) := by
  have h : ∀ {srv : Server} {I T k}, Polite srv I T k → hgSymbolsWithRootOn srv r = hgSymbolsWithRoot r := fun hP => by
    unfold hgSymbolsWithRootOn
    rw [hP.range]
    rfl
  rw [h hP, h polite_sqlite]
  refine Follows.reads (index_symbols r) ?_
  exact (ReadsOnly.liftE _).bind fun _ => ReadsOnly.open_.bind fun _ => (ReadsOnly.read _ _).bind fun _ =>
    (ReadsOnly.liftE _).bind fun _ => ReadsOnly.close.bind fun _ => ReadsOnly.pure _

/-- The texts of values that are short enough. -/
def IsText (F : Type) [PyFloat F] (k : Option Nat) (t : Str) : Prop := (∃ v : Val F, WfVal v ∧ t = edge2str v) ∧ BoundedText k t

/-- Every other call follows, where the other program's call returns. -/
theorem Prim.follows (hP : Polite srv I (IsText F k) k) {p : Prim F} (hp : ¬ p.Refusable) : p ≠ .query .fAll →
    Follows I (p.srvRun srv) p.run := by
  intro hf
  show Follows I (p.srvRun srv) (p.srvRun Server.sqlite)
  cases p with
  | add e ts => exact absurd trivial hp
  | remove e => exact follows_remove hP e
  | removeMany es => exact follows_remove hP _
  | removeByPattern ps => exact (follows_patternOn hP _).bind fun es => Follows.each es fun e => follows_remove hP e
  | removeBelief src e =>
    exact (follows_remove hP _).bind fun _ => (follows_sources hP e).bind fun ss =>
      Follows.ite (follows_remove hP e) (Follows.pure _)
  | destroy => exact follows_destroy hP
  | query q =>
    cases q with
    | «exists» e => exact (follows_existsOn hP e).bind fun _ => Follows.pure _
    | pattern ps => exact (follows_patternOn hP _).bind fun _ => Follows.pure _
    | star c => exact (follows_star c hP).bind fun _ => Follows.pure _
    | symbolsWithRoot r => exact (follows_symbols r hP).bind fun _ => Follows.pure _
    | sources e => exact (follows_sources hP e).bind fun _ => Follows.pure _
    | fAll => exact absurd rfl hf

/-- So does going through the vertices. -/
theorem Prim.step (hP : Polite srv I (IsText F k) k) {p : Prim F} (hp : ¬ p.Refusable) {s t t' : St} (hst : Twin I s t)
    (h : p.run t = (.ok (), t')) : (p.srvRun srv s).1 = .ok () ∧ Twin I (p.srvRun srv s).2 t' := by
  by_cases hf : p = .query .fAll
  · subst hf
    have h1 := fAll_named (F := F) hst.left.1 (fun r hr => (hP.named _ hst.inv r hr).1)
    have h2 : (Prim.query Query.fAll : Prim F).run t = (.ok (), t) := by
      have hr : ReadsOnly (do let _ ← hgFAll (fun (v : Val F) (d : Int) => (v, d)) : M Unit) :=
        (ReadsOnly.open_.bind fun _ => (ReadsOnly.read _ _).bind fun _ => (ReadsOnly.liftE _).bind fun _ =>
          ReadsOnly.close.bind fun _ => ReadsOnly.pure _).bind fun _ => ReadsOnly.pure _
      exact Prod.ext (by rw [h]) (hr t hst.right.1)
    rw [h2] at h
    cases h
    rw [show (Prim.query Query.fAll : Prim F).srvRun srv s = (.ok (), s) from h1]
    exact ⟨rfl, hst⟩
  · have := Prim.follows hP hp hf s t hst () (by rw [h])
    rw [h] at this
    exact this

/-- What is added fits. -/
def Fitting (k : Option Nat) (p : Prim F) : Prop := ∀ n, k = some n → ∀ e ts, p = .add e ts → KeyFits n e

theorem Prim.tried (hV : Vocab V) (hP : Polite srv I (IsText F k) k) {p : Prim F} (hp : p.Over V) (hf : Fitting k p)
    {A : Abs F} (hA : AbsOk V A) (hall : ∀ r ∈ A.conc.perms, BoundedText k r) {s t t' : St} (hst : Twin I s t) (hw : t.work = A.conc)
    (h : p.run t = (.ok (), t')) :
    ((p.srvRun srv s).1 = .ok () ∧ Twin I (p.srvRun srv s).2 t') ∨
      (p.Refusable ∧ (∃ e, (p.srvRun srv s).1 = .error e) ∧ Twin I (p.srvRun srv s).2 t) := by
  by_cases hr : p.Refusable
  · cases p with
    | add e ts =>
      have hT : (∀ x ∈ e.elems, IsText F k (edge2str x)) ∧ IsText F k (edge2str e) :=
        ⟨fun x hx => ⟨⟨x, edge_wf hV hp x hx, rfl⟩, fun n hn => (hf n hn e ts rfl).elem hp x hx⟩,
          ⟨⟨e, hp.wf hV, rfl⟩, fun n hn => (hf n hn e ts rfl).text⟩⟩
      have hrun : (do let _ ← hgAddOn Server.sqlite e ts : M Unit) t = (.ok (), t') := h
      have := tried_add hV hP hp hT (fun r hr n hn => (hf n hn e ts rfl).rows hp r hr) hA hall ts hst hw (by rw [hrun])
      rw [hrun] at this
      rcases this with h1 | h1
      · exact .inl h1
      · exact .inr ⟨trivial, h1⟩
    | _ => exact hr.elim
  · exact .inl (Prim.step hP hr hst h)

/-- The calls one after the other. -/
theorem caught_twin (hV : Vocab V) (hP : Polite srv I (IsText F k) k) :
    ∀ (ps : List (Prim F)) (_ : ∀ p ∈ ps, p.Over V) (_ : ∀ p ∈ ps, Fitting k p) (A : Abs F) (S : Spec F) (s t : St), AbsOk V A →
      Rel A S → (∀ n, k = some n → S.Room n) → t.work = A.conc → Twin I s t →
      ∃ t', runOps ((returned (caught srv ps s).1).map Op.prim) t = (.ok (), t') ∧ Twin I (caught srv ps s).2 t' ∧
        (caught srv ps s).1.map Prod.fst = ps ∧ ∀ r ∈ (caught srv ps s).1, r.2 = false → r.1.Refusable
  | [], _, _, _, _, _, t, _, _, _, _, hst => ⟨t, rfl, hst, rfl, fun r hr => absurd hr (by simp [caught])⟩
  | p :: ps, hps, hfs, A, S, s, t, hA, hR, hroom, hw, hst => by
    have hp := hps p (by simp)
    have hfp := hfs p (by simp)
    obtain ⟨A', hA', hR', t1, e1, st⟩ := Prim.sim hV hp A S t hA hR (St.usable_of_none hst.right.1) hw
    have hall : ∀ r ∈ A.conc.perms, BoundedText k r := by
      intro r hr n hn
      obtain ⟨x, hx, hr'⟩ := List.mem_flatMap.1 hr
      exact ((hroom n hn).abs hA hR).2 x hx r hr'
    have htry := Prim.tried hV hP hp hfp hA hall hst hw e1
    cases hc : p.srvRun srv s with
    | mk r s1 =>
      rw [hc] at htry
      rcases htry with ⟨h1, h2⟩ | ⟨h0, ⟨e, h1⟩, h2⟩
      · cases h1
        have hroom' : ∀ n, k = some n → (S.prim p).Room n := fun n hn => (hroom n hn).prim hp (hfp n hn)
        obtain ⟨t', h3, h4, h5, h6⟩ := caught_twin hV hP ps (fun q hq => hps q (by simp [hq])) (fun q hq => hfs q (by simp [hq]))
          A' _ s1 t1 hA' hR' hroom' st.work h2
        have hcc : caught srv (p :: ps) s = ((p, true) :: (caught srv ps s1).1, (caught srv ps s1).2) := by
          rw [caught, hc]
        rw [hcc]
        refine ⟨t', ?_, h4, by rw [List.map_cons, h5], fun r hr hf => ?_⟩
        · show runOps (Op.prim p :: (returned (caught srv ps s1).1).map Op.prim) t = _
          unfold runOps
          rw [forEach, bind_run _ _ _ (show (Op.prim p).run t = (.ok (), t1) from e1)]
          exact h3
        · rcases List.mem_cons.1 hr with rfl | hr
          · cases hf
          · exact h6 r hr hf
      · cases h1
        obtain ⟨t', h3, h4, h5, h6⟩ := caught_twin hV hP ps (fun q hq => hps q (by simp [hq])) (fun q hq => hfs q (by simp [hq]))
          A S s1 t hA hR hroom hw h2
        have hcc : caught srv (p :: ps) s = ((p, false) :: (caught srv ps s1).1, (caught srv ps s1).2) := by
          rw [caught, hc]
        rw [hcc]
        refine ⟨t', h3, h4, by rw [List.map_cons, h5], fun r hr hf => ?_⟩
        rcases List.mem_cons.1 hr with rfl | hr
        · exact h0
        · exact h6 r hr hf

theorem same_edges {s s' : St} (h : SameIndex s s') : AgreeOnEdges F s s' where
  ex e := (((index_pattern e).bind fun _ => IndexOnly.pure _) s s' h).1
  pattern p := (index_pattern p s s' h).1
  star c := (index_star c s s' h).1
  symbols r := (index_symbols r s s' h).1
  sources e := (index_sources e s s' h).1

/-- What C97 says of a server, and of the programs it says it of. -/
def CaughtWell (V : Val F → Prop) (good : Prim F → Prop) (srv : Server) : Prop :=
  ∀ ps : List (Prim F), (∀ p ∈ ps, p.Over V) → (∀ p ∈ ps, good p) → ∀ auto : Bool,
    (caught srv ps (St.new auto)).1.map Prod.fst = ps ∧
    (∀ r ∈ (caught srv ps (St.new auto)).1, r.2 = false → r.1.Refusable) ∧
    ∃ t, runOps ((returned (caught srv ps (St.new auto)).1).map Op.prim) (St.new auto) = (.ok (), t) ∧
      AgreeOnEdges F (caught srv ps (St.new auto)).2 t ∧ AgreeOnEdges F (caught srv ps (St.new auto)).2.opened t

theorem caught_well (hV : Vocab V) (hP : Polite srv I (IsText F k) k) : CaughtWell V (Fitting k) srv := by
  intro ps hps hfs auto
  have hroom : ∀ n, k = some n → (Spec.empty : Spec F).Room n := fun n _ =>
    ⟨fun v hv => by simp [Spec.empty] at hv, fun e he => by simp [Spec.empty, Spec.Present] at he⟩
  obtain ⟨t, h1, h2, h3, h4⟩ := caught_twin hV hP ps hps hfs Abs.empty Spec.empty (St.new auto) (St.new auto) AbsOk.empty Rel.empty
    hroom rfl ⟨⟨rfl, rfl⟩, ⟨rfl, rfl⟩, rfl, hP.empty⟩
  refine ⟨h3, h4, t, h1, same_edges ⟨h2.perms, h2.left.1.trans h2.right.1.symm⟩, same_edges ⟨?_, h2.right.1.symm⟩⟩
  show (caught srv ps (St.new auto)).2.disk.perms = t.work.perms
  rw [h2.left.2, h2.perms]

/-- C97: a program that makes any calls outside of batches, one edge at a time, catches every exception and goes on.  On SQLite
with its 64-bit integers, with degrees that are limited to any `b ≥ 1`, and with both.  Only additions raise; every answer about
edges, in the end and when the database is opened again, is that of a program on SQLite without limits that makes only the calls
that returned. -/
theorem C97_caught (hV : Vocab V) (b : Nat) (hb : 1 ≤ b) :
    CaughtWell V (fun _ : Prim F => True) Server.sqlite64 ∧ CaughtWell V (fun _ : Prim F => True) (Server.sqlite.counts b) ∧
      CaughtWell V (fun _ : Prim F => True) (Server.sqlite64.counts b) := by
  have h : ∀ {srv}, CaughtWell V (Fitting none : Prim F → Prop) srv → CaughtWell V (fun _ : Prim F => True) srv :=
    fun h ps hps _ => h ps hps fun p _ n hn => nomatch hn
  exact ⟨h (caught_well hV (polite_sqlite64 _)), h (caught_well hV (polite_counts _ hb)), h (caught_well hV (polite_both _ hb))⟩

/-- C97: the same on MySQL with its row count and its keys of `k` characters, and with a degree column that holds numbers up to
`b` as well, when the texts of all edges that are added fit the keys. -/
theorem C97_mysql (hV : Vocab V) (k b : Nat) (hb : 1 ≤ b) :
    CaughtWell V (fun p : Prim F => ∀ e ts, p = .add e ts → KeyFits k e) (Server.mysqlExact k) ∧
      CaughtWell V (fun p : Prim F => ∀ e ts, p = .add e ts → KeyFits k e) ((Server.mysqlExact k).counts b) := by
  have h : ∀ {srv}, CaughtWell V (Fitting (some k) : Prim F → Prop) srv →
      CaughtWell V (fun p : Prim F => ∀ e ts, p = .add e ts → KeyFits k e) srv :=
    fun h ps hps hf => h ps hps fun p hp n hn => by cases hn; exact hf p hp
  have hT : ∀ t, IsText F (some k) t → t.length ≤ k := fun t ht => ht.2 k rfl
  exact ⟨h (caught_well hV (polite_mysql F k hT)), h (caught_well hV (polite_mysqlInt F k hT hb))⟩

/-- C97: so, on each of these servers, the edges there are in the end are those of the specification, for the calls that
returned. -/
theorem C97_edges (hV : Vocab V) {good : Prim F → Prop} (hs : CaughtWell V good srv) (ps : List (Prim F))
    (hps : ∀ p ∈ ps, p.Over V) (hg : ∀ p ∈ ps, good p) (auto : Bool) (e : Val F) (he : EdgeOver V e) (present : Bool) :
    (hgExists e (caught srv ps (St.new auto)).2).1 = .ok present ↔
      (present = true ↔ (Spec.after ((returned (caught srv ps (St.new auto)).1).map Op.prim)).Present e) := by
  obtain ⟨h3, _, t, h1, h2, _⟩ := hs ps hps hg auto
  have hops : ∀ op ∈ (returned (caught srv ps (St.new auto)).1).map Op.prim, op.Over V := by
    intro op hop
    obtain ⟨p, hp, rfl⟩ := List.mem_map.1 hop
    unfold returned at hp
    obtain ⟨r, hr, rfl⟩ := List.mem_map.1 hp
    exact hps _ (by rw [← h3]; exact List.mem_map_of_mem (List.mem_filter.1 hr).1)
  obtain ⟨A, hA⟩ := after_of hV hops h1
  rw [h2.ex e, show (hgExists e t).1 = (existsM e t).1 from rfl, existsM_run hV hA.ok he hA.usable hA.work]
  refine Iff.trans ?_ (iff_congr Iff.rfl (hA.rel.present e)).symm
  constructor
  · intro h
    injection h with h
    subst h
    exact decide_eq_true_iff
  · intro h
    show (Except.ok (decide (e ∈ A.edges)) : Except PyErr Bool) = .ok present
    rw [Bool.eq_iff_iff.2 (decide_eq_true_iff.trans h.symm)]

theorem caught_invariant (hV : Vocab V) (hP : Polite srv I (IsText F k) k) (ps : List (Prim F)) (hps : ∀ p ∈ ps, p.Over V)
    (hfs : ∀ p ∈ ps, Fitting k p) (auto : Bool) :
    (caught srv ps (St.new auto)).2.cur = none ∧ I (caught srv ps (St.new auto)).2.work.vertices := by
  have hroom : ∀ n, k = some n → (Spec.empty : Spec F).Room n := fun n _ =>
    ⟨fun v hv => by simp [Spec.empty] at hv, fun e he => by simp [Spec.empty, Spec.Present] at he⟩
  obtain ⟨t, _, h2, _⟩ := caught_twin hV hP ps hps hfs Abs.empty Spec.empty (St.new auto) (St.new auto) AbsOk.empty Rel.empty
    hroom rfl ⟨⟨rfl, rfl⟩, ⟨rfl, rfl⟩, rfl, hP.empty⟩
  exact ⟨h2.left.1, h2.inv⟩

theorem degree_upTo {b : Nat} {s : St} (hs : s.cur = none) (h : UpTo b s.work.vertices) (v : Val F) :
    ∃ d : Int, (hgDegree v s).1 = .ok d ∧ d ≤ b := by
  refine ⟨_, by rw [degree_idle v hs], ?_⟩
  cases hv : s.work.selectVertex (edge2str v) with
  | nil =>
    show (0 : Int) ≤ b
    omega
  | cons r rs =>
    have hr : r ∈ s.work.selectVertex (edge2str v) := by rw [hv]; exact List.mem_cons_self
    exact h r (List.mem_filter.1 hr).1

/-- C97: in the end, going through the vertices and asking for a degree still work, and no degree is larger than the column
allows, however many calls were refused. -/
theorem C97_degrees (hV : Vocab V) (k b : Nat) (hb : 1 ≤ b) (ps : List (Prim F)) (hps : ∀ p ∈ ps, p.Over V) (auto : Bool)
    (srv : Server) (hs : srv = Server.sqlite.counts b ∨ srv = Server.sqlite64.counts b ∨
      srv = (Server.mysqlExact k).counts b ∧ ∀ e ts, .add e ts ∈ ps → KeyFits k e) (v : Val F) :
    (∃ d : Int, (hgDegree v (caught srv ps (St.new auto)).2).1 = .ok d ∧ d ≤ b) ∧
    ((Prim.query Query.fAll : Prim F).srvRun srv (caught srv ps (St.new auto)).2).1 = .ok () := by
  have main : ∀ {k : Option Nat}, Polite srv (fun vs => UpTo b vs ∧ Named (IsText F k) vs) (IsText F k) k → (∀ p ∈ ps, Fitting k p) →
      (∃ d : Int, (hgDegree v (caught srv ps (St.new auto)).2).1 = .ok d ∧ d ≤ b) ∧
      ((Prim.query Query.fAll : Prim F).srvRun srv (caught srv ps (St.new auto)).2).1 = .ok () := by
    intro k hP hf
    obtain ⟨h1, h2⟩ := caught_invariant hV hP ps hps hf auto
    refine ⟨degree_upTo h1 h2.1 v, ?_⟩
    rw [show (Prim.query Query.fAll : Prim F).srvRun srv (caught srv ps (St.new auto)).2 = _ from
      fAll_named (F := F) h1 fun r hr => (h2.2 r hr).1]
  rcases hs with rfl | rfl | ⟨rfl, hf⟩
  · exact main (polite_counts (IsText F none) hb) fun p _ n hn => nomatch hn
  · exact main (polite_both (IsText F none) hb) fun p _ n hn => nomatch hn
  · refine main (polite_mysqlInt F k (T := IsText F (some k)) (fun t ht => ht.2 k rfl) hb) fun p hp n hn e ts he => ?_
    cases hn
    subst he
    exact hf e ts hp

/-! ### Examples: degrees up to 2 -/

/-- A program: the third call is refused; the last, which adds the same edge, is not, as one text has room again. -/
def exCaught : List (Prim Half) :=
  [.add (.tup [sy "has/1", sy "sea/1", sy "blue/1"]) 5, .add (.tup [sy "has/1", sy "eye/1", sy "blue/1"]) 6,
    .add exBlueSky 7, .query (.exists exBlueSky), .remove (.tup [sy "has/1", sy "eye/1", sy "blue/1"]), .add exBlueSky 8]

/-- One that ends after the refused call. -/
def exCaughtOnce : List (Prim Half) :=
  [.add (.tup [sy "has/1", sy "sea/1", sy "blue/1"]) 5, .add (.tup [sy "has/1", sy "eye/1", sy "blue/1"]) 6, .add exBlueSky 7]

theorem exCaught_over : ∀ p ∈ exCaught, p.Over PlainVocab := by
  have h : ∀ op ∈ exCaught.map Op.prim, op.Over PlainVocab := ops_of (by decide +kernel)
  exact fun p hp => h (.prim p) (List.mem_map_of_mem hp)

/-- Only the third call is refused. -/
theorem exCaught_results : (caught (counting 2) exCaught (St.new true)).1.map Prod.snd = [true, true, false, true, true, true] := by
  decide +kernel

/-- `C97_edges` at work: `exBlueSky` is there in the end, by the last call. -/
example : (hgExists exBlueSky (caught (counting 2) exCaught (St.new true)).2).1 = .ok true := by decide +kernel

/-- MySQL refuses the same call. -/
theorem exCaught_mysql :
    (caught ((Server.mysqlExact 250).counts 2) exCaught (St.new false)).1.map Prod.snd = [true, true, false, true, true, true] := by
  decide +kernel

/-- The hypotheses of `C97_mysql`. -/
example : (∀ p ∈ exCaught, p.Over PlainVocab) ∧ ∀ p ∈ exCaught, ∀ e ts, p = .add e ts → KeyFits 250 e := by
  refine ⟨exCaught_over, fun p hp e ts h => fits_of ?_⟩
  subst h
  simp only [exCaught, List.mem_cons, Prim.add.injEq, reduceCtorEq, List.not_mem_nil, or_false, false_or] at hp
  rcases hp with ⟨rfl, _⟩ | ⟨rfl, _⟩ | ⟨rfl, _⟩ | ⟨rfl, _⟩ <;> decide +kernel

/-- The bound of `C97_degrees` is reached. -/
example : (hgDegree (sy "blue/1") (caught (counting 2) exCaughtOnce (St.new true)).2).1 = .ok 2 := by decide +kernel

/-- C97, counterexample: time stamps and degrees are not those of the calls that returned: the refused call leaves some behind. -/
theorem C97_vertices_counterexample :
    (hgTimestamp (sy "sky/1") (caught (counting 2) exCaughtOnce (St.new true)).2).1 = .ok 7 ∧
    (hgDegree (sy "sky/1") (caught (counting 2) exCaughtOnce (St.new true)).2).1 = .ok 1 ∧
    (hgTimestamp (sy "sky/1")
      (runOps ((returned (caught (counting 2) exCaughtOnce (St.new true)).1).map Op.prim) (St.new true)).2).1 = .ok (-1) := by
  refine ⟨?_, ?_, ?_⟩ <;> decide +kernel

end GB
