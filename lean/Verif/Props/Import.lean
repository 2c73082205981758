import Verif.Proofs.Import
import Verif.Props.Wordnet

/-!
Properties C80 and C81: imports through a BatchHyperGraph into an SQLite file that are cut off by a crash, and are repeated;
the WordNet reader.
-/

set_option linter.unusedSectionVars false
set_option linter.unusedVariables false

namespace GB

variable {F : Type} [PyFloat F] [DecidableEq F] {V : Val F → Prop}

/-! ### C80 -/

/-- C80: additions `os` through a BatchHyperGraph of any buffer size, after any history on an SQLite file; the process dies at any moment
after the calls `os1` have returned (in the middle of whichever later call).  What is then on disk is exactly what the
direct graph has after some of the first calls, complete ones; and of the edges that were added in the calls that had returned, at most
`buffer_max` are missing. -/
theorem C80_crash (hV : Vocab V) (ops : List (Op F)) (hops : ∀ op ∈ ops, op.Over V) (s : St)
    (hs : runOps ops (St.new false) = (.ok (), s)) (os1 os2 : List (BOp F)) (hos : ∀ o ∈ os1 ++ os2, o.Over V)
    (bufferMax ts : Int) (b : BSt F) (hb : bhRun bufferMax ts os1 ⟨s, []⟩ = (.ok (), b)) :
    ∀ d ∈ bhCrash (bhRun bufferMax ts os2) b, ∃ os', os' <+: os1 ++ os2 ∧
      ((os1.flatMap BOp.edges).length : Int) ≤ (os'.flatMap BOp.edges).length + max bufferMax 0 ∧
      ∃ s', runOps (os'.flatMap (BOp.direct ts)) s = (.ok (), s') ∧ d = s'.disk := by
  obtain ⟨A, hA⟩ := after_of hV hops hs
  have hc : Clean A s := ⟨hA.idle, hA.work, hA.disk⟩
  have hos1 : ∀ o ∈ os1, o.Over V := fun o ho => hos o (by simp [ho])
  have hos2 : ∀ o ∈ os2, o.Over V := fun o ho => hos o (by simp [ho])
  obtain ⟨b1, hb1, hB⟩ := bhRun_ok hV hA.ok (ts := ts) bufferMax os1 (total := []) (b := ⟨s, []⟩) ⟨by simp, [], rfl, hc⟩ hos1
  rw [hb] at hb1
  cases hb1
  rw [List.nil_append] at hB
  have hL := bhRun_logged hV hA.ok (ts := ts) (bufferMax := bufferMax) (m := 0) (base := s.commits) os1 (os0 := []) (b := ⟨s, []⟩)
    ⟨by simp, [], rfl, hc⟩ hos1 (Nat.zero_le _) ⟨hA.auto, ⟨[], List.nil_prefix, rfl, by rw [hc.disk, hc.work]; rfl⟩, [], by simp, by simp⟩
    hb
  rw [List.nil_append] at hL
  obtain ⟨ha, ⟨os', d1, d2, d3⟩, _⟩ := hL
  have hlen : (os1.flatMap BOp.edges).length = (os'.flatMap BOp.edges).length + b.buffer.length := by
    rw [← d2, List.length_append]
  have hmax := C41_history bufferMax ts os1 s b hb
  obtain ⟨b2, hb2, _⟩ := bhRun_ok hV hA.ok (ts := ts) bufferMax os2 hB hos2
  have hL2 := bhRun_logged hV hA.ok (m := (os'.flatMap BOp.edges).length) (base := b.base.commits) os2 hB hos2 (by omega)
    ⟨ha, ⟨os', d1, d2, d3⟩, [], by simp, by simp⟩ hb2
  obtain ⟨_, _, news, hn, hd⟩ := hL2
  have fin : ∀ {d : DB} {o' : List (BOp F)}, o' <+: os1 ++ os2 → d = (A.addAll ts (o'.flatMap BOp.edges)).conc →
      ∃ s', runOps (o'.flatMap (BOp.direct ts)) s = (.ok (), s') ∧ d = s'.disk := by
    intro d o' hp hd
    obtain ⟨s', e', hc'⟩ := directRun_ok hV (ts := ts) o' hA.ok hc fun o ho => hos o (hp.subset ho)
    exact ⟨s', e', by rw [hd, hc'.disk, hc'.work]⟩
  intro d hd'
  unfold bhCrash at hd'
  rw [hb2, hn, List.drop_left, List.mem_cons] at hd'
  rcases hd' with rfl | hd'
  · exact ⟨os', d1.trans (List.prefix_append _ _), by omega, fin (d1.trans (List.prefix_append _ _)) d3⟩
  · obtain ⟨o', k1, k2, k3⟩ := hd d hd'
    exact ⟨o', k1, by omega, fin k1 k3⟩

/-- C80: repeating the whole import after the crash, through a new BatchHyperGraph and with a flush at the end, gives the tables
that the direct graph has after the import was made once. -/
theorem C80_resume (hV : Vocab V) (ops : List (Op F)) (hops : ∀ op ∈ ops, op.Over V) (s : St)
    (hs : runOps ops (St.new false) = (.ok (), s)) (os : List (BOp F)) (hos : ∀ o ∈ os, o.Over V)
    (bufferMax bufferMax' ts : Int) (d : DB) (hd : d ∈ bhCrash (bhRun bufferMax ts os) ⟨s, []⟩) :
    ∃ b s', bhRun bufferMax' ts (os ++ [.flush]) ⟨reopen d false, []⟩ = (.ok (), b) ∧ b.buffer = [] ∧
      runOps (os.flatMap (BOp.direct ts)) s = (.ok (), s') ∧ b.base.work = s'.work ∧ b.base.disk = s'.disk := by
  obtain ⟨A, hA⟩ := after_of hV hops hs
  have hc : Clean A s := ⟨hA.idle, hA.work, hA.disk⟩
  obtain ⟨os', h1, _, s1, h2, h3⟩ := C80_crash hV ops hops s hs [] os (by simpa using hos) bufferMax ts ⟨s, []⟩ rfl d hd
  rw [List.nil_append] at h1
  obtain ⟨s', e', hc'⟩ := directRun_ok hV (ts := ts) os hA.ok hc hos
  have hos' : ∀ o ∈ os', o.Over V := fun o ho => hos o (h1.subset ho)
  obtain ⟨s2, e2, hc2⟩ := directRun_ok hV (ts := ts) os' hA.ok hc hos'
  rw [h2] at e2
  cases e2
  have hdc : Clean (A.addAll ts (os'.flatMap BOp.edges)) (reopen d false) :=
    ⟨rfl, by show d = _; rw [h3, hc2.disk, hc2.work], rfl⟩
  have hov : ∀ e ∈ os'.flatMap BOp.edges, EdgeOver V e := by
    intro e he
    obtain ⟨o, ho, hx⟩ := List.mem_flatMap.1 he
    exact BOp.edges_over (hos' o ho) e hx
  have hA' := hA.ok.addAll hV ts _ hov
  obtain ⟨b1, hb1, hB1⟩ := bhRun_ok hV hA' (ts := ts) bufferMax' os (total := []) (b := ⟨reopen d false, []⟩) ⟨by simp, [], rfl, hdc⟩ hos
  obtain ⟨b2, hb2, hB2⟩ := BOp.run_ok hV hA' hB1 (o := .flush) trivial bufferMax'
  have hrun : bhRun bufferMax' ts (os ++ [.flush]) ⟨reopen d false, []⟩ = (.ok (), b2) := by
    rw [bhRun_append]
    unfold Call.bind
    rw [hb1]
    show bhRun bufferMax' ts [.flush] b1 = _
    rw [bhRun, hb2]; rfl
  have hemp : b2.buffer = [] := by
    rw [BOp.run] at hb2
    by_cases hb : b1.buffer = []
    · rw [if_pos hb] at hb2; cases hb2; exact hb
    · rw [if_neg hb] at hb2
      obtain ⟨b3, e3, _, h4, _⟩ := flush_run hV hA' hB1 hb
      rw [hb2] at e3
      cases e3
      exact h4
  obtain ⟨_, done, ht, hcl⟩ := hB2
  rw [hemp, List.append_nil, List.nil_append, BOp.edges, List.append_nil] at ht
  obtain ⟨r, hr⟩ := h1
  have hfin : (A.addAll ts (os'.flatMap BOp.edges)).addAll ts done = A.addAll ts (os.flatMap BOp.edges) := by
    rw [← ht, ← hr, List.flatMap_append, addAll_again]
  rw [hfin] at hcl
  refine ⟨b2, s', hrun, hemp, e', by rw [hcl.work, hc'.work], by rw [hcl.disk, hc'.disk, hcl.work, hc'.work]⟩

def exShareIm : HVal := .tup [sy "is", sy "a"]

/-- Four additions. -/
def exImport : List (BOp Half) := [.add exE1, .addBelief (sy "john") exE4, .addMany [exE3, exE2], .add exShareIm]

theorem exImport_over : ∀ o ∈ exImport, o.Over PlainVocab := by
  intro o ho
  simp only [exImport, List.mem_cons, List.not_mem_nil, or_false] at ho
  rcases ho with rfl | rfl | rfl | rfl
  · exact edge_of (by decide +kernel)
  · exact belief_of (by decide +kernel)
  · refine ⟨by simp, ?_⟩
    intro e he
    simp only [List.mem_cons, List.not_mem_nil, or_false] at he
    rcases he with rfl | rfl
    · exact edge_of (by decide +kernel)
    · exact edge_of (by decide +kernel)
  · exact edge_of (by decide +kernel)

/-- C80: the bound on what is lost is attained, and a crash in the middle leaves something in between: with a buffer of 3, after
two calls that added three edges nothing is on disk; later the first three calls are, the fourth never. -/
theorem C80_tight : ∃ b, bhRun 3 5 (exImport.take 2) ⟨St.new false, []⟩ = (.ok (), b) ∧
    ((exImport.take 2).flatMap BOp.edges).length = 3 ∧ DB.empty ∈ bhCrash (bhRun 3 5 (exImport.drop 2)) b ∧
    (∃ d ∈ bhCrash (bhRun 3 5 (exImport.drop 2)) b, (hgExists exE1 (reopen d false)).1 = .ok true ∧
      (hgExists exE2 (reopen d false)).1 = .ok true) ∧
    ∀ d ∈ bhCrash (bhRun 3 5 (exImport.drop 2)) b, (hgExists exShareIm (reopen d false)).1 = .ok false := by
  refine ⟨⟨St.new false, [exE1, exE4, support exE4 (sy "john")]⟩, by rfl, by decide +kernel, by decide +kernel, ?_, by decide +kernel⟩
  refine ⟨(bhRun 3 5 (exImport.drop 2) ⟨St.new false, [exE1, exE4, support exE4 (sy "john")]⟩).2.base.disk, ?_, ?_⟩
  · decide +kernel
  · decide +kernel

/-- C80 is false for MySQL, where every statement commits: the process dies while the buffer is written; after the import was
repeated, a symbol of the one edge there is has degree 2. -/
theorem C80_mysql_counterexample : ∃ d ∈ bhCrash (bhRun 0 12 [.add exE3]) (⟨St.new true, []⟩ : BSt Half), ∃ b,
    bhRun 0 12 [.add exE3] ⟨reopen d true, []⟩ = (.ok (), b) ∧ (hgStar (sy "size") b.base).1 = .ok [exE3] ∧
      (hgDegree (sy "size") b.base).1 = .ok 2 := by
  refine ⟨⟨[⟨lit "size", 1, 12⟩], []⟩, by decide +kernel,
    (bhRun 0 12 [.add exE3] ⟨reopen ⟨[⟨lit "size", 1, 12⟩], []⟩ true, []⟩).2, ?_, ?_⟩
  · have h : (bhRun 0 12 [.add exE3] (⟨reopen ⟨[⟨lit "size", 1, 12⟩], []⟩ true, []⟩ : BSt Half)).1 = .ok () := by decide +kernel
    rw [← h]
  · decide +kernel

/-! ### C81 -/

/-- The contents that a crash of the reader may leave are what it has after some of the first statements. -/
theorem wn_crash (hV : Vocab V) {A : Abs F} (hA : AbsOk V A) {s : St} (hc : Clean A s) (ha : s.autocommit = false) {db : List WSynset}
    (hdb : HasLemmas db) (hok : ∀ e, Stated db e → BeliefOver V theWordnet e) (buf : List (Val F)) {d : DB}
    (hd : d ∈ bhCrash (wnRead db) ⟨s, buf⟩) :
    ∃ st r, dbStatements db = st ++ r ∧ d = (A.addAll (-1) (st.flatMap fun e => [e, support e theWordnet])).conc := by
  have hB : Beliefs (F := F) 1000 (Call.forEach (processSynset 1000) db) (dbStatements db) :=
    Beliefs.forEach fun t ht => Beliefs.synset 1000 t (hdb t ht).1 (hdb t ht).2
  have hos : ∀ o ∈ beliefOps (dbStatements (F := F) db), o.Over V := by
    intro o ho
    obtain ⟨e, he, rfl⟩ := List.mem_map.1 ho
    exact hok e (mem_dbStatements.1 he)
  obtain ⟨b1, hb1, hB1⟩ := bhRun_ok hV hA (ts := -1) 1000 (beliefOps (dbStatements db)) (total := []) (b := ⟨s, []⟩)
    ⟨by simp, [], rfl, hc⟩ hos
  obtain ⟨b2, hb2, hB2⟩ := BOp.run_ok hV hA hB1 (o := .flush) trivial 1000
  have hrun : bhRun 1000 (-1) (beliefOps (dbStatements db) ++ [.flush]) ⟨s, []⟩ = (.ok (), b2) := by
    rw [bhRun_append]
    unfold Call.bind
    rw [hb1]
    show bhRun 1000 (-1) [.flush] b1 = _
    rw [bhRun, hb2]; rfl
  have hL := bhRun_logged hV hA (ts := -1) (bufferMax := 1000) (m := 0) (base := s.commits) (beliefOps (dbStatements db) ++ [.flush])
    (os0 := []) (b := ⟨s, []⟩) ⟨by simp, [], rfl, hc⟩
    (by
      intro o ho
      rcases List.mem_append.1 ho with ho | ho
      · exact hos o ho
      · rw [List.mem_singleton] at ho; rw [ho]; trivial)
    (Nat.zero_le _) ⟨ha, ⟨[], List.nil_prefix, rfl, by rw [hc.disk, hc.work]; rfl⟩, [], by simp, by simp⟩ hrun
  have hwn : (wnRead db ⟨s, buf⟩).2 = b2 := by
    unfold wnRead Call.bind
    rw [hB, hb1]
    show (bhFlush (-1) b1).2 = b2
    rw [BOp.run] at hb2
    by_cases hb : b1.buffer = []
    · rw [if_pos hb] at hb2
      cases hb2
      obtain ⟨s1, buf1⟩ := b1
      dsimp only at hb
      subst hb
      rfl
    · rw [if_neg hb] at hb2
      rw [hb2]
  unfold bhCrash at hd
  rw [hwn] at hd
  obtain ⟨_, _, news, hn, hnews⟩ := hL
  have hn : b2.base.commits = s.commits ++ news := hn
  rw [hn, List.drop_left, List.mem_cons] at hd
  rcases hd with rfl | hd
  · exact ⟨[], dbStatements db, rfl, by rw [hc.disk, hc.work]; rfl⟩
  · obtain ⟨os', ⟨r', hp⟩, hz, k⟩ := hnews d hd
    rw [List.nil_append] at hp
    have hsplit : ∃ st r, dbStatements (F := F) db = st ++ r ∧ os'.flatMap BOp.edges = st.flatMap fun e => [e, support e theWordnet] := by
      clear hz hnews hn hwn hrun hB2 hb2 hB1 hb1 k hd hos hB
      generalize dbStatements (F := F) db = l at hp
      induction os' generalizing l with
      | nil => exact ⟨[], l, rfl, rfl⟩
      | cons o os' ih =>
        cases l with
        | nil =>
          have : o = .flush ∧ os' = [] := by
            have hp : o :: (os' ++ r') = [.flush] := hp
            injection hp with h1 h2
            exact ⟨h1, (List.append_eq_nil_iff.1 h2).1⟩
          obtain ⟨rfl, rfl⟩ := this
          exact ⟨[], [], rfl, by simp [BOp.edges]⟩
        | cons f l =>
          have hp : o :: (os' ++ r') = .addBelief theWordnet f :: (beliefOps l ++ [.flush]) := hp
          injection hp with h1 h2
          obtain ⟨st, r, k1, k2⟩ := ih l h2
          exact ⟨f :: st, r, by rw [k1]; rfl, by rw [List.flatMap_cons, List.flatMap_cons, k2, h1]; rfl⟩
    obtain ⟨st, r, h1, h2⟩ := hsplit
    exact ⟨st, r, h1, by rw [k, h2]⟩

/-- C81: the reader is killed at any moment while it reads into an SQLite file with any history.  The graph then has what it had
before, some of the statements of the lexical database, and for exactly these the fact that WordNet supports them. -/
theorem C81_crash (hV : Vocab V) (ops : List (Op F)) (hops : ∀ op ∈ ops, op.Over V) (s : St)
    (hs : runOps ops (St.new false) = (.ok (), s)) (db : List WSynset) (hdb : HasLemmas db)
    (hok : ∀ e, Stated db e → BeliefOver V theWordnet e) (buf : List (Val F)) (d : DB)
    (hd : d ∈ bhCrash (wnRead db) ⟨s, buf⟩) :
    ∃ st : List (Val F), (∀ f ∈ st, Stated db f) ∧ ∀ e, EdgeOver V e → ∃ r,
      hgExists e (reopen d false) = (.ok r, reopen d false) ∧
        (r = true ↔ (Spec.after ops).Present e ∨ e ∈ st ∨ ∃ f ∈ st, e = support f theWordnet) := by
  obtain ⟨A, hA⟩ := after_of hV hops hs
  have hc : Clean A s := ⟨hA.idle, hA.work, hA.disk⟩
  obtain ⟨st, r, h1, h2⟩ := wn_crash hV hA.ok hc hA.auto hdb hok buf hd
  have hst : ∀ f ∈ st, Stated db f := fun f hf => mem_dbStatements.1 (by rw [h1]; simp [hf])
  refine ⟨st, hst, fun e he => ?_⟩
  have hov : ∀ e ∈ st.flatMap (fun e => [e, support e theWordnet]), EdgeOver V e := by
    intro x hx
    obtain ⟨f, hf, hx⟩ := List.mem_flatMap.1 hx
    exact BOp.edges_over (o := .addBelief theWordnet f) (hok f (hst f hf)) x hx
  have hA' := hA.ok.addAll hV (-1) _ hov
  refine ⟨_, existsM_run hV hA' he (s := reopen d false) (St.usable_of_none rfl) h2, ?_⟩
  rw [decide_eq_true_iff, mem_addAll]
  refine or_congr (hA.rel.present e).symm ?_
  rw [List.mem_flatMap]
  constructor
  · rintro ⟨f, hf, hx⟩
    simp only [List.mem_cons, List.not_mem_nil, or_false] at hx
    rcases hx with rfl | rfl
    · exact .inl hf
    · exact .inr ⟨f, hf, rfl⟩
  · rintro (h | ⟨f, hf, rfl⟩)
    · exact ⟨e, h, by simp⟩
    · exact ⟨f, hf, by simp⟩

/-- C81: reading again after the crash has the same outcome, and leaves the same tables, as reading once without a crash. -/
theorem C81_resume (hV : Vocab V) (ops : List (Op F)) (hops : ∀ op ∈ ops, op.Over V) (s : St)
    (hs : runOps ops (St.new false) = (.ok (), s)) (db : List WSynset) (hdb : HasLemmas db)
    (hok : ∀ e, Stated db e → BeliefOver V theWordnet e) (buf buf' : List (Val F)) (d : DB)
    (hd : d ∈ bhCrash (wnRead db) ⟨s, buf⟩) :
    ∃ r b b', wnRead db ⟨s, buf⟩ = (r, b) ∧ wnRead db ⟨reopen d false, buf'⟩ = (r, b') ∧
      b'.base.work = b.base.work ∧ b'.base.disk = b.base.disk := by
  obtain ⟨A, hA⟩ := after_of hV hops hs
  have hc : Clean A s := ⟨hA.idle, hA.work, hA.disk⟩
  obtain ⟨st, r, h1, h2⟩ := wn_crash hV hA.ok hc hA.auto hdb hok buf hd
  obtain ⟨b, e1, _, c1⟩ := wnRead_run hV hA.ok hc hdb hok buf
  have hov : ∀ e ∈ st.flatMap (fun e => [e, support e theWordnet]), EdgeOver V e := by
    intro x hx
    obtain ⟨f, hf, hx⟩ := List.mem_flatMap.1 hx
    exact BOp.edges_over (o := .addBelief theWordnet f) (hok f (mem_dbStatements.1 (by rw [h1]; simp [hf]))) x hx
  obtain ⟨b', e2, _, c2⟩ := wnRead_run hV (hA.ok.addAll hV (-1) _ hov) (s := reopen d false) ⟨rfl, h2, rfl⟩ hdb hok buf'
  rw [h1, List.flatMap_append, addAll_again, ← List.flatMap_append, ← h1] at c2
  exact ⟨_, b, b', e1, e2, by rw [c1.work, c2.work], by rw [c1.disk, c2.disk, c1.work, c2.work]⟩

/-- C81: reading twice is reading once (in SQLite and in MySQL), ... -/
theorem C81_twice (hV : Vocab V) (ops : List (Op F)) (hops : ∀ op ∈ ops, op.Over V) (auto : Bool) (s : St)
    (hs : runOps ops (St.new auto) = (.ok (), s)) (db : List WSynset) (hdb : HasLemmas db)
    (hok : ∀ e, Stated db e → BeliefOver V theWordnet e) (buf : List (Val F)) :
    ∃ r b b', wnRead db ⟨s, buf⟩ = (r, b) ∧ wnRead db b = (r, b') ∧
      b'.base.work = b.base.work ∧ b'.base.disk = b.base.disk := by
  obtain ⟨A, hA, _, hc⟩ := clean_of hV hops hs
  obtain ⟨b, e1, _, c1⟩ := wnRead_run hV hA hc hdb hok buf
  have hov : ∀ e ∈ (dbStatements db).flatMap (fun e => [e, support e theWordnet]), EdgeOver V e := by
    intro x hx
    obtain ⟨f, hf, hx⟩ := List.mem_flatMap.1 hx
    exact BOp.edges_over (o := .addBelief theWordnet f) (hok f (mem_dbStatements.1 hf)) x hx
  obtain ⟨b', e2, _, c2⟩ := wnRead_run hV (hA.addAll hV (-1) _ hov) c1 hdb hok b.buffer
  rw [addAll_there fun e he => mem_addAll_new he] at c2
  exact ⟨_, b, b', e1, e2, by rw [c1.work, c2.work], by rw [c1.disk, c2.disk, c1.work, c2.work]⟩

/-- C81: ... and reading a lexical database in two parts leaves the tables of reading it at once. -/
theorem C81_parts (hV : Vocab V) (ops : List (Op F)) (hops : ∀ op ∈ ops, op.Over V) (auto : Bool) (s : St)
    (hs : runOps ops (St.new auto) = (.ok (), s)) (db1 db2 : List WSynset) (hdb : HasLemmas (db1 ++ db2))
    (hok : ∀ e, Stated (db1 ++ db2) e → BeliefOver V theWordnet e) (buf : List (Val F)) :
    let b := (wnRead (db1 ++ db2) ⟨s, buf⟩).2
    let b' := (wnRead db2 (wnRead db1 ⟨s, buf⟩).2).2
    b'.base.work = b.base.work ∧ b'.base.disk = b.base.disk := by
  obtain ⟨A, hA, _, hc⟩ := clean_of hV hops hs
  have hsplit : dbStatements (F := F) (db1 ++ db2) = dbStatements db1 ++ dbStatements db2 := by
    unfold dbStatements; rw [List.flatMap_append]
  have hdb1 : HasLemmas db1 := fun t ht => hdb t (by simp [ht])
  have hdb2 : HasLemmas db2 := fun t ht => hdb t (by simp [ht])
  have hok1 : ∀ e, Stated db1 e → BeliefOver V theWordnet e :=
    fun e he => hok e (mem_dbStatements.1 (by rw [hsplit]; exact List.mem_append.2 (.inl (mem_dbStatements.2 he))))
  have hok2 : ∀ e, Stated db2 e → BeliefOver V theWordnet e :=
    fun e he => hok e (mem_dbStatements.1 (by rw [hsplit]; exact List.mem_append.2 (.inr (mem_dbStatements.2 he))))
  obtain ⟨b, e1, _, c1⟩ := wnRead_run hV hA hc hdb hok buf
  obtain ⟨b1, e2, _, c2⟩ := wnRead_run hV hA hc hdb1 hok1 buf
  have hov : ∀ e ∈ (dbStatements db1).flatMap (fun e => [e, support e theWordnet]), EdgeOver V e := by
    intro x hx
    obtain ⟨f, hf, hx⟩ := List.mem_flatMap.1 hx
    exact BOp.edges_over (o := .addBelief theWordnet f) (hok1 f (mem_dbStatements.1 hf)) x hx
  obtain ⟨b2, e3, _, c3⟩ := wnRead_run hV (hA.addAll hV (-1) _ hov) c2 hdb2 hok2 b1.buffer
  rw [← Abs.addAll_append, ← List.flatMap_append, ← hsplit] at c3
  intro b0 b0'
  have h0 : b0 = b := by show (wnRead (db1 ++ db2) ⟨s, buf⟩).2 = b; rw [e1]
  have h0' : b0' = b2 := by
    show (wnRead db2 (wnRead db1 ⟨s, buf⟩).2).2 = b2
    rw [e2]
    show (wnRead db2 ⟨b1.base, b1.buffer⟩).2 = b2
    rw [e3]
  rw [h0, h0']
  exact ⟨by rw [c1.work, c3.work], by rw [c1.disk, c3.disk, c1.work, c3.work]⟩

/-- The hypotheses of the theorems on the reader are met, and a crash of the reader leaves nothing or everything for a small database:
`exSynset` is read in one go. -/
example : (bhCrash (wnRead [exSynset]) (⟨St.new false, []⟩ : BSt Half)).length = 2 ∧
    ∀ e, Stated [exSynset] e → BeliefOver (PlainVocab (F := Half)) theWordnet e := by
  refine ⟨by decide +kernel, fun e he => C50_clean _ exSynset_clean e he⟩

end GB
