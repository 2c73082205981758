import Verif.Proofs.LimitRun
import Verif.Props.Server
import Verif.Props.MyClients
import Verif.Props.Crash

/-
Property C91: the columns of the tables hold texts of limited length.
-/

set_option linter.unusedSectionVars false

namespace GB

variable {F : Type} [PyFloat F] [DecidableEq F] {V : Val F → Prop} {w : Char → Nat} {cd : Codec} {srv : Server} {n : Nat}

/-! ### histories -/

/-- C91: on any server, in any state: a history of edges that fit the columns (their texts do, and the rows of the index, which
are longer) runs as if the columns had no limit. -/
theorem C91_same (srv : Server) (n : Nat) (ops : List (Op F)) (hops : ∀ op ∈ ops, op.Over V)
    (hf : ∀ e ts, Prim.add e ts ∈ ops.flatMap Op.steps → KeyFits n e) :
    runOpsOn (srv.limit n) ops = runOpsOn srv ops := runOpsLim_same ops hops hf

/-- C91: and every other history, on any server, in any state, does what it does without a limit, or raises `DataError`.
Nothing is cut off, nothing else is raised. -/
theorem C91_or_raises (srv : Server) (n : Nat) (ops : List (Op F)) (s : St) :
    runOpsOn (srv.limit n) ops s = runOpsOn srv ops s ∨ (runOpsOn (srv.limit n) ops s).1 = .error .dataError :=
  Stops.each ops (fun op => stops_op op) s

theorem Smooth.fits {k : Nat} {e : Val F} {ts : Int} : ∀ (ps : List (Prim F)) {S : Spec F} {T : Tally F}, Smooth k S T ps →
    Prim.add e ts ∈ ps → KeyFits k e
  | p :: ps, S, T, h, hm => by
    rcases List.mem_cons.1 hm with rfl | hm
    · exact (h.1 e ts rfl).1
    · exact Smooth.fits ps h.2 hm

theorem KeyFits.mono {k n : Nat} (h : k ≤ n) {e : Val F} (hf : KeyFits k e) : KeyFits n e := fun i hi => by
  have := hf i hi
  omega

/-- C91: MySQL with all its deviations at once (see C89), and with columns of limited length: in a history that fits its
keys, which are shorter than the columns, the limit is not noticed. -/
theorem C91_mysql (hG : GeneralOnAscii w) (ha : HasAscii cd.sends) (hb : HasAscii cd.stores) (hV : Vocab V)
    (hL : LowerVocab V) (k n : Nat) (hkn : k ≤ n) (ops : List (Op F)) (hops : ∀ op ∈ ops, op.Over V) (hpl : ∀ op ∈ ops, op.Plain)
    (hq : ∀ op ∈ ops, op.Stamped fun n => -(2 ^ 63) ≤ n ∧ n < 2 ^ 63) (auto : Bool)
    (h : Smooth k Spec.empty Tally.empty (ops.flatMap Op.steps)) :
    runOpsOn ((Server.mysql cd w k).limit n) ops (St.new auto) = runOps ops (St.new auto) := by
  rw [C91_same _ n ops hops fun e ts hm => (Smooth.fits _ h hm).mono hkn]
  exact C89_mysql hG ha hb hV hL k ops hops hpl hq auto h

/-! ### one edge more -/

/-- The hypotheses about the history before: it went well, and all that was added fits. -/
structure FitHistory (V : Val F → Prop) (n : Nat) (ops : List (Op F)) (auto : Bool) (s : St) : Prop where
  over : ∀ op ∈ ops, op.Over V
  fits : ∀ e ts, Prim.add e ts ∈ ops.flatMap Op.steps → KeyFits n e
  run : runOpsOn (narrow n) ops (St.new auto) = (.ok (), s)

theorem Spec.Room.stepsFit {k : Nat} : ∀ (ps : List (Prim F)) (_ : ∀ p ∈ ps, p.Over V)
    (_ : ∀ e ts, Prim.add e ts ∈ ps → KeyFits k e) {S : Spec F}, S.Room k → (ps.foldl Spec.prim S).Room k
  | [], _, _, _, h => h
  | p :: ps, hps, hf, _, h => Spec.Room.stepsFit ps (fun q hq => hps q (by simp [hq])) (fun e ts hm => hf e ts (by simp [hm]))
      (h.prim (hps p (by simp)) fun e ts he => hf e ts (by simp [he]))

theorem FitHistory.sql {ops : List (Op F)} {auto : Bool} {s : St} (h : FitHistory V n ops auto s) :
    runOps ops (St.new auto) = (.ok (), s) := by
  have := h.run
  rwa [show runOpsOn (narrow n) ops = runOpsOn Server.sqlite ops from C91_same _ n ops h.over h.fits,
    (C89_instances ops _).1] at this

theorem FitHistory.room {ops : List (Op F)} {auto : Bool} {s : St} (h : FitHistory V n ops auto s) : (Spec.after ops).Room n := by
  have hfold : (ops.flatMap Op.steps).foldl Spec.prim Spec.empty = Spec.after ops := by
    rw [foldl_flatMap]
    unfold Spec.after
    congr 1
    funext S o
    exact Op.steps_fold S o
  have hsteps : ∀ p ∈ ops.flatMap Op.steps, p.Over V := by
    intro p hp
    obtain ⟨o, ho, hp⟩ := List.mem_flatMap.1 hp
    exact Op.steps_over (h.over o ho) p hp
  have := Spec.Room.stepsFit (ops.flatMap Op.steps) hsteps h.fits (Spec.Room.empty n)
  rwa [hfold] at this

/-- What the tables look like after an edge was refused. -/
theorem refused (hV : Vocab V) {ops : List (Op F)} {auto : Bool} {s : St} (h : FitHistory V n ops auto s) {e : Val F}
    (he : EdgeOver V e) (hnot : ¬ (Spec.after ops).Present e) (hbad : ¬ KeyFits n e) (ts : Int) :
    ∃ A s1 db, After V ops auto s A ∧ e ∉ A.edges ∧ hgAddOn (narrow n) e ts s = (.error .dataError, s1) ∧ Step true TT s s1 db ∧
      ((fitsCol n e = false ∧
          db = ⟨((e.elems.takeWhile (fitsCol n)).foldl (touchV ts) A.verts).map VEnt.row, A.conc.perms⟩) ∨
        (fitsCol n e = true ∧ db = ⟨(setV e 0 ts (e.elems.foldl (touchV ts) A.verts)).map VEnt.row,
          A.conc.perms ++ (rowsOf e.elems).takeWhile fun r => decide (r.length ≤ n)⟩)) := by
  obtain ⟨A, hA⟩ := after_of hV h.over h.sql
  have hn : e ∉ A.edges := fun hm => hnot ((hA.rel.present e).2 hm)
  obtain ⟨s1, db, h1, h2, h3⟩ := add_long hV hA.ok (h.room.abs hA.ok hA.rel) he hn hbad ts hA.usable hA.work
  exact ⟨A, s1, db, hA, hn, h1, h2, h3⟩

/-- C91: after a history of edges that fit, adding an edge succeeds if it is there already or fits, and raises `DataError`
otherwise. -/
theorem C91_accepts (hV : Vocab V) {ops : List (Op F)} {auto : Bool} {s : St} (h : FitHistory V n ops auto s) (e : Val F)
    (he : EdgeOver V e) (ts : Int) :
    (((Spec.after ops).Present e ∨ KeyFits n e) → hgAddOn (narrow n) e ts s = hgAdd e ts s ∧ (hgAdd e ts s).1 = .ok e) ∧
    (¬ ((Spec.after ops).Present e ∨ KeyFits n e) → (hgAddOn (narrow n) e ts s).1 = .error .dataError) := by
  obtain ⟨A, hA⟩ := after_of hV h.over h.sql
  have hok : (hgAdd e ts s).1 = .ok e := by
    obtain ⟨s', e1, _⟩ := crash_add hV hA.ok hA.usable hA.work hA.disk he ts
    rw [e1]
  refine ⟨fun hor => ⟨?_, hok⟩, fun hor => ?_⟩
  · by_cases hf : KeyFits n e
    · rw [show hgAddOn (narrow n) e ts = hgAddOn Server.sqlite e ts from addLim_same he hf ts]
      rfl
    · have hp := (hA.rel.present e).1 (hor.resolve_right hf)
      have hex := existsM_run hV hA.ok he hA.usable hA.work
      simp only [hp, decide_true] at hex
      obtain ⟨k, hk, hks⟩ := head0_edge he
      have hgo : ∀ srv : Server, existsOn srv e s = (.ok true, s) → hgAddOn srv e ts s = (.ok e, s) := by
        intro srv hx
        rw [addOn_single hk hks]
        unfold addRawOn
        rw [bind_assoc', bind_run _ _ _ hx]
        rfl
      exact (hgo (narrow n) hex).trans (hgo Server.sqlite hex).symm
  · obtain ⟨A, s1, db, _, _, h1, _⟩ := refused hV h he (fun x => hor (.inl x)) (fun x => hor (.inr x)) ts
    rw [h1]

theorem degree_at {vs : List (VEnt F)} (hk : KeysWf vs) {v : Val F} (hv : WfVal v) {s : St} (hc : s.cur = none)
    (hw : s.work.vertices = vs.map VEnt.row) : (hgDegree v s).1 = .ok (degOf v vs) := by rw [degree_rows hk hv hc hw]

/-- C91: whatever made an addition fail, all is on disk, nothing is left open, no other commit was made than those with which
the addition begins where there is no limit, what queries say of the other edges is as before, and the degree of a symbol
was raised by at most its number of occurrences in the edge. -/
theorem C91_refused (hV : Vocab V) {ops : List (Op F)} {auto : Bool} {s : St} (h : FitHistory V n ops auto s) (e : Val F)
    (he : EdgeOver V e) (hnot : ¬ (Spec.after ops).Present e) (hbad : ¬ KeyFits n e) (ts : Int) :
    ∃ s1, hgAddOn (narrow n) e ts s = (.error .dataError, s1) ∧ s1.cur = none ∧ s1.disk = s1.work ∧
      (∃ l, (hgAdd e ts s).2.commits = s1.commits ++ l) ∧ SameExcept V e s1 s ∧
      ∀ v : Val F, WfVal v → v.isAtom = true → ∃ i j : Int, (hgDegree v s).1 = .ok i ∧ (hgDegree v s1).1 = .ok j ∧
        i ≤ j ∧ j ≤ i + e.elems.count v := by
  obtain ⟨A, s1, db, hA, hn, h1, st, hdb⟩ := refused hV h he hnot hbad ts
  have hstage : AddStage A e ts db := by
    rcases hdb with ⟨_, rfl⟩ | ⟨_, rfl⟩
    · exact .verts _ (List.takeWhile_prefix _)
    · exact .rows _ (List.takeWhile_prefix _)
  have hmid := midway_add hV hA.ok he hstage
  have hc : s1.cur = none := st.cur.trans hA.idle
  refine ⟨s1, h1, hc, st.durable (.inl hA.idle) hA.disk, cuts_trace (cuts_add e he ts) h1, ?_, ?_⟩
  · have h2 := sameExcept_midway hV hA.ok hA.idle hA.work hmid true
    have hi : SameIndex s1 (reopen db true) := ⟨by rw [st.work]; rfl, hc⟩
    have hE : ∀ x : Val F, (hgExists x s1).1 = (hgExists x (reopen db true)).1 := fun x =>
      (((index_pattern x).bind fun _ => IndexOnly.pure _) s1 _ hi).1
    refine ⟨fun x hx hne => (hE x).trans (h2.ex x hx hne), fun ps hps => ?_, fun c hc hca => ?_⟩
    · rw [(index_pattern (.tup ps) s1 _ hi).1]; exact h2.pattern ps hps
    · rw [(index_star c s1 _ hi).1]; exact h2.star c hc hca
  · intro v hv ha
    obtain ⟨vs, g1, g2, g3⟩ := hmid.verts
    exact ⟨_, _, degree_at hA.ok.wf hv hA.idle (by rw [hA.work]; rfl), degree_at g2.2 hv hc (by rw [st.work]; exact g1),
      (g3 v ha).1, (g3 v ha).2⟩

/-- C91: if the text of the edge is too long, no answer about edges changed; but its elements before the first one that is
too long count as if the edge had been added. -/
theorem C91_long (hV : Vocab V) {ops : List (Op F)} {auto : Bool} {s : St} (h : FitHistory V n ops auto s) (e : Val F)
    (he : EdgeOver V e) (hlong : n < (edge2str e).length) (ts : Int) :
    ∃ s1, hgAddOn (narrow n) e ts s = (.error .dataError, s1) ∧
      (∀ x : Val F, (hgExists x s1).1 = (hgExists x s).1) ∧ (hgExists e s1).1 = .ok false ∧
      (∀ p : Val F, (hgPattern2edges p s1).1 = (hgPattern2edges p s).1) ∧
      (∀ c : Val F, (hgStar c s1).1 = (hgStar c s).1) ∧
      (∀ r, (hgSymbolsWithRoot r s1).1 = (hgSymbolsWithRoot r s).1) ∧
      (∀ x : Val F, (hgSources x s1).1 = (hgSources x s).1) ∧
      (∀ v : Val F, WfVal v → ∃ d : Int, (hgDegree v s).1 = .ok d ∧
        (hgDegree v s1).1 = .ok (d + (e.elems.takeWhile fun x => decide ((edge2str x).length ≤ n)).count v)) ∧
      s1.disk = s1.work ∧ s1.cur = none := by
  have hbad : ¬ KeyFits n e := fun hf => by have := hf.text; omega
  have hnot : ¬ (Spec.after ops).Present e := by
    intro hp
    have h1 := h.room.2 e hp (rowOf e.elems 0) (mem_rowsOf.2 ⟨0, factorial_pos' _, rfl⟩)
    rw [row_zero he.elems_ne, edge_text he] at h1
    omega
  obtain ⟨A, s1, db, hA, hn, h1, st, hdb⟩ := refused hV h he hnot hbad ts
  rcases hdb with ⟨_, rfl⟩ | ⟨hf, _⟩
  case inr => have := of_decide_eq_true hf; omega
  have hwx : ∀ x ∈ e.elems.takeWhile (fitsCol n), WfVal x := fun x hx =>
    hV.wf x (he.mem x ((List.takeWhile_prefix _).subset hx))
  have hk : KeysOk ((e.elems.takeWhile (fitsCol n)).foldl (touchV ts) A.verts) := KeysOk.foldTouch ⟨hA.ok.keys, hA.ok.wf⟩ ts hwx
  have hc1 : s1.cur = none := st.cur.trans hA.idle
  have hi : SameIndex s1 s := ⟨by rw [st.work, hA.work], hc1.trans hA.idle.symm⟩
  have hE : ∀ x : Val F, (hgExists x s1).1 = (hgExists x s).1 := fun x =>
    (((index_pattern x).bind fun _ => IndexOnly.pure _) s1 s hi).1
  refine ⟨s1, h1, hE, ?_, fun p => (index_pattern p s1 s hi).1, fun c => (index_star c s1 s hi).1,
    fun r => (index_symbols r s1 s hi).1, fun x => (index_sources x s1 s hi).1, ?_, st.durable (.inl hA.idle) hA.disk, hc1⟩
  · rw [hE e]
    show (existsM e s).1 = _
    rw [existsM_run hV hA.ok he hA.usable hA.work]
    simp [hn]
  · intro v hv
    refine ⟨degOf v A.verts, degree_at hA.ok.wf hv hA.idle (by rw [hA.work]; rfl), ?_⟩
    rw [degree_at hk.2 hv hc1 (by rw [st.work]), degOf_foldTouch]
    rfl

/-- C91: if the text of the edge fits, but one of its rows in the index does not, the call raises `DataError`; but then the
edge exists, all its symbols count it, and adding it again does nothing.  Removing it gives back the graph as it was before. -/
theorem C91_half (hV : Vocab V) {ops : List (Op F)} {auto : Bool} {s : St} (h : FitHistory V n ops auto s) (e : Val F)
    (he : EdgeOver V e) (hnot : ¬ (Spec.after ops).Present e) (hfit : (edge2str e).length ≤ n) (hbad : ¬ KeyFits n e) (ts : Int) :
    ∃ s1, hgAddOn (narrow n) e ts s = (.error .dataError, s1) ∧ (hgExists e s1).1 = .ok true ∧
      (∀ v : Val F, WfVal v → v.isAtom = true → ∃ d : Int, (hgDegree v s).1 = .ok d ∧
        (hgDegree v s1).1 = .ok (d + e.elems.count v)) ∧
      (∀ ts', hgAddOn (narrow n) e ts' s1 = (.ok e, s1)) ∧
      (∃ s2, hgRemoveOn (narrow n) e s1 = (.ok (), s2) ∧ SameView V s2 s) := by
  obtain ⟨A, s1, db, hA, hn, h1, st, hdb⟩ := refused hV h he hnot hbad ts
  rcases hdb with ⟨hf, _⟩ | ⟨_, rfl⟩
  · exact absurd hfit (of_decide_eq_false hf)
  have hc1 : s1.cur = none := st.cur.trans hA.idle
  have hpre := List.takeWhile_prefix (l := rowsOf e.elems) fun r => decide (r.length ≤ n)
  have hmid := midway_add hV hA.ok he (AddStage.rows (ts := ts) _ hpre)
  have hk : KeysOk (setV e 0 ts (e.elems.foldl (touchV ts) A.verts)) :=
    (KeysOk.foldTouch ⟨hA.ok.keys, hA.ok.wf⟩ ts (edge_wf hV he)).set (he.wf hV) 0 ts
  have hrow : rowOf e.elems 0 ∈ (rowsOf e.elems).takeWhile fun r => decide (r.length ≤ n) := by
    obtain ⟨m, hm⟩ : ∃ m, factorial e.elems.length = m + 1 := ⟨_, (Nat.succ_pred_eq_of_pos (factorial_pos' _)).symm⟩
    have h0 : decide ((rowOf e.elems 0).length ≤ n) = true := by
      rw [row_zero he.elems_ne, edge_text he]
      exact decide_eq_true hfit
    unfold rowsOf
    rw [hm, List.range_succ_eq_map, List.map_cons, List.takeWhile_cons]
    simp only [h0, if_true]
    exact List.mem_cons_self
  have hstart : patStart e.elems <+: rowOf e.elems 0 := by
    have h1 : e.elems.filter (fun n => !n.isNone) = e.elems := by
      rw [List.filter_eq_self]
      intro x hx
      have := V_ne_none hV (he.mem x hx)
      cases hn : x.isNone with
      | false => rfl
      | true => exact absurd (isNone_iff.1 hn) this
    have h2 : permN e.elems 0 = e.elems := by unfold permN; rw [permutations_zero]; rfl
    rw [patStart, h1, rowOf, h2]
    exact nodes2str_prefix he.elems_ne (by simp)
  have hex : existsM e s1 = (.ok true, s1) := by
    obtain ⟨b, hb, hb2⟩ := exists_rows hV he (St.usable_of_none hc1) (by rw [st.work]; exact hmid.rows)
    have : b = true := hb2.2 ⟨0, ⟨factorial_pos' _, by rw [st.work]; exact List.mem_append_right _ hrow⟩, hstart⟩
    rw [hb, this]
  obtain ⟨k, hk0, hks⟩ := head0_edge he
  refine ⟨s1, h1, by show (existsM e s1).1 = _; rw [hex], ?_, ?_, ?_⟩
  · intro v hv ha
    refine ⟨degOf v A.verts, degree_at hA.ok.wf hv hA.idle (by rw [hA.work]; rfl), ?_⟩
    rw [degree_at hk.2 hv hc1 (by rw [st.work]), degOf_set_atom _ _ _ _ _ (atom_ne_edge ha he), degOf_foldTouch]
  · intro ts'
    rw [addOn_single hk0 hks]
    unfold addRawOn
    rw [bind_assoc', bind_run _ _ _ (show existsOn (narrow n) e s1 = (.ok true, s1) from hex)]
    rfl
  · exact repair_rows hV hA he hn hpre hc1 st.work (by show (existsM e s1).1 = _; rw [hex])

/-! ### Examples: columns of 22 characters -/

/-- 22 characters, four elements. -/
def exTight : HVal := .tup [sy "is/1", sy "sky/1", sy "size", .int 1234]

/-- Longer than the columns. -/
def exWide : HVal := .tup [sy "is/1", sy "sky/1", sy "enormous", .int 1234]

def exShort : HVal := .tup [sy "is/1", sy "sky/1", sy "size"]

example : (edge2str exTight).length = 22 ∧ (edge2str exWide).length = 26 := by decide +kernel

example : ¬ KeyFits 22 exTight := fun h => absurd (h 10 (by decide +kernel)) (by decide +kernel)

example : KeyFits 23 exTight := fun i hi => by
  have h1 : (edge2str exTight).length = 22 := by decide +kernel
  have h2 : ∀ i < 24, (natStr i).length ≤ 2 := by decide +kernel
  have := h2 i hi
  omega

/-- C91, counterexample: a refused edge that exists, and that `star` of one of its own symbols does not return. -/
theorem C91_half_indexed_counterexample :
    (hgAddOn (narrow 22) exTight 1 (St.new true)).1 = .error .dataError ∧
    (hgExists exTight (hgAddOn (narrow 22) exTight 1 (St.new true)).2).1 = .ok true ∧
    (hgStar (sy "sky/1") (hgAddOn (narrow 22) exTight 1 (St.new true)).2).1 = .ok [exTight] ∧
    (hgStar (sy "size") (hgAddOn (narrow 22) exTight 1 (St.new true)).2).1 = .ok ([] : List HVal) ∧
    (hgDegree (sy "size") (hgAddOn (narrow 22) exTight 1 (St.new true)).2).1 = .ok 1 := by
  refine ⟨?_, ?_, ?_, ?_, ?_⟩ <;> decide +kernel

/-- C91, counterexample: a refused edge that is not there, but counted. -/
theorem C91_counted_counterexample :
    (hgAddOn (narrow 22) exWide 1 (St.new true)).1 = .error .dataError ∧
    (hgExists exWide (hgAddOn (narrow 22) exWide 1 (St.new true)).2).1 = .ok false ∧
    (hgDegree (sy "enormous") (hgAddOn (narrow 22) exWide 1 (St.new true)).2).1 = .ok 1 := by
  refine ⟨?_, ?_, ?_⟩ <;> decide +kernel

theorem exShort_fits : KeyFits 22 exShort := fun i hi => by
  have h1 : (edge2str exShort).length = 17 := by decide +kernel
  have h2 : ∀ i < 6, (natStr i).length ≤ 2 := by decide +kernel
  have := h2 i hi
  omega

/-- The hypotheses of `C91_accepts`, `C91_refused`, `C91_long` and `C91_half`. -/
example : ∃ s, FitHistory PlainVocab 22 [.prim (.add exShort 5)] true s ∧ EdgeOver PlainVocab exTight ∧ EdgeOver PlainVocab exWide ∧
    ¬ (Spec.after [.prim (.add exShort 5)]).Present exTight ∧ 22 < (edge2str exWide).length := by
  have ho : ∀ op ∈ [(.prim (.add exShort 5) : Op Half)], op.Over PlainVocab := ops_of (by decide +kernel)
  have hf : ∀ e ts, Prim.add e ts ∈ [(.prim (.add exShort 5) : Op Half)].flatMap Op.steps → KeyFits 22 e := by
    intro e ts h
    simp [Op.steps] at h
    rw [h.1]
    exact exShort_fits
  obtain ⟨s, A, hA⟩ := after_exists plainVocab _ ho true
  refine ⟨s, ⟨ho, hf, ?_⟩, edge_of (by decide +kernel), edge_of (by decide +kernel), ?_, by decide +kernel⟩
  · rw [show runOpsOn (narrow 22) [(.prim (.add exShort 5) : Op Half)] = runOpsOn Server.sqlite _ from C91_same _ 22 _ ho hf]
    exact hA.run
  · unfold Spec.Present
    decide +kernel

end GB
