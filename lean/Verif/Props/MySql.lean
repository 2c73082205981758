import Verif.Proofs.MySqlStamps
import Verif.Spec.WitnessHist

/-
Property C68: a graph in MySQL behaves as one in SQLite.  False in general: the server counts changed rows, and its
keys are 250 characters long.  Here is for which histories it is true (for them all other properties carry over), and
what happens outside.
-/

set_option linter.unusedSectionVars false

namespace GB

variable {F : Type} [PyFloat F] [DecidableEq F] {V : Val F → Prop}

theorem Sees.new (auto : Bool) : Sees V (Spec.empty : Spec F) Tally.empty (St.new auto) :=
  ⟨⟨Abs.empty, AbsOk.empty, Rel.empty, rfl⟩, Abs.empty, AbsOk.empty, Tallied.empty, rfl⟩

theorem Spec.Room.empty (k : Nat) : (Spec.empty : Spec F).Room k :=
  ⟨fun v hv => by simp [Spec.empty] at hv, fun e he => by simp [Spec.empty, Spec.Present] at he⟩

/-- C68, partial: if all edges that are added fit into the keys, and no edge is added while it is known as a vertex
with degree 0 and just the time stamp it is added with, then the history has the same results and leaves the same
tables, commit by commit, as on a database that counts matching rows and has unlimited keys.  Missing: the other
histories, for which it is false (below). -/
theorem C68_same_partial (hV : Vocab V) (k : Nat) (ops : List (Op F)) (hops : ∀ op ∈ ops, op.Over V) (auto : Bool)
    (h : Smooth k Spec.empty Tally.empty (ops.flatMap Op.steps)) :
    myRunOps k ops (St.new auto) = runOps ops (St.new auto) :=
  myRunOps_same hV ops hops (Sees.new auto) rfl (Spec.Room.empty k) h

/-! ### only additions -/

/-- Invariant of histories without removals. -/
structure Growing (S : Spec F) (T : Tally F) : Prop where
  same : ∀ e, e ∈ T.edges ↔ S.Present e
  pos : ∀ v c, T.count v = some c → 0 ≤ c ∧ (S.Present v ∨ 1 ≤ c)

theorem Growing.prim {S : Spec F} {T : Tally F} (h : Growing S T) {p : Prim F} (hp : p.keeps = true) :
    Growing (S.prim p) (T.prim p) := by
  cases p with
  | add e ts =>
    show Growing (S.add e ts) (T.add e)
    unfold Spec.add Tally.add
    by_cases hm : e ∈ T.edges
    · rw [if_pos hm, if_pos (show (S.created e).isSome = true from (h.same e).1 hm)]; exact h
    · rw [if_neg hm, if_neg (show ¬ (S.created e).isSome = true from fun h' => hm ((h.same e).2 h'))]
      refine ⟨fun x => ?_, fun v c hc => ?_⟩
      · by_cases hx : x = e
        · simp [hx, Spec.Present]
        · have := h.same x
          simp only [Spec.Present] at this
          simp [hx, Spec.Present, this]
      · by_cases hv : v = e
        · simp only [hv, if_true, Option.some.injEq] at hc
          exact ⟨by omega, .inl (by simp [Spec.Present, hv])⟩
        · simp only [hv, if_false] at hc
          have hkeep : S.Present v →
              Spec.Present (F := F) ⟨fun x => if x = e then some ts else S.created x, fun v =>
                if v = e then some ts else if v ∈ e.elems ∧ S.known v = none then some ts else S.known v⟩ v := by
            intro hp; simpa [Spec.Present, hv] using hp
          unfold Tally.more at hc
          by_cases h0 : e.elems.count v = 0
          · rw [if_pos h0] at hc
            obtain ⟨h1, h2⟩ := h.pos v c hc
            exact ⟨h1, h2.imp hkeep id⟩
          · rw [if_neg h0] at hc
            simp only [Option.some.injEq] at hc
            have hge : 0 ≤ (T.count v).getD 0 := by
              cases hcv : T.count v with
              | none => simp
              | some d => exact (h.pos v d hcv).1
            exact ⟨by omega, .inr (by omega)⟩
  | query q => exact h
  | remove e => simp [Prim.keeps] at hp
  | removeMany es => simp [Prim.keeps] at hp
  | removeByPattern ps => simp [Prim.keeps] at hp
  | removeBelief src e => simp [Prim.keeps] at hp
  | destroy => simp [Prim.keeps] at hp

theorem Growing.smooth {k : Nat} (ps : List (Prim F)) (hk : ∀ p ∈ ps, p.keeps = true)
    (hf : ∀ e ts, Prim.add e ts ∈ ps → KeyFits k e) :
    ∀ {S : Spec F} {T : Tally F}, Growing S T → Smooth k S T ps := by
  induction ps with
  | nil => intro S T _; trivial
  | cons p ps ih =>
    intro S T h
    refine ⟨fun e ts he => ⟨hf e ts (by simp [he]), ?_⟩, ?_⟩
    · rintro ⟨h1, h2, _⟩
      rcases (h.pos e 0 h2).2 with h3 | h3
      · exact h1 h3
      · omega
    · exact ih (fun q hq => hk q (by simp [hq])) (fun e ts he => hf e ts (by simp [he])) (h.prim (hk p (by simp)))

/-- C68: a history in which nothing is removed, and all edges added fit into the keys, runs on MySQL as on SQLite. -/
theorem C68_additions (hV : Vocab V) (k : Nat) (ops : List (Op F)) (hops : ∀ op ∈ ops, op.Over V) (auto : Bool)
    (hk : ∀ p ∈ ops.flatMap Op.steps, p.keeps = true)
    (hf : ∀ e ts, Prim.add e ts ∈ ops.flatMap Op.steps → KeyFits k e) :
    myRunOps k ops (St.new auto) = runOps ops (St.new auto) :=
  C68_same_partial hV k ops hops auto (Growing.smooth _ hk hf
    ⟨fun e => by simp [Tally.empty, Spec.empty, Spec.Present], fun v c hc => by simp [Tally.empty] at hc⟩)

theorem smooth_of_stamps (k : Nat) (ops : List (Op F))
    (hf : ∀ e ts, Prim.add e ts ∈ ops.flatMap Op.steps → KeyFits k e)
    (hs : ∀ pre e ts mid p post e', ops.flatMap Op.steps = pre ++ .add e ts :: mid ++ p :: post → p.keeps = false →
      Prim.add e' ts ∉ post) : Smooth k Spec.empty Tally.empty (ops.flatMap Op.steps) := by
  have h0 : Stamped (Spec.empty : Spec F) Tally.empty [] [] :=
    ⟨Coupled.empty, fun v ts h => by simp [Spec.empty] at h, fun v ts c _ _ _ h => by simp [Spec.empty] at h⟩
  refine Stamped.smooth _ hf h0 (fun _ _ => List.not_mem_nil) (fun _ _ _ _ _ _ _ => List.not_mem_nil) ?_
  intro pre e ts mid q post he hq hm
  simp only [stampsOf, List.mem_filterMap] at hm
  obtain ⟨p, hp, hpt⟩ := hm
  cases p with
  | add e' ts' =>
    simp only [Option.some.injEq] at hpt
    subst hpt
    exact hs pre e ts' mid q post e' he hq hp
  | _ => cases hpt

/-- C68: so does a history in which no time stamp is used again after something was removed (for instance, the stamps
never decrease, and grow at every removal). -/
theorem C68_stamps (hV : Vocab V) (k : Nat) (ops : List (Op F)) (hops : ∀ op ∈ ops, op.Over V) (auto : Bool)
    (hf : ∀ e ts, Prim.add e ts ∈ ops.flatMap Op.steps → KeyFits k e)
    (hs : ∀ pre e ts mid p post e', ops.flatMap Op.steps = pre ++ .add e ts :: mid ++ p :: post → p.keeps = false →
      Prim.add e' ts ∉ post) :
    myRunOps k ops (St.new auto) = runOps ops (St.new auto) :=
  C68_same_partial hV k ops hops auto (smooth_of_stamps k ops hf hs)

/-! ### counterexamples -/

theorem lookV_unique {vs : List (VEnt F)} (hk : (vs.map VEnt.v).Nodup) {v : Val F} {r q : VEnt F}
    (hl : lookV v vs = some r) (hq : q ∈ vs) (hv : q.v = v) : q = r := by
  induction vs with
  | nil => simp at hq
  | cons w ws ih =>
    rw [List.map_cons, List.nodup_cons] at hk
    by_cases hw : w.v = v
    · have h1 : lookV v (w :: ws) = some w := by simp [lookV, hw]
      rw [h1] at hl
      simp only [Option.some.injEq] at hl
      rcases List.mem_cons.1 hq with rfl | hq'
      · exact hl
      · exact absurd (List.mem_map.2 ⟨q, hq', hv.trans hw.symm⟩) hk.1
    · have h1 : lookV v (w :: ws) = lookV v ws := by simp [lookV, hw]
      rw [h1] at hl
      rcases List.mem_cons.1 hq with rfl | hq'
      · exact absurd hv hw
      · exact ih hk.2 hl hq'

/-- C68, counterexamples: after any history that went well, adding an absent edge that is known as a vertex with degree 0
and the same time stamp raises `IntegrityError`; the edge is still absent, but the degrees of its elements were raised. -/
theorem C68_again_counterexample (hV : Vocab V) (k : Nat) (ops : List (Op F)) (hops : ∀ op ∈ ops, op.Over V)
    (h : Smooth k Spec.empty Tally.empty (ops.flatMap Op.steps)) (auto : Bool) (s : St)
    (hs : myRunOps k ops (St.new auto) = (.ok (), s)) (e : Val F) (he : EdgeOver V e) (hf : KeyFits k e) (ts : Int)
    (hc : Clash (Spec.after ops) (Tally.after ops) e ts) (l : List (Val F)) (hl : Lists (Spec.after ops) l) :
    ∃ s', myAdd k e ts s = (.error .integrityError, s') ∧ hgExists e s' = (.ok false, s') ∧
      ∀ a, WfVal a → a.isAtom = true → hgDegree a s' = (.ok (occurrences a l + e.elems.count a : Nat), s') := by
  rw [C68_same_partial hV k ops hops auto h] at hs
  obtain ⟨A, hA⟩ := after_of hV hops hs
  obtain ⟨B, hB, hT, _, hwB⟩ := tallied_of hV hops hs
  have hu := hA.usable
  have hfold : (ops.flatMap Op.steps).foldl Spec.prim Spec.empty = Spec.after ops := by
    rw [foldl_flatMap]
    unfold Spec.after
    congr 1
    funext S o
    exact Op.steps_fold S o
  have hsteps : ∀ p ∈ ops.flatMap Op.steps, p.Over V := by
    intro p hp
    obtain ⟨o, ho, hp⟩ := List.mem_flatMap.1 hp
    exact Op.steps_over (hops o ho) p hp
  have hroom : A.Room k := by
    have hr := Spec.Room.steps (ops.flatMap Op.steps) hsteps (Spec.Room.empty k) h
    rw [hfold] at hr
    exact hr.abs hA.ok hA.rel
  have hm : e ∉ A.edges := fun hm => hc.1 ((hA.rel.present e).2 hm)
  have hlook : lookV e A.verts = some ⟨e, 0, ts⟩ := by
    have hconc : A.conc = B.conc := hA.work.symm.trans hwB
    have h1 := lookV_conc hA.ok hB hconc (he.wf hV)
    have h2 := hT.count e
    rw [hc.2.1, ← h1] at h2
    have h3 := hA.rel.known e
    rw [hc.2.2] at h3
    unfold tsOf at h3
    cases hq : lookV e A.verts with
    | none => rw [hq] at h2; simp at h2
    | some q =>
      have hv := lookV_v hq
      rw [hq] at h2 h3
      cases q
      simp only [Option.map_some, Option.some.injEq] at h2 h3
      simp only at hv
      rw [hv, h2, h3]
  have hwx : ∀ x ∈ e.elems, WfVal x := fun x hx => hV.wf x (he.mem x hx)
  have hps : ∀ r ∈ A.conc.perms, r.length ≤ k := by
    intro r hr
    obtain ⟨x, hx, hr'⟩ := List.mem_flatMap.1 hr
    exact hroom.2 x hx r hr'
  have hloop : ∀ x ∈ e.elems, ∀ vs : List (VEnt F), (KeysOk vs ∧ ∀ r ∈ vs, (edge2str r.v).length ≤ k) →
      ∀ s : St, s.usable → s.work = ⟨vs.map VEnt.row, A.conc.perms⟩ →
      Runs false TT (addVert ts x) s () ⟨(touchV ts vs x).map VEnt.row, A.conc.perms⟩ ∧
        (KeysOk (touchV ts vs x) ∧ ∀ r ∈ touchV ts vs x, (edge2str r.v).length ≤ k) ∧
        myAddVert k ts x s = addVert ts x s := by
    intro x hx vs hvs s hu hw
    exact ⟨addVert_run hvs.1.2 (hwx x hx) ts hu hw trivial,
      ⟨hvs.1.touch (hwx x hx) ts, touch_mem hvs.2 (hf.elem he x hx)⟩,
      myAddVert_same hvs.1 hvs.2 hps (hwx x hx) (hf.elem he x hx) ts hu hw⟩
  have hrun : Runs false TT (forEach (addVert ts) e.elems) s ()
      ⟨(e.elems.foldl (touchV ts) A.verts).map VEnt.row, A.conc.perms⟩ :=
    Runs.forEachA (fun vs : List (VEnt F) => (⟨vs.map VEnt.row, A.conc.perms⟩ : DB)) (touchV ts)
      (fun vs => KeysOk vs ∧ ∀ r ∈ vs, (edge2str r.v).length ≤ k)
      (fun x hx vs hvs _ s hu hw => ⟨(hloop x hx vs hvs s hu hw).1, (hloop x hx vs hvs s hu hw).2.1⟩)
      A.verts s ⟨⟨hA.ok.keys, hA.ok.wf⟩, hroom.1⟩ (fun _ _ => trivial) hu hA.work
  have hsame : forEach (myAddVert k ts) e.elems s = forEach (addVert ts) e.elems s :=
    forEach_same (fun vs : List (VEnt F) => (⟨vs.map VEnt.row, A.conc.perms⟩ : DB)) (touchV ts)
      (fun vs => KeysOk vs ∧ ∀ r ∈ vs, (edge2str r.v).length ≤ k) hloop A.verts s ⟨⟨hA.ok.keys, hA.ok.wf⟩, hroom.1⟩ hu
      hA.work
  obtain ⟨s2, e2, st2⟩ := hrun
  have hu2 := st2.usable hu
  have hk2 : KeysOk (e.elems.foldl (touchV ts) A.verts) := KeysOk.foldTouch ⟨hA.ok.keys, hA.ok.wf⟩ ts hwx
  have hlook2 : lookV e (e.elems.foldl (touchV ts) A.verts) = some ⟨e, 0, ts⟩ := by
    have : ∀ (xs : List (Val F)) (vs : List (VEnt F)), e ∉ xs → lookV e (xs.foldl (touchV ts) vs) = lookV e vs := by
      intro xs
      induction xs with
      | nil => intro vs _; rfl
      | cons x xs ih =>
        intro vs hx
        rw [List.foldl_cons, ih _ (fun h => hx (by simp [h])), lookV_touch, if_neg (fun h => hx (by simp [h]))]
    rw [this _ _ (not_mem_self e), hlook]
  -- the failing statement
  have hrow : ∀ r ∈ s2.work.vertices, r.id = edge2str e → r = ⟨edge2str e, 0, ts⟩ := by
    intro r hr hid
    rw [st2.work] at hr
    obtain ⟨q, hq, rfl⟩ := List.mem_map.1 hr
    have hqv : q.v = e := (text_eq_iff (hk2.2 q hq) (he.wf hV)).1 hid
    rw [lookV_unique hk2.1 hlook2 hq hqv]
    rfl
  have hmap : s2.work.vertices.map (fun r => if r.id = edge2str e then (⟨edge2str e, 0, ts⟩ : VRow) else r) =
      s2.work.vertices := by
    conv => rhs; rw [← List.map_id s2.work.vertices]
    apply List.map_congr_left
    intro r hr
    by_cases hid : r.id = edge2str e
    · simp [hrow r hr hid]
    · simp [hid]
  have hupd : s2.work.myUpdateVertex (edge2str e) 0 ts = (0, s2.work) := by
    unfold DB.myUpdateVertex
    rw [hmap]
    congr 1
    rw [List.countP_eq_zero]
    intro r hr
    simp only [Bool.and_eq_true, decide_eq_true_eq, not_and]
    intro hid hne
    exact hne (hrow r hr hid)
  have hhas : ∃ r ∈ s2.work.vertices, r.id = edge2str e := by
    rw [st2.work]
    have hmem := List.mem_of_find?_eq_some hlook2
    exact ⟨_, List.mem_map.2 ⟨_, hmem, rfl⟩, rfl⟩
  have hins : s2.work.myInsertVertex k (edge2str e) 0 ts = none := by
    unfold DB.myInsertVertex
    rw [if_pos]
    rw [List.any_eq_true]
    obtain ⟨r, hr, hid⟩ := hhas
    exact ⟨r, hr, by simp [hid]⟩
  have hstr : myAddStr k (edge2str e) 0 ts s2 = (.error .integrityError, s2.wr s2.work) := by
    unfold myAddStr myUpdateOrInsertVertex
    rw [bind_run _ _ _ (openCursor_local s2), bind_run _ _ _ (execWrite_local hu2 (by rw [hupd]))]
    simp only [if_true]
    apply bind_err
    unfold execWrite
    have : ¬ (s2.lcur = .shared ∧ (s2.wr s2.work).cur = some false) := by
      rw [wr_cur]; exact fun h => hu2 h.2
    rw [if_neg this, wr_work]
    simp only [hins]
  have hraw : myAddRaw k e ts s = (.error .integrityError, s2.wr s2.work) := by
    unfold myAddRaw
    rw [bind_run _ _ _ (existsM_run hV hA.ok he hu hA.work)]
    simp only [hm, decide_false, Bool.not_false, if_true]
    rw [bind_run _ _ _ (liftE_ok (iter_edge he) s), bind_run _ _ _ (hsame.trans e2)]
    apply bind_err
    exact hstr
  -- what is then seen
  let A' : Abs F := ⟨A.edges, e.elems.foldl (touchV ts) A.verts⟩
  have hA' : AbsOk V A' := ⟨hA.ok.nodup, hA.ok.over, hk2.1, hk2.2⟩
  have hw' : (s2.wr s2.work).work = A'.conc := by rw [wr_work, st2.work]; rfl
  have hcur' : (s2.wr s2.work).cur = none := by rw [wr_cur, st2.cur]; exact hA.idle
  refine ⟨s2.wr s2.work, ?_, ?_, ?_⟩
  · obtain ⟨h0, hh, hseq⟩ := head0_edge he
    rw [myAdd_single hh hseq]
    exact bind_err _ _ _ hraw
  · unfold hgExists
    rw [existsM_run hV hA' he (St.usable_of_none hcur') hw']
    simp [A', hm]
  · intro a ha hat
    unfold hgDegree
    rw [degree_run hA'.wf ha hcur' hw']
    have h1 : ((lookV a A'.verts).map VEnt.deg).getD 0 = degOf a (e.elems.foldl (touchV ts) A.verts) := rfl
    rw [h1, degOf_foldTouch, hA.rel.deg a hat]
    rw [occurrences_congr hA.ok.nodup hl.1 (fun x => by rw [hl.2]; exact (hA.rel.present x).symm)]
    simp

/-- C68, counterexample: two symbols that differ only after the 250th character cannot both be in a MySQL graph. -/
theorem C68_long_counterexample :
    let long : Str := List.replicate 250 'x'
    let e1 : HVal := .tup [.str (lit "a"), .str (long ++ lit "1")]
    let e2 : HVal := .tup [.str (lit "a"), .str (long ++ lit "2")]
    (myRunOps 250 [.prim (.add e1 1), .prim (.add e2 2)] (St.new true)).1 = .error .integrityError ∧
    (runOps [.prim (.add e1 1), .prim (.add e2 2)] (St.new true)).1 = .ok () := by
  decide +kernel

/-! ### the hypotheses are met -/

/-- Test for `KeyFits`. -/
def fitsB (k : Nat) (e : HVal) : Bool :=
  (List.range (factorial e.elems.length)).all fun n => decide ((edge2str e).length + (natStr n).length ≤ k + 1)

theorem fits_of {k : Nat} {e : HVal} (h : fitsB k e = true) : KeyFits k e := by
  intro n hn
  simp only [fitsB, List.all_eq_true, List.mem_range, decide_eq_true_eq] at h
  exact h n hn

/-- Test for the hypothesis about time stamps. -/
def freshB : List (Prim Half) → Bool
  | [] => true
  | .add _ ts :: ps => ((ps.dropWhile Prim.keeps).all fun p => match p with | .add _ t => t != ts | _ => true) && freshB ps
  | _ :: ps => freshB ps

theorem fresh_of {ps : List (Prim Half)} (h : freshB ps = true) : ∀ pre e ts mid p post e',
    ps = pre ++ .add e ts :: mid ++ p :: post → p.keeps = false → Prim.add e' ts ∉ post := by
  intro pre
  induction pre generalizing ps with
  | nil =>
    rintro e ts mid p post e' rfl hp hm
    simp only [List.nil_append, List.cons_append, freshB, Bool.and_eq_true, List.all_eq_true] at h
    have hmem : Prim.add e' ts ∈ (mid ++ p :: post).dropWhile Prim.keeps := by
      clear h
      induction mid with
      | nil => simp [hp, hm]
      | cons q mid ih =>
        rw [List.cons_append, List.dropWhile_cons]
        split
        · exact ih
        · simp [hm]
    simpa using h.1 _ hmem
  | cons q pre ih =>
    rintro e ts mid p post e' rfl hp hm
    have h' : freshB (pre ++ .add e ts :: mid ++ p :: post) = true := by
      cases q with
      | add e0 t0 =>
        simp only [List.cons_append, freshB, Bool.and_eq_true] at h
        simpa using h.2
      | _ => simpa [freshB] using h
    exact ih h' e ts mid p post e' rfl hp hm

theorem fitsAll_of {k : Nat} {ps : List (Prim Half)}
    (h : (ps.all fun p => match p with | .add e _ => fitsB k e | _ => true) = true) :
    ∀ e ts, Prim.add e ts ∈ ps → KeyFits k e := by
  rw [List.all_eq_true] at h
  exact fun e ts he => fits_of (h _ he)

/-- A history with additions, removals, beliefs and a batch that meets the hypotheses of `C68_stamps`. -/
example : myRunOps 250 exOps (St.new true) = runOps exOps (St.new true) :=
  C68_stamps plainVocab 250 exOps exOps_over true (fitsAll_of (by decide +kernel)) (fresh_of (by decide +kernel))

/-- Additions and reading only, the hypotheses of `C68_additions`. -/
def exGrow : List (Op Half) :=
  [.prim (.add exE1 1), .addMany [exE2, exE3] 2, .addBelief (sy "src") exE4 3, .prim (.add exE1 4), .prim (.query .fAll)]

example : myRunOps 250 exGrow (St.new true) = runOps exGrow (St.new true) :=
  C68_additions plainVocab 250 exGrow (ops_of (by decide +kernel)) true
    (fun p hp => List.all_eq_true.1 (show (exGrow.flatMap Op.steps).all Prim.keeps = true by decide +kernel) p hp)
    (fitsAll_of (by decide +kernel))

/-- The hypotheses of the counterexample: a statement about an edge added and removed again, then the edge itself
added with the same time stamp. -/
def exAgain : List (Op Half) := [.prim (.add exE2 1), .prim (.remove exE2)]

theorem exAgain_smooth : Smooth 250 Spec.empty Tally.empty (exAgain.flatMap Op.steps) := by
  refine ⟨?_, ?_, trivial⟩
  · rintro e ts ⟨rfl, rfl⟩
    exact ⟨fits_of (by decide +kernel), fun h => by have := h.2.1; simp [Tally.empty] at this⟩
  · rintro e ts ⟨⟩

example : (∀ op ∈ exAgain, op.Over PlainVocab) ∧ (myRunOps 250 exAgain (St.new true)).1 = .ok () ∧
    EdgeOver PlainVocab exE1 ∧ KeyFits 250 exE1 :=
  ⟨ops_of (by decide +kernel), by decide +kernel, edge_of (by decide +kernel), fits_of (by decide +kernel)⟩

example : Clash (Spec.after exAgain) (Tally.after exAgain) exE1 1 := by
  have h1 : Spec.after exAgain = (Spec.empty.add exE2 1).remove exE2 := rfl
  have h2 : Tally.after exAgain = (Tally.empty.add exE2).removeWhere (· = exE2) := rfl
  rw [h1, h2]
  refine ⟨?_, ?_, ?_⟩
  · unfold Spec.Present; decide +kernel
  · rw [Tally.count_where]; decide +kernel
  · decide +kernel

example : (myRunOps 250 (exAgain ++ [.prim (.add exE1 1)]) (St.new true)).1 = .error .integrityError ∧
    (runOps (exAgain ++ [.prim (.add exE1 1)]) (St.new true)).1 = .ok () := by
  constructor <;> decide +kernel

example : Lists (Spec.after exAgain) [] := by
  refine ⟨List.nodup_nil, fun e => ?_⟩
  have h1 : (Spec.after exAgain).created e = (((Spec.empty : Spec Half).add exE2 1).remove exE2).created e := rfl
  have h2 := Spec.foldRemove_created [exE2] ((Spec.empty : Spec Half).add exE2 1) e
  rw [List.foldl_cons, List.foldl_nil] at h2
  unfold Spec.Present
  rw [h1, h2]
  by_cases he : e = exE2
  · simp [he]
  · simp [he, Spec.add, Spec.empty]

end GB
