import Verif.Proofs.CollWrite

/-! Histories under a collation. -/

set_option linter.unusedSectionVars false

namespace GB

variable {F : Type} [PyFloat F] [DecidableEq F] {V : Val F → Prop} {w : Char → Nat} {S : Char → Prop}

/-- The arguments of the call suit the collation. -/
def Prim.Clear (w : Char → Nat) (S : Char → Prop) : Prim F → Prop
  | .removeByPattern ps => ∀ c, (patStart ps).getLast? = some c → Sharp w S c
  | .query (.symbolsWithRoot r) => ∀ c ∈ r, S c
  | _ => True

/-- The same for all calls. -/
def Op.Clear (w : Char → Nat) (S : Char → Prop) : Op F → Prop
  | .prim p => p.Clear w S
  | .batch ps => ∀ p ∈ ps, p.Clear w S
  | .degree v => ∀ c ∈ edge2str v, S c
  | .timestamp v => ∀ c ∈ edge2str v, S c
  | _ => True

theorem fAll_work (s : St) : (hgFAll (fun (v : Val F) (d : Int) => (v, d)) s).2.work = s.work := by
  have hrd : ∀ {α : Type} (c : Cursor) (q : DB → α), Echoes (fun db => db = s.work) (execRead c q) (execRead c q) :=
    fun c q s' hs' => ⟨rfl, by unfold execRead; split <;> exact hs'⟩
  have : Echoes (fun db => db = s.work) (sqlFAll (fun (v : Val F) (d : Int) => (v, d))) (sqlFAll (fun v d => (v, d))) :=
    (Echoes.open true).bind fun c => (hrd c _).bind fun rows => (Echoes.liftE _).bind fun _ =>
      (Echoes.close true false).bind fun _ => Echoes.pure _
  exact (this s rfl).2

theorem coAdd_single {k : Nat} {e h : Val F} (hh : e.head0 = .ok h) (hs : h.isSeq = false) (ts : Int) :
    coAdd w k e ts = (coAddRaw w k e ts >>= fun _ => Pure.pure e) := by
  unfold coAdd
  rw [hh, liftE_bind]
  simp only [hs, Bool.false_eq_true, if_false]

theorem coRemove_single {e h : Val F} (hh : e.head0 = .ok h) (hs : h.isSeq = false) :
    coRemove w e = coRemoveRaw w e := by
  unfold coRemove
  rw [hh, liftE_bind]
  simp only [hs, Bool.false_eq_true, if_false]

theorem hgRemove_single {e h : Val F} (hh : e.head0 = .ok h) (hs : h.isSeq = false) : hgRemove e = removeRaw e := by
  unfold hgRemove sqlRemove
  rw [hh, liftE_bind]
  simp only [hs, Bool.false_eq_true, if_false]

theorem coRemove_many {b : Bool} {es : List (Val F)} (hne : es ≠ []) (hes : ∀ e ∈ es, EdgeOver V e) :
    coRemove w (.seq b es) = forEach (coRemoveRaw w) es := by
  obtain ⟨h, hh, hs⟩ := head0_coll (b := b) hne hes
  unfold coRemove
  rw [hh, liftE_bind]
  simp only [hs, if_true]
  rfl

theorem hgRemove_many {b : Bool} {es : List (Val F)} (hne : es ≠ []) (hes : ∀ e ∈ es, EdgeOver V e) :
    hgRemove (.seq b es) = forEach removeRaw es := by
  obtain ⟨h, hh, hs⟩ := head0_coll (b := b) hne hes
  unfold hgRemove sqlRemove
  rw [hh, liftE_bind]
  simp only [hs, if_true]
  rfl

theorem coRemove_same (hS : Suits w S V) (hV : Vocab V) {k : Nat} {A : Abs F} (hA : AbsOk V A) {e : Val F}
    (he : EdgeOver V e) {s : St} (hu : s.usable) (hw : s.work = A.conc) (hn : Neat S k s.work) :
    coRemove w e s = hgRemove e s ∧ Neat S k (hgRemove e s).2.work := by
  obtain ⟨h, hh, hs⟩ := head0_edge he
  rw [coRemove_single hh hs, hgRemove_single hh hs]
  exact coRemoveRaw_same hS hV hA he hu hw hn

theorem coRemoveEach_same (hS : Suits w S V) (hV : Vocab V) {k : Nat} (es : List (Val F)) (hes : ∀ e ∈ es, EdgeOver V e) :
    ∀ {A : Abs F} {s : St}, AbsOk V A → s.usable → s.work = A.conc → Neat S k s.work →
    forEach (coRemove w) es s = forEach hgRemove es s ∧ Neat S k (forEach hgRemove es s).2.work := by
  induction es with
  | nil => intro A s _ _ _ hn; exact ⟨forEach_nil_run.trans forEach_nil_run.symm, hn⟩
  | cons e es ih =>
    intro A s hA hu hw hn
    obtain ⟨h1, h2⟩ := coRemove_same hS hV hA (hes e (by simp)) hu hw hn
    obtain ⟨s1, e1, st1⟩ := remove_run (T := TT) hV hA (hes e (by simp)) hu hw (fun _ _ _ => trivial)
    have e1' : hgRemove e s = (.ok (), s1) := e1
    rw [e1'] at h2
    rw [forEach_cons_run e1', forEach_cons_run (h1.trans e1')]
    exact ih (fun x hx => hes x (by simp [hx])) (hA.remove e) (st1.usable hu) st1.work h2

/-- Several removals, whichever way the loop is written. -/
theorem forEach_removeRaw {es : List (Val F)} (hes : ∀ e ∈ es, EdgeOver V e) :
    forEach (coRemoveRaw w) es = forEach (coRemove w) es ∧ forEach removeRaw es = forEach hgRemove es := by
  constructor
  · apply forEach_congr
    intro e he
    obtain ⟨h, hh, hs⟩ := head0_edge (hes e he)
    rw [coRemove_single hh hs]
  · apply forEach_congr
    intro e he
    obtain ⟨h, hh, hs⟩ := head0_edge (hes e he)
    rw [hgRemove_single hh hs]

/-- Reading calls: the same state, and no exception. -/
theorem Query.coSame (hS : Suits w S V) (hV : Vocab V) {q : Query F} (hq : q.Over V)
    (hcl : (Prim.query q).Clear w S) {A : Abs F} (hA : AbsOk V A) {s : St} (hu : s.usable) (hw : s.work = A.conc) :
    q.coRun w s = q.run s := by
  have hR : RowsOk V s.work.perms := by rw [hw]; exact rowsOk_conc hA
  cases q with
  | «exists» e =>
    show (coExists w e >>= fun _ => Pure.pure ()) s = (hgExists e >>= fun _ => Pure.pure ()) s
    refine bind_same ?_ (fun _ _ _ => rfl)
    rw [coExists_run hS hV hA hq hu hw]
    exact (existsM_run hV hA hq hu hw).symm
  | pattern ps =>
    obtain ⟨r1, e1, _⟩ := coPattern_run hS hV hA (b := false) hq hu hw
    obtain ⟨r2, e2, _⟩ := pattern2edges_run hV hA (b := false) hq hu hw
    show (coPattern2edges w (.tup ps) >>= fun _ => Pure.pure ()) s = (pattern2edges (.tup ps) >>= fun _ => Pure.pure ()) s
    rw [bind_run _ _ _ (show coPattern2edges w (.tup ps) s = (.ok r1, s) from e1),
      bind_run _ _ _ (show pattern2edges (.tup ps) s = (.ok r2, s) from e2)]
  | star c =>
    exact bind_same (coStar_same hS hV hq.1 hq.2 hR) (fun _ _ _ => rfl)
  | symbolsWithRoot r =>
    exact bind_same (coSymbols_same hS hcl hR) (fun _ _ _ => rfl)
  | sources e =>
    obtain ⟨r1, r2, e1, e2, _⟩ := coSources_run hS hV hA hq.1 hq.2 hu hw
    show (coSources w e >>= fun _ => Pure.pure ()) s = (hgSources e >>= fun _ => Pure.pure ()) s
    rw [bind_run _ _ _ e1, bind_run _ _ _ e2]
  | fAll => rfl

/-- One batchable call. -/
theorem Prim.coSame (hS : Suits w S V) (hV : Vocab V) {k : Nat} {p : Prim F} (hp : p.Over V) (hcl : p.Clear w S)
    {Sp : Spec F} {T : Tally F} {s : St} (h : Sees V Sp T s) (hu : s.usable) (hr : Sp.Room k) (hn : Neat S k s.work)
    (hc : ∀ e ts, p = .add e ts → KeyFits k e ∧ ¬ Clash Sp T e ts) :
    p.coRun w k s = p.run s ∧ Neat S k (p.run s).2.work := by
  obtain ⟨A, hA, hR, hw⟩ := h.spec
  cases p with
  | add e ts =>
    have hmy := (Prim.same hV (p := .add e ts) hp h hu hr hc).1
    obtain ⟨h1, h2⟩ := coAddRaw_same hS hV hA hp (hc e ts rfl).1 ts hu hw hn
    obtain ⟨h0, hh, hs⟩ := head0_edge (V := V) hp
    have hall : (Prim.add e ts).coRun w k s = (Prim.add e ts).myRun k s := by
      show (coAdd w k e ts >>= fun _ => Pure.pure ()) s = (myAdd k e ts >>= fun _ => Pure.pure ()) s
      rw [coAdd_single hh hs, myAdd_single hh hs]
      exact bind_same (bind_same h1 (fun _ _ _ => rfl)) (fun _ _ _ => rfl)
    refine ⟨hall.trans hmy, ?_⟩
    rw [← hmy]
    show Neat S k ((myAdd k e ts >>= fun _ => Pure.pure ()) s).2.work
    rw [myAdd_single hh hs]
    cases hm : myAddRaw k e ts s with
    | mk a b =>
      rw [hm] at h2
      cases a with
      | error x => rw [bind_err _ _ _ (bind_err _ _ _ hm)]; exact h2
      | ok u =>
        rw [bind_run _ _ _ (show (myAddRaw k e ts >>= fun _ => (Pure.pure e : M (Val F))) s = (.ok e, b) from by
          rw [bind_run _ _ _ hm]; rfl)]
        exact h2
  | remove e => exact coRemove_same hS hV hA hp hu hw hn
  | removeMany es =>
    show coRemove w (.seq true es) s = hgRemove (.seq true es) s ∧ Neat S k (hgRemove (.seq true es) s).2.work
    rw [coRemove_many hp.1 hp.2, hgRemove_many hp.1 hp.2, (forEach_removeRaw (w := w) hp.2).1,
      (forEach_removeRaw (w := w) hp.2).2]
    exact coRemoveEach_same hS hV es hp.2 hA hu hw hn
  | removeByPattern ps =>
    have hRo : RowsOk V s.work.perms := by rw [hw]; exact rowsOk_conc hA
    show coRemoveByPattern w (.tup ps) s = hgRemoveByPattern (.tup ps) s ∧
      Neat S k (hgRemoveByPattern (.tup ps) s).2.work
    unfold coRemoveByPattern hgRemoveByPattern hgPattern2edges
    obtain ⟨res, e2, _, hm⟩ := pattern2edges_run hV hA (b := false) hp hu hw
    have e1 := (coPattern_same hS hV (b := false) hp hcl hRo).trans e2
    rw [bind_run _ _ _ (show coPattern2edges w (.tup ps) s = (.ok res, s) from e1),
      bind_run _ _ _ (show pattern2edges (.tup ps) s = (.ok res, s) from e2)]
    exact coRemoveEach_same hS hV res (fun e he => hA.over e ((hm e).1 he).1) hA hu hw hn
  | removeBelief src e =>
    have hb : BeliefOver V src e := hp
    have hsup := support_over hb
    show coRemoveBelief w src e s = hgRemoveBelief src e s ∧ Neat S k (hgRemoveBelief src e s).2.work
    unfold coRemoveBelief hgRemoveBelief
    obtain ⟨h1, h2⟩ := coRemove_same hS hV hA hsup hu hw hn
    obtain ⟨s1, e1, st1⟩ := remove_run (T := TT) hV hA hsup hu hw (fun _ _ _ => trivial)
    have e1' : hgRemove (support e src) s = (.ok (), s1) := e1
    rw [e1'] at h2
    rw [bind_run _ _ _ (show hgRemove (.tup [.str constSource, e, src]) s = (.ok (), s1) from e1'),
      bind_run _ _ _ (show coRemove w (.tup [.str constSource, e, src]) s = (.ok (), s1) from h1.trans e1')]
    have hA1 := hA.remove (support e src)
    obtain ⟨r1, r2, q1, q2, hq⟩ := coSources_run hS hV hA1 hb.srcConst hb.fact (st1.usable hu) st1.work
    rw [bind_run _ _ _ q1, bind_run _ _ _ q2]
    have hz : r1.length = 0 ↔ r2.length = 0 := by
      rw [List.length_eq_zero_iff, List.length_eq_zero_iff, List.eq_nil_iff_forall_not_mem,
        List.eq_nil_iff_forall_not_mem]
      simp only [hq]
    by_cases h0 : r2.length = 0
    · simp only [hz.2 h0, h0, if_true]
      exact coRemove_same hS hV hA1 hb.edge (st1.usable hu) st1.work h2
    · have h0' : ¬ r1.length = 0 := fun h => h0 (hz.1 h)
      simp only [h0', h0, if_false]
      exact ⟨trivial, h2⟩
  | destroy =>
    refine ⟨rfl, ?_⟩
    have : Echoes (fun _ => True) (hgDestroy) hgDestroy := fun _ _ => ⟨rfl, trivial⟩
    obtain ⟨A', hA', hR', s1, e1, st1⟩ := Prim.sim hV (p := .destroy) hp A Sp s hA hR hu hw
    rw [e1, st1.work]
    have hemp := hR'.known
    refine ⟨?_, ?_⟩
    · intro r hr
      exfalso
      obtain ⟨q, hq, rfl⟩ := List.mem_map.1 hr
      have h1 := hemp q.v
      have h2 : tsOf q.v A'.verts = none := by rw [← h1]; rfl
      unfold tsOf at h2
      cases hl : lookV q.v A'.verts with
      | some x => rw [hl] at h2; simp at h2
      | none =>
        rw [lookV_none] at hl
        have := List.any_eq_false.1 hl q hq
        simp at this
    · intro r hr
      exfalso
      obtain ⟨x, hx, _⟩ := List.mem_flatMap.1 hr
      have := (hR'.present x).2 hx
      simp [Spec.prim, Spec.empty] at this
  | query q =>
    refine ⟨Query.coSame hS hV hp hcl hA hu hw, ?_⟩
    obtain ⟨A', hA', hR', s1, e1, st1⟩ := Prim.sim hV (p := .query q) hp A Sp s hA hR hu hw
    have : (Query.run q s).2.work = s.work := by
      cases q with
      | «exists» e =>
        show ((existsM e >>= fun _ => Pure.pure ()) s).2.work = _
        rw [bind_run _ _ _ (existsM_run hV hA hp hu hw)]; rfl
      | pattern ps =>
        obtain ⟨r2, e2, _⟩ := pattern2edges_run hV hA (b := false) hp hu hw
        show ((pattern2edges (.tup ps) >>= fun _ => Pure.pure ()) s).2.work = _
        rw [bind_run _ _ _ (show pattern2edges (.tup ps) s = (.ok r2, s) from e2)]; rfl
      | star c =>
        obtain ⟨r2, e2, _⟩ := star_run hV hA hp.1 hp.2 hu hw
        show ((sqlStar c >>= fun _ => Pure.pure ()) s).2.work = _
        rw [bind_run _ _ _ e2]; rfl
      | symbolsWithRoot r =>
        obtain ⟨r2, e2, _⟩ := symbolsWithRoot_run hV hA hp.1 hp.2 hu hw
        show ((symbolsWithRoot r >>= fun _ => Pure.pure ()) s).2.work = _
        rw [bind_run _ _ _ e2]; rfl
      | sources e =>
        obtain ⟨r1, r2, e1, e2, _⟩ := coSources_run hS hV hA hp.1 hp.2 hu hw
        show ((hgSources e >>= fun _ => Pure.pure ()) s).2.work = _
        rw [bind_run _ _ _ e2]; rfl
      | fAll =>
        show ((hgFAll (fun (v : Val F) (d : Int) => (v, d)) >>= fun _ => Pure.pure ()) s).2.work = _
        have h1 := fAll_work (F := F) s
        cases hm : hgFAll (fun (v : Val F) (d : Int) => (v, d)) s with
        | mk a b =>
          rw [hm] at h1
          cases a with
          | error x => rw [bind_err _ _ _ hm]; exact h1
          | ok u => rw [bind_run _ _ _ hm]; exact h1
    show Neat S k (Query.run q s).2.work
    rw [this]; exact hn

/-- Several batchable calls. -/
theorem Prim.coSameAll (hS : Suits w S V) (hV : Vocab V) {k : Nat} (ps : List (Prim F)) (hps : ∀ p ∈ ps, p.Over V)
    (hcl : ∀ p ∈ ps, p.Clear w S) :
    ∀ {Sp : Spec F} {T : Tally F} {s : St}, Sees V Sp T s → s.usable → Sp.Room k → Neat S k s.work → Smooth k Sp T ps →
    forEach (Prim.coRun w k) ps s = forEach Prim.run ps s ∧ Neat S k (forEach Prim.run ps s).2.work := by
  induction ps with
  | nil =>
    intro Sp T s h hu hr hn _
    exact ⟨forEach_nil_run.trans forEach_nil_run.symm, hn⟩
  | cons p ps ih =>
    intro Sp T s h hu hr hn hsm
    rw [Smooth] at hsm
    obtain ⟨h1, h2⟩ := Prim.coSame hS hV (hps p (by simp)) (hcl p (by simp)) h hu hr hn hsm.1
    obtain ⟨_, s1, r1, hs1, hc1, hr1⟩ := Prim.same hV (hps p (by simp)) h hu hr hsm.1
    have hu1 : s1.usable := by unfold St.usable; rw [hc1]; exact hu
    rw [r1] at h2
    rw [forEach_cons_run r1, forEach_cons_run (h1.trans r1)]
    exact ih (fun q hq => hps q (by simp [hq])) (fun q hq => hcl q (by simp [hq])) hs1 hu1 hr1 h2 hsm.2

theorem Prim.clear_add (e : Val F) (ts : Int) : (Prim.add e ts).Clear w S := trivial

/-- Bulk addition. -/
theorem coAddMany_same (hS : Suits w S V) (hV : Vocab V) {k : Nat} {b : Bool} {es : List (Val F)} (hne : es ≠ [])
    (hes : ∀ e ∈ es, EdgeOver V e) (ts : Int) {Sp : Spec F} {T : Tally F} {s : St} (h : Sees V Sp T s)
    (hcur : s.cur = none) (hr : Sp.Room k) (hn : Neat S k s.work) (hsm : Smooth k Sp T (es.map fun e => .add e ts)) :
    coAdd w k (.seq b es) ts s = hgAdd (.seq b es) ts s ∧ Neat S k (hgAdd (.seq b es) ts s).2.work := by
  obtain ⟨h0, hh, hs⟩ := head0_coll (b := b) hne hes
  have hps : ∀ p ∈ es.map (fun e => Prim.add e ts), p.Over V := by
    intro p hp
    obtain ⟨e, he, rfl⟩ := List.mem_map.1 hp
    exact hes e he
  have hcl : ∀ p ∈ es.map (fun e => Prim.add e ts), p.Clear w S := by
    intro p hp
    obtain ⟨e, he, rfl⟩ := List.mem_map.1 hp
    trivial
  have h' : Sees V Sp T { s with cur := some true } := ⟨h.spec, h.tally⟩
  have hall := Prim.coSameAll hS hV _ hps hcl h' (by simp [St.usable]) hr hn hsm
  rw [forEach_map, forEach_map] at hall
  have hopen : openCursor false s = (.ok .shared, { s with cur := some true }) := by
    unfold openCursor; simp [hcur]
  show _ = sqlAdd (.seq b es) ts s ∧ Neat S k (sqlAdd (.seq b es) ts s).2.work
  unfold coAdd sqlAdd
  rw [bind_run _ _ _ (liftE_ok hh s), bind_run _ _ _ (liftE_ok hh s)]
  simp only [hs, if_true]
  rw [bind_run _ _ _ hopen, bind_run _ _ _ hopen]
  have hit : liftE (Val.seq b es).iter { s with cur := some true } = (.ok es, { s with cur := some true }) := rfl
  rw [bind_run _ _ _ hit, bind_run _ _ _ hit]
  have ea := forEach_raw_eq (m := coAdd w k) (raw := coAddRaw w k) (ts := ts) (es := es) (fun e he => by
      obtain ⟨h0, hh, hs⟩ := head0_edge (hes e he)
      exact coAdd_single hh hs ts) { s with cur := some true }
  have eb := forEach_raw_eq (m := hgAdd) (raw := addRaw) (ts := ts) (es := es) (fun e he => by
      obtain ⟨h0, hh, hs⟩ := head0_edge (hes e he)
      exact hgAdd_single hh hs ts) { s with cur := some true }
  have hsame : forEach (fun e => (do let _ ← coAddRaw w k e ts : M Unit)) es { s with cur := some true } =
      forEach (fun e => (do let _ ← addRaw e ts : M Unit)) es { s with cur := some true } := by
    rw [ea, eb]; exact hall.1
  refine ⟨bind_same hsame (fun _ _ _ => rfl), ?_⟩
  have h2 : Neat S k (forEach (fun e => (do let _ ← addRaw e ts : M Unit)) es { s with cur := some true }).2.work := by
    rw [eb]; exact hall.2
  cases hm : forEach (fun e => (do let _ ← addRaw e ts : M Unit)) es { s with cur := some true } with
  | mk a b' =>
    rw [hm] at h2
    cases a with
    | error x => rw [bind_err _ _ _ hm]; exact h2
    | ok u =>
      rw [bind_run _ _ _ hm]
      exact (((Echoes.close false true).bind fun _ => Echoes.pure (Val.seq b es)) b' h2).2

theorem coDegree_same (hT : Apt w S) {k : Nat} {v : Val F} (hv : TidyText S (edge2str v)) {s : St} (hn : Neat S k s.work) :
    coDegree w v s = hgDegree v s := by
  show _ = sqlDegree v s
  unfold coDegree sqlDegree
  refine bind_same rfl ?_
  intro cur s1 h
  have hs1 : s1 = s := by rw [openCursor_local] at h; exact (by simpa using h.symm : cur = s.lcur ∧ s1 = s).2
  subst hs1
  refine bind_same ?_ (fun _ _ _ => rfl)
  unfold execRead
  simp only
  rw [hn.selectVertex hT hv]

theorem coTimestamp_same (hT : Apt w S) {k : Nat} {v : Val F} (hv : TidyText S (edge2str v)) {s : St}
    (hn : Neat S k s.work) : coTimestamp w v s = hgTimestamp v s := by
  show _ = sqlTimestamp v s
  unfold coTimestamp sqlTimestamp
  refine bind_same rfl ?_
  intro cur s1 h
  have hs1 : s1 = s := by rw [openCursor_local] at h; exact (by simpa using h.symm : cur = s.lcur ∧ s1 = s).2
  subst hs1
  refine bind_same ?_ (fun _ _ _ => rfl)
  unfold execRead
  simp only
  rw [hn.selectVertex hT hv]

theorem work_bind_unit {α : Type} {m : M α} {s : St} : ((m >>= fun _ => Pure.pure ()) s).2.work = (m s).2.work := by
  cases hm : m s with
  | mk a b =>
    cases a with
    | error x => rw [bind_err _ _ _ hm]
    | ok u => rw [bind_run _ _ _ hm]; rfl

theorem degree_work (v : Val F) (s : St) : (hgDegree v s).2.work = s.work ∧ (hgTimestamp v s).2.work = s.work := by
  have hrd : ∀ {α : Type} (c : Cursor) (q : DB → α), Echoes (fun db => db = s.work) (execRead c q) (execRead c q) :=
    fun c q s' hs' => ⟨rfl, by unfold execRead; split <;> exact hs'⟩
  have hcd : ∀ c : Cursor, Echoes (fun db => db = s.work) (closeDirect c) (closeDirect c) := by
    intro c s' hs'
    refine ⟨rfl, ?_⟩
    cases c <;> exact hs'
  constructor
  · have : Echoes (fun db => db = s.work) (sqlDegree v) (sqlDegree v) := by
      refine (Echoes.open true).bind fun c => (hrd c _).bind fun rows => ?_
      cases rows with
      | nil => exact (Echoes.close true false).bind fun _ => Echoes.pure _
      | cons r rs => exact (hcd c).bind fun _ => Echoes.pure _
    exact (this s rfl).2
  · have : Echoes (fun db => db = s.work) (sqlTimestamp v) (sqlTimestamp v) := by
      refine (Echoes.open true).bind fun c => (hrd c _).bind fun rows => ?_
      cases rows with
      | nil => exact (Echoes.close true false).bind fun _ => Echoes.pure _
      | cons r rs => exact (hcd c).bind fun _ => Echoes.pure _
    exact (this s rfl).2

/-- One call. -/
theorem Op.coSame (hS : Suits w S V) (hV : Vocab V) {k : Nat} {op : Op F} (hop : op.Over V) (hcl : op.Clear w S)
    {Sp : Spec F} {T : Tally F} {s : St} (h : Sees V Sp T s) (hcur : s.cur = none) (hr : Sp.Room k)
    (hn : Neat S k s.work) (hsm : Smooth k Sp T op.steps) :
    op.coRun w k s = op.run s ∧ Neat S k (op.run s).2.work := by
  cases op with
  | prim p => exact Prim.coSame hS hV hop hcl h (St.usable_of_none hcur) hr hn hsm.1
  | addMany es ts =>
    obtain ⟨h1, h2⟩ := coAddMany_same hS hV (b := true) hop.1 hop.2 ts h hcur hr hn hsm
    exact ⟨bind_same h1 (fun _ _ _ => rfl), by
      show Neat S k ((hgAdd (.seq true es) ts >>= fun _ => Pure.pure ()) s).2.work
      rw [work_bind_unit]; exact h2⟩
  | addBelief src e ts =>
    have hb : BeliefOver V src e := hop
    show coAddBelief w k src e ts s = hgAddBelief src e ts s ∧ Neat S k (hgAddBelief src e ts s).2.work
    unfold coAddBelief hgAddBelief
    rw [bind_run _ _ _ (liftE_ok (beliefEdges_single hb.edge) s),
      bind_run _ _ _ (liftE_ok (beliefEdges_single hb.edge) s)]
    obtain ⟨h1, h2⟩ := coAddMany_same hS hV (b := false) (es := [e, support e src]) (by simp) (by
        intro x hx
        simp only [List.mem_cons, List.not_mem_nil, or_false] at hx
        rcases hx with rfl | rfl
        · exact hb.edge
        · exact support_over hb) ts h hcur hr hn hsm
    exact ⟨bind_same h1 (fun _ _ _ => rfl), by rw [work_bind_unit]; exact h2⟩
  | addBeliefs src es ts =>
    have hb : ∀ e ∈ es, BeliefOver V src e := hop.2
    have hall : ∀ x ∈ es.flatMap (fun e => [e, support e src]), EdgeOver V x := by
      intro x hx
      rw [List.mem_flatMap] at hx
      obtain ⟨e, he, hx⟩ := hx
      simp only [List.mem_cons, List.not_mem_nil, or_false] at hx
      rcases hx with rfl | rfl
      · exact (hb _ he).edge
      · exact support_over (hb _ he)
    have hne : es.flatMap (fun e => [e, support e src]) ≠ [] := by
      have := hop.1
      cases es with
      | nil => contradiction
      | cons e es => simp
    show coAddBelief w k src (.seq true es) ts s = hgAddBelief src (.seq true es) ts s ∧
      Neat S k (hgAddBelief src (.seq true es) ts s).2.work
    unfold coAddBelief hgAddBelief
    have hbe := beliefEdges_many (src := src) hop.1 (fun e he => (hb e he).edge)
    rw [bind_run _ _ _ (liftE_ok hbe s), bind_run _ _ _ (liftE_ok hbe s)]
    obtain ⟨h1, h2⟩ := coAddMany_same hS hV (b := true) hne hall ts h hcur hr hn (by
      rw [List.map_flatMap]; exact hsm)
    exact ⟨bind_same h1 (fun _ _ _ => rfl), by rw [work_bind_unit]; exact h2⟩
  | batch ps =>
    show hgBatchExec (ps.map (Prim.coRun w k)) s = hgBatchExec (ps.map Prim.run) s ∧
      Neat S k (hgBatchExec (ps.map Prim.run) s).2.work
    unfold hgBatchExec sqlBatchExec
    have hopen : openCursor false s = (.ok .shared, { s with cur := some true }) := by
      unfold openCursor; simp [hcur]
    rw [bind_run _ _ _ hopen, bind_run _ _ _ hopen, forEach_map, forEach_map]
    have h' : Sees V Sp T { s with cur := some true } := ⟨h.spec, h.tally⟩
    obtain ⟨h1, h2⟩ := Prim.coSameAll hS hV ps hop hcl h' (by simp [St.usable]) hr hn hsm
    refine ⟨bind_same h1 (fun _ _ _ => rfl), ?_⟩
    show Neat S k ((forEach Prim.run ps >>= fun _ => closeCursor false true) { s with cur := some true }).2.work
    cases hm : forEach Prim.run ps { s with cur := some true } with
    | mk a b =>
      rw [hm] at h2
      cases a with
      | error x => rw [bind_err _ _ _ hm]; exact h2
      | ok u => rw [bind_run _ _ _ hm]; exact (Echoes.close false true b h2).2
  | degree v =>
    refine ⟨bind_same (coDegree_same hS.apt ⟨hcl, last_val hop⟩ hn) (fun _ _ _ => rfl), ?_⟩
    show Neat S k ((hgDegree v >>= fun _ => Pure.pure ()) s).2.work
    rw [work_bind_unit, (degree_work v s).1]; exact hn
  | timestamp v =>
    refine ⟨bind_same (coTimestamp_same hS.apt ⟨hcl, last_val hop⟩ hn) (fun _ _ _ => rfl), ?_⟩
    show Neat S k ((hgTimestamp v >>= fun _ => Pure.pure ()) s).2.work
    rw [work_bind_unit, (degree_work v s).2]; exact hn

/-- Histories. -/
theorem coRunOps_same (hS : Suits w S V) (hV : Vocab V) {k : Nat} (ops : List (Op F)) (hops : ∀ op ∈ ops, op.Over V)
    (hcl : ∀ op ∈ ops, op.Clear w S) :
    ∀ {Sp : Spec F} {T : Tally F} {s : St}, Sees V Sp T s → s.cur = none → Sp.Room k → Neat S k s.work →
    Smooth k Sp T (ops.flatMap Op.steps) →
    coRunOps w k ops s = runOps ops s ∧ Neat S k (runOps ops s).2.work := by
  induction ops with
  | nil => intro Sp T s _ _ _ hn _; exact ⟨forEach_nil_run.trans forEach_nil_run.symm, hn⟩
  | cons op ops ih =>
    intro Sp T s h hcur hr hn hsm
    rw [List.flatMap_cons] at hsm
    obtain ⟨hs1, hs2⟩ := hsm.append
    rw [Op.steps_fold, Op.tally_steps] at hs2
    obtain ⟨h1, h2⟩ := Op.coSame hS hV (hops op (by simp)) (hcl op (by simp)) h hcur hr hn hs1
    obtain ⟨_, s1, r1, hse, hc1, hr1⟩ := Op.same hV (hops op (by simp)) h hcur hr hs1
    rw [r1] at h2
    show forEach (Op.coRun w k) (op :: ops) s = forEach Op.run (op :: ops) s ∧
      Neat S k (forEach Op.run (op :: ops) s).2.work
    rw [forEach_cons_run r1, forEach_cons_run (h1.trans r1)]
    exact ih (fun o ho => hops o (by simp [ho])) (fun o ho => hcl o (by simp [ho])) hse hc1 hr1 h2 hs2

end GB
