import Verif.Props.Overflow
import Verif.Proofs.EncodeRun

/-
Property C88: texts that the connection cannot send, or the columns cannot store.
-/

set_option linter.unusedSectionVars false

namespace GB

variable {F : Type} [PyFloat F] [DecidableEq F] {V : Val F → Prop} {cd : Codec}

/-! ### histories that stay within the character sets -/

theorem Op.steps_sent (ha : HasAscii cd.sends) {op : Op F} (h : op.sent cd.sends = true) :
    ∀ p ∈ op.steps, p.sent cd.sends = true := by
  intro p hp
  cases op with
  | prim q => simp [Op.steps] at hp; rw [hp]; exact h
  | addMany es ts =>
    obtain ⟨e, he, rfl⟩ := List.mem_map.1 hp
    exact List.all_eq_true.1 h e he
  | addBelief src e ts =>
    have h' : (patSent cd.sends [e, src] && patSent cd.sends e.elems) = true := h
    rw [Bool.and_eq_true] at h'
    simp only [Op.steps, List.mem_cons, List.not_mem_nil, or_false] at hp
    rcases hp with rfl | rfl
    · exact h'.2
    · exact (support_sent ha e src).trans h'.1
  | addBeliefs src es ts =>
    obtain ⟨e, he, hp⟩ := List.mem_flatMap.1 hp
    have h' := List.all_eq_true.1 h e he
    rw [Bool.and_eq_true] at h'
    simp only [List.mem_cons, List.not_mem_nil, or_false] at hp
    rcases hp with rfl | rfl
    · exact h'.2
    · exact (support_sent ha e src).trans h'.1
  | batch ps => exact List.all_eq_true.1 h p hp
  | degree v => simp [Op.steps] at hp
  | timestamp v => simp [Op.steps] at hp

theorem support_uses {p : Char → Bool} (ha : HasAscii p) {e src : Val F} (h : (e.uses p && src.uses p) = true) :
    (support e src).uses p = true := by
  rw [Bool.and_eq_true] at h
  have : (Val.str constSource : Val F).uses p = true := ascii_lit ha constSource (by decide)
  show usesAll p [.str constSource, e, src] = true
  simp [usesAll, this, h.1, h.2]

theorem Op.encSame (ha : HasAscii cd.sends) (hb : HasAscii cd.stores) (hV : Vocab V) {op : Op F} (hop : op.Over V)
    (h : op.sent cd.sends = true) (h2 : op.stored cd.stores = true) {A : Abs F} (hA : AbsOk V A) {S : Spec F} (hR : Rel A S)
    (hS : S.Sends cd.sends) {s : St} (hcur : s.cur = none) (hw : s.work = A.conc) : op.runEnc cd s = op.run s := by
  cases op with
  | prim p => exact Prim.encSame ha hb hV hop h h2 hA hR hS (St.usable_of_none hcur) hw
  | addMany es ts =>
    show (hgAddEnc cd (.seq true es) ts >>= fun _ => Pure.pure ()) s = (hgAdd (.seq true es) ts >>= fun _ => Pure.pure ()) s
    rw [addManyEnc_same ha hb hV hop.1 hop.2 (List.all_eq_true.1 h) (List.all_eq_true.1 h2)]
  | addBelief src e ts =>
    have hbv : BeliefOver V src e := hop
    have h' : (patSent cd.sends [e, src] && patSent cd.sends e.elems) = true := h
    have h2' : (e.uses cd.stores && src.uses cd.stores) = true := h2
    rw [Bool.and_eq_true] at h'
    show hgAddBeliefEnc cd src e ts s = hgAddBelief src e ts s
    unfold hgAddBeliefEnc hgAddBelief
    rw [beliefEdges_single hbv.edge]
    simp only [liftE_bind]
    have : hgAddEnc cd (.tup [e, .tup [.str constSource, e, src]]) ts = hgAdd (.tup [e, .tup [.str constSource, e, src]]) ts := by
      refine addManyEnc_same ha hb hV (b := false) (es := [e, support e src]) (by simp) ?_ ?_ ?_ ts
      · intro x hx
        simp only [List.mem_cons, List.not_mem_nil, or_false] at hx
        rcases hx with rfl | rfl
        · exact hbv.edge
        · exact support_over hbv
      · intro x hx
        simp only [List.mem_cons, List.not_mem_nil, or_false] at hx
        rcases hx with rfl | rfl
        · exact h'.2
        · exact (support_sent ha _ src).trans h'.1
      · intro x hx
        simp only [List.mem_cons, List.not_mem_nil, or_false] at hx
        rcases hx with rfl | rfl
        · rw [Bool.and_eq_true] at h2'; exact h2'.1
        · exact support_uses hb h2'
    exact bind_same (congrFun this s) fun _ _ _ => rfl
  | addBeliefs src es ts =>
    have hbv : ∀ e ∈ es, BeliefOver V src e := hop.2
    have hne : es.flatMap (fun e => [e, support e src]) ≠ [] := by
      have := hop.1
      cases es with
      | nil => contradiction
      | cons e es => simp
    have three : ∀ x ∈ es.flatMap (fun e => [e, support e src]), EdgeOver V x ∧ patSent cd.sends x.elems = true ∧
        x.uses cd.stores = true := by
      intro x hx
      rw [List.mem_flatMap] at hx
      obtain ⟨e, he, hx⟩ := hx
      have h' := List.all_eq_true.1 h e he
      have h2' := List.all_eq_true.1 h2 e he
      rw [Bool.and_eq_true] at h'
      simp only [List.mem_cons, List.not_mem_nil, or_false] at hx
      rcases hx with rfl | rfl
      · rw [Bool.and_eq_true] at h2'
        exact ⟨(hbv _ he).edge, h'.2, h2'.1⟩
      · exact ⟨support_over (hbv _ he), (support_sent ha _ src).trans h'.1, support_uses hb h2'⟩
    show hgAddBeliefEnc cd src (.seq true es) ts s = hgAddBelief src (.seq true es) ts s
    unfold hgAddBeliefEnc hgAddBelief
    rw [beliefEdges_many (src := src) hop.1 (fun e he => (hbv e he).edge)]
    simp only [liftE_bind]
    exact bind_same (congrFun (addManyEnc_same ha hb hV (b := true) hne (fun x hx => (three x hx).1)
      (fun x hx => (three x hx).2.1) (fun x hx => (three x hx).2.2) ts) s) fun _ _ _ => rfl
  | batch ps =>
    show hgBatchExec (ps.map (Prim.runEnc cd)) s = hgBatchExec (ps.map Prim.run) s
    unfold hgBatchExec sqlBatchExec
    have hopen : openCursor false s = (.ok .shared, { s with cur := some true }) := by
      unfold openCursor; simp [hcur]
    rw [bind_run _ _ _ hopen, bind_run _ _ _ hopen, forEach_map, forEach_map]
    exact bind_same (Prim.encSameAll ha hb hV ps hop (List.all_eq_true.1 h) (List.all_eq_true.1 h2)
      (s := { s with cur := some true }) hA hR hS (by simp [St.usable]) hw) fun _ _ _ => rfl
  | degree v =>
    show (hgDegreeEnc cd v >>= fun _ => Pure.pure ()) s = (hgDegree v >>= fun _ => Pure.pure ()) s
    rw [(degreeEnc_same ha h).1]
  | timestamp v =>
    show (hgTimestampEnc cd v >>= fun _ => Pure.pure ()) s = (hgTimestamp v >>= fun _ => Pure.pure ()) s
    rw [(degreeEnc_same ha h).2]

theorem Spec.Sends.op (ha : HasAscii cd.sends) {S : Spec F} (h : S.Sends cd.sends) {op : Op F} (ho : op.sent cd.sends = true) :
    (S.op op).Sends cd.sends := by
  rw [← Op.steps_fold]
  have := Op.steps_sent ha ho
  generalize op.steps = ps at this
  induction ps generalizing S with
  | nil => exact h
  | cons p ps ih => exact ih (h.prim (this p (by simp))) fun q hq => this q (by simp [hq])

/-! ### calls that are refused -/

theorem Op.encBad (ha : HasAscii cd.sends) (hV : Vocab V) {op : Op F} (hop : op.Over V) (h : op.refused cd.sends = true)
    {s : St} (hu : s.usable) : op.runEnc cd s = (.error .encodeError, s) := by
  have neg : ∀ {b : Bool}, (!b) = true → b = false := by intro b; cases b <;> simp
  cases op with
  | prim p =>
    cases p with
    | add e ts =>
      obtain ⟨k, hk, hks⟩ := head0_edge (V := V) (e := e) hop
      show (hgAddEnc cd e ts >>= fun _ => Pure.pure ()) s = _
      rw [hgAddEnc_single hk hks]
      exact bind_err _ _ _ (bind_err _ _ _ (addRawEnc_bad ha hV hop (neg h) ts hu))
    | remove e =>
      obtain ⟨k, hk, hks⟩ := head0_edge (V := V) (e := e) hop
      show hgRemoveEnc cd e s = _
      rw [hgRemoveEnc_single hk hks]
      exact removeRawEnc_bad ha hV hop (neg h) hu
    | removeMany es =>
      cases es with
      | nil => exact nomatch h
      | cons e es =>
        show hgRemoveEnc cd (.seq true (e :: es)) s = _
        rw [hgRemoveEnc_many hop.1 hop.2, forEach]
        exact bind_err _ _ _ (removeRawEnc_bad ha hV (hop.2 e (by simp)) (neg h) hu)
    | removeByPattern ps => exact bind_err _ _ _ (patternEnc_bad ha hV (b := false) hop (neg h) hu)
    | removeBelief src e =>
      have hbv : BeliefOver V src e := hop
      have hsup := support_over hbv
      obtain ⟨k, hk, hks⟩ := head0_edge hsup
      have h1 : hgRemoveEnc cd (support e src) s = (.error .encodeError, s) := by
        rw [hgRemoveEnc_single hk hks]
        exact removeRawEnc_bad ha hV hsup ((support_sent ha e src).trans (neg h)) hu
      exact bind_err _ _ _ h1
    | destroy => exact nomatch h
    | query q => exact Query.encBad ha hV hop (neg h) hu
  | degree v => exact bind_err _ _ _ (degreeEnc_bad ha (neg h) hu).1
  | timestamp v => exact bind_err _ _ _ (degreeEnc_bad ha (neg h) hu).2
  | addMany es ts => exact nomatch h
  | addBelief src e ts => exact nomatch h
  | addBeliefs src es ts => exact nomatch h
  | batch ps => exact nomatch h

/-! ### C88 -/

/-- C88: if all characters that the calls name are in the character set of the connection (and so are the characters after
the last ones), and those of the edges that are added are in the set of the columns, then a history does what it does without
character sets. -/
theorem C88_same (hV : Vocab V) (ha : HasAscii cd.sends) (hb : HasAscii cd.stores) (ops : List (Op F))
    (hops : ∀ op ∈ ops, op.Over V) (h : ∀ op ∈ ops, op.sent cd.sends = true) (h2 : ∀ op ∈ ops, op.stored cd.stores = true)
    (auto : Bool) : runOpsEnc cd ops (St.new auto) = runOps ops (St.new auto) := by
  suffices hh : ∀ {A : Abs F} {S : Spec F} {s : St}, AbsOk V A → Rel A S → S.Sends cd.sends → s.cur = none → s.work = A.conc →
      runOpsEnc cd ops s = runOps ops s from
    hh AbsOk.empty Rel.empty (fun v hv => by simp [Spec.empty, Spec.Present] at hv) rfl rfl
  induction ops with
  | nil => intro A S s _ _ _ _ _; exact forEach_nil_run.trans forEach_nil_run.symm
  | cons op ops ih =>
    intro A S s hA hR hS hc hw
    have h1 := Op.encSame ha hb hV (hops op (by simp)) (h op (by simp)) (h2 op (by simp)) hA hR hS hc hw
    obtain ⟨A', hA', hR', s1, e1, st1⟩ := Op.sim hV (hops op (by simp)) A S s hA hR hc hw
    show forEach (Op.runEnc cd) (op :: ops) s = forEach Op.run (op :: ops) s
    rw [forEach_cons_run e1, forEach_cons_run (h1.trans e1)]
    exact ih (fun o ho => hops o (by simp [ho])) (fun o ho => h o (by simp [ho])) (fun o ho => h2 o (by simp [ho])) hA' hR'
      (hS.op ha (h op (by simp))) (by rw [st1.cur]; exact hc) st1.work

/-- C88: a reading call that names only characters of the connection's set returns, in every state, what it returns without
character sets. -/
theorem C88_reads (hV : Vocab V) (ha : HasAscii cd.sends) (s : St) :
    (∀ e, EdgeOver V e → patSent cd.sends e.elems = true → existsEnc cd e s = hgExists e s) ∧
    (∀ ps, PatternOver V ps → patSent cd.sends ps = true → pattern2edgesEnc cd (.tup ps) s = hgPattern2edges (.tup ps) s) ∧
    (∀ c : Val F, c.uses cd.sends = true → hgStarEnc cd c s = hgStar c s) ∧
    (∀ r : Str, r.all cd.sends = true → hgSymbolsWithRootEnc cd r s = hgSymbolsWithRoot r s) ∧
    (∀ e, V (.str (lit "src/1")) → V e → e.uses cd.sends = true → e.endsWell cd.sends = true →
      hgSourcesEnc cd e s = hgSources e s) ∧
    (∀ v : Val F, v.uses cd.sends = true → hgDegreeEnc cd v s = hgDegree v s ∧ hgTimestampEnc cd v s = hgTimestamp v s) := by
  refine ⟨fun e he h => congrFun (existsEnc_same ha hV he h) s,
    fun ps hp h => congrFun (patternEnc_same ha hV (b := false) hp h) s, fun c h => congrFun (starEnc_same ha h) s,
    fun r h => congrFun (symbolsEnc_same ha h) s,
    fun e h1 h2 h3 h4 => congrFun (sourcesEnc_same ha hV h1 h2 (by rw [h3, h4]; rfl)) s,
    fun v h => ⟨congrFun (degreeEnc_same ha h).1 s, congrFun (degreeEnc_same ha h).2 s⟩⟩

/-- C88: a call that names a character outside the set (or whose last character's successor is outside) raises
`UnicodeEncodeError` and changes nothing. -/
theorem C88_refused (hV : Vocab V) (ha : HasAscii cd.sends) (op : Op F) (hop : op.Over V)
    (h : op.refused cd.sends = true) (s : St) (hc : s.cur ≠ some false) : op.runEnc cd s = (.error .encodeError, s) :=
  Op.encBad ha hV hop h hc

/-- C88: a program that catches these exceptions has the graph that its other calls make. -/
theorem C88_caught (hV : Vocab V) (ha : HasAscii cd.sends) (hb : HasAscii cd.stores) (ops : List (Op F))
    (hops : ∀ op ∈ ops, op.Over V) (h : ∀ op ∈ ops, op.sent cd.sends = true ∨ op.refused cd.sends = true)
    (h2 : ∀ op ∈ ops, op.refused cd.sends = false → op.stored cd.stores = true) (auto : Bool) :
    forEach (Op.tryEnc cd) ops (St.new auto) = runOps (ops.filter fun op => !op.refused cd.sends) (St.new auto) := by
  suffices hh : ∀ {A : Abs F} {S : Spec F} {s : St}, AbsOk V A → Rel A S → S.Sends cd.sends → s.cur = none → s.work = A.conc →
      forEach (Op.tryEnc cd) ops s = runOps (ops.filter fun op => !op.refused cd.sends) s from
    hh AbsOk.empty Rel.empty (fun v hv => by simp [Spec.empty, Spec.Present] at hv) rfl rfl
  induction ops with
  | nil => intro A S s _ _ _ _ _; exact forEach_nil_run.trans forEach_nil_run.symm
  | cons op ops ih =>
    intro A S s hA hR hS hc hw
    have ih' := @ih (fun o ho => hops o (by simp [ho])) (fun o ho => h o (by simp [ho])) (fun o ho => h2 o (by simp [ho]))
    cases hr : op.refused cd.sends with
    | true =>
      have := Op.encBad ha hV (hops op (by simp)) hr (St.usable_of_none hc)
      rw [forEach_cons_run (show op.tryEnc cd s = (.ok (), s) from by unfold Op.tryEnc; rw [this]),
        List.filter_cons_of_neg (by simp [hr])]
      exact ih' hA hR hS hc hw
    | false =>
      have hsent : op.sent cd.sends = true := by
        rcases h op (by simp) with h | h
        · exact h
        · rw [hr] at h; exact nomatch h
      have h1 := Op.encSame ha hb hV (hops op (by simp)) hsent (h2 op (by simp) hr) hA hR hS hc hw
      obtain ⟨A', hA', hR', s1, e1, st1⟩ := Op.sim hV (hops op (by simp)) A S s hA hR hc hw
      rw [forEach_cons_run (show op.tryEnc cd s = (.ok (), s1) from by unfold Op.tryEnc; rw [h1, e1]),
        List.filter_cons_of_pos (by simp [hr])]
      show _ = forEach Op.run (op :: _) s
      rw [forEach_cons_run e1]
      exact ih' hA' hR' (hS.op ha hsent) (by rw [st1.cur]; exact hc) st1.work

/-! ### adding several edges, one of which cannot be sent -/

/-- C88: adding several edges at once, the first of which that names a character outside the connection's set being `e`: the
call raises `UnicodeEncodeError`; this session sees the edges before `e`; with MySQL's autocommit they are on disk, otherwise
nothing is on disk yet; and a cursor is left over (see C82). -/
theorem C88_bulk (hV : Vocab V) (ha : HasAscii cd.sends) (hb : HasAscii cd.stores) (ops : List (Op F))
    (hops : ∀ op ∈ ops, op.Over V) (auto : Bool) (s : St) (hs : runOps ops (St.new auto) = (.ok (), s)) (pre : List (Val F)) (e : Val F)
    (post : List (Val F)) (hes : ∀ x ∈ pre ++ e :: post, EdgeOver V x)
    (hpre : ∀ x ∈ pre, patSent cd.sends x.elems = true ∧ x.uses cd.stores = true)
    (he : patSent cd.sends e.elems = false) (ts : Int) :
    ∃ s1, hgAddEnc cd (.seq true (pre ++ e :: post)) ts s = (.error .encodeError, s1) ∧
      (∃ s2, runOps (ops ++ pre.map fun x => .prim (.add x ts)) (St.new auto) = (.ok (), s2) ∧ s1.work = s2.work) ∧
      (s1.disk = if auto then s1.work else s.disk) ∧ s1.cur = some true := by
  obtain ⟨A, h⟩ := after_of hV hops hs
  obtain ⟨k, hk, hks⟩ := head0_coll (b := true) (es := pre ++ e :: post) (by simp) hes
  obtain ⟨s1, e1, st1⟩ := addAll_run (q := true) hV ts pre (fun x hx => hes x (by simp [hx])) A { s with cur := some true } h.ok
    (by simp [St.usable]) h.work
  have hu1 : s1.usable := st1.usable (by simp [St.usable])
  have hsame : forEach (fun x => (do let _ ← addRawEnc cd x ts : M Unit)) pre =
      forEach (fun x => (do let _ ← addRaw x ts : M Unit)) pre := by
    apply forEach_congr
    intro x hx
    rw [addRawEnc_same ha hb hV (hes x (by simp [hx])) (hpre x hx).1 (hpre x hx).2]
  have hbad : forEach (fun x => (do let _ ← addRawEnc cd x ts : M Unit)) (e :: post) s1 = (.error .encodeError, s1) := by
    rw [forEach]
    exact bind_err _ _ _ (bind_err _ _ _ (addRawEnc_bad ha hV (hes e (by simp)) he ts hu1))
  have hall : forEach (fun x => (do let _ ← addRawEnc cd x ts : M Unit)) (pre ++ e :: post) { s with cur := some true } =
      (.error .encodeError, s1) := by
    rw [forEach_append]
    rw [bind_run _ _ _ ((congrFun hsame _).trans e1)]
    exact hbad
  refine ⟨s1, ?_, ?_, ?_, st1.cur⟩
  · unfold hgAddEnc
    rw [hk, bind_run _ _ _ (show liftE (.ok k) s = _ from rfl)]
    simp only [hks, if_true]
    rw [bind_run _ _ _ (show openCursor false s = (.ok .shared, { s with cur := some true }) by simp [openCursor, h.idle]),
      bind_run _ _ _ (show liftE (Val.iter (.seq true (pre ++ e :: post))) _ =
        (.ok (pre ++ e :: post), { s with cur := some true }) from rfl)]
    exact bind_err _ _ _ hall
  · have hsingle : ∀ (l : List (Val F)), (∀ x ∈ l, EdgeOver V x) → ∀ (A : Abs F) (s : St), AbsOk V A → s.cur = none →
        s.work = A.conc → ∃ s2, runOps (l.map fun x => .prim (.add x ts)) s = (.ok (), s2) ∧
          s2.work = (l.foldl (fun A e => A.add e ts) A).conc := by
      intro l
      induction l with
      | nil => intro _ A s _ _ hw; exact ⟨s, rfl, hw⟩
      | cons x l ih =>
        intro hl A s hA hc hw
        obtain ⟨k, hk, hks⟩ := head0_edge (hl x (by simp))
        obtain ⟨s2, e2, st2⟩ := addRaw_run (q := true) (T := TT) hV hA (hl x (by simp)) ts (St.usable_of_none hc) hw
          (fun _ _ _ => trivial)
        obtain ⟨s3, e3, w3⟩ := ih (fun y hy => hl y (by simp [hy])) (A.add x ts) s2 (hA.add hV (hl x (by simp)) ts)
          (st2.cur.trans hc) st2.work
        refine ⟨s3, ?_, w3⟩
        show forEach Op.run (_ :: _) s = _
        rw [forEach_cons_run (show Op.run (.prim (.add x ts)) s = (.ok (), s2) by
          show (hgAdd x ts >>= fun _ => Pure.pure ()) s = _
          rw [hgAdd_single hk hks]
          exact bind_run _ _ _ (bind_run _ _ _ e2))]
        exact e3
    obtain ⟨s2, e2, w2⟩ := hsingle pre (fun x hx => hes x (by simp [hx])) A s h.ok h.idle h.work
    refine ⟨s2, ?_, st1.work.trans w2.symm⟩
    unfold runOps at *
    rw [forEach_append, bind_run _ _ _ hs]
    exact e2
  · cases auto with
    | false => exact (st1.quiet rfl (by simp) h.auto).1
    | true => exact st1.durable (.inr h.auto) h.disk

/-! ### adding an edge that cannot be stored -/

/-- What is present or known can be stored. -/
def Spec.Stores (p : Char → Bool) (S : Spec F) : Prop :=
  (∀ e, S.Present e → e.uses p = true) ∧ ∀ v, (S.known v).isSome = true → v.uses p = true

theorem Spec.Stores.less {p : Char → Bool} {S S' : Spec F} (h : S.Stores p) (hl : S'.Less S) : S'.Stores p :=
  ⟨fun e he => h.1 e (hl.2 e he), fun v hv => h.2 v (Option.isSome_iff_ne_none.2 (hl.1 v (Option.isSome_iff_ne_none.1 hv)))⟩

theorem Spec.Stores.add {p : Char → Bool} {S : Spec F} (h : S.Stores p) {e : Val F} (he : EdgeOver V e)
    (hu : e.uses p = true) (ts : Int) : (S.add e ts).Stores p := by
  unfold Spec.add
  split
  · exact h
  · constructor
    · intro x hx
      by_cases hxe : x = e
      · rw [hxe]; exact hu
      · exact h.1 x (by simpa [Spec.Present, hxe] using hx)
    · intro v hv
      by_cases hve : v = e
      · rw [hve]; exact hu
      · by_cases hm : v ∈ e.elems
        · exact (edge_uses he).1 hu v hm
        · exact h.2 v (by simpa [hve, hm] using hv)

theorem Spec.Stores.prim {p : Char → Bool} {S : Spec F} (h : S.Stores p) {a : Prim F} (hv : a.Over V)
    (ha : a.stored p = true) : (S.prim a).Stores p := by
  cases a with
  | add e ts => exact h.add hv ha ts
  | remove e => exact h.less (Spec.less_remove S e)
  | removeMany es => exact h.less (Spec.less_foldRemove es S)
  | removeByPattern ps => exact h.less (Spec.less_removeWhere S _)
  | removeBelief src e =>
    show (S.removeBelief src e).Stores p
    unfold Spec.removeBelief
    simp only
    split
    · exact h.less (Spec.less_remove S _)
    · exact h.less ((Spec.less_remove _ e).trans (Spec.less_remove S _))
  | destroy =>
    exact ⟨fun v hv => by simp [Spec.prim, Spec.empty, Spec.Present] at hv, fun v hv => by simp [Spec.prim, Spec.empty] at hv⟩
  | query q => exact h

theorem Op.steps_stored {p : Char → Bool} (hb : HasAscii p) {op : Op F} (h : op.stored p = true) :
    ∀ a ∈ op.steps, a.stored p = true := by
  intro a ha
  cases op with
  | prim q => simp [Op.steps] at ha; rw [ha]; exact h
  | addMany es ts =>
    obtain ⟨e, he, rfl⟩ := List.mem_map.1 ha
    exact List.all_eq_true.1 h e he
  | addBelief src e ts =>
    have h' : (e.uses p && src.uses p) = true := h
    simp only [Op.steps, List.mem_cons, List.not_mem_nil, or_false] at ha
    rcases ha with rfl | rfl
    · rw [Bool.and_eq_true] at h'; exact h'.1
    · exact support_uses hb h'
  | addBeliefs src es ts =>
    obtain ⟨e, he, ha⟩ := List.mem_flatMap.1 ha
    have h' := List.all_eq_true.1 h e he
    simp only [List.mem_cons, List.not_mem_nil, or_false] at ha
    rcases ha with rfl | rfl
    · rw [Bool.and_eq_true] at h'; exact h'.1
    · exact support_uses hb h'
  | batch ps => exact List.all_eq_true.1 h a ha
  | degree v => simp [Op.steps] at ha
  | timestamp v => simp [Op.steps] at ha

theorem Spec.Stores.after {p : Char → Bool} (hb : HasAscii p) (ops : List (Op F)) (hops : ∀ op ∈ ops, op.Over V)
    (h : ∀ op ∈ ops, op.stored p = true) : (Spec.after ops).Stores p := by
  suffices hh : ∀ S : Spec F, S.Stores p → (ops.foldl Spec.op S).Stores p from
    hh Spec.empty ⟨fun v hv => by simp [Spec.empty, Spec.Present] at hv, fun v hv => by simp [Spec.empty] at hv⟩
  induction ops with
  | nil => exact fun S h => h
  | cons op ops ih =>
    intro S hS
    refine ih (fun o ho => hops o (by simp [ho])) (fun o ho => h o (by simp [ho])) _ ?_
    rw [← Op.steps_fold]
    have h1 := Op.steps_over (hops op (by simp))
    have h2 := Op.steps_stored hb (h op (by simp))
    generalize op.steps = ps at h1 h2
    clear ih
    induction ps generalizing S with
    | nil => exact hS
    | cons a ps ih => exact ih _ (hS.prim (h1 a (by simp)) (h2 a (by simp))) (fun q hq => h1 q (by simp [hq])) (fun q hq =>
        h2 q (by simp [hq]))

theorem upsertVertexEnc_unstorable {t : Str} (h : t.all cd.sends = true) (h2 : t.all cd.stores = false) (d ts : Int) {s : St}
    (hu : s.usable) (hno : (s.work.updateVertex t d ts).1 = 0) :
    ∃ s', updateOrInsertVertexEnc cd t d ts s = (.error .dataError, s') ∧ Step true TT s s' s.work := by
  have h0 : s.work.updateVertex t d ts = (0, s.work) := by
    have hc : ∀ r ∈ s.work.vertices, ¬ r.id = t := by
      simpa [DB.updateVertex, List.countP_eq_zero] using hno
    refine Prod.ext hno ?_
    show DB.mk (s.work.vertices.map _) s.work.perms = s.work
    have : s.work.vertices.map (fun r => if r.id = t then (⟨t, d, ts⟩ : VRow) else r) = s.work.vertices :=
      (List.map_congr_left fun r hr => if_neg (hc r hr)).trans (List.map_id _)
    rw [this]
  have e1 : execWriteEnc cd [t] s.lcur (fun db => some (db.updateVertex t d ts)) s = (.ok 0, s.wr s.work) := by
    rw [writeEnc_ok (by simpa using h), execWrite_local hu (by rw [h0])]
  refine ⟨s.wr s.work, ?_, ?_⟩
  · unfold updateOrInsertVertexEnc
    rw [bind_run _ _ _ (openCursor_local s), bind_run _ _ _ e1]
    refine bind_err _ _ _ ?_
    show execInsertEnc cd t s.lcur _ (s.wr s.work) = _
    unfold execInsertEnc
    have hn : s.cur ≠ some false := hu
    have : (s.wr s.work).cur = s.cur := by unfold St.wr; split <;> rfl
    simp [h, h2, this, hn]
  · cases ha : s.autocommit with
    | false => refine ⟨?_, ?_, ?_, ?_, ?_, ?_, ?_⟩ <;> simp_all [St.wr]
    | true => refine ⟨?_, ?_, ?_, ?_, ?_, ?_, ?_⟩ <;> simp_all [St.wr, St.commit, TT]

/-- The loop of an addition with an element that cannot be stored. -/
theorem loopEnc (ha : HasAscii cd.sends) (hb : HasAscii cd.stores) (ts : Int) (ps : List Str) (xs : List (Val F))
    (hwx : ∀ x ∈ xs, WfVal x) (hs : ∀ x ∈ xs, x.uses cd.sends = true) (hbad : ∃ x ∈ xs, x.uses cd.stores = false) :
    ∀ (vs : List (VEnt F)) (s : St), KeysOk vs → (∀ r ∈ vs, r.v.uses cd.stores = true) → s.usable →
      s.work = ⟨vs.map VEnt.row, ps⟩ →
      ∃ s', Step true TT s s' ⟨((xs.takeWhile fun x => x.uses cd.stores).foldl (touchV ts) vs).map VEnt.row, ps⟩ ∧
        forEach (addVertEnc cd ts) xs s = (.error .dataError, s') := by
  induction xs with
  | nil => simp at hbad
  | cons x xs ih =>
    intro vs s hk hst hu hw
    have hx := hwx x (by simp)
    have hxs := hs x (by simp)
    cases hg : x.uses cd.stores with
    | true =>
      obtain ⟨s1, e1, st1⟩ := addVert_run (q := true) (T := TT) hk.2 hx ts hu hw trivial
      have hst1 : ∀ r ∈ touchV ts vs x, r.v.uses cd.stores = true := by
        intro r hr
        unfold touchV at hr
        split at hr
        · unfold bumpV at hr
          rw [List.mem_map] at hr
          obtain ⟨r', hr', rfl⟩ := hr
          split <;> exact hst r' hr'
        · rw [List.mem_append] at hr
          rcases hr with hr | hr
          · exact hst r hr
          · rw [List.mem_singleton] at hr; rw [hr]; exact hg
      obtain ⟨s2, st2, e2⟩ := ih (fun y hy => hwx y (by simp [hy])) (fun y hy => hs y (by simp [hy])) (by
          obtain ⟨y, hy, hyb⟩ := hbad
          rcases List.mem_cons.1 hy with rfl | hy
          · rw [hg] at hyb; exact nomatch hyb
          · exact ⟨y, hy, hyb⟩) (touchV ts vs x) s1 (hk.touch hx ts) hst1 (st1.usable hu) st1.work
      refine ⟨s2, ?_, ?_⟩
      · rw [List.takeWhile_cons_of_pos (by exact hg)]
        exact st1.trans st2
      · rw [forEach, bind_run _ _ _ (show addVertEnc cd ts x s = (.ok (), s1) by
          rw [addVertEnc_same ha hb hxs hg]; exact e1)]
        exact e2
    | false =>
      have hf : hasV x vs = false := by
        cases hh : hasV x vs with
        | false => rfl
        | true =>
          unfold hasV at hh
          rw [List.any_eq_true] at hh
          obtain ⟨r, hr, hrx⟩ := hh
          rw [decide_eq_true_eq] at hrx
          have := hst r hr
          rw [hrx, hg] at this
          exact nomatch this
      have h1' : (edge2str x).all cd.sends = true := (edge2str_all ha x).trans hxs
      have h2' : (edge2str x).all cd.stores = false := (edge2str_all hb x).trans hg
      obtain ⟨s1, e1, st1⟩ := incDegree_run (q := true) (T := TT) hu (edge2str x) (fun _ => trivial)
      rw [hw] at e1 st1
      rw [bump_row hk.2 hx 1 ps, bumpV_absent hf] at st1
      have hz : ¬ (0 < (vs.map VEnt.row).countP fun r => r.id = edge2str x) := by
        rw [countP_row hk.2 hx, hf]; simp
      have hd : decide ((DB.bumpDegree ⟨vs.map VEnt.row, ps⟩ 1 (edge2str x)).1 > 0) = false := by
        simpa [DB.bumpDegree] using hz
      rw [hd] at e1
      obtain ⟨s2, e2, st2⟩ := upsertVertexEnc_unstorable h1' h2' 1 ts (st1.usable hu) (by
        rw [st1.work]
        show (vs.map VEnt.row).countP _ = 0
        omega)
      rw [st1.work] at st2
      refine ⟨s2, ?_, ?_⟩
      · rw [List.takeWhile_cons_of_neg (by simp [hg])]
        exact st1.trans st2
      · rw [forEach]
        refine bind_err _ _ _ ?_
        unfold addVertEnc
        rw [incDegreeEnc_same h1', bind_run _ _ _ e1]
        exact e2

/-- C88: adding an edge that can be sent but contains a character that the columns cannot store: the call raises
`DataError` and the edge is not there; no answer about edges changed; but its elements before the first one with such a
character count as if the edge had been added, and this is on disk. -/
theorem C88_unstorable (hV : Vocab V) (ha : HasAscii cd.sends) (hb : HasAscii cd.stores) (ops : List (Op F))
    (hops : ∀ op ∈ ops, op.Over V) (hst : ∀ op ∈ ops, op.stored cd.stores = true) (auto : Bool)
    (s : St) (hs : runOps ops (St.new auto) = (.ok (), s)) (e : Val F) (he : EdgeOver V e) (h : patSent cd.sends e.elems = true)
    (h2 : e.uses cd.stores = false) (ts : Int) :
    ∃ s1, hgAddEnc cd e ts s = (.error .dataError, s1) ∧
      (∀ x : Val F, (hgExists x s1).1 = (hgExists x s).1) ∧ (hgExists e s1).1 = .ok false ∧
      (∀ p : Val F, (hgPattern2edges p s1).1 = (hgPattern2edges p s).1) ∧
      (∀ c : Val F, (hgStar c s1).1 = (hgStar c s).1) ∧
      (∀ r, (hgSymbolsWithRoot r s1).1 = (hgSymbolsWithRoot r s).1) ∧
      (∀ x : Val F, (hgSources x s1).1 = (hgSources x s).1) ∧
      (∀ v : Val F, WfVal v → ∃ d : Int, (hgDegree v s).1 = .ok d ∧
        (hgDegree v s1).1 = .ok (d + (goodPrefix cd.stores e).count v)) ∧
      (∀ v : Val F, WfVal v → (hgTimestamp v s1).1 =
        if v ∈ goodPrefix cd.stores e ∧ (Spec.after ops).known v = none then .ok ts else (hgTimestamp v s).1) ∧
      s1.disk = s1.work ∧ s1.cur = none := by
  obtain ⟨A, h0⟩ := after_of hV hops hs
  have hS := Spec.Stores.after hb ops hops hst
  have hnot : e ∉ A.edges := by
    intro hm
    have := hS.1 e ((h0.rel.present e).2 hm)
    rw [h2] at this
    exact nomatch this
  have hvs : ∀ r ∈ A.verts, r.v.uses cd.stores = true := by
    intro r hr
    refine hS.2 r.v ?_
    rw [← known_has h0.rel]
    unfold hasV
    rw [List.any_eq_true]
    exact ⟨r, hr, by simp⟩
  have hex := existsM_run hV h0.ok he h0.usable h0.work
  have hwx : ∀ x ∈ e.elems, WfVal x := fun x hx => hV.wf x (he.mem x hx)
  obtain ⟨s1, st1, e1⟩ := loopEnc ha hb ts A.conc.perms e.elems hwx (patSent_uses h) (by
      apply Classical.byContradiction
      intro hn
      have : e.uses cd.stores = true := (edge_uses he).2 fun x hx => by
        cases hxu : x.uses cd.stores with
        | true => rfl
        | false => exact absurd ⟨x, hx, hxu⟩ hn
      rw [h2] at this
      exact nomatch this) A.verts s ⟨h0.ok.keys, h0.ok.wf⟩ hvs h0.usable h0.work
  have hpre : ∀ x ∈ goodPrefix cd.stores e, WfVal x := fun x hx => hwx x (List.takeWhile_prefix _ |>.subset hx)
  have hk : KeysOk ((goodPrefix cd.stores e).foldl (touchV ts) A.verts) := KeysOk.foldTouch ⟨h0.ok.keys, h0.ok.wf⟩ ts hpre
  have hc1 : s1.cur = none := st1.cur.trans h0.idle
  have hi : SameIndex s1 s := ⟨by rw [st1.work, h0.work], hc1.trans h0.idle.symm⟩
  have hE : ∀ x : Val F, (hgExists x s1).1 = (hgExists x s).1 := fun x =>
    (((index_pattern x).bind fun _ => IndexOnly.pure _) s1 s hi).1
  have sel : ∀ v : Val F, WfVal v → (s.work.selectVertex (edge2str v)).head? = (lookV v A.verts).map VEnt.row ∧
      (s1.work.selectVertex (edge2str v)).head? =
        (lookV v ((goodPrefix cd.stores e).foldl (touchV ts) A.verts)).map VEnt.row := by
    intro v hv
    rw [h0.work, st1.work]
    exact ⟨selectVertex_row h0.ok.wf hv A.conc.perms, selectVertex_row hk.2 hv A.conc.perms⟩
  refine ⟨s1, ?_, hE, ?_, fun p => (index_pattern p s1 s hi).1, fun c => (index_star c s1 s hi).1,
    fun r => (index_symbols r s1 s hi).1, fun x => (index_sources x s1 s hi).1, ?_, ?_, st1.durable (.inl h0.idle) h0.disk, hc1⟩
  · obtain ⟨k, hk, hks⟩ := head0_edge he
    rw [hgAddEnc_single hk hks]
    refine bind_err _ _ _ ?_
    unfold addRawEnc
    rw [existsEnc_same ha hV he h, bind_run _ _ _ hex]
    simp only [hnot, decide_false, Bool.not_false, if_true]
    rw [bind_run _ _ _ (liftE_ok (iter_edge he) s)]
    exact bind_err _ _ _ e1
  · rw [hE e]
    show (existsM e s).1 = _
    rw [hex]
    simp [hnot]
  · intro v hv
    refine ⟨degOf v A.verts, ?_, ?_⟩
    · rw [degree_idle v h0.idle, (sel v hv).1]
      unfold degOf
      cases lookV v A.verts <;> rfl
    · rw [degree_idle v hc1, (sel v hv).2]
      have := degOf_foldTouch ts v (goodPrefix cd.stores e) A.verts
      rw [← this]
      unfold degOf
      cases lookV v ((goodPrefix cd.stores e).foldl (touchV ts) A.verts) <;> rfl
  · intro v hv
    rw [h0.rel.known]
    rw [timestamp_idle v h0.idle, timestamp_idle v hc1, (sel v hv).1, (sel v hv).2]
    have := tsOf_foldTouch ts v (goodPrefix cd.stores e) A.verts
    have ht : ∀ vs : List (VEnt F), (((lookV v vs).map VEnt.row).map VRow.timestamp).getD (-1) = (tsOf v vs).getD (-1) := by
      intro vs
      unfold tsOf
      cases lookV v vs <;> rfl
    rw [ht, ht, this]
    split <;> rfl

/-! ### Examples: latin1 on the connection; and utf8 without the characters beyond U+FFFF in the columns -/

/-- Latin1 on the way, anything in the columns. -/
def exLatin : Codec := ⟨fun c => decide (c.toNat < 256), fun _ => true⟩

/-- Anything on the way, MySQL's `utf8` in the columns. -/
def exUtf8 : Codec := ⟨fun _ => true, fun c => decide (c.toNat < 0x10000)⟩

theorem exLatin_ascii : HasAscii exLatin.sends := fun c h => decide_eq_true (by omega)

theorem exUtf8_ascii : HasAscii exUtf8.stores := fun c h => decide_eq_true (by omega)

/-- `(is/1 café nice)`, which latin1 can send. -/
def exCafe : HVal := .tup [sy "is/1", sy "café", sy "nice"]

/-- `(is/1 city Łódź)`, which it cannot. -/
def exLodz : HVal := .tup [sy "is/1", sy "city", sy "Łódź"]

/-- `(is/1 name ÿ)`, whose characters latin1 has, but not the one after the last. -/
def exY : HVal := .tup [sy "is/1", sy "name", sy "ÿ"]

/-- `(is/1 sky/1 😀 fine)`. -/
def exMood : HVal := .tup [sy "is/1", sy "sky/1", sy "😀", sy "fine"]

example : patSent exLatin.sends exCafe.elems = true ∧ patSent exLatin.sends exLodz.elems = false ∧
    patSent exLatin.sends exY.elems = false ∧ exY.uses exLatin.sends = true ∧
    patSent exUtf8.sends exMood.elems = true ∧ exMood.uses exUtf8.stores = false ∧
    goodPrefix exUtf8.stores exMood = [sy "is/1", sy "sky/1"] := by decide +kernel

/-- The hypotheses of `C88_same` and `C88_caught`. -/
example : forEach (Op.tryEnc exLatin) [.prim (.add exCafe 1), .prim (.add exLodz 2), .prim (.query (.exists exY)),
      .prim (.add exE1 3)] (St.new false) =
    runOpsEnc exLatin [.prim (.add exCafe 1), .prim (.add exE1 3)] (St.new false) := by
  have h1 : (Op.prim (.add exCafe 1) : Op Half).sent exLatin.sends = true := by decide +kernel
  have h2 : (Op.prim (.add exLodz 2) : Op Half).refused exLatin.sends = true := by decide +kernel
  have h3 : (Op.prim (.query (.exists exY)) : Op Half).refused exLatin.sends = true := by decide +kernel
  have h4 : (Op.prim (.add exE1 3) : Op Half).sent exLatin.sends = true := by decide +kernel
  have h1' : (Op.prim (.add exCafe 1) : Op Half).refused exLatin.sends = false := by decide +kernel
  have h4' : (Op.prim (.add exE1 3) : Op Half).refused exLatin.sends = false := by decide +kernel
  have h5 : (Op.prim (.add exCafe 1) : Op Half).stored exLatin.stores = true := by decide +kernel
  have h6 : (Op.prim (.add exE1 3) : Op Half).stored exLatin.stores = true := by decide +kernel
  rw [C88_caught plainVocab exLatin_ascii (fun _ _ => rfl) _ (ops_of (by decide +kernel)) (by simp [h1, h2, h3, h4])
      (by simp [h1', h2, h3, h4', h5, h6]) false,
    C88_same plainVocab exLatin_ascii (fun _ _ => rfl) _ (ops_of (by decide +kernel)) (by simp [h1, h4]) (by simp [h5, h6])
      false]
  simp [h1', h2, h3, h4']

/-- What happens: the calls that name `exLodz` and `exY` raise. -/
example : (runOpsEnc exLatin [.prim (.add exCafe 1)] (St.new false)).1 = .ok () ∧
    (hgAddEnc exLatin exLodz 1 (St.new false)).1 = .error .encodeError ∧
    (existsEnc exLatin exY (St.new false)).1 = .error .encodeError ∧
    (hgDegreeEnc exLatin (sy "Łódź") (St.new false)).1 = .error .encodeError ∧
    (hgDegreeEnc exLatin (sy "ÿ") (St.new false)).1 = .ok 0 := by decide +kernel

/-- The hypotheses of `C88_bulk`. -/
example (s : St) (hs : runOps [.prim (.add exE1 1)] (St.new false) = (.ok (), s)) :
    ∃ s1, hgAddEnc exLatin (.seq true [exCafe, exLodz, exE2]) 2 s = (.error .encodeError, s1) ∧ s1.cur = some true := by
  obtain ⟨s1, h1, _, _, h2⟩ := C88_bulk plainVocab exLatin_ascii (fun _ _ => rfl) _ exStart_over false s hs [exCafe] exLodz [exE2]
    (by
      intro x hx
      simp only [List.singleton_append, List.mem_cons, List.not_mem_nil, or_false] at hx
      rcases hx with rfl | rfl | rfl
      · exact edge_of (by decide +kernel)
      · exact edge_of (by decide +kernel)
      · exact edge_of (by decide +kernel)) (by decide +kernel) (by decide +kernel) 2
  exact ⟨s1, h1, h2⟩

/-- The hypotheses of `C88_unstorable`, and what happens: `sky/1` has degree 1 before and 2 after the failed addition. -/
example (s : St) (hs : runOps [.prim (.add exE1 1)] (St.new true) = (.ok (), s)) :
    ∃ s1, hgAddEnc exUtf8 exMood 2 s = (.error .dataError, s1) ∧ (hgExists exMood s1).1 = .ok false := by
  have h0 : (Op.prim (.add exE1 1) : Op Half).stored exUtf8.stores = true := by decide +kernel
  obtain ⟨s1, h1, _, h2, _⟩ := C88_unstorable plainVocab (fun _ _ => rfl) exUtf8_ascii _ exStart_over (by simp [h0]) true s hs
    exMood (edge_of (by decide +kernel)) (by decide +kernel) (by decide +kernel) 2
  exact ⟨s1, h1, h2⟩

example : ∃ s s1 : St, runOps [.prim (.add exE1 1)] (St.new true) = (.ok (), s) ∧
    hgAddEnc exUtf8 exMood 2 s = (.error .dataError, s1) ∧ (hgDegree (sy "sky/1") s).1 = .ok 1 ∧
    (hgDegree (sy "sky/1") s1).1 = .ok 2 ∧ (hgDegree (sy "fine") s1).1 = .ok 0 := by
  refine ⟨(runOps [.prim (.add exE1 1)] (St.new true)).2,
    (hgAddEnc exUtf8 exMood 2 (runOps [.prim (.add exE1 1)] (St.new true)).2).2, ?_⟩
  decide +kernel

end GB
