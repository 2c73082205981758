import Verif.Spec.Server
import Verif.Proofs.CollRun
import Verif.Proofs.EncodeRun

/-! The model over a server: its instances, and servers that agree on the texts and numbers that are used. -/

set_option linter.unusedSectionVars false

namespace GB

variable {F : Type} [PyFloat F] [DecidableEq F] {V : Val F → Prop}

/-! ### the model under a collation is an instance -/

theorem addRaw_coll (w : Char → Nat) (k : Nat) (e : Val F) (ts : Int) :
    addRawOn (Server.mysqlColl w k) e ts = coAddRaw w k e ts := by
  funext s
  unfold addRawOn coAddRaw
  refine bind_same rfl ?_
  intro p s1 _
  cases p with
  | true => rfl
  | false =>
    simp only [Bool.not_false, if_true]
    unfold coAddRest
    rw [bind_assoc']
    refine bind_same rfl fun verts s2 _ => ?_
    rw [bind_assoc']
    refine bind_same rfl fun _ s3 _ => ?_
    rw [bind_assoc']
    rfl

theorem removeRaw_coll (w : Char → Nat) (k : Nat) (e : Val F) :
    removeRawOn (Server.mysqlColl w k) e = coRemoveRaw w e := by
  funext s
  unfold removeRawOn coRemoveRaw
  refine bind_same rfl ?_
  intro p s1 _
  cases p <;> rfl

theorem add_coll (w : Char → Nat) (k : Nat) :
    (hgAddOn (Server.mysqlColl w k) : Val F → Int → M (Val F)) = coAdd w k := by
  have : (addRawOn (Server.mysqlColl w k) : Val F → Int → M (Val F)) = coAddRaw w k := by
    funext e ts; exact addRaw_coll w k e ts
  funext e ts
  unfold hgAddOn
  rw [this]
  rfl

theorem remove_coll (w : Char → Nat) (k : Nat) :
    (hgRemoveOn (Server.mysqlColl w k) : Val F → M Unit) = coRemove w := by
  have : (removeRawOn (Server.mysqlColl w k) : Val F → M Unit) = coRemoveRaw w := by
    funext e; exact removeRaw_coll w k e
  funext e
  unfold hgRemoveOn
  rw [this]
  rfl

theorem addBelief_coll (w : Char → Nat) (k : Nat) :
    (hgAddBeliefOn (Server.mysqlColl w k) : Val F → Val F → Int → M Unit) = coAddBelief w k := by
  funext a b ts
  unfold hgAddBeliefOn
  rw [add_coll]
  rfl

theorem prim_coll (w : Char → Nat) (k : Nat) : (Prim.srvRun (Server.mysqlColl w k) : Prim F → M Unit) = Prim.coRun w k := by
  funext p
  cases p with
  | add e ts => unfold Prim.srvRun; rw [add_coll]; rfl
  | remove e => unfold Prim.srvRun; rw [remove_coll]; rfl
  | removeMany es => unfold Prim.srvRun; rw [remove_coll]; rfl
  | removeByPattern ps => unfold Prim.srvRun hgRemoveByPatternOn; rw [remove_coll]; rfl
  | removeBelief src e => unfold Prim.srvRun hgRemoveBeliefOn; rw [remove_coll]; rfl
  | destroy => rfl
  | query q => cases q <;> rfl

theorem op_coll (w : Char → Nat) (k : Nat) : (Op.srvRun (Server.mysqlColl w k) : Op F → M Unit) = Op.coRun w k := by
  funext op
  cases op with
  | prim p => exact congrFun (prim_coll w k) p
  | addMany es ts => unfold Op.srvRun; rw [add_coll]; rfl
  | addBelief src e ts => unfold Op.srvRun; rw [addBelief_coll]; rfl
  | addBeliefs src e ts => unfold Op.srvRun; rw [addBelief_coll]; rfl
  | batch ps => unfold Op.srvRun; rw [prim_coll]; rfl
  | degree v => rfl
  | timestamp v => rfl

/-! ### servers that agree -/

variable {p : Char → Bool} {q : Int → Prop} {a b : Server}

theorem Fine.pattern (hF : Fine p V) {ps : List (Val F)} (hp : PatternOver V ps) : patSent p ps = true := by
  unfold patSent
  rw [Bool.and_eq_true, List.all_eq_true]
  constructor
  · intro x hx
    rcases hp.over x hx with rfl | h
    · rfl
    · exact (hF x h).1
  · cases hl : (ps.filter fun x => !x.isNone).getLast? with
    | none => rfl
    | some y =>
      have hy := List.mem_of_getLast? hl
      rw [List.mem_filter] at hy
      rcases hp.over y hy.1 with rfl | h
      · simp [Val.isNone] at hy
      · exact (hF y h).2

theorem Fine.edge (hF : Fine p V) {e : Val F} (he : EdgeOver V e) : e.uses p = true :=
  (edge_uses he).2 (patSent_uses (hF.pattern he.pattern))

theorem patternOn_same (hab : Server.Agree p q a b) (ha : HasAscii p) (hV : Vocab V) {c : Bool} {ps : List (Val F)}
    (hp : PatternOver V ps) (h : patSent p ps = true) :
    (pattern2edgesOn a (.seq c ps) : M (List (Val F))) = pattern2edgesOn b (.seq c ps) := by
  unfold pattern2edgesOn
  have hit : (Val.seq c ps).iter = .ok ps := rfl
  rw [hit, liftE_bind, liftE_bind]
  cases hs : strPlus1 (nodes2str (ps.filter fun x => !x.isNone)) with
  | error er => simp only [hs]; rfl
  | ok t' =>
    simp only [hs, liftE_bind]
    have := range_sent (cd := ⟨p, p⟩) ha hV hp hs
    rw [h] at this
    simp only [List.all_cons, List.all_nil, Bool.and_true, Bool.and_eq_true] at this
    simp only [hab.selectRange _ _ _ this.1 this.2]

theorem existsOn_same (hab : Server.Agree p q a b) (ha : HasAscii p) (hV : Vocab V) (hF : Fine p V) {e : Val F}
    (he : EdgeOver V e) : existsOn a e = existsOn b e := by
  unfold existsOn
  have := patternOn_same hab ha hV (c := false) he.pattern (hF.pattern he.pattern)
  rw [show (Val.seq false e.elems) = e from he.tup_elems.symm] at this
  rw [this]

theorem str2permsOn_same (hab : Server.Agree p q a b) (ha : HasAscii p) {t : Str} (h : t.all p = true) :
    (str2permsOn a t : M (List (Val F))) = str2permsOn b t := by
  unfold str2permsOn
  cases hs : strPlus1 (t ++ lit " ") with
  | error er => simp only [hs]; rfl
  | ok t' =>
    simp only [hs, liftE_bind]
    have := space_sent (cd := ⟨p, p⟩) ha t hs
    simp only [List.all_cons, List.all_nil, Bool.and_true, h, Bool.and_eq_true] at this
    simp only [hab.selectRange _ _ _ this.1 this.2]

theorem starOn_same (hab : Server.Agree p q a b) (ha : HasAscii p) {v : Val F} (h : v.uses p = true) :
    (hgStarOn a v : M (List (Val F))) = hgStarOn b v := by
  have ht : ∀ srv : Server, (hgStarOn srv v : M (List (Val F))) = str2permsOn srv (edge2str v) := by
    intro srv; cases v <;> rfl
  rw [ht, ht, str2permsOn_same hab ha (by rw [edge2str_all ha, h])]

theorem symbolsOn_same (hab : Server.Agree p q a b) (ha : HasAscii p) {r : Str} (h : r.all p = true) :
    hgSymbolsWithRootOn a r = hgSymbolsWithRootOn b r := by
  unfold hgSymbolsWithRootOn
  cases hs : strPlus1 (r ++ lit "/") with
  | error er => simp only [hs]; rfl
  | ok t' =>
    simp only [hs, liftE_bind]
    have := slash_sent (cd := ⟨p, p⟩) ha r hs
    simp only [List.all_cons, List.all_nil, Bool.and_true, h, Bool.and_eq_true] at this
    simp only [hab.selectRange _ _ _ this.1 this.2]

theorem degreeOn_same (hab : Server.Agree p q a b) (ha : HasAscii p) {v : Val F} (h : v.uses p = true) :
    hgDegreeOn a v = hgDegreeOn b v ∧ hgTimestampOn a v = hgTimestampOn b v := by
  have : (edge2str v).all p = true := (edge2str_all ha v).trans h
  unfold hgDegreeOn hgTimestampOn
  simp only [hab.selectVertex _ _ this]
  exact ⟨trivial, trivial⟩

theorem addStrOn_same (hab : Server.Agree p q a b) {t : Str} (h : t.all p = true) (d : Int) {n : Int} (hn : q n) :
    addStrOn a t d n = addStrOn b t d n := by
  unfold addStrOn updateOrInsertVertexOn
  simp only [hab.updateVertex _ _ _ _ h hn, hab.insertVertex _ _ _ _ h hn]

theorem addVertOn_same (hab : Server.Agree p q a b) (ha : HasAscii p) {x : Val F} (h : x.uses p = true) {n : Int}
    (hn : q n) : addVertOn a n x = addVertOn b n x := by
  have h' : (edge2str x).all p = true := (edge2str_all ha x).trans h
  unfold addVertOn incDegreeOn
  simp only [hab.bumpDegree _ _ _ h', addStrOn_same hab h' 1 hn]

theorem addRawOn_same (hab : Server.Agree p q a b) (ha : HasAscii p) (hV : Vocab V) (hF : Fine p V) {e : Val F}
    (he : EdgeOver V e) {n : Int} (hn : q n) : addRawOn a e n = addRawOn b e n := by
  have hu := patSent_uses (hF.pattern he.pattern)
  have e1 := existsOn_same hab ha hV hF he
  have e2 : forEach (addVertOn a n) e.elems = forEach (addVertOn b n) e.elems :=
    forEach_congr fun x hx => addVertOn_same hab ha (hu x hx) hn
  have e3 : addStrOn a (edge2str e) 0 n = addStrOn b (edge2str e) 0 n :=
    addStrOn_same hab ((edge2str_all ha e).trans (hF.edge he)) 0 hn
  have e4 : writeEdgePermutationsOn a e.elems = writeEdgePermutationsOn b e.elems := by
    unfold writeEdgePermutationsOn
    rw [doWithPerms_eq he.elems_ne, doWithPerms_eq he.elems_ne]
    apply forEach_congr
    intro t ht
    have ht' : (edge2str (F := F) (.str t)).all p = true := rows_all ha hu t ht
    unfold writeEdgePermutationOn updateOrInsertPermOn
    simp only [hab.updatePerm _ _ ht', hab.insertPerm _ _ ht']
  unfold addRawOn
  rw [e1, iter_edge he]
  simp only [liftE_bind, e2, e3, e4]

theorem removeRawOn_same (hab : Server.Agree p q a b) (ha : HasAscii p) (hV : Vocab V) (hF : Fine p V) {e : Val F}
    (he : EdgeOver V e) : removeRawOn a e = removeRawOn b e := by
  have hu := patSent_uses (hF.pattern he.pattern)
  have e1 := existsOn_same hab ha hV hF he
  have e2 : forEach (fun v => do let _ ← decDegreeOn a (edge2str v)) e.elems =
      forEach (fun v => do let _ ← decDegreeOn b (edge2str v)) e.elems := by
    apply forEach_congr
    intro x hx
    unfold decDegreeOn
    simp only [hab.bumpDegree _ _ _ ((edge2str_all ha x).trans (hu x hx))]
  have e3 : removeStrOn a (edge2str e) = removeStrOn b (edge2str e) := by
    unfold removeStrOn
    simp only [hab.deleteVertex _ _ ((edge2str_all ha e).trans (hF.edge he))]
  have e4 : removeEdgePermutationsOn a e.elems = removeEdgePermutationsOn b e.elems := by
    unfold removeEdgePermutationsOn
    rw [doWithPerms_eq he.elems_ne, doWithPerms_eq he.elems_ne]
    apply forEach_congr
    intro t ht
    have ht' : (edge2str (F := F) (.str t)).all p = true := rows_all ha hu t ht
    unfold removeEdgePermutationOn
    simp only [hab.deletePerm _ _ ht']
  unfold removeRawOn
  rw [e1, iter_edge he]
  simp only [liftE_bind, e2, e3, e4]

theorem addOn_single {srv : Server} {e h : Val F} (hh : e.head0 = .ok h) (hs : h.isSeq = false) (n : Int) :
    hgAddOn srv e n = (addRawOn srv e n >>= fun _ => Pure.pure e) := by
  unfold hgAddOn
  rw [hh, liftE_bind]
  simp only [hs, Bool.false_eq_true, if_false]

theorem removeOn_single {srv : Server} {e h : Val F} (hh : e.head0 = .ok h) (hs : h.isSeq = false) :
    hgRemoveOn srv e = removeRawOn srv e := by
  unfold hgRemoveOn
  rw [hh, liftE_bind]
  simp only [hs, Bool.false_eq_true, if_false]

theorem removeOn_many {srv : Server} {c : Bool} {es : List (Val F)} (hne : es ≠ []) (hes : ∀ e ∈ es, EdgeOver V e) :
    hgRemoveOn srv (.seq c es) = forEach (removeRawOn srv) es := by
  obtain ⟨h, hh, hs⟩ := head0_coll (b := c) hne hes
  unfold hgRemoveOn
  rw [hh, liftE_bind]
  simp only [hs, if_true]
  rfl

theorem addOn_same (hab : Server.Agree p q a b) (ha : HasAscii p) (hV : Vocab V) (hF : Fine p V) {e : Val F}
    (he : EdgeOver V e) {n : Int} (hn : q n) : hgAddOn a e n = hgAddOn b e n := by
  obtain ⟨h, hh, hs⟩ := head0_edge he
  rw [addOn_single hh hs, addOn_single hh hs, addRawOn_same hab ha hV hF he hn]

theorem removeOn_same (hab : Server.Agree p q a b) (ha : HasAscii p) (hV : Vocab V) (hF : Fine p V) {e : Val F}
    (he : EdgeOver V e) : hgRemoveOn a e = hgRemoveOn b e := by
  obtain ⟨h, hh, hs⟩ := head0_edge he
  rw [removeOn_single hh hs, removeOn_single hh hs, removeRawOn_same hab ha hV hF he]

theorem addManyOn_same (hab : Server.Agree p q a b) (ha : HasAscii p) (hV : Vocab V) (hF : Fine p V) {c : Bool}
    {es : List (Val F)} (hne : es ≠ []) (hes : ∀ e ∈ es, EdgeOver V e) {n : Int} (hn : q n) :
    hgAddOn a (.seq c es) n = hgAddOn b (.seq c es) n := by
  obtain ⟨k, hk, hks⟩ := head0_coll (b := c) hne hes
  have : forEach (fun e => (do let _ ← addRawOn a e n : M Unit)) es =
      forEach (fun e => (do let _ ← addRawOn b e n : M Unit)) es := by
    apply forEach_congr
    intro e he
    rw [addRawOn_same hab ha hV hF (hes e he) hn]
  have hit : (Val.seq c es).iter = .ok es := rfl
  unfold hgAddOn
  rw [hk, hit]
  simp only [liftE_bind, hks, if_true]
  rw [this]

theorem sourcesOn_same (hab : Server.Agree p q a b) (ha : HasAscii p) (hV : Vocab V) (hF : Fine p V) {e : Val F}
    (h1 : V (.str (lit "src/1"))) (h2 : V e) : (hgSourcesOn a e : M (List (Val F))) = hgSourcesOn b e := by
  have hp := sources_pattern h1 h2
  have := patternOn_same hab ha hV (c := false) hp (hF.pattern hp)
  unfold hgSourcesOn
  rw [this]

theorem Query.onSame (hab : Server.Agree p q a b) (ha : HasAscii p) (hV : Vocab V) (hF : Fine p V) {x : Query F}
    (hx : x.Over V) (h : (Prim.query x).AsksIn p) : x.srvRun a = x.srvRun b := by
  cases x with
  | «exists» e => simp only [Query.srvRun]; rw [existsOn_same hab ha hV hF hx]
  | pattern ps =>
    simp only [Query.srvRun]
    rw [show pattern2edgesOn a (.tup ps) = pattern2edgesOn b (.tup ps) from patternOn_same hab ha hV (c := false) hx (hF.pattern hx)]
  | star c => simp only [Query.srvRun]; rw [starOn_same hab ha (hF c hx.1).1]
  | symbolsWithRoot r => simp only [Query.srvRun]; rw [symbolsOn_same hab ha h]
  | sources e => simp only [Query.srvRun]; rw [sourcesOn_same hab ha hV hF hx.1 hx.2]
  | fAll => rfl

/-- A batchable call; for `remove_by_pattern`, the edges that are found have to be over the vocabulary. -/
theorem Prim.onSame (hab : Server.Agree p q a b) (ha : HasAscii p) (hV : Vocab V) (hF : Fine p V) {x : Prim F}
    (hx : x.Over V) (h : x.AsksIn p) (hq : x.Stamped q) {s : St}
    (hf : ∀ ps, PatternOver V ps → ∃ r s', pattern2edgesOn b (.tup ps) s = (.ok r, s') ∧ ∀ e ∈ r, EdgeOver V e) :
    x.srvRun a s = x.srvRun b s := by
  cases x with
  | add e n => simp only [Prim.srvRun]; rw [addOn_same hab ha hV hF hx hq]
  | remove e => simp only [Prim.srvRun]; rw [removeOn_same hab ha hV hF hx]
  | removeMany es =>
    simp only [Prim.srvRun]
    rw [removeOn_many hx.1 hx.2, removeOn_many hx.1 hx.2, forEach_congr fun e he => removeRawOn_same hab ha hV hF (hx.2 e he)]
  | removeByPattern ps =>
    obtain ⟨r, s', hr, hrV⟩ := hf ps hx
    have hp : pattern2edgesOn a (.tup ps) = pattern2edgesOn b (.tup ps) :=
      patternOn_same hab ha hV (c := false) hx (hF.pattern hx)
    simp only [Prim.srvRun, hgRemoveByPatternOn]
    rw [hp, bind_run _ _ _ hr, bind_run _ _ _ hr, forEach_congr fun e he => removeOn_same hab ha hV hF (hrV e he)]
  | removeBelief src e =>
    have hb : BeliefOver V src e := hx
    have h1 : hgRemoveOn a (.tup [.str constSource, e, src]) = hgRemoveOn b (.tup [.str constSource, e, src]) :=
      removeOn_same hab ha hV hF (e := support e src) (support_over hb)
    simp only [Prim.srvRun, hgRemoveBeliefOn]
    rw [h1, sourcesOn_same hab ha hV hF hb.srcConst hb.fact, removeOn_same hab ha hV hF hb.edge]
  | destroy => rfl
  | query y => exact congrFun (Query.onSame hab ha hV hF hx h) s

/-- One call outside a batch. -/
theorem Op.onSame (hab : Server.Agree p q a b) (ha : HasAscii p) (hV : Vocab V) (hF : Fine p V) {op : Op F}
    (hop : op.Over V) (h : op.AsksIn p) (hq : op.Stamped q) {s : St}
    (hf : ∀ ps, PatternOver V ps → ∃ r s', pattern2edgesOn b (.tup ps) s = (.ok r, s') ∧ ∀ e ∈ r, EdgeOver V e)
    (hbatch : ∀ xs, op = .batch xs → op.srvRun a s = op.srvRun b s) : op.srvRun a s = op.srvRun b s := by
  cases op with
  | prim x => exact Prim.onSame hab ha hV hF hop h hq hf
  | addMany es n => simp only [Op.srvRun]; rw [addManyOn_same hab ha hV hF hop.1 hop.2 hq]
  | addBelief src e n =>
    have hb : BeliefOver V src e := hop
    have : hgAddOn a (.tup [e, .tup [.str constSource, e, src]]) n = hgAddOn b (.tup [e, .tup [.str constSource, e, src]]) n := by
      refine addManyOn_same hab ha hV hF (c := false) (es := [e, support e src]) (by simp) ?_ hq
      intro x hx
      simp only [List.mem_cons, List.not_mem_nil, or_false] at hx
      rcases hx with rfl | rfl
      · exact hb.edge
      · exact support_over hb
    simp only [Op.srvRun, hgAddBeliefOn]
    rw [beliefEdges_single hb.edge]
    simp only [liftE_bind]
    exact bind_same (congrFun this s) fun _ _ _ => rfl
  | addBeliefs src es n =>
    have hb : ∀ e ∈ es, BeliefOver V src e := hop.2
    have hne : es.flatMap (fun e => [e, support e src]) ≠ [] := by
      have := hop.1
      cases es with
      | nil => contradiction
      | cons e es => simp
    have hall : ∀ x ∈ es.flatMap (fun e => [e, support e src]), EdgeOver V x := by
      intro x hx
      rw [List.mem_flatMap] at hx
      obtain ⟨e, he, hx⟩ := hx
      simp only [List.mem_cons, List.not_mem_nil, or_false] at hx
      rcases hx with rfl | rfl
      · exact (hb _ he).edge
      · exact support_over (hb _ he)
    simp only [Op.srvRun, hgAddBeliefOn]
    rw [beliefEdges_many (src := src) hop.1 (fun e he => (hb e he).edge)]
    simp only [liftE_bind]
    exact bind_same (congrFun (addManyOn_same hab ha hV hF (c := true) hne hall hq) s) fun _ _ _ => rfl
  | batch xs => exact hbatch xs rfl
  | degree v => simp only [Op.srvRun]; rw [(degreeOn_same hab ha h).1]
  | timestamp v => simp only [Op.srvRun]; rw [(degreeOn_same hab ha h).2]

/-! ### a server that agrees with SQLite -/

theorem prim_sqlite (x : Prim F) : x.srvRun Server.sqlite = x.run := by
  cases x with
  | query y => cases y <;> rfl
  | _ => rfl

theorem op_sqlite (op : Op F) : op.srvRun Server.sqlite = op.run := by
  cases op with
  | prim x => exact prim_sqlite x
  | batch xs =>
    show hgBatchExec (xs.map (Prim.srvRun Server.sqlite)) = hgBatchExec (xs.map Prim.run)
    rw [show (Prim.srvRun Server.sqlite : Prim F → M Unit) = Prim.run from funext prim_sqlite]
  | _ => rfl

theorem found_sqlite (hV : Vocab V) {A : Abs F} (hA : AbsOk V A) {s : St} (hu : s.usable) (hw : s.work = A.conc)
    (ps : List (Val F)) (hp : PatternOver V ps) :
    ∃ r s', pattern2edgesOn Server.sqlite (.tup ps) s = (.ok r, s') ∧ ∀ e ∈ r, EdgeOver V e := by
  obtain ⟨r, e, _, hm⟩ := pattern2edges_run hV hA (b := false) hp hu hw
  exact ⟨r, s, e, fun x hx => hA.over x ((hm x).1 hx).1⟩

theorem Prim.likeAll (hab : Server.Agree p q a Server.sqlite) (ha : HasAscii p) (hV : Vocab V) (hF : Fine p V)
    (xs : List (Prim F)) (hxs : ∀ x ∈ xs, x.Over V) (h : ∀ x ∈ xs, x.AsksIn p) (hq : ∀ x ∈ xs, x.Stamped q) :
    ∀ {A : Abs F} {S : Spec F} {s : St}, AbsOk V A → Rel A S → s.usable → s.work = A.conc →
    forEach (Prim.srvRun a) xs s = forEach Prim.run xs s := by
  induction xs with
  | nil => intro A S s _ _ _ _; exact forEach_nil_run.trans forEach_nil_run.symm
  | cons x xs ih =>
    intro A S s hA hR hu hw
    have h1 := Prim.onSame hab ha hV hF (hxs x (by simp)) (h x (by simp)) (hq x (by simp)) (found_sqlite hV hA hu hw)
    rw [prim_sqlite] at h1
    obtain ⟨A', hA', hR', s1, e1, st1⟩ := Prim.sim hV (hxs x (by simp)) A S s hA hR hu hw
    rw [forEach_cons_run e1, forEach_cons_run (h1.trans e1)]
    exact ih (fun y hy => hxs y (by simp [hy])) (fun y hy => h y (by simp [hy])) (fun y hy => hq y (by simp [hy])) hA' hR'
      (st1.usable hu) st1.work

theorem Op.like (hab : Server.Agree p q a Server.sqlite) (ha : HasAscii p) (hV : Vocab V) (hF : Fine p V) {op : Op F}
    (hop : op.Over V) (h : op.AsksIn p) (hq : op.Stamped q) {A : Abs F} {S : Spec F} {s : St} (hA : AbsOk V A) (hR : Rel A S)
    (hcur : s.cur = none) (hw : s.work = A.conc) : op.srvRun a s = op.run s := by
  rw [← op_sqlite]
  refine Op.onSame hab ha hV hF hop h hq (found_sqlite hV hA (St.usable_of_none hcur) hw) ?_
  rintro xs rfl
  rw [op_sqlite]
  show hgBatchExec (xs.map (Prim.srvRun a)) s = hgBatchExec (xs.map Prim.run) s
  unfold hgBatchExec sqlBatchExec
  have hopen : openCursor false s = (.ok .shared, { s with cur := some true }) := by
    unfold openCursor; simp [hcur]
  rw [bind_run _ _ _ hopen, bind_run _ _ _ hopen, forEach_map, forEach_map]
  exact bind_same (Prim.likeAll hab ha hV hF xs hop h hq (s := { s with cur := some true }) hA hR (by simp [St.usable]) hw)
    fun _ _ _ => rfl

/-! ### MySQL -/

/-- The characters that can be sent and stored. -/
def Codec.both (cd : Codec) : Char → Bool := fun c => cd.sends c && cd.stores c

theorem both_all {cd : Codec} {t : Str} (h : t.all cd.both = true) : t.all cd.sends = true ∧ t.all cd.stores = true := by
  simp only [List.all_eq_true, Codec.both, Bool.and_eq_true] at h ⊢
  exact ⟨fun c hc => (h c hc).1, fun c hc => (h c hc).2⟩

theorem mysql_agrees (cd : Codec) (w : Char → Nat) (k : Nat) :
    Server.Agree cd.both (fun n => fits64 n = true) (Server.mysql cd w k) (Server.mysqlColl w k) where
  updateVertex c t d n h hn := by
    obtain ⟨h1, h2⟩ := both_all h
    funext s
    simp only [Server.mysql, Server.mysqlColl, hn]
    rw [writeEnc_ok (cd := cd) (ts := [t]) (by simpa using h1)]
    unfold execWrite
    split <;> simp_all
  insertVertex c t d n h hn := by
    obtain ⟨h1, h2⟩ := both_all h
    funext s
    simp only [Server.mysql, Server.mysqlColl, hn]
    rw [insertEnc_ok h1 h2]
    unfold execWrite
    split <;> simp_all
  updatePerm c t h := writeEnc_ok (cd := cd) (ts := [t]) (by simpa using (both_all h).1) _ _
  insertPerm c t h := insertEnc_ok (both_all h).1 (both_all h).2 _ _
  deletePerm c t h := writeEnc_ok (cd := cd) (ts := [t]) (by simpa using (both_all h).1) _ _
  deleteVertex c t h := writeEnc_ok (cd := cd) (ts := [t]) (by simpa using (both_all h).1) _ _
  bumpDegree c d t h := writeEnc_ok (cd := cd) (ts := [t]) (by simpa using (both_all h).1) _ _
  selectRange c t u h h' := readEnc_ok (cd := cd) (ts := [t, u]) (by
    simp only [List.all_cons, List.all_nil, (both_all h).1, (both_all h').1, Bool.and_self]) _ _
  selectVertex c t h := readEnc_ok (cd := cd) (ts := [t]) (by simpa using (both_all h).1) _ _

variable {w : Char → Nat} {S : Char → Prop} {cd : Codec} {k : Nat}

theorem found_coll (hS : Suits w S V) (hV : Vocab V) {A : Abs F} (hA : AbsOk V A) {s : St} (hu : s.usable)
    (hw : s.work = A.conc) (ps : List (Val F)) (hp : PatternOver V ps) :
    ∃ r s', pattern2edgesOn (Server.mysqlColl w k) (.tup ps) s = (.ok r, s') ∧ ∀ e ∈ r, EdgeOver V e := by
  obtain ⟨r, e, _, hm⟩ := coPattern_run hS hV hA (b := false) hp hu hw
  exact ⟨r, s, e, fun x hx => hA.over x ((hm x).1 hx).1⟩

theorem Prim.mySameAll (hS : Suits w S V) (hV : Vocab V) (ha : HasAscii cd.both) (hF : Fine cd.both V)
    (xs : List (Prim F)) (hxs : ∀ x ∈ xs, x.Over V) (hcl : ∀ x ∈ xs, x.Clear w S) (h : ∀ x ∈ xs, x.AsksIn cd.both)
    (hq : ∀ x ∈ xs, x.Stamped fun n => fits64 n = true) :
    ∀ {Sp : Spec F} {T : Tally F} {s : St}, Sees V Sp T s → s.usable → Sp.Room k → Neat S k s.work → Smooth k Sp T xs →
    forEach (Prim.srvRun (Server.mysql cd w k)) xs s = forEach (Prim.coRun w k) xs s := by
  induction xs with
  | nil => intro Sp T s _ _ _ _ _; exact forEach_nil_run.trans forEach_nil_run.symm
  | cons x xs ih =>
    intro Sp T s hse hu hr hn hsm
    rw [Smooth] at hsm
    obtain ⟨A, hA, hR, hw⟩ := hse.spec
    have h0 := Prim.onSame (mysql_agrees cd w k) ha hV hF (hxs x (by simp)) (h x (by simp)) (hq x (by simp))
      (found_coll (k := k) hS hV hA hu hw)
    rw [prim_coll] at h0
    obtain ⟨h1, h2⟩ := Prim.coSame hS hV (hxs x (by simp)) (hcl x (by simp)) hse hu hr hn hsm.1
    obtain ⟨_, s1, r1, hs1, hc1, hr1⟩ := Prim.same hV (hxs x (by simp)) hse hu hr hsm.1
    have hu1 : s1.usable := by unfold St.usable; rw [hc1]; exact hu
    rw [r1] at h2
    rw [forEach_cons_run (h1.trans r1), forEach_cons_run (h0.trans (h1.trans r1))]
    exact ih (fun y hy => hxs y (by simp [hy])) (fun y hy => hcl y (by simp [hy])) (fun y hy => h y (by simp [hy]))
      (fun y hy => hq y (by simp [hy])) hs1 hu1 hr1 h2 hsm.2

theorem Op.mySame (hS : Suits w S V) (hV : Vocab V) (ha : HasAscii cd.both) (hF : Fine cd.both V) {op : Op F}
    (hop : op.Over V) (hcl : op.Clear w S) (h : op.AsksIn cd.both) (hq : op.Stamped fun n => fits64 n = true)
    {Sp : Spec F} {T : Tally F} {s : St} (hse : Sees V Sp T s) (hcur : s.cur = none) (hr : Sp.Room k)
    (hn : Neat S k s.work) (hsm : Smooth k Sp T op.steps) : op.srvRun (Server.mysql cd w k) s = op.coRun w k s := by
  obtain ⟨A, hA, hR, hw⟩ := hse.spec
  have h0 : op.srvRun (Server.mysqlColl w k) s = op.coRun w k s := by rw [op_coll]
  rw [← h0]
  refine Op.onSame (mysql_agrees cd w k) ha hV hF hop h hq (found_coll (k := k) hS hV hA (St.usable_of_none hcur) hw) ?_
  rintro xs rfl
  rw [op_coll]
  show hgBatchExec (xs.map (Prim.srvRun (Server.mysql cd w k))) s = hgBatchExec (xs.map (Prim.coRun w k)) s
  unfold hgBatchExec sqlBatchExec
  have hopen : openCursor false s = (.ok .shared, { s with cur := some true }) := by
    unfold openCursor; simp [hcur]
  rw [bind_run _ _ _ hopen, bind_run _ _ _ hopen, forEach_map, forEach_map]
  have h' : Sees V Sp T { s with cur := some true } := ⟨hse.spec, hse.tally⟩
  exact bind_same (Prim.mySameAll hS hV ha hF xs hop hcl h hq h' (by simp [St.usable]) hr hn hsm) fun _ _ _ => rfl

theorem runOpsMy_same (hS : Suits w S V) (hV : Vocab V) (ha : HasAscii cd.both) (hF : Fine cd.both V) (ops : List (Op F))
    (hops : ∀ op ∈ ops, op.Over V) (hcl : ∀ op ∈ ops, op.Clear w S) (h : ∀ op ∈ ops, op.AsksIn cd.both)
    (hq : ∀ op ∈ ops, op.Stamped fun n => fits64 n = true) :
    ∀ {Sp : Spec F} {T : Tally F} {s : St}, Sees V Sp T s → s.cur = none → Sp.Room k → Neat S k s.work →
    Smooth k Sp T (ops.flatMap Op.steps) → runOpsOn (Server.mysql cd w k) ops s = runOps ops s := by
  induction ops with
  | nil => intro Sp T s _ _ _ _ _; exact forEach_nil_run.trans forEach_nil_run.symm
  | cons op ops ih =>
    intro Sp T s hse hcur hr hn hsm
    rw [List.flatMap_cons] at hsm
    obtain ⟨hs1, hs2⟩ := hsm.append
    rw [Op.steps_fold, Op.tally_steps] at hs2
    have h0 := Op.mySame (cd := cd) hS hV ha hF (hops op (by simp)) (hcl op (by simp)) (h op (by simp)) (hq op (by simp))
      hse hcur hr hn hs1
    obtain ⟨h1, h2⟩ := Op.coSame hS hV (hops op (by simp)) (hcl op (by simp)) hse hcur hr hn hs1
    obtain ⟨_, s1, r1, hse1, hc1, hr1⟩ := Op.same hV (hops op (by simp)) hse hcur hr hs1
    rw [r1] at h2
    show forEach (Op.srvRun (Server.mysql cd w k)) (op :: ops) s = forEach Op.run (op :: ops) s
    rw [forEach_cons_run r1, forEach_cons_run (h0.trans (h1.trans r1))]
    exact ih (fun o ho => hops o (by simp [ho])) (fun o ho => hcl o (by simp [ho])) (fun o ho => h o (by simp [ho]))
      (fun o ho => hq o (by simp [ho])) hse1 hc1 hr1 h2 hs2

end GB
