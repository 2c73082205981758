import Verif.Props.History
import Verif.Proofs.Known
import Verif.Proofs.Sync

/-!
Properties C24-C34 (continued from `Props/History.lean`): timestamps of symbols, `destroy`, `f_all`, bulk
operations, order independence, key integrity, absence of phantoms, beliefs, patterns, batches.
-/

set_option linter.unusedSectionVars false
set_option linter.unusedVariables false

namespace GB

variable {F : Type} [PyFloat F] [DecidableEq F] {V : Val F → Prop}

theorem over_append {ops : List (Op F)} (hops : ∀ op ∈ ops, op.Over V) {op : Op F} (ho : op.Over V) :
    ∀ o ∈ ops ++ [op], o.Over V := by
  intro o h
  rcases List.mem_append.1 h with h | h
  · exact hops o h
  · simp only [List.mem_singleton] at h; subst h; exact ho

/-! ### C24, continued -/

/-- C24: the timestamp of a known symbol or number survives every operation that does not erase the whole
graph. -/
theorem C24_symbol_kept (hV : Vocab V) (ops : List (Op F)) (hops : ∀ op ∈ ops, op.Over V) (auto : Bool) (s : St)
    (hs : runOps ops (St.new auto) = (.ok (), s)) (v : Val F) (hv : WfVal v) (ha : v.isAtom = true)
    (hk : ((Spec.after ops).known v).isSome = true) (op : Op F) (ho : op.Over V) (hkeep : op.Keeps) :
    ∃ s', op.run s = (.ok (), s') ∧ (hgTimestamp v s').1 = (hgTimestamp v s).1 := by
  have h := shows_of hV hops hs
  obtain ⟨s', e1, h'⟩ := h.op hV ho
  refine ⟨s', e1, ?_⟩
  obtain ⟨t, ht⟩ := Option.isSome_iff_exists.1 hk
  rw [h.timestamp hv, h'.timestamp hv, ht, Spec.op_kept h.edgesOnly ho hkeep ha ht]

/-- C24: an unknown symbol or number (timestamp -1) gets the timestamp of the addition that first mentions
it. -/
theorem C24_symbol_first (hV : Vocab V) (ops : List (Op F)) (hops : ∀ op ∈ ops, op.Over V) (auto : Bool) (s : St)
    (hs : runOps ops (St.new auto) = (.ok (), s)) (v : Val F) (hv : WfVal v) (ha : v.isAtom = true)
    (hk : (Spec.after ops).known v = none) (e : Val F) (he : EdgeOver V e) (hm : v ∈ e.elems) (ts : Int) :
    hgTimestamp v s = (.ok (-1), s) ∧ ∃ s', hgAdd e ts s = (.ok e, s') ∧ hgTimestamp v s' = (.ok ts, s') := by
  have h := shows_of hV hops hs
  refine ⟨by rw [h.timestamp hv, hk]; rfl, ?_⟩
  obtain ⟨A, hA, hR, hw⟩ := h.ex
  obtain ⟨s1, e1, st1⟩ := add_run (q := false) (T := TT) hV hA he ts h.usable hw (fun _ _ _ => trivial)
  have h1 : Shows V s1 ((Spec.after ops).add e ts) :=
    ⟨⟨_, hA.add hV he ts, hR.add he ts, st1.work⟩, st1.cur.trans h.idle, st1.durable (.inl h.idle) h.disk⟩
  refine ⟨s1, e1, ?_⟩
  rw [h1.timestamp hv]
  have hne : v ≠ e := fun h => by rw [h, edge_not_atom he] at ha; simp at ha
  have hnp : ¬ ((Spec.after ops).created e).isSome = true := by
    intro hp
    have := hR.atomsKnown e v hp hm ha
    rw [hk] at this; simp at this
  have : ((Spec.after ops).add e ts).known v = some ts := by
    unfold Spec.add
    rw [if_neg hnp]
    show (if v = e then some ts else if v ∈ e.elems ∧ (Spec.after ops).known v = none then some ts
      else (Spec.after ops).known v) = some ts
    rw [if_neg hne, if_pos ⟨hm, hk⟩]
  rw [this]; rfl

example : ((runOps exOps >>= fun _ => hgTimestamp exE3) (St.new false)).1 = .ok 14 ∧
    ((runOps exOps >>= fun _ => hgTimestamp (sy "size")) (St.new false)).1 = .ok 12 ∧
    ((runOps exOps >>= fun _ => hgTimestamp (sy "moon")) (St.new false)).1 = .ok (-1) := by decide +kernel
/-- An operation that mentions the symbol and keeps it. -/
example : (Op.prim (.remove exE3) : Op Half).Keeps ∧ (Op.prim (.remove exE3) : Op Half).Over PlainVocab :=
  ⟨trivial, edge_of (by decide +kernel)⟩
/-- A symbol unknown after a history. -/
example : (Spec.after ([] : List (Op Half))).known (sy "sky/1") = none ∧ sy "sky/1" ∈ exE1.elems :=
  ⟨rfl, by simp [exE1, Val.elems]⟩

/-! ### C25 -/

/-- C25: `destroy` erases the tables, from any state whatsoever in which no closed cursor is left over. -/
theorem C25_destroy (s : St) (hc : s.cur ≠ some false) :
    ∃ s', hgDestroy s = (.ok (), s') ∧ s'.work = DB.empty ∧ s'.cur = s.cur ∧
      (s.cur = none → s'.disk = DB.empty) := by
  have key : ∀ s : St, s.usable → ∃ s', hgDestroy s = (.ok (), s') ∧ s'.work = DB.empty ∧ s'.cur = s.cur := by
    intro s hu
    obtain ⟨s', e, st⟩ := destroy_run (q := false) hu
    exact ⟨s', e, st.work, st.cur⟩
  obtain ⟨s', e, hw, hcur⟩ := key s hc
  refine ⟨s', e, hw, hcur, ?_⟩
  intro hn
  have := e
  unfold hgDestroy sqlDestroy at this
  have h1 : openCursor true s = (.ok .own, s) := by unfold openCursor; rw [hn]; rfl
  rw [bind_run _ _ _ h1] at this
  cases ha : s.autocommit with
  | true =>
    simp only [bind, M.bind, execWrite, ha, closeCursor, St.commit, hn] at this
    simp at this
    rw [← this]; rfl
  | false =>
    simp only [bind, M.bind, execWrite, ha, closeCursor, St.commit, hn] at this
    simp at this
    rw [← this]; rfl

/-- C25: with empty tables every query is empty, every degree is 0, every timestamp is -1 (for any value at
all), and `f_all` yields nothing. -/
theorem C25_empty (hV : Vocab V) (s : St) (hw : s.work = DB.empty) (hc : s.cur = none) :
    (∀ e, EdgeOver V e → hgExists e s = (.ok false, s)) ∧
    (∀ ps, PatternOver V ps → hgPattern2edges (.tup ps) s = (.ok [], s)) ∧
    (∀ c, V c → c.isAtom = true → hgStar c s = (.ok [], s)) ∧
    (∀ r, (∀ c ∈ r, isSpace c = false) → r.head? ≠ some '(' → hgSymbolsWithRoot r s = (.ok [], s)) ∧
    (∀ e, V (.str (lit "src/1")) → V e → hgSources e s = (.ok [], s)) ∧
    (∀ v : Val F, hgDegree v s = (.ok 0, s)) ∧
    (∀ v : Val F, hgTimestamp v s = (.ok (-1), s)) ∧
    (∀ (β : Type) (f : Val F → Int → β), hgFAll f s = (.ok [], s)) := by
  have hA : AbsOk V (Abs.empty : Abs F) := AbsOk.empty
  have hw' : s.work = (Abs.empty : Abs F).conc := hw
  have hu := St.usable_of_none hc
  have nil_of : ∀ {α : Type} {r : List α}, (∀ x, x ∈ r → False) → r = [] :=
    fun h => List.eq_nil_iff_forall_not_mem.2 h
  refine ⟨?_, ?_, ?_, ?_, ?_, ?_, ?_, ?_⟩
  · intro e he
    exact existsM_run hV hA he hu hw'
  · intro ps hp
    obtain ⟨res, h1, _, h3⟩ := pattern2edges_run hV hA (b := false) hp hu hw'
    have : res = [] := nil_of fun x hx => by simpa [Abs.empty] using ((h3 x).1 hx).1
    subst this; exact h1
  · intro c hcv ha
    obtain ⟨res, h1, _, h3⟩ := star_run hV hA hcv ha hu hw'
    have : res = [] := nil_of fun x hx => by simpa [Abs.empty] using ((h3 x).1 hx).1
    subst this; exact h1
  · intro r h1 h2
    obtain ⟨res, h1, _, h3⟩ := symbolsWithRoot_run hV hA h1 h2 hu hw'
    have : res = [] := nil_of fun x hx => by simpa [Abs.empty] using ((h3 x).1 hx).2
    subst this; exact h1
  · intro e h1 h2
    obtain ⟨res, h1, _, h3⟩ := sources_run hV hA h1 h2 hu hw'
    have : res = [] := nil_of fun x hx => by simpa [Abs.empty] using (h3 x).1 hx
    subst this; exact h1
  · intro v
    have h1 : openCursor true s = (.ok .own, s) := by unfold openCursor; rw [hc]; rfl
    have h2 : execRead .own (fun db => db.selectVertex (edge2str v)) s = (.ok [], s) := by
      unfold execRead; rw [hw]; rfl
    unfold hgDegree sqlDegree
    rw [bind_run _ _ _ h1, bind_run _ _ _ h2]
    have h3 : closeCursor true false s = (.ok (), s) := by unfold closeCursor; rw [hc]; rfl
    simp only
    rw [bind_run _ _ _ h3]; rfl
  · intro v
    have h1 : openCursor true s = (.ok .own, s) := by unfold openCursor; rw [hc]; rfl
    have h2 : execRead .own (fun db => db.selectVertex (edge2str v)) s = (.ok [], s) := by
      unfold execRead; rw [hw]; rfl
    unfold hgTimestamp sqlTimestamp
    rw [bind_run _ _ _ h1, bind_run _ _ _ h2]
    have h3 : closeCursor true false s = (.ok (), s) := by unfold closeCursor; rw [hc]; rfl
    simp only
    rw [bind_run _ _ _ h3]; rfl
  · intro β f
    exact fAll_run hA.wf f hu hw'

/-- C25: after `destroy` any history, of well-formed operations or not, gives the same results and contents
as on a new graph. -/
theorem C25_fresh (s s' : St) (hc : s.cur = none) (hd : hgDestroy s = (.ok (), s')) (ops : List (Op F))
    (auto : Bool) : (runOps ops s').1 = (runOps ops (St.new auto)).1 ∧
      (runOps ops s').2.work = (runOps ops (St.new auto)).2.work := by
  obtain ⟨t, e, hw, hcur, _⟩ := C25_destroy s (by rw [hc]; simp)
  have : t = s' := by have := e.symm.trans hd; simpa using this
  subst this
  obtain ⟨h1, h2, _⟩ := (runOps_tame ops).indep t (St.new auto) hw (by rw [hcur, hc]; rfl)
  exact ⟨h1, h2⟩

/-- A state no well-formed history produces, on which `destroy` works. -/
example : ∃ s', hgDestroy ⟨⟨[⟨lit "x", -3, 0⟩], [lit "junk"]⟩, DB.empty, [], none, false⟩ = (.ok (), s') ∧
    s'.work = DB.empty := by
  obtain ⟨s', h1, h2, _⟩ := C25_destroy ⟨⟨[⟨lit "x", -3, 0⟩], [lit "junk"]⟩, DB.empty, [], none, false⟩ (by simp)
  exact ⟨s', h1, h2⟩

/-! ### C26 -/

/-- C26: `f_all` applies the function exactly once to each known vertex, with the degree that `degree`
reports. -/
theorem C26_f_all (hV : Vocab V) (ops : List (Op F)) (hops : ∀ op ∈ ops, op.Over V) (auto : Bool) (s : St)
    (hs : runOps ops (St.new auto) = (.ok (), s)) {β : Type} (f : Val F → Int → β) :
    ∃ L : List (Val F × Int), hgFAll f s = (.ok (L.map fun p => f p.1 p.2), s) ∧ (L.map Prod.fst).Nodup ∧
      (∀ v, v ∈ L.map Prod.fst ↔ ((Spec.after ops).known v).isSome = true) ∧
      ∀ p ∈ L, hgDegree p.1 s = (.ok p.2, s) := by
  obtain ⟨A, hA⟩ := after_of hV hops hs
  refine ⟨A.verts.map fun r => (r.v, r.deg), ?_, ?_, ?_, ?_⟩
  · unfold hgFAll
    rw [fAll_run hA.ok.wf f hA.usable hA.work, List.map_map]
    rfl
  · rw [List.map_map]
    exact hA.ok.keys
  · intro v
    rw [hA.rel.known, List.map_map]
    unfold tsOf lookV
    rw [Option.isSome_map, List.find?_isSome, List.mem_map]
    simp
  · intro p hp
    obtain ⟨r, hr, rfl⟩ := List.mem_map.1 hp
    unfold hgDegree
    rw [degree_run hA.ok.wf (hA.ok.wf r hr) hA.idle hA.work]
    have : lookV r.v A.verts = some r := by
      have hn := hA.ok.keys
      revert hr hn
      generalize A.verts = vs
      intro hr hn
      induction vs with
      | nil => simp at hr
      | cons x vs ih =>
        rw [List.map_cons, List.nodup_cons] at hn
        unfold lookV
        rw [List.find?_cons]
        by_cases hx : x.v = r.v
        · simp only [hx, decide_true]
          rcases List.mem_cons.1 hr with rfl | h
          · rfl
          · exact absurd (hx ▸ List.mem_map.2 ⟨r, h, rfl⟩ : x.v ∈ vs.map VEnt.v) hn.1
        · simp only [hx, decide_false]
          rcases List.mem_cons.1 hr with rfl | h
          · exact absurd rfl hx
          · exact ih h hn.2
    rw [this]; rfl

/-- C26: the known vertices include every present edge, and every symbol or number in one. -/
theorem C26_known (hV : Vocab V) (ops : List (Op F)) (hops : ∀ op ∈ ops, op.Over V) (e : Val F)
    (hp : (Spec.after ops).Present e) :
    ((Spec.after ops).known e).isSome = true ∧
      ∀ v ∈ e.elems, v.isAtom = true → ((Spec.after ops).known v).isSome = true := by
  obtain ⟨s, A, h⟩ := after_exists hV ops hops false
  refine ⟨?_, fun v hv ha => h.rel.atomsKnown e v hp hv ha⟩
  rw [h.rel.created e ((h.rel.present e).1 hp)]
  exact hp

example : ((runOps exOps >>= fun _ => hgFAll (fun (v : HVal) d => (edge2str v, d))) (St.new false)).1 =
    .ok [(lit "is/1", 1), (lit "sky/1", 2), (lit "blue/1", 1), (edge2str exE1, 2), (lit "says", 1), (lit "mary", 1),
      (edge2str exE2, 0), (lit "size", 1), (lit "7", 1), (lit "loves", 0), (lit "src/1", 1), (lit "john", 1),
      (lit "(src/1 (is/1 sky/1 blue/1) john)", 0), (edge2str exE3, 0)] := by decide +kernel

/-! ### C27 -/

/-- C27: adding a collection leaves exactly the same tables as adding its members one by one in order. -/
theorem C27_add_many (hV : Vocab V) (ops : List (Op F)) (hops : ∀ op ∈ ops, op.Over V) (auto : Bool) (s : St)
    (hs : runOps ops (St.new auto) = (.ok (), s)) (b : Bool) (es : List (Val F)) (hne : es ≠ [])
    (hes : ∀ e ∈ es, EdgeOver V e) (ts : Int) :
    ∃ s1 s2, hgAdd (.seq b es) ts s = (.ok (.seq b es), s1) ∧
      runOps (es.map fun e => .prim (.add e ts)) s = (.ok (), s2) ∧ s1.work = s2.work ∧ s1.disk = s2.disk := by
  obtain ⟨A, hA⟩ := after_of hV hops hs
  obtain ⟨s1, e1, st1, hd1, _⟩ := addMany_run hV hA.ok (b := b) hne hes ts hA.idle hA.work
  have hrun : Runs false TT (runOps (es.map fun e => Op.prim (.add e ts))) s ()
      (es.foldl (fun A e => A.add e ts) A).conc := by
    unfold runOps
    rw [forEach_map]
    apply Runs.forEachA Abs.conc (fun A e => A.add e ts) (AbsOk V) _ A s hA.ok (fun _ _ => trivial) hA.usable hA.work
    intro e he A hA _ s hu hw
    refine ⟨?_, hA.add hV (hes e he) ts⟩
    refine Runs.bind (add_run hV hA (hes e he) ts hu hw (fun _ _ _ => trivial)) ?_
    intro s2 st2
    exact Runs.pure' () st2.work
  obtain ⟨s2, e2, st2⟩ := hrun
  refine ⟨s1, s2, e1, e2, st1.work.trans st2.work.symm, ?_⟩
  rw [hd1, st1.work, st2.durable (.inl hA.idle) hA.disk, st2.work]

/-- C27: likewise for removal, from any state whatsoever and whatever the edges, in which no closed cursor is
left over. -/
theorem C27_remove_many (s : St) (b : Bool) (es : List (Val F)) (hne : es ≠ [])
    (hes : ∀ e ∈ es, EdgeOver V e) :
    hgRemove (.seq b es) s = forEach hgRemove es s := by
  obtain ⟨h, hh, hsq⟩ := head0_coll (b := b) hne hes
  unfold hgRemove
  conv => lhs; unfold sqlRemove
  rw [bind_run _ _ _ (liftE_ok hh s)]
  simp only [hsq, if_true]
  rw [bind_run _ _ _ (show liftE (Val.seq b es).iter s = (.ok es, s) from rfl)]
  have : ∀ e ∈ es, removeRaw e = sqlRemove e := by
    intro e he
    apply funext
    intro t
    obtain ⟨h, hh, hsq⟩ := head0_edge (hes e he)
    unfold sqlRemove
    rw [bind_run _ _ _ (liftE_ok hh t)]
    simp only [hsq, Bool.false_eq_true, if_false]
  rw [forEach_congr this]

example : ([exE3, exE4] : List HVal) ≠ [] ∧ ∀ e ∈ [exE3, exE4], EdgeOver PlainVocab e := by
  refine ⟨by simp, ?_⟩
  intro e he
  simp only [List.mem_cons, List.not_mem_nil, or_false] at he
  rcases he with rfl | rfl <;> exact edge_of (by decide +kernel)

/-! ### C28 -/

/-- C28: the order in which a collection is added is not observable. -/
theorem C28_order (hV : Vocab V) (ops : List (Op F)) (hops : ∀ op ∈ ops, op.Over V) (auto : Bool) (s : St)
    (hs : runOps ops (St.new auto) = (.ok (), s)) (es es' : List (Val F)) (hperm : ∀ e, e ∈ es ↔ e ∈ es')
    (hes : ∀ e ∈ es, EdgeOver V e) (ts ts' : Val F → Int) :
    ∃ s1 s2, runOps (es.map fun e => .prim (.add e (ts e))) s = (.ok (), s1) ∧
      runOps (es'.map fun e => .prim (.add e (ts' e))) s = (.ok (), s2) ∧ SameView V s1 s2 := by
  have h := shows_of hV hops hs
  have over : ∀ (l : List (Val F)) (ts : Val F → Int), (∀ e ∈ l, EdgeOver V e) →
      ∀ op ∈ l.map (fun e => (.prim (.add e (ts e)) : Op F)), op.Over V := by
    intro l ts hl op ho
    obtain ⟨e, he, rfl⟩ := List.mem_map.1 ho
    exact hl e he
  obtain ⟨s1, e1, h1⟩ := h.ops hV (over es ts hes)
  obtain ⟨s2, e2, h2⟩ := h.ops hV (over es' ts' (fun e he => hes e ((hperm e).2 he)))
  refine ⟨s1, s2, e1, e2, sameView_of hV h1 h2 ?_⟩
  intro x
  have key : ∀ (l : List (Val F)) (ts : Val F → Int), ((l.map fun e => (.prim (.add e (ts e)) : Op F)).foldl Spec.op
      (Spec.after ops)).Present x ↔ x ∈ l ∨ (Spec.after ops).Present x := by
    intro l ts
    rw [List.foldl_map]
    rw [Spec.foldAdd_present (fun S e => S.op (.prim (.add e (ts e)))) (fun e x => x = e)
      (fun S a x => Spec.add_present S a x (ts a))]
    simp
  rw [key, key, hperm]

/-- The same edges, in another order and with a repetition. -/
example : (∀ e, e ∈ ([exE3, exE4, exE2] : List HVal) ↔ e ∈ [exE2, exE4, exE3, exE2]) ∧
    ∀ e ∈ ([exE3, exE4, exE2] : List HVal), EdgeOver PlainVocab e := by
  refine ⟨fun e => ?_, ?_⟩
  · simp only [List.mem_cons, List.not_mem_nil, or_false]
    grind
  · intro e he
    simp only [List.mem_cons, List.not_mem_nil, or_false] at he
    rcases he with rfl | rfl | rfl <;> exact edge_of (by decide +kernel)

/-! ### C29 -/

/-- C29: every history over a vocabulary runs without any error. -/
theorem C29_no_error (hV : Vocab V) (ops : List (Op F)) (hops : ∀ op ∈ ops, op.Over V) (auto : Bool) :
    (runOps ops (St.new auto)).1 = .ok () := by
  obtain ⟨s, A, h⟩ := after_exists hV ops hops auto
  rw [h.run]

/-- C29: no two rows have the same key; the index holds exactly the rows of the present edges, one per
permutation. -/
theorem C29_keys (hV : Vocab V) (ops : List (Op F)) (hops : ∀ op ∈ ops, op.Over V) (auto : Bool) (s : St)
    (hs : runOps ops (St.new auto) = (.ok (), s)) :
    (s.work.vertices.map VRow.id).Nodup ∧ s.work.perms.Nodup ∧
    (∀ r, r ∈ s.work.perms ↔ ∃ e n p, (Spec.after ops).Present e ∧ n < factorial e.elems.length ∧
      nthperm e.elems n = .ok p ∧ r = nodes2str p ++ lit " " ++ natStr n) ∧
    ∀ l, Lists (Spec.after ops) l → s.work.perms.length = (l.map fun e => factorial e.elems.length).sum := by
  obtain ⟨A, hA⟩ := after_of hV hops hs
  have hne : ∀ e ∈ A.edges, e.elems ≠ [] := by
    intro e he
    obtain ⟨h, t, rfl, _⟩ := hA.ok.over e he
    simp [Val.elems]
  have hwf : ∀ e ∈ A.edges, ∀ x ∈ e.elems, WfVal x := fun e he x hx => hV.wf x ((hA.ok.over e he).mem x hx)
  rw [hA.work]
  refine ⟨?_, ?_, ?_, ?_⟩
  · show ((A.verts.map VEnt.row).map VRow.id).Nodup
    rw [List.map_map]
    have h1 := hA.ok.keys
    rw [List.Nodup, List.pairwise_map] at h1 ⊢
    refine List.Pairwise.imp_of_mem ?_ h1
    intro a b ha hb hab heq
    exact hab (edge2str_inj (hA.ok.wf a ha) (hA.ok.wf b hb) heq)
  · show (A.edges.flatMap fun e => rowsOf e.elems).Nodup
    rw [List.Nodup, List.pairwise_flatMap]
    refine ⟨fun e he => rowsOf_nodup (hwf e he), ?_⟩
    refine List.Pairwise.imp_of_mem ?_ hA.ok.nodup
    intro a b ha hb hab x hx y hy hxy
    subst hxy
    obtain ⟨n, hn, hr⟩ := mem_rowsOf.1 hx
    obtain ⟨m, hm, hr'⟩ := mem_rowsOf.1 hy
    have := (rowOf_inj (hwf a ha) (hwf b hb) hn hm (hr.symm.trans hr')).1
    apply hab
    rw [(hA.ok.over a ha).tup_elems, (hA.ok.over b hb).tup_elems, this]
  · intro r
    show r ∈ (A.edges.flatMap fun e => rowsOf e.elems) ↔ _
    rw [List.mem_flatMap]
    constructor
    · rintro ⟨e, he, hr⟩
      obtain ⟨n, hn, rfl⟩ := mem_rowsOf.1 hr
      have hpne : permN e.elems n ≠ [] := by
        intro h'
        have hp := permN_perm hn
        rw [h'] at hp
        exact hne e he (List.nil_perm.1 hp)
      refine ⟨e, n, permN e.elems n, (hA.rel.present e).2 he, hn, nthperm_permN hn, ?_⟩
      rw [rowOf, nodes2str_snoc hpne, nodes2str, nodeStrs_eq_map]
    · rintro ⟨e, n, p, hp, hn, hnp, rfl⟩
      have he := (hA.rel.present e).1 hp
      refine ⟨e, he, mem_rowsOf.2 ⟨n, hn, ?_⟩⟩
      rw [nthperm_permN hn] at hnp
      have : permN e.elems n = p := by simpa using hnp
      subst this
      have hpne : permN e.elems n ≠ [] := by
        intro h'
        have hp := permN_perm hn
        rw [h'] at hp
        exact hne e he (List.nil_perm.1 hp)
      rw [rowOf, nodes2str_snoc hpne, nodes2str, nodeStrs_eq_map]
  · intro l hl
    show (A.edges.flatMap fun e => rowsOf e.elems).length = _
    have hperm : A.edges.Perm l := (List.perm_ext_iff_of_nodup hA.ok.nodup hl.1).2
      (fun e => (hA.rel.present e).symm.trans (hl.2 e).symm)
    rw [List.length_flatMap, ← (hperm.map _).sum_nat]
    congr 1
    apply List.map_congr_left
    intro e _
    simp [rowsOf]

/-! ### C30 -/

/-- C30: every edge returned by a pattern query was added by some operation of the history. -/
theorem C30_pattern (hV : Vocab V) (ops : List (Op F)) (hops : ∀ op ∈ ops, op.Over V) (auto : Bool) (s : St)
    (hs : runOps ops (St.new auto) = (.ok (), s)) (ps : List (Val F)) (hp : PatternOver V ps) :
    ∃ res, hgPattern2edges (.tup ps) s = (.ok res, s) ∧ ∀ e ∈ res, ∃ op ∈ ops, op.Adds e := by
  obtain ⟨res, h1, _, h3⟩ := C17_pattern hV ops hops auto s hs ps hp
  exact ⟨res, h1, fun e he => Spec.after_phantom ops e ((h3 e).1 he).1⟩

/-- C30: likewise for the star of a symbol or number. -/
theorem C30_star (hV : Vocab V) (ops : List (Op F)) (hops : ∀ op ∈ ops, op.Over V) (auto : Bool) (s : St)
    (hs : runOps ops (St.new auto) = (.ok (), s)) (c : Val F) (hc : V c) (ha : c.isAtom = true) :
    ∃ res, hgStar c s = (.ok res, s) ∧ ∀ e ∈ res, ∃ op ∈ ops, op.Adds e := by
  obtain ⟨res, h1, _, h3⟩ := C19_star hV ops hops auto s hs c hc ha
  exact ⟨res, h1, fun e he => Spec.after_phantom ops e ((h3 e).1 he).1⟩

/-- C30: every source returned was stated by adding a support (as a belief or directly). -/
theorem C30_sources (hV : Vocab V) (ops : List (Op F)) (hops : ∀ op ∈ ops, op.Over V) (auto : Bool) (s : St)
    (hs : runOps ops (St.new auto) = (.ok (), s)) (e : Val F) (h1 : V (.str (lit "src/1"))) (h2 : V e) :
    ∃ res, hgSources e s = (.ok res, s) ∧ ∀ x ∈ res, ∃ op ∈ ops, op.Adds (support e x) := by
  obtain ⟨res, e1, _, e3⟩ := (shows_of hV hops hs).sources hV h1 h2
  exact ⟨res, e1, fun x hx => Spec.after_phantom ops _ ((e3 x).1 hx)⟩

/-! ### C31 -/

/-- C31: the sources of a fact are exactly those whose support is present. -/
theorem C31_sources (hV : Vocab V) (ops : List (Op F)) (hops : ∀ op ∈ ops, op.Over V) (auto : Bool) (s : St)
    (hs : runOps ops (St.new auto) = (.ok (), s)) (e : Val F) (h1 : V (.str (lit "src/1"))) (h2 : V e) :
    ∃ res, hgSources e s = (.ok res, s) ∧ res.Nodup ∧
      ∀ x, x ∈ res ↔ (Spec.after ops).Present (.tup [.str (lit "src/1"), e, x]) :=
  (shows_of hV hops hs).sources hV h1 h2

/-- C31: `add_belief` makes the fact and its support present, and nothing else. -/
theorem C31_add_belief (hV : Vocab V) (ops : List (Op F)) (hops : ∀ op ∈ ops, op.Over V) (auto : Bool) (s : St)
    (hs : runOps ops (St.new auto) = (.ok (), s)) (src e : Val F) (hb : BeliefOver V src e) (ts : Int) :
    ∃ s', hgAddBelief src e ts s = (.ok (), s') ∧
      (∃ res, hgSources e s' = (.ok res, s') ∧ src ∈ res) ∧ hgExists e s' = (.ok true, s') ∧
      ∀ x, EdgeOver V x → x ≠ e → x ≠ .tup [.str (lit "src/1"), e, src] →
        (hgExists x s').1 = (hgExists x s).1 := by
  have h := shows_of hV hops hs
  obtain ⟨s', e1, h'⟩ := h.op hV (op := .addBelief src e ts) hb
  have hp : ∀ x, ((Spec.after ops).op (.addBelief src e ts)).Present x ↔
      (x = e ∨ x = support e src) ∨ (Spec.after ops).Present x := fun x => Spec.addBelief_present _ src e x ts
  refine ⟨s', e1, ?_, ?_, ?_⟩
  · obtain ⟨res, r1, _, r3⟩ := h'.sources hV hb.srcConst hb.fact
    exact ⟨res, r1, (r3 src).2 ((hp _).2 (.inl (.inr rfl)))⟩
  · rw [h'.exists_ hV hb.edge]
    have := (hp e).2 (.inl (.inl rfl))
    unfold Spec.Present at this
    rw [this]
  · intro x hx h1 h2
    rw [h'.exists_ hV hx, h.exists_ hV hx]
    show Except.ok _ = Except.ok _
    congr 1
    rw [Bool.eq_iff_iff]
    refine (hp x).trans ⟨?_, .inr⟩
    rintro ((h | h) | h)
    · exact absurd h h1
    · exact absurd h h2
    · exact h

example : BeliefOver PlainVocab (sy "john") exE1 := belief_of (by decide +kernel)
example : ((runOps exOps >>= fun _ => hgSources exE1) (St.new false)).1 = .ok [sy "john"] := by decide +kernel

/-! ### C32 -/

/-- C32: `remove_belief` removes the support; the fact goes exactly when no other source is left; every
other edge stays. -/
theorem C32_remove_belief (hV : Vocab V) (ops : List (Op F)) (hops : ∀ op ∈ ops, op.Over V) (auto : Bool) (s : St)
    (hs : runOps ops (St.new auto) = (.ok (), s)) (src e : Val F) (hb : BeliefOver V src e) :
    ∃ s' res, hgSources e s = (.ok res, s) ∧ hgRemoveBelief src e s = (.ok (), s') ∧
      hgExists (.tup [.str (lit "src/1"), e, src]) s' = (.ok false, s') ∧
      ((∃ x ∈ res, x ≠ src) → (hgExists e s').1 = (hgExists e s).1) ∧
      ((∀ x ∈ res, x = src) → hgExists e s' = (.ok false, s')) ∧
      ∀ x, EdgeOver V x → x ≠ e → x ≠ .tup [.str (lit "src/1"), e, src] →
        (hgExists x s').1 = (hgExists x s).1 := by
  have h := shows_of hV hops hs
  obtain ⟨res, r1, _, r3⟩ := h.sources hV hb.srcConst hb.fact
  obtain ⟨s', e1, h'⟩ := h.op hV (op := .prim (.removeBelief src e)) hb
  refine ⟨s', res, r1, e1, ?_⟩
  have hfs : e ≠ support e src := by
    intro h'
    have hm : e ∈ (support e src).elems := by simp [support, Val.elems]
    rw [← h'] at hm
    exact not_mem_self e hm
  have hex : (∃ s', ((Spec.after ops).remove (support e src)).Present (support e s')) ↔ ∃ x ∈ res, x ≠ src := by
    constructor
    · rintro ⟨x, hx⟩
      rw [Spec.remove_present] at hx
      exact ⟨x, (r3 x).2 hx.2, fun h => hx.1 (by rw [h])⟩
    · rintro ⟨x, hx, hne⟩
      exact ⟨x, (Spec.remove_present _ _ _).2 ⟨fun h => hne (support_inj h).2, (r3 x).1 hx⟩⟩
  have hp : ∀ x, ((Spec.after ops).op (.prim (.removeBelief src e))).Present x ↔
      (x ≠ support e src ∧ (Spec.after ops).Present x ∧ ((∃ y ∈ res, y ≠ src) ∨ x ≠ e)) := by
    intro x
    show ((Spec.after ops).removeBelief src e).Present x ↔ _
    unfold Spec.removeBelief
    simp only
    split
    · rename_i hc
      rw [Spec.remove_present]
      have := hex.1 hc
      exact ⟨fun ⟨a, b⟩ => ⟨a, b, .inl this⟩, fun ⟨a, b, _⟩ => ⟨a, b⟩⟩
    · rename_i hc
      rw [Spec.remove_present, Spec.remove_present]
      have : ¬ ∃ y ∈ res, y ≠ src := fun h => hc (hex.2 h)
      simp only [this, false_or]
      constructor
      · rintro ⟨a, b, c⟩; exact ⟨b, c, a⟩
      · rintro ⟨b, c, a⟩; exact ⟨a, b, c⟩
  have hsup : EdgeOver V (support e src) := support_over hb
  refine ⟨?_, ?_, ?_, ?_⟩
  · show hgExists (support e src) s' = _
    rw [h'.exists_ hV hsup]
    have : ¬ ((Spec.after ops).op (.prim (.removeBelief src e))).Present (support e src) := by rw [hp]; simp
    unfold Spec.Present at this
    simp only [Bool.not_eq_true] at this
    rw [this]
  · intro hx
    rw [h'.exists_ hV hb.edge, h.exists_ hV hb.edge]
    show Except.ok _ = Except.ok _
    congr 1
    rw [Bool.eq_iff_iff]
    refine (hp e).trans ?_
    simp only [hx, true_or, and_true, ne_eq, hfs, not_false_eq_true, true_and, Spec.Present]
  · intro hx
    rw [h'.exists_ hV hb.edge]
    have : ¬ ((Spec.after ops).op (.prim (.removeBelief src e))).Present e := by
      rw [hp]
      rintro ⟨_, _, ⟨y, hy, hne⟩ | hne⟩
      · exact hne (hx y hy)
      · exact hne rfl
    unfold Spec.Present at this
    simp only [Bool.not_eq_true] at this
    rw [this]
  · intro x hx h1 h2
    rw [h'.exists_ hV hx, h.exists_ hV hx]
    show Except.ok _ = Except.ok _
    congr 1
    rw [Bool.eq_iff_iff]
    refine (hp x).trans ?_
    have h2' : x ≠ support e src := h2
    simp [h1, h2', Spec.Present]

/-- Two beliefs in one fact: after taking back the first the fact stays, after the second it is gone. -/
example : BeliefOver PlainVocab (sy "ann") exE3 ∧
    ((do hgAddBelief (sy "ann") exE3 1; hgAddBelief (sy "bob") exE3 2; hgRemoveBelief (sy "ann") exE3; hgExists exE3)
      (St.new false)).1 = .ok true ∧
    ((do hgAddBelief (sy "ann") exE3 1; hgAddBelief (sy "bob") exE3 2; hgRemoveBelief (sy "ann") exE3;
         hgRemoveBelief (sy "bob") exE3; hgExists exE3) (St.new false)).1 = .ok false :=
  ⟨belief_of (by decide +kernel), by decide +kernel, by decide +kernel⟩

/-! ### C33 -/

/-- C33: `remove_by_pattern` removes all edges matching the pattern and no others. -/
theorem C33_remove_by_pattern (hV : Vocab V) (ops : List (Op F)) (hops : ∀ op ∈ ops, op.Over V) (auto : Bool) (s : St)
    (hs : runOps ops (St.new auto) = (.ok (), s)) (ps : List (Val F)) (hp : PatternOver V ps) :
    ∃ s', hgRemoveByPattern (.tup ps) s = (.ok (), s') ∧ hgPattern2edges (.tup ps) s' = (.ok [], s') ∧
      (∀ x, EdgeOver V x → Matches ps x.elems → hgExists x s' = (.ok false, s')) ∧
      ∀ x, EdgeOver V x → ¬ Matches ps x.elems → (hgExists x s').1 = (hgExists x s).1 := by
  have h := shows_of hV hops hs
  obtain ⟨s', e1, h'⟩ := h.op hV (op := .prim (.removeByPattern ps)) hp
  have hpr : ∀ x, ((Spec.after ops).op (.prim (.removeByPattern ps))).Present x ↔
      ¬ Matches ps x.elems ∧ (Spec.after ops).Present x := fun x => Spec.removeWhere_present _ _ x
  refine ⟨s', e1, ?_, ?_, ?_⟩
  · obtain ⟨res, r1, _, r3⟩ := h'.pattern hV hp
    have : res = [] := List.eq_nil_iff_forall_not_mem.2 fun x hx =>
      ((hpr x).1 ((r3 x).1 hx).1).1 ((r3 x).1 hx).2
    subst this; exact r1
  · intro x hx hm
    rw [h'.exists_ hV hx]
    have : ¬ ((Spec.after ops).op (.prim (.removeByPattern ps))).Present x := by rw [hpr]; simp [hm]
    unfold Spec.Present at this
    simp only [Bool.not_eq_true] at this
    rw [this]
  · intro x hx hm
    rw [h'.exists_ hV hx, h.exists_ hV hx]
    show Except.ok _ = Except.ok _
    congr 1
    rw [Bool.eq_iff_iff]
    exact (hpr x).trans (by simp [hm, Spec.Present])

/-- C33, in any order: the program collects the matching edges in a set and removes them in the order that
set happens to have. Removing them in any order, even with repetitions, works and has the same effect. -/
theorem C33_any_order (hV : Vocab V) (ops : List (Op F)) (hops : ∀ op ∈ ops, op.Over V) (auto : Bool) (s : St)
    (hs : runOps ops (St.new auto) = (.ok (), s)) (ps : List (Val F)) (hp : PatternOver V ps)
    (res es : List (Val F)) (hres : hgPattern2edges (.tup ps) s = (.ok res, s)) (hes : ∀ x, x ∈ es ↔ x ∈ res) :
    ∃ s', forEach hgRemove es s = (.ok (), s') ∧ hgPattern2edges (.tup ps) s' = (.ok [], s') ∧
      (∀ x, EdgeOver V x → Matches ps x.elems → hgExists x s' = (.ok false, s')) ∧
      ∀ x, EdgeOver V x → ¬ Matches ps x.elems → (hgExists x s').1 = (hgExists x s).1 := by
  have h := shows_of hV hops hs
  obtain ⟨res', q1, _, q3⟩ := h.pattern hV hp
  rw [hres] at q1
  obtain rfl : res = res' := by injection q1 with a; injection a
  have hov : ∀ e ∈ es, EdgeOver V e := by
    intro e he
    have hp := ((q3 e).1 ((hes e).1 he)).1
    obtain ⟨A, hA, hR, _⟩ := h.ex
    exact hA.over e ((hR.present e).1 hp)
  obtain ⟨s', e1, h'⟩ := h.ops hV (ops := es.map fun e => .prim (.remove e)) (by
    intro op ho
    obtain ⟨e, he, rfl⟩ := List.mem_map.1 ho
    exact hov e he)
  have e1' : forEach hgRemove es s = (.ok (), s') := by
    have : runOps (es.map fun e => (Op.prim (.remove e) : Op F)) = forEach hgRemove es := by
      unfold runOps; rw [forEach_map]; rfl
    rw [← this]; exact e1
  have hpr : ∀ x, ((es.map fun e => (Op.prim (.remove e) : Op F)).foldl Spec.op (Spec.after ops)).Present x ↔
      x ∉ es ∧ (Spec.after ops).Present x := by
    intro x
    rw [List.foldl_map]
    exact Spec.foldRemove_present es _ x
  have hin : ∀ x, x ∈ es ↔ (Spec.after ops).Present x ∧ Matches ps x.elems := fun x => (hes x).trans (q3 x)
  refine ⟨s', e1', ?_, ?_, ?_⟩
  · obtain ⟨res', r1, _, r3⟩ := h'.pattern hV hp
    have : res' = [] := List.eq_nil_iff_forall_not_mem.2 fun x hx => by
      have := (r3 x).1 hx
      have hp := (hpr x).1 this.1
      exact hp.1 ((hin x).2 ⟨hp.2, this.2⟩)
    subst this; exact r1
  · intro x hx hm
    rw [h'.exists_ hV hx]
    have : ¬ ((es.map fun e => (Op.prim (.remove e) : Op F)).foldl Spec.op (Spec.after ops)).Present x := by
      rw [hpr, hin]; intro h; exact h.1 ⟨h.2, hm⟩
    unfold Spec.Present at this
    simp only [Bool.not_eq_true] at this
    rw [this]
  · intro x hx hm
    rw [h'.exists_ hV hx, h.exists_ hV hx]
    show Except.ok _ = Except.ok _
    congr 1
    rw [Bool.eq_iff_iff]
    refine (hpr x).trans ?_
    rw [hin]
    simp [hm, Spec.Present]

/-- A pattern that matches two of the edges of the example. -/
example : PatternOver PlainVocab [.none, sy "sky/1", .none] ∧
    ((runOps exOps >>= fun _ => hgPattern2edges (.tup [.none, sy "sky/1", .none])) (St.new false)).1 = .ok [exE1, exE3] ∧
    ((runOps exOps >>= fun _ => do hgRemoveByPattern (.tup [.none, sy "sky/1", .none]); hgExists exE2)
      (St.new false)).1 = .ok true :=
  ⟨pattern_of (by decide +kernel), by decide +kernel, by decide +kernel⟩

/-! ### C34 -/

/-- C34: a batch of calls gives the same outcome and the same tables as the same calls outside a batch: for
any arguments, well-formed or not, and any contents of the tables, as long as no call adds a collection (and
none asks for degrees or timestamps, which is not a `Prim`). -/
theorem C34_batch (s : St) (hc : s.cur = none) (ps : List (Prim F)) (hps : ∀ p ∈ ps, p.Single) :
    (hgBatchExec (ps.map Prim.run) s).1 = (runOps (ps.map Op.prim) s).1 ∧
    (hgBatchExec (ps.map Prim.run) s).2.work = (runOps (ps.map Op.prim) s).2.work := by
  have hopen : openCursor false s = (.ok .shared, { s with cur := some true }) := by
    unfold openCursor; simp [hc]
  have hsync : Sync (forEach (fun f => f) (ps.map Prim.run)) (runOps (ps.map Op.prim)) := by
    unfold runOps
    rw [forEach_map, forEach_map]
    exact Sync.forEach fun p hp => p.sync (hps p hp)
  obtain ⟨h1, h2, h3, h4⟩ := hsync { s with cur := some true } s rfl (by simp [St.usable]) (St.usable_of_none hc)
  unfold hgBatchExec sqlBatchExec
  rw [bind_run _ _ _ hopen]
  cases hr : forEach (fun f => f) (ps.map Prim.run) { s with cur := some true } with
  | mk r t =>
    rw [hr] at h1 h2 h3
    simp only at h1 h2 h3
    cases r with
    | ok u =>
      rw [bind_run _ _ _ hr, ← h1, ← h2]
      have : closeCursor false true t = (.ok (), { t.commit with cur := none }) := by
        unfold closeCursor
        simp [St.commit, h3]
      rw [this]
      exact ⟨rfl, rfl⟩
    | error er =>
      rw [bind_err _ _ _ hr, ← h1, ← h2]
      exact ⟨rfl, rfl⟩

/-- C34: after any history, a batch over the vocabulary succeeds, is equivalent to the calls one by one, and
leaves the connection idle and everything on disk. -/
theorem C34_batch_history (hV : Vocab V) (ops : List (Op F)) (hops : ∀ op ∈ ops, op.Over V) (auto : Bool) (s : St)
    (hs : runOps ops (St.new auto) = (.ok (), s)) (ps : List (Prim F)) (hps : ∀ p ∈ ps, p.Over V) :
    ∃ s1 s2, hgBatchExec (ps.map Prim.run) s = (.ok (), s1) ∧ runOps (ps.map Op.prim) s = (.ok (), s2) ∧
      s1.work = s2.work ∧ s1.cur = none ∧ s1.disk = s1.work ∧ s2.disk = s2.work := by
  have h := shows_of hV hops hs
  obtain ⟨s1, e1, h1⟩ := h.op hV (op := .batch ps) hps
  obtain ⟨s2, e2, h2⟩ := h.ops hV (ops := ps.map Op.prim) (by
    intro op ho
    obtain ⟨p, hp, rfl⟩ := List.mem_map.1 ho
    exact hps p hp)
  have e1' : hgBatchExec (ps.map Prim.run) s = (.ok (), s1) := e1
  have hb := C34_batch s h.idle ps (by
    intro p hp
    cases p with
    | add e ts =>
      intro h' hh'
      obtain ⟨k, hk, hks⟩ := head0_edge (hps _ hp)
      rw [hh'] at hk
      have : h' = k := by simpa using hk
      rw [this]; exact hks
    | _ => trivial)
  rw [e1', e2] at hb
  exact ⟨s1, s2, e1', e2, hb.2, h1.idle, h1.disk, h2.disk⟩

example : ∀ p ∈ ([.add exE3 14, .query (.star (sy "mary")), .removeByPattern [sy "loves", .none, sy "mary"]] :
    List (Prim Half)), p.Over PlainVocab := by
  intro p hp
  simp only [List.mem_cons, List.not_mem_nil, or_false] at hp
  rcases hp with rfl | rfl | rfl <;> exact prim_of (by decide +kernel)

end GB
