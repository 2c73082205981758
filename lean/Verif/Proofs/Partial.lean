import Verif.Proofs.View
import Verif.Spec.Crash

/-! Queries on an index of which some rows may be missing (as a crash may leave it). -/

set_option linter.unusedSectionVars false

namespace GB

variable {F : Type} [PyFloat F] [DecidableEq F] {V : Val F → Prop}

/-- Every row of the index is a row of some edge over the vocabulary. -/
def RowsOk (V : Val F → Prop) (perms : List Str) : Prop :=
  ∀ r ∈ perms, ∃ e n, EdgeOver V e ∧ n < factorial e.elems.length ∧ r = rowOf e.elems n

/-- Row `n` of `e` is in the index. -/
def HasRow (perms : List Str) (e : Val F) (n : Nat) : Prop :=
  n < factorial e.elems.length ∧ rowOf e.elems n ∈ perms

theorem cur2edges_rows (hV : Vocab V) {perms : List Str} (hR : RowsOk V perms) {c : Char} {s : Str} (hc : c ≠ '(') :
    ∃ ds, cur2edges (perms.filter fun r => (c :: s).isPrefixOf r) = .ok ds ∧ ds.Nodup ∧
      ∀ e, e ∈ ds ↔ EdgeOver V e ∧ ∃ n, HasRow perms e n ∧ (c :: s) <+: rowOf e.elems n := by
  have hdec : ∀ e, EdgeOver V e → ∀ n, n < factorial e.elems.length → (c :: s) <+: rowOf e.elems n →
      decodeRow (rowOf e.elems n) = .ok e := by
    intro e he n hn hpre
    obtain ⟨h, t, rfl, ht, hh, hx⟩ := he
    have hperm := permN_perm hn
    cases hp : permN (Val.tup (h :: t)).elems n with
    | nil =>
      rw [hp] at hperm
      have := List.nil_perm.1 hperm
      simp [Val.elems] at this
    | cons x r =>
      have hxw : WfVal x := hV.wf x (hx x (hperm.subset (by simp [hp])))
      have hxa : x.isAtom = true := by
        rw [rowOf, hp] at hpre
        exact atom_of_prefix hxw hc hpre
      exact decodeRow_rowOf (fun y hy => hV.wf y (hx y hy)) hh ht hn hp hxa
  have hrow : ∀ r ∈ perms.filter (fun r => (c :: s).isPrefixOf r), ∃ e n, EdgeOver V e ∧ HasRow perms e n ∧
      r = rowOf e.elems n ∧ (c :: s) <+: rowOf e.elems n := by
    intro r hr
    rw [List.mem_filter, List.isPrefixOf_iff_prefix] at hr
    obtain ⟨e, n, he, hn, rfl⟩ := hR r hr.1
    exact ⟨e, n, he, ⟨hn, hr.1⟩, rfl, hr.2⟩
  obtain ⟨ys, hys, hm⟩ := mapE_spec (f := decodeRow (F := F))
    (xs := perms.filter (fun r => (c :: s).isPrefixOf r)) (by
      intro r hr
      obtain ⟨e, n, he, hn, rfl, hp⟩ := hrow r hr
      exact ⟨e, hdec e he n hn.1 hp⟩)
  have hmem : ∀ e, e ∈ ys ↔ EdgeOver V e ∧ ∃ n, HasRow perms e n ∧ (c :: s) <+: rowOf e.elems n := by
    intro e
    rw [hm]
    constructor
    · rintro ⟨r, hr, hd⟩
      obtain ⟨e', n, he', hn, rfl, hp⟩ := hrow r hr
      rw [hdec e' he' n hn.1 hp] at hd
      simp at hd; subst hd
      exact ⟨he', n, hn, hp⟩
    · rintro ⟨he, n, hn, hp⟩
      refine ⟨rowOf e.elems n, ?_, hdec e he n hn.1 hp⟩
      rw [List.mem_filter, List.isPrefixOf_iff_prefix]
      exact ⟨hn.2, hp⟩
  refine ⟨pySet ys, ?_, ?_, ?_⟩
  · rw [cur2edges, hys]; rfl
  · apply pySet_nodup
    intro a ha
    exact pyEq_refl (((hmem a).1 ha).1.wf hV)
  · intro e
    rw [mem_pySet, hmem]
    intro a ha b hb
    exact ((hmem a).1 ha).1.pyEq_eq hV ((hmem b).1 hb).1

/-- The start of the range of a pattern query. -/
def patStart (ps : List (Val F)) : Str := nodes2str (ps.filter fun n => !n.isNone)

theorem pattern_rows (hV : Vocab V) {b : Bool} {ps : List (Val F)}
    (hp : PatternOver V ps) {s : St} (hu : s.usable) (hR : RowsOk V s.work.perms) :
    ∃ res, pattern2edges (.seq b ps) s = (.ok res, s) ∧ res.Nodup ∧
      ∀ e, e ∈ res ↔ EdgeOver V e ∧ Matches ps e.elems ∧
        ∃ n, HasRow s.work.perms e n ∧ patStart ps <+: rowOf e.elems n := by
  obtain ⟨pre, c, post, hps, hpre, hca⟩ := hp.first
  have hnodes : ps.filter (fun n => !n.isNone) = c :: post.filter (fun n => !n.isNone) := by
    rw [hps]; exact filter_first hpre hca
  have hnV : ∀ x ∈ ps.filter (fun n => !n.isNone), V x := by
    intro x hx
    rw [List.mem_filter] at hx
    rcases hp.over x hx.1 with rfl | h
    · simp [Val.isNone] at hx
    · exact h
  have hcV : V c := hnV c (by rw [hnodes]; simp)
  obtain ⟨ch, s0, hs0, hch⟩ := edge2str_head_atom (hV.wf c hcV) hca
  obtain ⟨s1, hs1⟩ := nodes2str_cons_head (xs := post.filter (fun n => !n.isNone)) hs0
  have hstart : nodes2str (ps.filter (fun n => !n.isNone)) = ch :: s1 := by rw [hnodes, hs1]
  have hsucc := hasSucc_nodes2str hV (by rw [hnodes]; simp) hnV
  rw [hstart, ← strPlus1_isOk_iff] at hsucc
  obtain ⟨endS, hend⟩ := hsucc
  obtain ⟨ds, hds, hnd, hmem⟩ := cur2edges_rows hV hR (c := ch) (s := s1) hch
  have hfil := filterE_spec (p := fun e => edgeMatchesPattern e (.seq b ps))
    (q := fun e => decide (Matches ps e.elems)) (xs := ds) (by
      intro e he
      exact edgeMatches_eq hV ((hmem e).1 he).1 hp.over)
  refine ⟨pySet (ds.filter fun e => decide (Matches ps e.elems)), ?_, ?_, ?_⟩
  · unfold pattern2edges
    rw [bind_run _ _ _ (liftE_ok (x := (Val.seq b ps).iter) (a := ps) rfl s)]
    rw [hstart, bind_run _ _ _ (liftE_ok hend s), bind_run _ _ _ (openCursor_local s),
      bind_run _ _ _ (execRead_local hu _ _)]
    rw [DB.selectRange, selectRange_eq hend]
    rw [bind_run _ _ _ (liftE_ok hds s), bind_run _ _ _ (closeCursor_local s),
      bind_run _ _ _ (liftE_ok hfil s)]
    rfl
  · apply pySet_nodup
    intro e he
    rw [List.mem_filter] at he
    exact pyEq_refl (((hmem e).1 he.1).1.wf hV)
  · intro e
    rw [mem_pySet]
    · simp only [List.mem_filter, decide_eq_true_eq, hmem, patStart, hstart]
      constructor
      · rintro ⟨⟨he, h⟩, hm⟩; exact ⟨he, hm, h⟩
      · rintro ⟨he, hm, h⟩; exact ⟨⟨he, h⟩, hm⟩
    · intro a ha b hb
      rw [List.mem_filter] at ha hb
      exact ((hmem a).1 ha.1).1.pyEq_eq hV ((hmem b).1 hb.1).1

/-- Every matching edge has a row in the range. -/
theorem pattern_has_row (hV : Vocab V) {ps : List (Val F)} (hp : PatternOver V ps) {e : Val F} (he : EdgeOver V e)
    (hm : Matches ps e.elems) : ∃ n, n < factorial e.elems.length ∧ patStart ps <+: rowOf e.elems n := by
  obtain ⟨pre, c, post, hps, hpre, hca⟩ := hp.first
  have hnodes : ps.filter (fun n => !n.isNone) = c :: post.filter (fun n => !n.isNone) := by
    rw [hps]; exact filter_first hpre hca
  obtain ⟨rest, hperm⟩ := hm.perm (fun x hx => V_ne_none hV (he.mem x hx))
  obtain ⟨n, hn, hpn⟩ := exists_permN hperm
  refine ⟨n, hn, ?_⟩
  rw [rowOf, hpn, patStart, List.append_assoc]
  exact nodes2str_prefix (by rw [hnodes]; simp) (by simp)

theorem exists_rows (hV : Vocab V) {e : Val F} (he : EdgeOver V e) {s : St} (hu : s.usable)
    (hR : RowsOk V s.work.perms) :
    ∃ b, existsM e s = (.ok b, s) ∧
      (b = true ↔ ∃ n, HasRow s.work.perms e n ∧ patStart e.elems <+: rowOf e.elems n) := by
  obtain ⟨res, hres, hnd, hmem⟩ := pattern_rows hV (b := false) he.pattern hu hR
  have htup := he.tup_elems
  rw [show (Val.seq false e.elems) = e from htup.symm] at hres
  refine ⟨decide (res.length > 0), ?_, ?_⟩
  · unfold existsM
    rw [bind_run _ _ _ hres]
    rfl
  · rw [decide_eq_true_eq]
    have hself : ∀ x, Matches e.elems x ↔ e.elems = x :=
      fun x => Matches.self_iff (fun p hp => V_ne_none hV (he.mem p hp))
    constructor
    · intro h
      obtain ⟨e', he'⟩ := List.exists_mem_of_length_pos h
      obtain ⟨h1, h2, h3⟩ := (hmem e').1 he'
      rw [hself] at h2
      rwa [← he.eq_of_elems h1 h2] at h3
    · intro h
      apply List.length_pos_of_mem (a := e)
      rw [hmem]
      exact ⟨he, (hself _).2 rfl, h⟩

theorem star_rows (hV : Vocab V) {c : Val F} (hc : V c) (hca : c.isAtom = true) {s : St} (hu : s.usable)
    (hR : RowsOk V s.work.perms) :
    ∃ res, sqlStar c s = (.ok res, s) ∧ res.Nodup ∧
      ∀ e, e ∈ res ↔ EdgeOver V e ∧ ∃ n, HasRow s.work.perms e n ∧ (edge2str c ++ lit " ") <+: rowOf e.elems n := by
  have hseq : c.isSeq = false := by cases c <;> simp_all [Val.isAtom, Val.isSeq]
  have hcw := hV.wf c hc
  obtain ⟨ch, s0, hs0, hch⟩ := edge2str_head_atom hcw hca
  have hstart : atomStr c ++ lit " " = ch :: (s0 ++ lit " ") := by
    rw [← edge2str_atom hca, hs0]; rfl
  have hend := strPlus1_space (atomStr c)
  obtain ⟨ds, hds, hnd, hmem⟩ := cur2edges_rows hV hR (c := ch) (s := s0 ++ lit " ") hch
  refine ⟨pySet ds, ?_, ?_, ?_⟩
  · unfold sqlStar str2perms
    rw [hseq]
    simp only [Bool.false_eq_true, if_false]
    rw [bind_run _ _ _ (liftE_ok hend s), bind_run _ _ _ (openCursor_local s),
      bind_run _ _ _ (execRead_local hu _ _)]
    rw [DB.selectRange, selectRange_eq hend, hstart]
    rw [bind_run _ _ _ (liftE_ok hds s), bind_run _ _ _ (closeCursor_local s)]
    rfl
  · apply pySet_nodup
    intro e he
    exact pyEq_refl (((hmem e).1 he).1.wf hV)
  · intro e
    rw [mem_pySet]
    · rw [hmem, ← hstart, ← edge2str_atom hca]
    · intro a ha b hb
      exact ((hmem a).1 ha).1.pyEq_eq hV ((hmem b).1 hb).1

/-! ### contents on the way of adding or removing an edge -/

/-- The index is that of `A` except for rows of `e`, of which some may be missing or additional; the degrees
of symbols are between those before (`lo`) and those after (`hi`). -/
structure Midway (V : Val F → Prop) (A : Abs F) (e : Val F) (lo hi : Val F → Int) (db : DB) : Prop where
  rows : RowsOk V db.perms
  others : ∀ x n, EdgeOver V x → x ≠ e → (HasRow db.perms x n ↔ x ∈ A.edges ∧ n < factorial x.elems.length)
  verts : ∃ vs : List (VEnt F), db.vertices = vs.map VEnt.row ∧ KeysOk vs ∧
    ∀ v, v.isAtom = true → lo v ≤ degOf v vs ∧ degOf v vs ≤ hi v

theorem edge_wf (hV : Vocab V) {e : Val F} (he : EdgeOver V e) : ∀ x ∈ e.elems, WfVal x :=
  fun x hx => hV.wf x (he.mem x hx)

theorem rowsOk_conc {A : Abs F} (hA : AbsOk V A) : RowsOk V A.conc.perms := by
  intro r hr
  rw [mem_conc_perms] at hr
  obtain ⟨e, he, n, hn, rfl⟩ := hr
  exact ⟨e, n, hA.over e he, hn, rfl⟩

theorem hasRow_conc (hV : Vocab V) {A : Abs F} (hA : AbsOk V A) {x : Val F} (hx : EdgeOver V x) {n : Nat} :
    HasRow A.conc.perms x n ↔ x ∈ A.edges ∧ n < factorial x.elems.length := by
  unfold HasRow
  constructor
  · rintro ⟨hn, h⟩
    rw [mem_conc_perms] at h
    obtain ⟨y, hy, m, hm, h⟩ := h
    have := (rowOf_inj (edge_wf hV hx) (edge_wf hV (hA.over y hy)) hn hm h).1
    rw [hx.eq_of_elems (hA.over y hy) this]
    exact ⟨hy, by rw [← this]; exact hn⟩
  · rintro ⟨h, hn⟩
    exact ⟨hn, mem_conc_perms.2 ⟨x, h, n, hn, rfl⟩⟩

theorem not_rowsOf_other (hV : Vocab V) {e x : Val F} (he : EdgeOver V e) (hx : EdgeOver V x) (hne : x ≠ e) {n : Nat}
    (hn : n < factorial x.elems.length) : rowOf x.elems n ∉ rowsOf e.elems := by
  intro h
  obtain ⟨m, hm, h⟩ := mem_rowsOf.1 h
  exact hne (hx.eq_of_elems he (rowOf_inj (edge_wf hV hx) (edge_wf hV he) hn hm h).1)

theorem midway_start (hV : Vocab V) {A : Abs F} (hA : AbsOk V A) {e : Val F} {lo hi : Val F → Int}
    (h : ∀ v, v.isAtom = true → lo v ≤ degOf v A.verts ∧ degOf v A.verts ≤ hi v) : Midway V A e lo hi A.conc :=
  ⟨rowsOk_conc hA, fun x n hx _ => hasRow_conc hV hA hx, A.verts, rfl, ⟨hA.keys, hA.wf⟩, h⟩

theorem degOf_set_atom (v e : Val F) (d ts : Int) (vs : List (VEnt F)) (h : v ≠ e) :
    degOf v (setV e d ts vs) = degOf v vs := by
  unfold degOf; rw [lookV_set, if_neg h]

theorem degOf_del_atom (v e : Val F) (vs : List (VEnt F)) (h : v ≠ e) : degOf v (delV e vs) = degOf v vs := by
  unfold degOf; rw [lookV_del, if_neg h]

theorem degOf_foldBump (d : Int) (v : Val F) (xs : List (Val F)) (vs : List (VEnt F)) :
    degOf v (xs.foldl (fun vs v => bumpV d v vs) vs) =
      if hasV v vs then degOf v vs + d * xs.count v else 0 := by
  unfold degOf
  rw [lookV_foldBump]
  cases h : lookV v vs with
  | none => rw [lookV_none] at h; rw [h]; rfl
  | some r =>
    have : hasV v vs = true := by
      cases hh : hasV v vs with
      | true => rfl
      | false => rw [lookV_none.2 hh] at h; simp at h
    rw [this]; simp

theorem midway_add (hV : Vocab V) {A : Abs F} (hA : AbsOk V A) {e : Val F} (he : EdgeOver V e) {ts : Int} {db : DB}
    (h : AddStage A e ts db) :
    Midway V A e (fun v => degOf v A.verts) (fun v => degOf v A.verts + e.elems.count v) db := by
  have hcount : ∀ {v : Val F} {l : List (Val F)}, l <+: e.elems → l.count v ≤ e.elems.count v :=
    fun h => h.sublist.count_le _
  cases h with
  | verts l hl =>
    refine ⟨rowsOk_conc hA, fun x n hx _ => hasRow_conc hV hA hx, _, rfl, ?_, ?_⟩
    · exact KeysOk.foldTouch ⟨hA.keys, hA.wf⟩ ts (fun x hx => edge_wf hV he x (hl.subset hx))
    · intro v _
      rw [degOf_foldTouch]
      have := hcount (v := v) hl
      omega
  | rows l hl =>
    refine ⟨?_, ?_, _, rfl, ?_, ?_⟩
    · intro r hr
      rcases List.mem_append.1 hr with hr | hr
      · exact rowsOk_conc hA r hr
      · obtain ⟨n, hn, rfl⟩ := mem_rowsOf.1 (hl.subset hr)
        exact ⟨e, n, he, hn, rfl⟩
    · intro x n hx hne
      rw [← hasRow_conc hV hA hx]
      unfold HasRow
      refine and_congr_right fun hn => ?_
      rw [List.mem_append]
      exact ⟨fun h => h.resolve_right fun h => not_rowsOf_other hV he hx hne hn (hl.subset h), .inl⟩
    · exact (KeysOk.foldTouch ⟨hA.keys, hA.wf⟩ ts (edge_wf hV he)).set (he.wf hV) _ _
    · intro v hv
      rw [degOf_set_atom _ _ _ _ _ (atom_ne_edge hv he), degOf_foldTouch]
      omega

theorem midway_rem (hV : Vocab V) {A : Abs F} {S : Spec F} (hA : AbsOk V A) (hRel : Rel A S) {e : Val F}
    (hm : e ∈ A.edges) {db : DB} (h : RemStage A e db) :
    Midway V A e (fun v => degOf v A.verts - e.elems.count v) (fun v => degOf v A.verts) db := by
  have he := hA.over e hm
  have hcount : ∀ {v : Val F} {l : List (Val F)}, l <+: e.elems → l.count v ≤ e.elems.count v :=
    fun h => h.sublist.count_le _
  have hdeg : ∀ (v : Val F) (l : List (Val F)), v.isAtom = true → l <+: e.elems →
      degOf v A.verts - e.elems.count v ≤ degOf v (l.foldl (fun vs v => bumpV (-1) v vs) A.verts) ∧
      degOf v (l.foldl (fun vs v => bumpV (-1) v vs) A.verts) ≤ degOf v A.verts := by
    intro v l hv hl
    rw [degOf_foldBump]
    have := hcount (v := v) hl
    cases hh : hasV v A.verts with
    | true => simp only [if_true]; omega
    | false =>
      have h0 : degOf v A.verts = 0 := by unfold degOf; rw [lookV_none.2 hh]; rfl
      simp only [Bool.false_eq_true, if_false]
      omega
  cases h with
  | verts l hl =>
    exact ⟨rowsOk_conc hA, fun x n hx _ => hasRow_conc hV hA hx, _, rfl, KeysOk.foldBump ⟨hA.keys, hA.wf⟩ _ _,
      fun v hv => hdeg v l hv hl⟩
  | rows l hl =>
    refine ⟨?_, ?_, _, rfl, KeysOk.foldBump ⟨hA.keys, hA.wf⟩ _ _, fun v hv => hdeg v _ hv (List.prefix_refl _)⟩
    · intro r hr
      exact rowsOk_conc hA r (List.mem_filter.1 hr).1
    · intro x n hx hne
      rw [← hasRow_conc hV hA hx]
      unfold HasRow
      refine and_congr_right fun hn => ?_
      rw [List.mem_filter]
      refine ⟨fun h => h.1, fun h => ⟨h, ?_⟩⟩
      simp only [decide_eq_true_eq]
      exact fun h => not_rowsOf_other hV he hx hne hn (hl.subset h)
  | done =>
    have hA' : AbsOk V (A.remove e) := hA.remove e
    have hrem : A.remove e = ⟨A.edges.filter (fun x => x ≠ e),
        delV e (e.elems.foldl (fun vs v => bumpV (-1) v vs) A.verts)⟩ := by
      unfold Abs.remove; rw [if_pos hm]
    rw [← hrem]
    refine ⟨rowsOk_conc hA', ?_, (A.remove e).verts, rfl, ⟨hA'.keys, hA'.wf⟩, ?_⟩
    · intro x n hx hne
      rw [hasRow_conc hV hA' hx, hrem]
      simp [hne]
    · intro v hv
      rw [hrem]
      show _ ≤ degOf v (delV e _) ∧ degOf v (delV e _) ≤ _
      rw [degOf_del_atom _ _ _ (atom_ne_edge hv he)]
      exact hdeg v _ hv (List.prefix_refl _)

end GB
