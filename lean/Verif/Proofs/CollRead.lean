import Verif.Proofs.Pad

/-! Reading under a collation. -/

set_option linter.unusedSectionVars false

namespace GB

variable {F : Type} [PyFloat F] [DecidableEq F] {V : Val F → Prop} {w : Char → Nat} {S : Char → Prop}

/-- The collation suits the vocabulary. -/
structure Suits (w : Char → Nat) (S : Char → Prop) (V : Val F → Prop) : Prop where
  apt : Apt w S
  slash : S '/'
  sharpSpace : Sharp w S ' '
  sharpSlash : Sharp w S '/'
  chars : ∀ v, V v → ∀ c ∈ edge2str v, S c
  wide : ∀ v, V v → ∀ c, (edge2str v).getLast? = some c → Wide w c

/-! ### texts -/

theorem last_atom {a : Str} (h : CleanAtom a) : a.getLast? ≠ some ' ' := by
  intro hl
  have := h.noSpace ' ' (List.mem_of_getLast? hl)
  exact absurd this (by decide)

theorem last_val {v : Val F} (h : WfVal v) : (edge2str v).getLast? ≠ some ' ' := by
  rcases isAtom_cases h with ha | ⟨ys, rfl⟩
  · rw [edge2str_atom ha]; exact last_atom (cleanAtom_of_wf h ha)
  · rw [Val.tup, edge2str, List.getLast?_append]
    simp [lit]

theorem last_nodes {xs : List (Val F)} (hne : xs ≠ []) :
    (nodes2str xs).getLast? = (edge2str (xs.getLast hne)).getLast? ∨ edge2str (xs.getLast hne) = [] := by
  have hx : xs = xs.dropLast ++ [xs.getLast hne] := (List.dropLast_concat_getLast hne).symm
  have hone : nodes2str [xs.getLast hne] = edge2str (xs.getLast hne) := by
    simp [nodes2str, nodeStrs, pyJoin]
  by_cases hd : xs.dropLast = []
  · left
    rw [hd, List.nil_append] at hx
    rw [← hone, ← hx]
  · by_cases he : edge2str (xs.getLast hne) = []
    · exact .inr he
    · left
      conv => lhs; rw [hx, nodes2str_append hd (by simp), hone, List.getLast?_append]
      cases hl : (edge2str (xs.getLast hne)).getLast? with
      | none => simp at hl; exact absurd hl he
      | some c => rfl

theorem last_nodes_wf {xs : List (Val F)} (hne : xs ≠ []) (h : ∀ x ∈ xs, WfVal x) :
    (nodes2str xs).getLast? = (edge2str (xs.getLast hne)).getLast? := by
  rcases last_nodes hne with h' | h'
  · exact h'
  · exact absurd h' (edge2str_ne (h _ (List.getLast_mem hne)))

theorem chars_join {xs : List Str} (hs : S ' ') (h : ∀ x ∈ xs, ∀ c ∈ x, S c) : ∀ c ∈ pyJoin (lit " ") xs, S c := by
  induction xs with
  | nil => intro c hc; simp [pyJoin] at hc
  | cons x xs ih =>
    cases xs with
    | nil => intro c hc; exact h x (by simp) c (by simpa [pyJoin] using hc)
    | cons y ys =>
      intro c hc
      simp only [pyJoin, List.mem_append] at hc
      rcases hc with (hc | hc) | hc
      · exact h x (by simp) c hc
      · have : c = ' ' := by simpa [lit] using hc
        rw [this]; exact hs
      · exact ih (fun z hz => h z (by simp [hz])) c hc

theorem chars_nodes {xs : List (Val F)} (hs : S ' ') (h : ∀ x ∈ xs, ∀ c ∈ edge2str x, S c) : ∀ c ∈ nodes2str xs, S c := by
  unfold nodes2str
  rw [nodeStrs_eq_map]
  refine chars_join hs ?_
  intro t ht
  obtain ⟨x, hx, rfl⟩ := List.mem_map.1 ht
  exact h x hx

theorem Suits.edge (hS : Suits w S V) {e : Val F} (he : EdgeOver V e) : ∀ c ∈ edge2str e, S c := by
  obtain ⟨h, t, rfl, ht, hh, hx⟩ := he
  intro c hc
  rw [Val.tup, edge2str, List.mem_append, List.mem_append] at hc
  rcases hc with (hc | hc) | hc
  · have : c = '(' := by simpa [lit] using hc
    rw [this]; exact hS.apt.opens
  · exact chars_nodes hS.apt.space (fun x h => hS.chars x (hx x h)) c hc
  · have : c = ')' := by simpa [lit] using hc
    rw [this]; exact hS.apt.closes

theorem Suits.tidyEdge (hS : Suits w S V) (hV : Vocab V) {e : Val F} (he : EdgeOver V e) : TidyText S (edge2str e) :=
  ⟨hS.edge he, last_val (he.wf hV)⟩

theorem Suits.tidy (hS : Suits w S V) (hV : Vocab V) {v : Val F} (hv : V v) : TidyText S (edge2str v) :=
  ⟨hS.chars v hv, last_val (hV.wf v hv)⟩

theorem chars_nat (hT : Apt w S) (n : Nat) : ∀ c ∈ natStr n, S c := fun c hc =>
  hT.digit c (List.all_eq_true.1 (natStr_digits n) c hc)

theorem row_text {es : List (Val F)} (hne : es ≠ []) {n : Nat} (hn : n < factorial es.length) :
    rowOf es n = nodes2str (permN es n) ++ lit " " ++ natStr n := by
  have hp := permN_perm hn
  have hpne : permN es n ≠ [] := fun h => hne (by rw [h] at hp; exact List.nil_perm.1 hp)
  rw [rowOf, nodes2str_snoc hpne, nodes2str, nodeStrs_eq_map]

theorem Suits.tidyRow (hS : Suits w S V) {e : Val F} (he : EdgeOver V e) {n : Nat}
    (hn : n < factorial e.elems.length) : TidyText S (rowOf e.elems n) := by
  rw [row_text he.elems_ne hn]
  refine ⟨?_, ?_⟩
  · intro c hc
    rw [List.mem_append, List.mem_append] at hc
    rcases hc with (hc | hc) | hc
    · exact chars_nodes hS.apt.space (fun x hx => hS.chars x (he.mem x ((permN_perm hn).subset hx))) c hc
    · have : c = ' ' := by simpa [lit] using hc
      rw [this]; exact hS.apt.space
    · exact chars_nat hS.apt n c hc
  · rw [List.getLast?_append]
    cases hl : (natStr n).getLast? with
    | none => simp at hl; exact absurd hl (natStr_ne n)
    | some c =>
      simp only [Option.some_or, ne_eq, Option.some.injEq]
      rintro rfl
      have := List.all_eq_true.1 (natStr_digits n) ' ' (List.mem_of_getLast? hl)
      exact absurd this (by decide)

theorem row_has_space {e : Val F} (he : EdgeOver V e) {n : Nat} (hn : n < factorial e.elems.length) :
    ' ' ∈ rowOf e.elems n := by
  rw [row_text he.elems_ne hn]
  simp [lit]

/-! ### ranges -/

theorem key_tidy_no {key r : Str} (h : key.getLast? ≠ some ' ') {j : Nat} : key ≠ r ++ List.replicate (j + 1) ' ' := by
  rintro rfl
  apply h
  rw [List.replicate_succ', ← List.append_assoc, List.getLast?_concat]

/-- A range whose last character is sharp is that of the exact comparison. -/
theorem coRange_sharp (hT : Apt w S) {key endS : Str} (hend : strPlus1 key = .ok endS) (hk : ∀ c ∈ key, S c)
    (hs : ∀ c, key.getLast? = some c → Sharp w S c) {db : DB} (hr : ∀ r ∈ db.perms, ∀ c ∈ r, S c)
    (hno : ∀ r ∈ db.perms, ∀ j, key ≠ r ++ List.replicate (j + 1) ' ') :
    db.coSelectRange w key endS = db.selectRange key endS := by
  unfold DB.coSelectRange DB.selectRange
  apply List.filter_congr
  intro r hrm
  rw [Bool.eq_iff_iff, range_prefix hend]
  obtain ⟨p, c, c', rfl, rfl, hc⟩ := strPlus1_ok hend
  have hsh := hs c (by simp) c' hc
  constructor
  · intro h
    rcases range_fwd hT (fun x hx => hk x (by simp [hx])) (hk c (by simp)) (hr r hrm) h with ⟨d, t, rfl, h1, h2⟩ | ⟨j, hj⟩
    · have hd := hsh.2 d (hr _ hrm d (by simp)) h1 h2
      subst hd
      exact ⟨t, by simp⟩
    · exact absurd hj (hno r hrm j)
  · rintro ⟨t, rfl⟩
    have := range_bwd (c := c) (c' := c') (p := p) (t := t) hT (fun x hx => hr _ hrm x (by simp [hx])) hsh.1
    simpa using this

/-- A range whose last character is wide contains all continuations of the text, and no row that starts with a
parenthesis. -/
theorem coRange_wide (hT : Apt w S) {key endS : Str} (hend : strPlus1 key = .ok endS) (hk : ∀ c ∈ key, S c)
    (hh : key.head? ≠ some '(') (hl : key.getLast? ≠ some ' ') (hs : ∀ c, key.getLast? = some c → Wide w c) {r : Str}
    (hr : ∀ c ∈ r, S c) :
    (key <+: r → (padLe w key r && padLt w r endS) = true) ∧
      ((padLe w key r && padLt w r endS) = true → ∃ c s, r = c :: s ∧ c ≠ '(') := by
  obtain ⟨p, c, c', rfl, rfl, hc⟩ := strPlus1_ok hend
  have hsh := hs c (by simp) c' hc
  constructor
  · rintro ⟨t, rfl⟩
    have := range_bwd (c := c) (c' := c') (p := p) (t := t) hT (fun x hx => hr x (by simp [hx])) hsh.1
    simpa using this
  · intro h
    rcases range_fwd hT (fun x hx => hk x (by simp [hx])) (hk c (by simp)) hr h with ⟨d, t, rfl, h1, h2⟩ | ⟨j, hj⟩
    · cases p with
      | nil =>
        refine ⟨d, t, rfl, ?_⟩
        rintro rfl
        rw [hsh.2 h1 h2] at hh
        simp at hh
      | cons x p =>
        refine ⟨x, p ++ d :: t, rfl, ?_⟩
        rintro rfl
        simp at hh
    · exact absurd hj (key_tidy_no hl)

/-- Rows not starting with a parenthesis decode to their edges. -/
theorem cur2edges_sel (hV : Vocab V) {perms : List Str} (hR : RowsOk V perms) {Q : Str → Bool}
    (hQ : ∀ r ∈ perms, Q r = true → ∃ c s, r = c :: s ∧ c ≠ '(') :
    ∃ ds, cur2edges (perms.filter Q) = .ok ds ∧ ds.Nodup ∧
      ∀ e, e ∈ ds ↔ EdgeOver V e ∧ ∃ n, HasRow perms e n ∧ Q (rowOf e.elems n) = true := by
  have hdec : ∀ e, EdgeOver V e → ∀ n, HasRow perms e n → Q (rowOf e.elems n) = true →
      decodeRow (rowOf e.elems n) = .ok e := by
    intro e he n hn hq
    obtain ⟨c, s, hcs, hc⟩ := hQ _ hn.2 hq
    obtain ⟨h, t, rfl, ht, hh, hx⟩ := he
    have hperm := permN_perm hn.1
    cases hp : permN (Val.tup (h :: t)).elems n with
    | nil =>
      rw [hp] at hperm
      have := List.nil_perm.1 hperm
      simp [Val.elems] at this
    | cons x r =>
      have hxw : WfVal x := hV.wf x (hx x (hperm.subset (by simp [hp])))
      have hxa : x.isAtom = true := by
        rw [rowOf, hp, List.cons_append] at hcs
        exact atom_of_prefix (s := s) hxw hc (by rw [hcs]; exact List.prefix_rfl)
      exact decodeRow_rowOf (fun y hy => hV.wf y (hx y hy)) hh ht hn.1 hp hxa
  have hrow : ∀ r ∈ perms.filter Q, ∃ e n, EdgeOver V e ∧ HasRow perms e n ∧
      r = rowOf e.elems n ∧ Q (rowOf e.elems n) = true := by
    intro r hr
    rw [List.mem_filter] at hr
    obtain ⟨e, n, he, hn, rfl⟩ := hR r hr.1
    exact ⟨e, n, he, ⟨hn, hr.1⟩, rfl, hr.2⟩
  obtain ⟨ys, hys, hm⟩ := mapE_spec (f := decodeRow (F := F)) (xs := perms.filter Q) (by
      intro r hr
      obtain ⟨e, n, he, hn, rfl, hp⟩ := hrow r hr
      exact ⟨e, hdec e he n hn hp⟩)
  have hmem : ∀ e, e ∈ ys ↔ EdgeOver V e ∧ ∃ n, HasRow perms e n ∧ Q (rowOf e.elems n) = true := by
    intro e
    rw [hm]
    constructor
    · rintro ⟨r, hr, hd⟩
      obtain ⟨e', n, he', hn, rfl, hp⟩ := hrow r hr
      rw [hdec e' he' n hn hp] at hd
      simp at hd; subst hd
      exact ⟨he', n, hn, hp⟩
    · rintro ⟨he, n, hn, hp⟩
      exact ⟨rowOf e.elems n, List.mem_filter.2 ⟨hn.2, hp⟩, hdec e he n hn hp⟩
  refine ⟨pySet ys, ?_, ?_, ?_⟩
  · rw [cur2edges, hys]; rfl
  · apply pySet_nodup
    intro a ha
    exact pyEq_refl (((hmem a).1 ha).1.wf hV)
  · intro e
    rw [mem_pySet, hmem]
    intro a ha b hb
    exact ((hmem a).1 ha).1.pyEq_eq hV ((hmem b).1 hb).1

theorem RowsOk.chars (hS : Suits w S V) {perms : List Str} (hR : RowsOk V perms) : ∀ r ∈ perms, ∀ c ∈ r, S c := by
  intro r hr
  obtain ⟨e, n, he, hn, rfl⟩ := hR r hr
  exact (hS.tidyRow he hn).1

/-! ### the start of the range of a pattern -/

theorem pattern_key (hS : Suits w S V) (hV : Vocab V) {ps : List (Val F)} (hp : PatternOver V ps) :
    (∀ c ∈ patStart ps, S c) ∧ (patStart ps).head? ≠ some '(' ∧ (patStart ps).getLast? ≠ some ' ' ∧
      (∀ c, (patStart ps).getLast? = some c → Wide w c) ∧ ∃ endS, strPlus1 (patStart ps) = .ok endS := by
  obtain ⟨pre, c, post, hps, hpre, hca⟩ := hp.first
  have hnodes : ps.filter (fun n => !n.isNone) = c :: post.filter (fun n => !n.isNone) := by
    rw [hps]; exact filter_first hpre hca
  have hnV : ∀ x ∈ ps.filter (fun n => !n.isNone), V x := by
    intro x hx
    rw [List.mem_filter] at hx
    rcases hp.over x hx.1 with rfl | h
    · simp [Val.isNone] at hx
    · exact h
  have hne : ps.filter (fun n => !n.isNone) ≠ [] := by rw [hnodes]; simp
  have hcV : V c := hnV c (by rw [hnodes]; simp)
  obtain ⟨ch, s0, hs0, hch⟩ := edge2str_head_atom (hV.wf c hcV) hca
  obtain ⟨s1, hs1⟩ := nodes2str_cons_head (xs := post.filter (fun n => !n.isNone)) hs0
  have hstart : patStart ps = ch :: s1 := by rw [patStart, hnodes, hs1]
  have hl := last_nodes_wf hne fun x hx => hV.wf x (hnV x hx)
  have hlast := hnV _ (List.getLast_mem hne)
  refine ⟨chars_nodes hS.apt.space fun x hx => hS.chars x (hnV x hx), ?_, ?_, ?_, ?_⟩
  · rw [hstart]; simpa using hch
  · rw [patStart, hl]; exact last_val (hV.wf _ hlast)
  · rw [patStart, hl]; exact hS.wide _ hlast
  · have hsucc := hasSucc_nodes2str hV hne hnV
    rw [← strPlus1_isOk_iff] at hsucc
    exact hsucc

/-- A pattern query under the collation, on any index. -/
theorem coPattern_rows (hS : Suits w S V) (hV : Vocab V) {b : Bool} {ps : List (Val F)} (hp : PatternOver V ps) {s : St}
    (hu : s.usable) (hR : RowsOk V s.work.perms) :
    ∃ (res : List (Val F)) (Q : Str → Bool), coPattern2edges w (.seq b ps) s = (.ok res, s) ∧ res.Nodup ∧
      (∀ e, EdgeOver V e → ∀ n, HasRow s.work.perms e n → patStart ps <+: rowOf e.elems n → Q (rowOf e.elems n) = true) ∧
      ∀ e, e ∈ res ↔ EdgeOver V e ∧ Matches ps e.elems ∧ ∃ n, HasRow s.work.perms e n ∧ Q (rowOf e.elems n) = true := by
  obtain ⟨h1, h2, h3, h4, endS, hend⟩ := pattern_key hS hV hp
  have hw : ∀ r ∈ s.work.perms, _ := fun r hr => coRange_wide hS.apt hend h1 h2 h3 h4 (r := r) (hR.chars hS r hr)
  obtain ⟨ds, hds, hnd, hmem⟩ := cur2edges_sel hV hR (Q := fun r => padLe w (patStart ps) r && padLt w r endS)
    fun r hr h => (hw r hr).2 h
  have hfil := filterE_spec (p := fun e => edgeMatchesPattern e (.seq b ps))
    (q := fun e => decide (Matches ps e.elems)) (xs := ds) (by
      intro e he
      exact edgeMatches_eq hV ((hmem e).1 he).1 hp.over)
  refine ⟨pySet (ds.filter fun e => decide (Matches ps e.elems)),
    fun r => padLe w (patStart ps) r && padLt w r endS, ?_, ?_, ?_, ?_⟩
  · unfold coPattern2edges
    rw [bind_run _ _ _ (liftE_ok (x := (Val.seq b ps).iter) (a := ps) rfl s)]
    rw [bind_run _ _ _ (liftE_ok (show strPlus1 (nodes2str (ps.filter fun n => !n.isNone)) = .ok endS from hend) s),
      bind_run _ _ _ (openCursor_local s), bind_run _ _ _ (execRead_local hu _ _)]
    rw [DB.coSelectRange]
    unfold patStart at hds
    rw [bind_run _ _ _ (liftE_ok hds s), bind_run _ _ _ (closeCursor_local s),
      bind_run _ _ _ (liftE_ok hfil s)]
    rfl
  · apply pySet_nodup
    intro e he
    rw [List.mem_filter] at he
    exact pyEq_refl (((hmem e).1 he.1).1.wf hV)
  · intro e he n hn hpre
    exact (hw _ hn.2).1 hpre
  · intro e
    rw [mem_pySet]
    · simp only [List.mem_filter, decide_eq_true_eq, hmem]
      constructor
      · rintro ⟨⟨he, h⟩, hm⟩; exact ⟨he, hm, h⟩
      · rintro ⟨he, hm, h⟩; exact ⟨⟨he, h⟩, hm⟩
    · intro a ha b hb
      rw [List.mem_filter] at ha hb
      exact ((hmem a).1 ha.1).1.pyEq_eq hV ((hmem b).1 hb.1).1

/-- A pattern query under the collation, on a complete index. -/
theorem coPattern_run (hS : Suits w S V) (hV : Vocab V) {A : Abs F} (hA : AbsOk V A) {b : Bool} {ps : List (Val F)}
    (hp : PatternOver V ps) {s : St} (hu : s.usable) (hw : s.work = A.conc) :
    ∃ res, coPattern2edges w (.seq b ps) s = (.ok res, s) ∧ res.Nodup ∧
      ∀ e, e ∈ res ↔ e ∈ A.edges ∧ Matches ps e.elems := by
  have hR : RowsOk V s.work.perms := by rw [hw]; exact rowsOk_conc hA
  obtain ⟨res, Q, hres, hnd, hQ, hmem⟩ := coPattern_rows hS hV (b := b) hp hu hR
  refine ⟨res, hres, hnd, fun e => ?_⟩
  rw [hmem]
  constructor
  · rintro ⟨he, hm, n, hn, _⟩
    rw [hw, hasRow_conc hV hA he] at hn
    exact ⟨hn.1, hm⟩
  · rintro ⟨he, hm⟩
    have heo := hA.over e he
    obtain ⟨n, hn, hpre⟩ := pattern_has_row hV hp heo hm
    have hrow : HasRow s.work.perms e n := by rw [hw, hasRow_conc hV hA heo]; exact ⟨he, hn⟩
    exact ⟨heo, hm, n, hrow, hQ e heo n hrow hpre⟩

theorem coExists_run (hS : Suits w S V) (hV : Vocab V) {A : Abs F} (hA : AbsOk V A) {e : Val F} (he : EdgeOver V e)
    {s : St} (hu : s.usable) (hw : s.work = A.conc) : coExists w e s = (.ok (decide (e ∈ A.edges)), s) := by
  obtain ⟨res, hres, hnd, hmem⟩ := coPattern_run hS hV hA (b := false) he.pattern hu hw
  unfold coExists
  have htup := he.tup_elems
  rw [show (Val.seq false e.elems) = e from htup.symm] at hres
  rw [bind_run _ _ _ hres]
  show (Except.ok (decide (res.length > 0)), s) = _
  congr 2
  rw [decide_eq_decide]
  have hself : ∀ x, Matches e.elems x ↔ e.elems = x :=
    fun x => Matches.self_iff (fun p hp => V_ne_none hV (he.mem p hp))
  constructor
  · intro h
    obtain ⟨e', he'⟩ := List.exists_mem_of_length_pos h
    obtain ⟨h1, h2⟩ := (hmem e').1 he'
    rw [hself] at h2
    rwa [he.eq_of_elems (hA.over e' h1) h2]
  · intro h
    apply List.length_pos_of_mem (a := e)
    rw [hmem]
    exact ⟨h, (hself _).2 rfl⟩

/-- A pattern query whose last character is sharp is the exact one. -/
theorem coPattern_same (hS : Suits w S V) (hV : Vocab V) {b : Bool} {ps : List (Val F)} (hp : PatternOver V ps)
    (hs : ∀ c, (patStart ps).getLast? = some c → Sharp w S c) {s : St} (hR : RowsOk V s.work.perms) :
    coPattern2edges w (.seq b ps) s = pattern2edges (.seq b ps) s := by
  obtain ⟨h1, h2, h3, h4, endS, hend⟩ := pattern_key hS hV hp
  unfold coPattern2edges pattern2edges
  rw [bind_run _ _ _ (liftE_ok (x := (Val.seq b ps).iter) (a := ps) rfl s),
    bind_run _ _ _ (liftE_ok (x := (Val.seq b ps).iter) (a := ps) rfl s)]
  have hend' : strPlus1 (nodes2str (ps.filter fun n => !n.isNone)) = .ok endS := hend
  rw [bind_run _ _ _ (liftE_ok hend' s), bind_run _ _ _ (liftE_ok hend' s)]
  refine bind_same rfl ?_
  intro cur s1 h
  have hs1 : s1 = s := by rw [openCursor_local] at h; exact (by simpa using h.symm : cur = s.lcur ∧ s1 = s).2
  subst hs1
  refine bind_same ?_ (fun _ _ _ => rfl)
  unfold execRead
  simp only
  rw [coRange_sharp hS.apt hend' h1 hs (hR.chars hS) fun r _ j => key_tidy_no h3]

theorem coStar_same (hS : Suits w S V) (hV : Vocab V) {c : Val F} (hc : V c) (hca : c.isAtom = true) {s : St}
    (hR : RowsOk V s.work.perms) : coStar w c s = hgStar c s := by
  have hseq : c.isSeq = false := by cases c <;> simp_all [Val.isAtom, Val.isSeq]
  show _ = sqlStar c s
  unfold coStar sqlStar coStr2perms str2perms
  rw [hseq]
  simp only [Bool.false_eq_true, if_false]
  have hend := strPlus1_space (atomStr c)
  rw [bind_run _ _ _ (liftE_ok hend s), bind_run _ _ _ (liftE_ok hend s)]
  refine bind_same rfl ?_
  intro cur s1 h
  have hs1 : s1 = s := by rw [openCursor_local] at h; exact (by simpa using h.symm : cur = s.lcur ∧ s1 = s).2
  subst hs1
  refine bind_same ?_ (fun _ _ _ => rfl)
  unfold execRead
  simp only
  have hca' := cleanAtom_of_wf (hV.wf c hc) hca
  rw [coRange_sharp hS.apt hend ?_ ?_ (hR.chars hS) ?_]
  · intro x hx
    rw [List.mem_append] at hx
    rcases hx with hx | hx
    · exact hS.chars c hc x (by rw [edge2str_atom hca]; exact hx)
    · have : x = ' ' := by simpa [lit] using hx
      rw [this]; exact hS.apt.space
  · intro x hx
    have : x = ' ' := by
      rw [List.getLast?_append] at hx
      simpa [lit] using hx.symm
    rw [this]; exact hS.sharpSpace
  · intro r hr j hj
    obtain ⟨e, n, he, hn, rfl⟩ := hR r hr
    have hsp := row_has_space he hn
    have hne := last_atom hca'
    have hj' : atomStr c ++ [' '] = (rowOf e.elems n ++ List.replicate j ' ') ++ [' '] := by
      rw [List.append_assoc, ← List.replicate_succ']; exact hj
    have := List.append_inj_left' hj' rfl
    have hmem : ' ' ∈ atomStr c := by rw [this]; simp [hsp]
    exact absurd (hca'.noSpace ' ' hmem) (by decide)

theorem coSymbols_same (hS : Suits w S V) {root : Str} (hr : ∀ c ∈ root, S c) {s : St} (hR : RowsOk V s.work.perms) :
    coSymbolsWithRoot w root s = hgSymbolsWithRoot root s := by
  show _ = symbolsWithRoot root s
  unfold coSymbolsWithRoot symbolsWithRoot
  have hend := strPlus1_slash root
  rw [bind_run _ _ _ (liftE_ok hend s), bind_run _ _ _ (liftE_ok hend s)]
  refine bind_same rfl ?_
  intro cur s1 h
  have hs1 : s1 = s := by rw [openCursor_local] at h; exact (by simpa using h.symm : cur = s.lcur ∧ s1 = s).2
  subst hs1
  refine bind_same ?_ (fun _ _ _ => rfl)
  unfold execRead
  simp only
  have hl : (root ++ lit "/").getLast? = some '/' := by rw [List.getLast?_append]; rfl
  rw [coRange_sharp hS.apt hend ?_ ?_ (hR.chars hS) ?_]
  · intro x hx
    rw [List.mem_append] at hx
    rcases hx with hx | hx
    · exact hr x hx
    · have : x = '/' := by simpa [lit] using hx
      rw [this]; exact hS.slash
  · intro x hx
    rw [hl] at hx
    simp only [Option.some.injEq] at hx
    rw [← hx]; exact hS.sharpSlash
  · intro r _ j
    exact key_tidy_no (by rw [hl]; decide)

/-- `sources` under the collation. -/
theorem coSources_run (hS : Suits w S V) (hV : Vocab V) {A : Abs F} (hA : AbsOk V A) {e : Val F}
    (hc : V (.str (lit "src/1"))) (he : V e) {s : St} (hu : s.usable) (hw : s.work = A.conc) :
    ∃ res res', coSources w e s = (.ok res, s) ∧ hgSources e s = (.ok res', s) ∧ ∀ x, x ∈ res ↔ x ∈ res' := by
  have hpat : PatternOver V [.str (lit "src/1"), e, .none] := by
    refine ⟨?_, [], .str (lit "src/1"), [e, .none], rfl, by simp, rfl⟩
    intro p hp
    simp only [List.mem_cons, List.not_mem_nil, or_false] at hp
    rcases hp with rfl | rfl | rfl
    · exact .inr hc
    · exact .inr he
    · exact .inl rfl
  obtain ⟨r1, e1, _, m1⟩ := coPattern_run hS hV hA (b := false) hpat hu hw
  obtain ⟨r2, e2, _, m2⟩ := pattern2edges_run hV hA (b := false) hpat hu hw
  have hne := V_ne_none hV he
  have hitem : ∀ x ∈ A.edges, Matches [.str (lit "src/1"), e, .none] x.elems → ∃ y, x.item2 = .ok y ∧ V y := by
    intro x hx hm
    have hxo := hA.over x hx
    have hl : ∃ a b y, x.elems = [a, b, y] := by
      rcases hxe : x.elems with _ | ⟨a, _ | ⟨b, _ | ⟨y, _ | _⟩⟩⟩ <;>
        simp_all [Matches]
    obtain ⟨a, b, y, hl⟩ := hl
    refine ⟨y, ?_, hxo.mem y (by rw [hl]; simp)⟩
    unfold Val.item2
    rw [iter_edge hxo, hl]
    rfl
  have hmap : ∀ r : List (Val F), (∀ x, x ∈ r ↔ x ∈ A.edges ∧ Matches [.str (lit "src/1"), e, .none] x.elems) →
      ∃ ys, mapE Val.item2 r = .ok ys ∧ (∀ y, y ∈ ys ↔ ∃ x ∈ r, x.item2 = .ok y) ∧ ∀ y ∈ ys, V y := by
    intro r hr
    obtain ⟨ys, hys, hm⟩ := mapE_spec (f := Val.item2) (xs := r) fun x hx =>
      let ⟨y, hy, _⟩ := hitem x ((hr x).1 hx).1 ((hr x).1 hx).2
      ⟨y, hy⟩
    refine ⟨ys, hys, hm, ?_⟩
    intro y hy
    obtain ⟨x, hx, hxy⟩ := (hm y).1 hy
    obtain ⟨y', hy', hv⟩ := hitem x ((hr x).1 hx).1 ((hr x).1 hx).2
    rw [hxy] at hy'
    simp only [Except.ok.injEq] at hy'
    rw [hy']; exact hv
  obtain ⟨y1, hy1, k1, v1⟩ := hmap r1 m1
  obtain ⟨y2, hy2, k2, v2⟩ := hmap r2 m2
  refine ⟨pySet y1, pySet y2, ?_, ?_, ?_⟩
  · unfold coSources
    rw [bind_run _ _ _ (show coPattern2edges w (.tup [.str constSource, e, .none]) s = (.ok r1, s) from e1),
      bind_run _ _ _ (liftE_ok hy1 s)]
    rfl
  · unfold hgSources hgPattern2edges
    rw [bind_run _ _ _ (show pattern2edges (.tup [.str constSource, e, .none]) s = (.ok r2, s) from e2),
      bind_run _ _ _ (liftE_ok hy2 s)]
    rfl
  · intro x
    rw [mem_pySet (fun a ha b hb => hV.eq a b (v1 a ha) (v1 b hb)),
      mem_pySet (fun a ha b hb => hV.eq a b (v2 a ha) (v2 b hb)), k1, k2]
    simp only [m1, m2]

end GB
