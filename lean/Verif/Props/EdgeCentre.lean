import Verif.Proofs.Misread
import Verif.Spec.WitnessHist

/-
Properties C18 and C20: queries whose centre, or first given element, is itself an edge.  They are false in
general; here are the cases in which the answer is right and the cases in which it never is.
-/

set_option linter.unusedSectionVars false

namespace GB

variable {F : Type} [PyFloat F] [DecidableEq F] {V : Val F → Prop}

/-! ### the rows found -/

theorem row_first (hV : Vocab V) {e : Val F} (he : EdgeOver V e) {n : Nat} (hn : n < factorial e.elems.length) :
    ∃ x r, permN e.elems n = x :: r ∧ x ∈ e.elems ∧ ∀ y ∈ x :: (r ++ [Val.int (F := F) n]), WfVal y := by
  have hperm := permN_perm hn
  cases hp : permN e.elems n with
  | nil => rw [hp] at hperm; exact absurd (List.nil_perm.1 hperm) he.elems_ne
  | cons x r =>
    refine ⟨x, r, rfl, hperm.subset (by simp [hp]), ?_⟩
    intro y hy
    rw [← List.cons_append, ← hp, List.mem_append, List.mem_singleton] at hy
    rcases hy with hy | rfl
    · exact hV.wf y (he.mem y (hperm.subset hy))
    · exact .int

theorem star_edge_run {c : Val F} (hs : c.isSeq = true) {s : St} (hu : s.usable) :
    sqlStar c s = (do
      let edges ← liftE (cur2edges (s.work.perms.filter fun r => (edge2str c ++ lit " ").isPrefixOf r))
      pure (pySet edges) : M (List (Val F))) s := by
  have hend := strPlus1_space (edge2str c)
  unfold sqlStar str2perms
  rw [if_pos hs, bind_run _ _ _ (liftE_ok hend s), bind_run _ _ _ (openCursor_local s),
    bind_run _ _ _ (execRead_local hu _ _)]
  rw [DB.selectRange, selectRange_eq hend]
  cases hc : cur2edges (F := F) (s.work.perms.filter fun r => (edge2str c ++ lit " ").isPrefixOf r) with
  | error er => rw [bind_err _ _ _ (show liftE (Except.error er) s = _ from rfl),
      bind_err _ _ _ (show liftE (Except.error er) s = _ from rfl)]
  | ok es =>
    rw [bind_run _ _ _ (show liftE (Except.ok es) s = _ from rfl),
      bind_run _ _ _ (show liftE (Except.ok es) s = _ from rfl), bind_run _ _ _ (closeCursor_local s)]

/-- C20, the true part: `star` of an edge that no present edge contains returns the empty set. -/
theorem C20_absent_partial (hV : Vocab V) (ops : List (Op F)) (hops : ∀ op ∈ ops, op.Over V) (auto : Bool) (s : St)
    (hs : runOps ops (St.new auto) = (.ok (), s)) (c : Val F) (hc : V c) (hseq : c.isSeq = true)
    (habs : ∀ e, (Spec.after ops).Present e → c ∉ e.elems) : hgStar c s = (.ok [], s) := by
  obtain ⟨A, hA⟩ := after_of hV hops hs
  unfold hgStar
  rw [star_edge_run hseq (St.usable_of_none hA.idle), hA.work]
  have : (A.conc.perms.filter fun r => (edge2str c ++ lit " ").isPrefixOf r) = [] := by
    rw [List.filter_eq_nil_iff]
    intro r hr hpre
    rw [List.isPrefixOf_iff_prefix] at hpre
    obtain ⟨e, he, n, hn, rfl⟩ := mem_conc_perms.1 hr
    obtain ⟨x, r', hp, hx, hw⟩ := row_first hV (hA.ok.over e he) hn
    rw [rowOf, hp, List.cons_append] at hpre
    have := first_of_prefix (hV.wf c hc) hw hpre
    subst this
    exact habs e ((hA.rel.present e).2 he) hx
  rw [this]
  rfl

/-- C20 fails whenever it matters: if some present edge contains the edge `c` next to symbols and numbers, then
`star(c)` raises, whatever else the graph contains, unless the last but one element of `c` is an integer or a symbol
that Python's `int()` might accept (like "+5" or "1_000"). -/
theorem C20_raises_counterexample (hV : Vocab V) (ops : List (Op F)) (hops : ∀ op ∈ ops, op.Over V) (auto : Bool)
    (s : St) (hs : runOps ops (St.new auto) = (.ok (), s)) (init : List (Val F)) (y z : Val F)
    (pre post : List (Val F)) (hpre : ∀ a ∈ pre ++ post, a.isAtom = true)
    (hpres : (Spec.after ops).Present (.tup (pre ++ .tup (init ++ [y, z]) :: post)))
    (hi : ∀ i, y ≠ .int i) (hp : ∀ t, y = .str t → NotIntText t) :
    ∃ er, hgStar (.tup (init ++ [y, z])) s = (.error er, s) := by
  obtain ⟨A, hA⟩ := after_of hV hops hs
  have hm := (hA.rel.present _).1 hpres
  have he := hA.ok.over _ hm
  have hmem : ∀ x ∈ pre ++ .tup (init ++ [y, z]) :: post, V x := he.mem
  have hcw : WfVal (.tup (init ++ [y, z]) : Val F) := hV.wf _ (hmem _ (by simp))
  have hxs : ∀ x ∈ init ++ [y, z], WfVal x := by
    cases hcw with
    | tup _ h => exact h
  unfold hgStar
  rw [star_edge_run rfl (St.usable_of_none hA.idle)]
  obtain ⟨n, hn, hpn⟩ := exists_permN (l := pre ++ .tup (init ++ [y, z]) :: post)
    (p := .tup (init ++ [y, z]) :: (pre ++ post)) List.perm_middle.symm
  have hrow : rowOf (pre ++ .tup (init ++ [y, z]) :: post) n =
      nodes2str (.tup (init ++ [y, z]) :: (pre ++ post) ++ [.int n]) := by rw [rowOf, hpn]
  obtain ⟨er, her⟩ := decodeRow_edge_first (F := F) (init := init) (y := y) (z := z) (as := pre ++ post) (n := n)
    (fun x hx => hxs x (by simp [hx])) (hxs y (by simp)) (hxs z (by simp))
    (fun a ha => ⟨hV.wf a (hmem a (by
      rcases List.mem_append.1 ha with h | h
      · simp [h]
      · simp [h])), hpre a ha⟩)
    (pyInt_notVal (hxs y (by simp)) hi hp)
  rw [← hrow] at her
  have hin : rowOf (pre ++ .tup (init ++ [y, z]) :: post) n ∈
      s.work.perms.filter fun r => (edge2str (.tup (init ++ [y, z]) : Val F) ++ lit " ").isPrefixOf r := by
    rw [List.mem_filter, List.isPrefixOf_iff_prefix]
    constructor
    · rw [hA.work]
      exact mem_conc_perms.2 ⟨_, hm, n, hn, rfl⟩
    · rw [hrow, List.cons_append, nodes2str_cons (by simp)]
      exact List.prefix_append _ _
  obtain ⟨er', h'⟩ := mapE_fails hin her
  refine ⟨er', ?_⟩
  have : cur2edges (F := F) (s.work.perms.filter fun r =>
      (edge2str (.tup (init ++ [y, z]) : Val F) ++ lit " ").isPrefixOf r) = .error er' := by
    unfold cur2edges; rw [h']; rfl
  rw [bind_err _ _ _ (show liftE (cur2edges _) s = _ by rw [this]; rfl)]

/-- What is read back from a row that begins with an edge is smaller than the edge stored. -/
theorem read_smaller (hV : Vocab V) {e x : Val F} (he : EdgeOver V e) {n : Nat} (hn : n < factorial e.elems.length)
    {r : List (Val F)} (hp : permN e.elems n = x :: r) (hx : x.isSeq = true) {v : Val F}
    (h : decodeRow (rowOf e.elems n) = .ok v) : atomCount v < atomCount e := by
  have hperm := permN_perm hn
  rw [hp] at hperm
  have hw : ∀ y ∈ x :: r, WfVal y := fun y hy => hV.wf y (he.mem y (hperm.subset hy))
  rw [rowOf, hp] at h
  have hxw := hw x (by simp)
  have hl : atomCount e = atomCountL (x :: r) := by
    rw [atomCountL_perm hperm]
    obtain ⟨a, b, heq, _⟩ := he
    subst heq
    rfl
  cases hxw with
  | @tup xs h2 hxs =>
    rw [hl]
    exact decodeRow_smaller hxs (by intro h; simp [h] at h2) (fun a ha => hw a (by simp [ha])) h
  | _ => simp [Val.isSeq] at hx

/-- C20 fails whenever it matters, for all graphs: if some present edge contains the edge `c`, then `star(c)` never gives
the right answer.  Either it raises, or its answer lacks an edge that is present and contains `c` (no member of the
answer even compares equal to it). -/
theorem C20_never_counterexample (hV : Vocab V) (ops : List (Op F)) (hops : ∀ op ∈ ops, op.Over V) (auto : Bool)
    (s : St) (hs : runOps ops (St.new auto) = (.ok (), s)) (c : Val F) (hc : V c) (hseq : c.isSeq = true)
    (hpres : ∃ e, (Spec.after ops).Present e ∧ c ∈ e.elems) :
    ∃ e, (Spec.after ops).Present e ∧ c ∈ e.elems ∧
      ∀ l s', hgStar c s = (.ok l, s') → ∀ v ∈ l, v ≠ e ∧ pyEq v e = false := by
  obtain ⟨A, hA⟩ := after_of hV hops hs
  have hex : ∃ e ∈ A.edges, c ∈ e.elems := by
    obtain ⟨e, he, hce⟩ := hpres
    exact ⟨e, (hA.rel.present e).1 he, hce⟩
  obtain ⟨e, he, hce, hmax⟩ := exists_largest atomCount (p := fun e => c ∈ e.elems) hex
  refine ⟨e, (hA.rel.present e).2 he, hce, ?_⟩
  intro l s' hl v hv
  have hlt : atomCount v < atomCount e := by
    unfold hgStar at hl
    rw [star_edge_run hseq (St.usable_of_none hA.idle), hA.work] at hl
    cases hcur : cur2edges (F := F) (A.conc.perms.filter fun r => (edge2str c ++ lit " ").isPrefixOf r) with
    | error er =>
      rw [bind_err _ _ _ (show liftE (cur2edges _) s = _ by rw [hcur]; rfl)] at hl
      simp at hl
    | ok es =>
      rw [bind_run _ _ _ (show liftE (cur2edges _) s = _ by rw [hcur]; rfl)] at hl
      have hl' : pySet es = l := by
        have := (Prod.mk.inj hl).1
        exact Except.ok.inj this
      subst hl'
      have hv1 := pySet_sub hv
      unfold cur2edges at hcur
      cases hm : mapE (decodeRow (F := F)) (A.conc.perms.filter fun r => (edge2str c ++ lit " ").isPrefixOf r) with
      | error er => simp [hm, bind, Except.bind] at hcur
      | ok vs =>
        simp only [hm, bind, Except.bind, Except.ok.injEq] at hcur
        subst hcur
        obtain ⟨row, hrow, hdec⟩ := mapE_mem hm (pySet_sub hv1)
        rw [List.mem_filter, List.isPrefixOf_iff_prefix] at hrow
        obtain ⟨hr, hpre⟩ := hrow
        obtain ⟨e', he', n, hn, rfl⟩ := mem_conc_perms.1 hr
        obtain ⟨x, r', hp, hx, hw⟩ := row_first hV (hA.ok.over e' he') hn
        have hpre' := hpre
        rw [rowOf, hp, List.cons_append] at hpre'
        have := first_of_prefix (hV.wf c hc) hw hpre'
        subst this
        have := read_smaller hV (hA.ok.over e' he') hn hp hseq hdec
        have := hmax e' he' hx
        omega
  refine ⟨?_, ?_⟩
  · rintro rfl; omega
  · cases hq : pyEq v e with
    | false => rfl
    | true => have := atomCount_eq hq; omega

/-- C20, exactly when it holds: `star` of an edge returns the set of the present edges that contain it if and only if
there is none. -/
theorem C20_right_iff (hV : Vocab V) (ops : List (Op F)) (hops : ∀ op ∈ ops, op.Over V) (auto : Bool) (s : St)
    (hs : runOps ops (St.new auto) = (.ok (), s)) (c : Val F) (hc : V c) (hseq : c.isSeq = true) :
    (∃ l s', hgStar c s = (.ok l, s') ∧ ∀ e, e ∈ l ↔ (Spec.after ops).Present e ∧ c ∈ e.elems) ↔
      ¬ ∃ e, (Spec.after ops).Present e ∧ c ∈ e.elems := by
  constructor
  · rintro ⟨l, s', hl, hall⟩ hex
    obtain ⟨e, he, hce, hno⟩ := C20_never_counterexample hV ops hops auto s hs c hc hseq hex
    exact (hno l s' hl e ((hall e).2 ⟨he, hce⟩)).1 rfl
  · intro hno
    refine ⟨[], s, C20_absent_partial hV ops hops auto s hs c hc hseq (fun e he hce => hno ⟨e, he, hce⟩), ?_⟩
    intro e
    simp only [List.not_mem_nil, false_iff]
    exact fun h => hno ⟨e, h⟩

/-- C20 is false also where it does not raise: a present edge contains `(7 3 1 x)`, but `star` of it returns an
edge nobody added. -/
theorem C20_wrong_counterexample :
    let c : HVal := .tup [.int 7, .int 3, .int 1, sy "x"]
    let e : HVal := .tup [sy "p", c]
    ∃ s, runOps [.prim (.add e 1)] (St.new false) = (.ok (), s) ∧ (hgExists e s).1 = .ok true ∧
      (hgStar c s).1 = .ok [.tup [.int 3, .int 7]] ∧
      (hgExists (.tup [.int 3, .int 7] : HVal) s).1 = .ok false := by
  refine ⟨(runOps [.prim (.add (.tup [sy "p", .tup [.int 7, .int 3, .int 1, sy "x"]]) 1)] (St.new false)).2, ?_⟩
  decide +kernel

/-- The hypotheses are met: after the example history `(src/1 (is/1 sky/1 blue/1) john)` is present, and `star`
of the fact raises; nothing contains `(size sky/1 7)`. -/
example : ∃ s, runOps exOps (St.new false) = (.ok (), s) ∧ (hgStar exE1 s).1 = .error .valueError ∧
    (hgExists (support exE1 (sy "john")) s).1 = .ok true ∧ (hgStar exE3 s).1 = .ok ([] : List HVal) := by
  refine ⟨(runOps exOps (St.new false)).2, ?_⟩
  decide +kernel

/-! ### C18 -/

/-- C18 fails for every pattern made only of wildcards (and the empty one): it raises, whatever the graph. -/
theorem C18_wildcards_counterexample (k : Nat) (s : St) :
    hgPattern2edges (.tup (List.replicate k (.none : Val F))) s = (.error .indexError, s) := by
  unfold hgPattern2edges pattern2edges
  rw [bind_run _ _ _ (liftE_ok (x := (Val.tup (List.replicate k (.none : Val F))).iter)
    (a := List.replicate k .none) rfl s)]
  have : (List.replicate k (.none : Val F)).filter (fun n => !n.isNone) = [] := by
    rw [List.filter_eq_nil_iff]
    intro a ha
    rw [List.eq_of_mem_replicate ha]
    simp [Val.isNone]
  rw [this]
  rfl

theorem pattern_edge_run (hV : Vocab V) {ps : List (Val F)} (hover : ∀ p ∈ ps, p = .none ∨ V p)
    (hne : ps.filter (fun n => !n.isNone) ≠ []) {s : St} (hu : s.usable) :
    hgPattern2edges (.tup ps) s = (do
      let edges ← liftE (cur2edges (s.work.perms.filter fun r =>
        (nodes2str (ps.filter fun n => !n.isNone)).isPrefixOf r))
      let res ← liftE (filterE (fun e => edgeMatchesPattern e (.tup ps)) edges)
      pure (pySet res) : M (List (Val F))) s := by
  have hnV : ∀ x ∈ ps.filter (fun n => !n.isNone), V x := by
    intro x hx
    rw [List.mem_filter] at hx
    rcases hover x hx.1 with rfl | h
    · simp [Val.isNone] at hx
    · exact h
  have hsucc := hasSucc_nodes2str hV hne hnV
  rw [← strPlus1_isOk_iff] at hsucc
  obtain ⟨endS, hend⟩ := hsucc
  unfold hgPattern2edges pattern2edges
  rw [bind_run _ _ _ (liftE_ok (x := (Val.tup ps).iter) (a := ps) rfl s), bind_run _ _ _ (liftE_ok hend s),
    bind_run _ _ _ (openCursor_local s), bind_run _ _ _ (execRead_local hu _ _)]
  rw [DB.selectRange, selectRange_eq hend]
  cases hc : cur2edges (F := F) (s.work.perms.filter fun r =>
      (nodes2str (ps.filter fun n => !n.isNone)).isPrefixOf r) with
  | error er => rw [bind_err _ _ _ (show liftE (Except.error er) s = _ from rfl),
      bind_err _ _ _ (show liftE (Except.error er) s = _ from rfl)]
  | ok es =>
    rw [bind_run _ _ _ (show liftE (Except.ok es) s = _ from rfl),
      bind_run _ _ _ (show liftE (Except.ok es) s = _ from rfl), bind_run _ _ _ (closeCursor_local s)]

/-- The elements given by a pattern whose first given element is `c`. -/
theorem given_filter {pre post : List (Val F)} {c : Val F} (hpre : ∀ p ∈ pre, p = .none) (hseq : c.isSeq = true) :
    (pre ++ c :: post).filter (fun n => !n.isNone) = c :: post.filter (fun n => !n.isNone) := by
  have hcn : c.isNone = false := by cases c <;> simp_all [Val.isSeq, Val.isNone]
  rw [List.filter_append, List.filter_eq_nil_iff.2, List.nil_append, List.filter_cons_of_pos (by simp [hcn])]
  intro a ha
  rw [hpre a ha]
  simp [Val.isNone]

/-- C18, the true part: a pattern whose first given element is the edge `c` returns the empty set, which is right, if
no element of a present edge has a text that begins with the text of `c` (in particular if no present edge has an edge
as an element), or if a further element is given and no present edge contains `c`. -/
theorem C18_edge_first_partial (hV : Vocab V) (ops : List (Op F)) (hops : ∀ op ∈ ops, op.Over V) (auto : Bool) (s : St)
    (hs : runOps ops (St.new auto) = (.ok (), s)) (pre : List (Val F)) (c : Val F) (post : List (Val F))
    (hpre : ∀ p ∈ pre, p = .none) (hc : V c) (hseq : c.isSeq = true) (hpost : ∀ p ∈ post, p = .none ∨ V p)
    (habs : (∀ e, (Spec.after ops).Present e → ∀ x ∈ e.elems, ¬ edge2str c <+: edge2str x) ∨
      ((∃ p ∈ post, p ≠ .none) ∧ ∀ e, (Spec.after ops).Present e → c ∉ e.elems)) :
    hgPattern2edges (.tup (pre ++ c :: post)) s = (.ok [], s) := by
  obtain ⟨A, hA⟩ := after_of hV hops hs
  have hfil := given_filter (post := post) hpre hseq
  rw [pattern_edge_run hV (by
    intro p hp
    simp only [List.mem_append, List.mem_cons] at hp
    rcases hp with h | rfl | h
    · exact .inl (hpre p h)
    · exact .inr hc
    · exact hpost p h) (by rw [hfil]; simp) (St.usable_of_none hA.idle), hA.work, hfil]
  have hcw := hV.wf c hc
  have : (A.conc.perms.filter fun r => (nodes2str (c :: post.filter fun n => !n.isNone)).isPrefixOf r) = [] := by
    rw [List.filter_eq_nil_iff]
    intro r hr hpre
    rw [List.isPrefixOf_iff_prefix] at hpre
    obtain ⟨e, he, n, hn, rfl⟩ := mem_conc_perms.1 hr
    obtain ⟨x, r', hp, hx, hw⟩ := row_first hV (hA.ok.over e he) hn
    rw [rowOf, hp, List.cons_append] at hpre
    rcases habs with habs | ⟨⟨p, hpm, hpn⟩, habs⟩
    · refine habs e ((hA.rel.present e).2 he) x hx (text_of_prefix hcw hseq hw ?_)
      exact (nodes2str_first _ _).trans hpre
    · have hne : post.filter (fun n => !n.isNone) ≠ [] := by
        intro h
        have := (List.filter_eq_nil_iff.1 h) p hpm
        cases p <;> simp_all [Val.isNone]
      rw [nodes2str_cons hne] at hpre
      have := first_of_prefix hcw hw ((List.prefix_append _ _).trans hpre)
      subst this
      exact habs e ((hA.rel.present e).2 he) hx
  rw [this]
  rfl

/-- C18 fails for all graphs in which it matters: let the first given element of a pattern be the edge `c`, and let `e`
be a present edge that matches, and that has the most symbols and numbers among the present edges with `c` (more
exactly: with an element whose text begins like that of `c`).  Then the query never gives the right answer: it raises,
or its answer lacks `e`. -/
theorem C18_never_counterexample (hV : Vocab V) (ops : List (Op F)) (hops : ∀ op ∈ ops, op.Over V) (auto : Bool) (s : St)
    (hs : runOps ops (St.new auto) = (.ok (), s)) (pre : List (Val F)) (c : Val F) (post : List (Val F))
    (hpre : ∀ p ∈ pre, p = .none) (hc : V c) (hseq : c.isSeq = true) (hpost : ∀ p ∈ post, p = .none ∨ V p)
    (e : Val F) (hmax : ∀ e', (Spec.after ops).Present e' → (∃ x ∈ e'.elems, edge2str c <+: edge2str x) →
      atomCount e' ≤ atomCount e) (l : List (Val F)) (s' : St)
    (hl : hgPattern2edges (.tup (pre ++ c :: post)) s = (.ok l, s')) : ∀ v ∈ l, v ≠ e ∧ pyEq v e = false := by
  obtain ⟨A, hA⟩ := after_of hV hops hs
  have hfil := given_filter (post := post) hpre hseq
  rw [pattern_edge_run hV (by
    intro p hp
    simp only [List.mem_append, List.mem_cons] at hp
    rcases hp with h | rfl | h
    · exact .inl (hpre p h)
    · exact .inr hc
    · exact hpost p h) (by rw [hfil]; simp) (St.usable_of_none hA.idle), hA.work, hfil] at hl
  have hcw := hV.wf c hc
  intro v hv
  have hlt : atomCount v < atomCount e := by
    cases hcur : cur2edges (F := F) (A.conc.perms.filter fun r =>
        (nodes2str (c :: post.filter fun n => !n.isNone)).isPrefixOf r) with
    | error er =>
      rw [bind_err _ _ _ (show liftE (cur2edges _) s = _ by rw [hcur]; rfl)] at hl
      simp at hl
    | ok es =>
      rw [bind_run _ _ _ (show liftE (cur2edges _) s = _ by rw [hcur]; rfl)] at hl
      cases hf : filterE (fun e => edgeMatchesPattern e (.tup (pre ++ c :: post))) es with
      | error er =>
        rw [bind_err _ _ _ (show liftE (filterE _ es) s = _ by rw [hf]; rfl)] at hl
        simp at hl
      | ok rs =>
        rw [bind_run _ _ _ (show liftE (filterE _ es) s = _ by rw [hf]; rfl)] at hl
        have hl' : pySet rs = l := by
          have := (Prod.mk.inj hl).1
          exact Except.ok.inj this
        subst hl'
        have hv1 := filterE_sub hf (pySet_sub hv)
        unfold cur2edges at hcur
        cases hm : mapE (decodeRow (F := F)) (A.conc.perms.filter fun r =>
            (nodes2str (c :: post.filter fun n => !n.isNone)).isPrefixOf r) with
        | error er => simp [hm, bind, Except.bind] at hcur
        | ok vs =>
          simp only [hm, bind, Except.bind, Except.ok.injEq] at hcur
          subst hcur
          obtain ⟨row, hrow, hdec⟩ := mapE_mem hm (pySet_sub hv1)
          rw [List.mem_filter, List.isPrefixOf_iff_prefix] at hrow
          obtain ⟨hr, hpr⟩ := hrow
          obtain ⟨e', he', n, hn, rfl⟩ := mem_conc_perms.1 hr
          obtain ⟨x, r', hp, hx, hw⟩ := row_first hV (hA.ok.over e' he') hn
          have hpr' := hpr
          rw [rowOf, hp, List.cons_append] at hpr'
          have hpx := text_of_prefix hcw hseq hw ((nodes2str_first _ _).trans hpr')
          have hxs : x.isSeq = true := by
            rcases isAtom_cases (hw x (by simp)) with h | ⟨xs, rfl⟩
            · exfalso
              obtain ⟨ch, s0, hs0, hch⟩ := edge2str_head_atom (hw x (by simp)) h
              cases c with
              | seq b ys =>
                rw [hs0] at hpx
                exact hch (List.cons_prefix_cons.1 hpx).1.symm
              | _ => simp [Val.isSeq] at hseq
            · rfl
          have := read_smaller hV (hA.ok.over e' he') hn hp hxs hdec
          have := hmax e' ((hA.rel.present e').2 he') ⟨x, hx, hpx⟩
          omega
  refine ⟨?_, ?_⟩
  · rintro rfl; omega
  · cases hq : pyEq v e with
    | false => rfl
    | true => have := atomCount_eq hq; omega

/-- C18 fails whenever it matters: if a present edge matches a pattern whose first given element is an edge, all
other elements of the present edge being symbols and numbers, then the query raises (same exception as for `star`). -/
theorem C18_raises_counterexample (hV : Vocab V) (ops : List (Op F)) (hops : ∀ op ∈ ops, op.Over V) (auto : Bool)
    (s : St) (hs : runOps ops (St.new auto) = (.ok (), s)) (init : List (Val F)) (y z : Val F)
    (p1 q1 p2 q2 : List (Val F)) (hp1 : ∀ p ∈ p1, p = .none) (hq1 : ∀ p ∈ q1, p = .none ∨ V p)
    (ha : ∀ a ∈ p2 ++ q2, a.isAtom = true)
    (hpres : (Spec.after ops).Present (.tup (p2 ++ .tup (init ++ [y, z]) :: q2)))
    (hlen : p1.length = p2.length) (hmat : Matches q1 q2)
    (hi : ∀ i, y ≠ .int i) (hp : ∀ t, y = .str t → NotIntText t) :
    Matches (p1 ++ .tup (init ++ [y, z]) :: q1) (p2 ++ .tup (init ++ [y, z]) :: q2) ∧
    ∃ er, hgPattern2edges (.tup (p1 ++ .tup (init ++ [y, z]) :: q1)) s = (.error er, s) := by
  obtain ⟨A, hA⟩ := after_of hV hops hs
  have hm := (hA.rel.present _).1 hpres
  have he := hA.ok.over _ hm
  have hmem : ∀ x ∈ p2 ++ .tup (init ++ [y, z]) :: q2, V x := he.mem
  have hcV : V (.tup (init ++ [y, z])) := hmem _ (by simp)
  have hcw : WfVal (.tup (init ++ [y, z]) : Val F) := hV.wf _ hcV
  have hxs : ∀ x ∈ init ++ [y, z], WfVal x := by
    cases hcw with
    | tup _ h => exact h
  have hmatch : Matches (p1 ++ .tup (init ++ [y, z]) :: q1) (p2 ++ .tup (init ++ [y, z]) :: q2) := by
    clear hpres hm he hmem ha
    induction p1 generalizing p2 with
    | nil =>
      have : p2 = [] := by cases p2 <;> simp_all
      subst this
      exact ⟨.inr rfl, hmat⟩
    | cons a p1 ih =>
      cases p2 with
      | nil => simp at hlen
      | cons b p2 => exact ⟨.inl (hp1 a (by simp)), ih p2 (fun p hp => hp1 p (by simp [hp])) (by simpa using hlen)⟩
  refine ⟨hmatch, ?_⟩
  have hfil : (p1 ++ .tup (init ++ [y, z]) :: q1).filter (fun n => !n.isNone) =
      .tup (init ++ [y, z]) :: q1.filter (fun n => !n.isNone) := by
    rw [List.filter_append, List.filter_eq_nil_iff.2, List.nil_append,
      List.filter_cons_of_pos (by simp [Val.isNone])]
    intro a ha
    rw [hp1 a ha]
    simp [Val.isNone]
  rw [pattern_edge_run hV (by
    intro p hp
    simp only [List.mem_append, List.mem_cons] at hp
    rcases hp with h | rfl | h
    · exact .inl (hp1 p h)
    · exact .inr hcV
    · exact hq1 p h) (by rw [hfil]; simp) (St.usable_of_none hA.idle), hfil]
  obtain ⟨rest, hrest⟩ := hmat.perm (fun x hx => V_ne_none hV (hmem x (by simp [hx])))
  have hperm : (.tup (init ++ [y, z]) :: (q1.filter (fun n => !n.isNone) ++ rest ++ p2)).Perm
      (p2 ++ .tup (init ++ [y, z]) :: q2) :=
    ((List.Perm.cons _ (((hrest.append_right p2).trans List.perm_append_comm))).trans List.perm_middle.symm)
  obtain ⟨n, hn, hpn⟩ := exists_permN hperm
  have hrow : rowOf (p2 ++ .tup (init ++ [y, z]) :: q2) n =
      nodes2str (.tup (init ++ [y, z]) :: (q1.filter (fun n => !n.isNone) ++ rest ++ p2) ++ [.int n]) := by
    rw [rowOf, hpn]
  have hsub : ∀ a ∈ q1.filter (fun n => !n.isNone) ++ rest ++ p2, a ∈ p2 ++ q2 := by
    intro a h
    rcases List.mem_append.1 h with h | h
    · exact List.mem_append.2 (.inr (hrest.subset h))
    · exact List.mem_append.2 (.inl h)
  obtain ⟨er, her⟩ := decodeRow_edge_first (F := F) (init := init) (y := y) (z := z)
    (as := q1.filter (fun n => !n.isNone) ++ rest ++ p2) (n := n)
    (fun x hx => hxs x (by simp [hx])) (hxs y (by simp)) (hxs z (by simp))
    (fun a h => ⟨hV.wf a (hmem a (by
      rcases List.mem_append.1 (hsub a h) with h | h
      · simp [h]
      · simp [h])), ha a (hsub a h)⟩)
    (pyInt_notVal (hxs y (by simp)) hi hp)
  rw [← hrow] at her
  have hin : rowOf (p2 ++ .tup (init ++ [y, z]) :: q2) n ∈ s.work.perms.filter fun r =>
      (nodes2str (.tup (init ++ [y, z]) :: q1.filter (fun n => !n.isNone) : List (Val F))).isPrefixOf r := by
    rw [List.mem_filter, List.isPrefixOf_iff_prefix]
    constructor
    · rw [hA.work]
      exact mem_conc_perms.2 ⟨_, hm, n, hn, rfl⟩
    · rw [hrow]
      have := nodes2str_prefix (F := F) (xs := .tup (init ++ [y, z]) :: q1.filter (fun n => !n.isNone))
        (ys := rest ++ p2 ++ [.int n]) (by simp) (by simp)
      simpa using this
  obtain ⟨er', h'⟩ := mapE_fails hin her
  refine ⟨er', ?_⟩
  have : cur2edges (F := F) (s.work.perms.filter fun r =>
      (nodes2str (.tup (init ++ [y, z]) :: q1.filter (fun n => !n.isNone) : List (Val F))).isPrefixOf r)
      = .error er' := by
    unfold cur2edges; rw [h']; rfl
  rw [bind_err _ _ _ (show liftE (cur2edges _) s = _ by rw [this]; rfl)]

/-- The hypotheses are met. -/
example : ∃ s, runOps exOps (St.new false) = (.ok (), s) ∧
    (hgPattern2edges (.tup [.none, exE1, .none]) s).1 = .error .valueError ∧
    (hgPattern2edges (.tup [sy "src/1", exE1, .none]) s).1 = .ok [support exE1 (sy "john")] ∧
    (hgPattern2edges (.tup [.none, exE3, sy "john"]) s).1 = .ok ([] : List HVal) := by
  refine ⟨(runOps exOps (St.new false)).2, ?_⟩
  decide +kernel

/-- Why `C18_never_counterexample` asks for the largest edge: by a freak accident the answer can be right.  Here
`c = (7 8 0 (x y))`; the rows of `(rel c (ab c 0 b))` are misread as `(7 8 0 x c)`, which happens to be present and to
match, and the rows of the latter are misread as `(7 8)`, which does not match. -/
example :
    let c : HVal := .tup [.int 7, .int 8, .int 0, .tup [sy "x", sy "y"]]
    let e : HVal := .tup [.int 7, .int 8, .int 0, sy "x", c]
    let big : HVal := .tup [sy "rel", c, .tup [sy "ab", c, .int 0, sy "b"]]
    ((runOps [.prim (.add e 1), .prim (.add big 1)] >>= fun _ =>
      hgPattern2edges (.tup [.none, .none, .none, .none, c])) (St.new false)).1 = .ok [e] ∧
    ((runOps [.prim (.add e 1), .prim (.add big 1)] >>= fun _ => hgStar c) (St.new false)).1 =
      .ok [.tup [.int 7, .int 8], e] := by
  decide +kernel

/-- The hypotheses are met: after `add((says mary (is/1 sky/1 blue/1)))` the theorem applies to the inner edge, and so does
the one about patterns, to the same edge. -/
example (s : St) (hs : runOps [.prim (.add exE2 1)] (St.new false) = (.ok (), s)) :
    (∃ e, (Spec.after [.prim (.add exE2 1)]).Present e ∧ exE1 ∈ e.elems ∧
      ∀ l s', hgStar exE1 s = (.ok l, s') → ∀ v ∈ l, v ≠ e ∧ pyEq v e = false) ∧
    (∀ l s', hgPattern2edges (.tup [.none, .none, exE1]) s = (.ok l, s') → ∀ v ∈ l, v ≠ exE2 ∧ pyEq v exE2 = false) := by
  have hover : ∀ op ∈ [(Op.prim (.add exE2 1) : Op Half)], op.Over PlainVocab := ops_of (by decide +kernel)
  have hp : ∀ e, (Spec.after [(.prim (.add exE2 1) : Op Half)]).Present e ↔ e = exE2 := by
    intro e
    simp only [Spec.after, List.foldl, Spec.op, Spec.prim, Spec.add, Spec.Present, Spec.empty]
    by_cases h : e = exE2 <;> simp [h]
  refine ⟨?_, ?_⟩
  · exact C20_never_counterexample plainVocab _ hover false s hs exE1 (plain_of (by decide +kernel)) rfl
      ⟨exE2, (hp _).2 rfl, by decide +kernel⟩
  · intro l s' hl
    refine C18_never_counterexample plainVocab _ hover false s hs [.none, .none] exE1 [] (by simp)
      (plain_of (by decide +kernel)) rfl (by simp) exE2 ?_ l s' hl
    intro e' he' _
    rw [(hp e').1 he']
    exact Nat.le_refl _

end GB
