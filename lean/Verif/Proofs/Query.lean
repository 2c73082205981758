import Verif.Proofs.Sim

/-! Correctness of the queries on a store. -/

set_option linter.unusedSectionVars false

namespace GB

variable {F : Type} [PyFloat F] [DecidableEq F] {V : Val F → Prop}

theorem liftE_ok {α : Type} {x : Except PyErr α} {a : α} (h : x = .ok a) (s : St) :
    liftE x s = (.ok a, s) := by rw [h]; rfl

theorem filter_first {pre post : List (Val F)} {c : Val F} (hpre : ∀ p ∈ pre, p = .none)
    (hc : c.isAtom = true) :
    (pre ++ c :: post).filter (fun n => !n.isNone) = c :: post.filter (fun n => !n.isNone) := by
  rw [List.filter_append]
  have h1 : pre.filter (fun n => !n.isNone) = [] := by
    rw [List.filter_eq_nil_iff]
    intro p hp
    rw [hpre p hp]; simp [Val.isNone]
  have h2 : c.isNone = false := by cases c <;> simp_all [Val.isAtom, Val.isNone]
  rw [h1, List.nil_append, List.filter_cons_of_pos (by simp [h2])]

theorem isNone_iff {v : Val F} : v.isNone = true ↔ v = .none := by
  cases v <;> simp [Val.isNone]

theorem pattern2edges_run (hV : Vocab V) {A : Abs F} (hA : AbsOk V A) {b : Bool} {ps : List (Val F)}
    (hp : PatternOver V ps) {s : St} (hu : s.usable) (hw : s.work = A.conc) :
    ∃ res, pattern2edges (.seq b ps) s = (.ok res, s) ∧ res.Nodup ∧
      ∀ e, e ∈ res ↔ e ∈ A.edges ∧ Matches ps e.elems := by
  obtain ⟨pre, c, post, hps, hpre, hca⟩ := hp.first
  have hnodes : ps.filter (fun n => !n.isNone) = c :: post.filter (fun n => !n.isNone) := by
    rw [hps]; exact filter_first hpre hca
  have hnV : ∀ x ∈ ps.filter (fun n => !n.isNone), V x := by
    intro x hx
    rw [List.mem_filter] at hx
    rcases hp.over x hx.1 with rfl | h
    · simp [Val.isNone] at hx
    · exact h
  have hcV : V c := hnV c (by rw [hnodes]; simp)
  obtain ⟨ch, s0, hs0, hch⟩ := edge2str_head_atom (hV.wf c hcV) hca
  obtain ⟨s1, hs1⟩ := nodes2str_cons_head (xs := post.filter (fun n => !n.isNone)) hs0
  have hstart : nodes2str (ps.filter (fun n => !n.isNone)) = ch :: s1 := by rw [hnodes, hs1]
  have hsucc := hasSucc_nodes2str hV (by rw [hnodes]; simp) hnV
  rw [hstart, ← strPlus1_isOk_iff] at hsucc
  obtain ⟨endS, hend⟩ := hsucc
  obtain ⟨ds, hds, hnd, hmem⟩ := cur2edges_range hV hA (c := ch) (s := s1) hch
  have hfil := filterE_spec (p := fun e => edgeMatchesPattern e (.seq b ps))
    (q := fun e => decide (Matches ps e.elems)) (xs := ds) (by
      intro e he
      exact edgeMatches_eq hV (hA.over e ((hmem e).1 he).1) hp.over)
  refine ⟨pySet (ds.filter fun e => decide (Matches ps e.elems)), ?_, ?_, ?_⟩
  · unfold pattern2edges
    rw [bind_run _ _ _ (liftE_ok (x := (Val.seq b ps).iter) (a := ps) rfl s)]
    rw [hstart, bind_run _ _ _ (liftE_ok hend s), bind_run _ _ _ (openCursor_local s),
      bind_run _ _ _ (execRead_local hu _ _)]
    rw [hw, DB.selectRange, selectRange_eq hend]
    rw [bind_run _ _ _ (liftE_ok hds s), bind_run _ _ _ (closeCursor_local s),
      bind_run _ _ _ (liftE_ok hfil s)]
    rfl
  · apply pySet_nodup
    intro e he
    rw [List.mem_filter] at he
    exact pyEq_refl ((hA.over e ((hmem e).1 he.1).1).wf hV)
  · intro e
    rw [mem_pySet]
    · simp only [List.mem_filter, decide_eq_true_eq, hmem]
      constructor
      · rintro ⟨⟨he, _⟩, hm⟩; exact ⟨he, hm⟩
      · rintro ⟨he, hm⟩
        refine ⟨⟨he, ?_⟩, hm⟩
        have hov := hA.over e he
        obtain ⟨rest, hperm⟩ := hm.perm (fun x hx => V_ne_none hV (hov.mem x hx))
        obtain ⟨n, hn, hpn⟩ := exists_permN hperm
        refine ⟨n, hn, ?_⟩
        rw [rowOf, hpn, ← hstart, List.append_assoc]
        exact nodes2str_prefix (by rw [hnodes]; simp) (by simp)
    · intro a ha b hb
      rw [List.mem_filter] at ha hb
      exact (hA.over a ((hmem a).1 ha.1).1).pyEq_eq hV (hA.over b ((hmem b).1 hb.1).1)

theorem EdgeOver.pattern {e : Val F} (he : EdgeOver V e) : PatternOver V e.elems := by
  obtain ⟨h, t, rfl, ht, hh, hx⟩ := he
  exact ⟨fun p hp => .inr (hx p hp), [], h, t, rfl, by simp, hh⟩

theorem existsM_run (hV : Vocab V) {A : Abs F} (hA : AbsOk V A) {e : Val F} (he : EdgeOver V e)
    {s : St} (hu : s.usable) (hw : s.work = A.conc) :
    existsM e s = (.ok (decide (e ∈ A.edges)), s) := by
  obtain ⟨res, hres, hnd, hmem⟩ := pattern2edges_run hV hA (b := false) he.pattern hu hw
  unfold existsM
  have htup := he.tup_elems
  rw [show (Val.seq false e.elems) = e from htup.symm] at hres
  rw [bind_run _ _ _ hres]
  show (Except.ok (decide (res.length > 0)), s) = _
  congr 2
  rw [decide_eq_decide]
  constructor
  · intro h
    obtain ⟨e', he'⟩ := List.exists_mem_of_length_pos h
    obtain ⟨h1, h2⟩ := (hmem e').1 he'
    rw [Matches.self_iff (fun p hp => V_ne_none hV (he.mem p hp))] at h2
    rwa [he.eq_of_elems (hA.over e' h1) h2]
  · intro h
    apply List.length_pos_of_mem (a := e)
    rw [hmem]
    exact ⟨h, (Matches.self_iff (fun p hp => V_ne_none hV (he.mem p hp))).2 rfl⟩

/-! ### star -/

theorem atom_noSpace {v : Val F} (h : WfVal v) (ha : v.isAtom = true) :
    ∀ c ∈ edge2str v, isSpace c = false := by
  rw [edge2str_atom ha]
  exact (cleanAtom_of_wf h ha).noSpace

theorem nodes2str_cons {x : Val F} {xs : List (Val F)} (h : xs ≠ []) :
    nodes2str (x :: xs) = edge2str x ++ lit " " ++ nodes2str xs := by
  have := nodes2str_append (xs := [x]) (by simp) h
  simpa [nodes2str, nodeStrs, pyJoin] using this

theorem star_run (hV : Vocab V) {A : Abs F} (hA : AbsOk V A) {c : Val F} (hc : V c)
    (hca : c.isAtom = true) {s : St} (hu : s.usable) (hw : s.work = A.conc) :
    ∃ res, sqlStar c s = (.ok res, s) ∧ res.Nodup ∧
      ∀ e, e ∈ res ↔ e ∈ A.edges ∧ c ∈ e.elems := by
  have hseq : c.isSeq = false := by cases c <;> simp_all [Val.isAtom, Val.isSeq]
  have hcw := hV.wf c hc
  obtain ⟨ch, s0, hs0, hch⟩ := edge2str_head_atom hcw hca
  have hstart : atomStr c ++ lit " " = ch :: (s0 ++ lit " ") := by
    rw [← edge2str_atom hca, hs0]; rfl
  have hend := strPlus1_space (atomStr c)
  obtain ⟨ds, hds, hnd, hmem⟩ := cur2edges_range hV hA (c := ch) (s := s0 ++ lit " ") hch
  refine ⟨pySet ds, ?_, ?_, ?_⟩
  · unfold sqlStar str2perms
    rw [hseq]
    simp only [Bool.false_eq_true, if_false]
    rw [bind_run _ _ _ (liftE_ok hend s), bind_run _ _ _ (openCursor_local s),
      bind_run _ _ _ (execRead_local hu _ _)]
    rw [hw, DB.selectRange, selectRange_eq hend, hstart]
    rw [bind_run _ _ _ (liftE_ok hds s), bind_run _ _ _ (closeCursor_local s)]
    rfl
  · apply pySet_nodup
    intro e he
    exact pyEq_refl ((hA.over e ((hmem e).1 he).1).wf hV)
  · intro e
    rw [mem_pySet]
    · rw [hmem]
      apply and_congr_right
      intro he
      have hov := hA.over e he
      rw [← hstart, ← edge2str_atom hca]
      constructor
      · rintro ⟨n, hn, hp⟩
        have hperm := permN_perm hn
        cases hpn : permN e.elems n with
        | nil => rw [hpn] at hperm; exact absurd (List.nil_perm.1 hperm) hov.elems_ne
        | cons x r =>
          rw [rowOf, hpn] at hp
          have hxm : x ∈ e.elems := hperm.subset (by simp [hpn])
          have hxw := hV.wf x (hov.mem x hxm)
          have hxa : x.isAtom = true := by
            rw [hs0] at hp
            exact atom_of_prefix hxw hch hp
          rw [List.cons_append, nodes2str_cons (by simp)] at hp
          have := (word_prefix (atom_noSpace hcw hca) (atom_noSpace hxw hxa)).1 hp
          rw [edge2str_inj hcw hxw this]
          exact hxm
      · intro hm
        obtain ⟨r, hr⟩ := exists_pick hm
        obtain ⟨n, hn, hpn⟩ := exists_permN (picks_perm hr)
        refine ⟨n, hn, ?_⟩
        rw [rowOf, hpn, List.cons_append, nodes2str_cons (by simp)]
        exact List.prefix_append _ _
    · intro a ha b hb
      exact (hA.over a ((hmem a).1 ha).1).pyEq_eq hV (hA.over b ((hmem b).1 hb).1)

/-! ### symbols by root -/

theorem mem_strSet (l : List Str) (x : Str) : x ∈ strSet l ↔ x ∈ l := by
  induction l with
  | nil => simp [strSet]
  | cons y ys ih =>
    simp only [strSet, List.mem_cons, List.mem_filter, ih]
    by_cases h : x = y <;> simp [h]

theorem strSet_nodup (l : List Str) : (strSet l).Nodup := by
  induction l with
  | nil => simp [strSet]
  | cons y ys ih =>
    rw [strSet, List.nodup_cons]
    refine ⟨?_, ih.filter _⟩
    intro h
    have := (List.mem_filter.1 h).2
    simp at this

theorem not_slash_digits {s : Str} (h : ∀ c ∈ s, isDigit c = true ∨ c = '-' ∨ c = '.') : '/' ∉ s := by
  intro hm
  rcases h _ hm with h | h | h
  · simp [isDigit] at h
  · exact absurd h (by decide)
  · exact absurd h (by decide)

theorem symbolsWithRoot_run (hV : Vocab V) {A : Abs F} (hA : AbsOk V A) {root : Str}
    (hr : ∀ c ∈ root, isSpace c = false) (hro : root.head? ≠ some '(')
    {s : St} (hu : s.usable) (hw : s.work = A.conc) :
    ∃ res, symbolsWithRoot root s = (.ok res, s) ∧ res.Nodup ∧
      ∀ t, t ∈ res ↔ (root ++ lit "/") <+: t ∧ ∃ e ∈ A.edges, Val.str t ∈ e.elems := by
  obtain ⟨ch, s0, hs0, hch⟩ : ∃ ch s0, root ++ lit "/" = ch :: s0 ∧ ch ≠ '(' := by
    cases root with
    | nil => exact ⟨'/', [], rfl, by decide⟩
    | cons c r => exact ⟨c, r ++ lit "/", rfl, by simpa using hro⟩
  have hns : ∀ c ∈ root ++ lit "/", isSpace c = false := by
    intro c hc
    rw [List.mem_append] at hc
    rcases hc with h | h
    · exact hr c h
    · have : c = '/' := by simpa [lit] using h
      subst this; decide
  have hend := strPlus1_slash root
  have hslash : ∀ t : Str, (root ++ lit "/") <+: t → '/' ∈ t := by
    intro t ht
    exact ht.subset (List.mem_append_right _ (List.mem_singleton.2 rfl))
  have key : ∀ e ∈ A.edges, ∀ n, n < factorial e.elems.length →
      (root ++ lit "/") <+: rowOf e.elems n →
      ∃ t, rowFirstToken (rowOf e.elems n) = .ok t ∧ (root ++ lit "/") <+: t ∧ Val.str t ∈ e.elems := by
    intro e he n hn hpre
    have hov := hA.over e he
    have hperm := permN_perm hn
    cases hpn : permN e.elems n with
    | nil => rw [hpn] at hperm; exact absurd (List.nil_perm.1 hperm) hov.elems_ne
    | cons x r =>
      rw [rowOf, hpn] at hpre
      have hxm : x ∈ e.elems := hperm.subset (by simp [hpn])
      have hxw := hV.wf x (hov.mem x hxm)
      have hxa : x.isAtom = true := by
        rw [hs0] at hpre
        exact atom_of_prefix hxw hch hpre
      have hwall : ∀ y ∈ x :: (r ++ [Val.int (F := F) n]), WfVal y := by
        intro y hy
        rw [← List.cons_append, ← hpn, List.mem_append, List.mem_singleton] at hy
        rcases hy with hy | rfl
        · exact hV.wf y (hov.mem y (hperm.subset hy))
        · exact .int
      have htok : rowFirstToken (rowOf e.elems n) = .ok (edge2str x) := by
        unfold rowFirstToken
        rw [rowOf, hpn, List.cons_append, splitEdgeStr_nodes hwall hxa]
        rfl
      rw [List.cons_append, nodes2str_cons (by simp)] at hpre
      have hpx := noSpace_prefix hns hpre
      refine ⟨edge2str x, htok, hpx, ?_⟩
      have hsl := hslash _ hpx
      cases hxw with
      | str hs => exact hxm
      | @int i =>
        exact absurd hsl (not_slash_digits (fun c hc => by
          rcases intStr_chars i c hc with h | h
          · exact .inl h
          · exact .inr (.inl h)))
      | flt hx => exact absurd hsl (not_slash_digits (looksDec_chars hx))
      | tup => simp [Val.isAtom] at hxa
  obtain ⟨ys, hys, hm⟩ := mapE_spec (f := rowFirstToken)
    (xs := A.conc.perms.filter (fun r => (root ++ lit "/").isPrefixOf r)) (by
      intro r hr
      rw [List.mem_filter, mem_conc_perms, List.isPrefixOf_iff_prefix] at hr
      obtain ⟨⟨e, he, n, hn, rfl⟩, hp⟩ := hr
      obtain ⟨t, ht, _⟩ := key e he n hn hp
      exact ⟨t, ht⟩)
  refine ⟨strSet ys, ?_, strSet_nodup _, ?_⟩
  · unfold symbolsWithRoot
    rw [bind_run _ _ _ (liftE_ok hend s), bind_run _ _ _ (openCursor_local s),
      bind_run _ _ _ (execRead_local hu _ _)]
    rw [hw, DB.selectRange, selectRange_eq hend]
    rw [bind_run _ _ _ (liftE_ok hys s), bind_run _ _ _ (closeCursor_local s)]
    rfl
  · intro t
    rw [mem_strSet, hm]
    constructor
    · rintro ⟨r, hr, hrt⟩
      rw [List.mem_filter, mem_conc_perms, List.isPrefixOf_iff_prefix] at hr
      obtain ⟨⟨e, he, n, hn, rfl⟩, hp⟩ := hr
      obtain ⟨t', ht', h1, h2⟩ := key e he n hn hp
      rw [ht'] at hrt
      simp at hrt; subst hrt
      exact ⟨h1, e, he, h2⟩
    · rintro ⟨hp, e, he, hmem⟩
      obtain ⟨r, hr⟩ := exists_pick hmem
      obtain ⟨n, hn, hpn⟩ := exists_permN (picks_perm hr)
      have hpre : (root ++ lit "/") <+: rowOf e.elems n := by
        rw [rowOf, hpn, List.cons_append, nodes2str_cons (by simp), List.append_assoc]
        exact hp.trans (List.prefix_append _ _)
      refine ⟨rowOf e.elems n, ?_, ?_⟩
      · rw [List.mem_filter, mem_conc_perms, List.isPrefixOf_iff_prefix]
        exact ⟨⟨e, he, n, hn, rfl⟩, hpre⟩
      · have hov := hA.over e he
        have hwall : ∀ y ∈ Val.str t :: (r ++ [Val.int (F := F) n]), WfVal y := by
          intro y hy
          rw [← List.cons_append, List.mem_append, List.mem_singleton] at hy
          rcases hy with hy | rfl
          · exact hV.wf y (hov.mem y ((picks_perm hr).subset hy))
          · exact .int
        unfold rowFirstToken
        rw [rowOf, hpn, List.cons_append, splitEdgeStr_nodes hwall rfl]
        rfl

/-! ### vertices -/

/-- Look a vertex up. -/
def lookV (v : Val F) (vs : List (VEnt F)) : Option (VEnt F) := vs.find? fun r => r.v = v

theorem selectVertex_row {vs : List (VEnt F)} (hk : KeysWf vs) {v : Val F} (hv : WfVal v)
    (ps : List Str) :
    (DB.selectVertex ⟨vs.map VEnt.row, ps⟩ (edge2str v)).head? = (lookV v vs).map VEnt.row := by
  simp only [DB.selectVertex, lookV]
  induction vs with
  | nil => rfl
  | cons r vs ih =>
    have ih' := ih (fun x hx => hk x (by simp [hx]))
    have : (r.row.id = edge2str v) ↔ r.v = v := text_eq_iff (hk r (by simp)) hv
    by_cases h : r.v = v
    · simp [h, VEnt.row]
    · have h' : ¬ r.row.id = edge2str v := mt this.1 h
      simp only [List.map_cons, List.find?_cons, h, decide_false]
      rw [List.filter_cons_of_neg (by simpa using h')]
      exact ih'

theorem degree_run {A : Abs F} (hk : KeysWf A.verts) {v : Val F} (hv : WfVal v) {s : St}
    (hc : s.cur = none) (hw : s.work = A.conc) :
    sqlDegree v s = (.ok (((lookV v A.verts).map VEnt.deg).getD 0), s) := by
  have hu : s.usable := by unfold St.usable; rw [hc]; simp
  have hsel := selectVertex_row hk hv A.conc.perms
  unfold sqlDegree
  rw [bind_run _ _ _ (openCursor_local s), bind_run _ _ _ (execRead_local hu _ _)]
  rw [hw]
  have hl : s.lcur = .own := by unfold St.lcur; rw [hc]
  rw [hl]
  cases hr : A.conc.selectVertex (edge2str v) with
  | nil =>
    have : lookV v A.verts = none := by
      have h2 : (A.conc.selectVertex (edge2str v)).head? = (lookV v A.verts).map VEnt.row := hsel
      rw [hr] at h2
      simpa using h2.symm
    simp only [this]
    rw [bind_run _ _ _ (closeCursor_local s)]
    rfl
  | cons row rows =>
    have h2 : (A.conc.selectVertex (edge2str v)).head? = (lookV v A.verts).map VEnt.row := hsel
    rw [hr] at h2
    cases hlk : lookV v A.verts with
    | none => rw [hlk] at h2; simp at h2
    | some r =>
      rw [hlk] at h2
      simp at h2
      subst h2
      rfl

theorem timestamp_run {A : Abs F} (hk : KeysWf A.verts) {v : Val F} (hv : WfVal v) {s : St}
    (hc : s.cur = none) (hw : s.work = A.conc) :
    sqlTimestamp v s = (.ok (((lookV v A.verts).map VEnt.ts).getD (-1)), s) := by
  have hu : s.usable := by unfold St.usable; rw [hc]; simp
  have hsel := selectVertex_row hk hv A.conc.perms
  unfold sqlTimestamp
  rw [bind_run _ _ _ (openCursor_local s), bind_run _ _ _ (execRead_local hu _ _)]
  rw [hw]
  have hl : s.lcur = .own := by unfold St.lcur; rw [hc]
  rw [hl]
  cases hr : A.conc.selectVertex (edge2str v) with
  | nil =>
    have : lookV v A.verts = none := by
      have h2 : (A.conc.selectVertex (edge2str v)).head? = (lookV v A.verts).map VEnt.row := hsel
      rw [hr] at h2
      simpa using h2.symm
    simp only [this]
    rw [bind_run _ _ _ (closeCursor_local s)]
    rfl
  | cons row rows =>
    have h2 : (A.conc.selectVertex (edge2str v)).head? = (lookV v A.verts).map VEnt.row := hsel
    rw [hr] at h2
    cases hlk : lookV v A.verts with
    | none => rw [hlk] at h2; simp at h2
    | some r =>
      rw [hlk] at h2
      simp at h2
      subst h2
      rfl

theorem fAll_run {β : Type} {A : Abs F} (hk : KeysWf A.verts) (f : Val F → Int → β) {s : St}
    (hu : s.usable) (hw : s.work = A.conc) :
    sqlFAll f s = (.ok (A.verts.map fun r => f r.v r.deg), s) := by
  unfold sqlFAll
  rw [bind_run _ _ _ (openCursor_local s), bind_run _ _ _ (execRead_local hu _ _)]
  rw [hw]
  have : mapE (fun row : VRow => do
      let v ← str2edge row.id
      Except.ok (f v row.degree)) A.conc.vertices = .ok (A.verts.map fun r => f r.v r.deg) := by
    show mapE _ (A.verts.map VEnt.row) = _
    rw [mapE_map]
    apply mapE_ok
    intro r hr
    simp only [VEnt.row, str2edge_edge2str (hk r hr)]
    rfl
  rw [bind_run _ _ _ (liftE_ok this s), bind_run _ _ _ (closeCursor_local s)]
  rfl

end GB
