import Verif.Proofs.Encode
import Verif.Proofs.FrOr

/-! Calls whose texts can, or cannot, be sent. -/

set_option linter.unusedSectionVars false

namespace GB

variable {F : Type} [PyFloat F] [DecidableEq F] {V : Val F → Prop} {cd : Codec}

/-! ### statements -/

theorem readEnc_ok {α : Type} {ts : List Str} (h : ts.all (fun t => t.all cd.sends) = true) (c : Cursor) (q : DB → α) :
    execReadEnc cd ts c q = execRead c q := by
  funext s
  unfold execReadEnc execRead
  split <;> simp_all

theorem writeEnc_ok {α : Type} {ts : List Str} (h : ts.all (fun t => t.all cd.sends) = true) (c : Cursor)
    (q : DB → Option (α × DB)) : execWriteEnc cd ts c q = execWrite c q := by
  funext s
  unfold execWriteEnc execWrite
  split <;> simp_all

theorem insertEnc_ok {α : Type} {t : Str} (h : t.all cd.sends = true) (h2 : t.all cd.stores = true) (c : Cursor)
    (q : DB → Option (α × DB)) : execInsertEnc cd t c q = execWrite c q := by
  funext s
  unfold execInsertEnc execWrite
  split <;> simp_all

theorem readEnc_bad {α : Type} {ts : List Str} (h : ts.all (fun t => t.all cd.sends) = false) (c : Cursor) (q : DB → α)
    {s : St} (hu : s.usable) : execReadEnc cd ts c q s = (.error .encodeError, s) := by
  have hn : s.cur ≠ some false := hu
  unfold execReadEnc
  rw [if_neg (by simp [hn]), h]
  rfl

/-! ### reading -/

theorem pattern_texts (hV : Vocab V) {ps : List (Val F)} (hp : PatternOver V ps) :
    ∀ x ∈ ps.filter fun x => !x.isNone, edge2str x ≠ [] := fun x hx => edge2str_ne' ((pattern_wf hV hp).1 x hx)

theorem range_sent (ha : HasAscii cd.sends) (hV : Vocab V) {ps : List (Val F)} (hp : PatternOver V ps) {t' : Str}
    (h : strPlus1 (nodes2str (ps.filter fun x => !x.isNone)) = .ok t') :
    [nodes2str (ps.filter fun x => !x.isNone), t'].all (fun t => t.all cd.sends) = patSent cd.sends ps := by
  rw [← patSent_eq ha h (pattern_texts hV hp)]
  simp

theorem patternEnc_same (ha : HasAscii cd.sends) (hV : Vocab V) {b : Bool} {ps : List (Val F)} (hp : PatternOver V ps)
    (h : patSent cd.sends ps = true) : pattern2edgesEnc cd (.seq b ps) = pattern2edges (.seq b ps) := by
  unfold pattern2edgesEnc pattern2edges
  have hit : (Val.seq b ps).iter = .ok ps := rfl
  rw [hit, liftE_bind, liftE_bind]
  cases hs : strPlus1 (nodes2str (ps.filter fun x => !x.isNone)) with
  | error er => simp only [hs]; rfl
  | ok t' =>
    simp only [hs, liftE_bind]
    have := range_sent ha hV hp hs
    rw [h] at this
    simp only [readEnc_ok this]

theorem pattern_end (hV : Vocab V) {ps : List (Val F)} (hp : PatternOver V ps) :
    ∃ t', strPlus1 (nodes2str (ps.filter fun x => !x.isNone)) = .ok t' := by
  rw [strPlus1_isOk_iff]
  refine hasSucc_nodes2str hV (pattern_wf hV hp).2 ?_
  intro x hx
  rw [List.mem_filter] at hx
  rcases hp.over x hx.1 with rfl | h
  · simp [Val.isNone] at hx
  · exact h

theorem patternEnc_bad (ha : HasAscii cd.sends) (hV : Vocab V) {b : Bool} {ps : List (Val F)} (hp : PatternOver V ps)
    (h : patSent cd.sends ps = false) {s : St} (hu : s.usable) :
    pattern2edgesEnc cd (.seq b ps) s = (.error .encodeError, s) := by
  obtain ⟨t', hs⟩ := pattern_end hV hp
  have hb := range_sent ha hV hp hs
  rw [h] at hb
  unfold pattern2edgesEnc
  have hit : (Val.seq b ps).iter = .ok ps := rfl
  rw [hit, liftE_bind]
  simp only [hs, liftE_bind]
  rw [bind_run _ _ _ (openCursor_local s), bind_err _ _ _ (readEnc_bad hb _ _ hu)]

theorem existsEnc_same (ha : HasAscii cd.sends) (hV : Vocab V) {e : Val F} (he : EdgeOver V e)
    (h : patSent cd.sends e.elems = true) : existsEnc cd e = existsM e := by
  unfold existsEnc existsM
  have := patternEnc_same ha hV (b := false) he.pattern h
  rw [show (Val.seq false e.elems) = e from he.tup_elems.symm] at this
  rw [this]

theorem existsEnc_bad (ha : HasAscii cd.sends) (hV : Vocab V) {e : Val F} (he : EdgeOver V e)
    (h : patSent cd.sends e.elems = false) {s : St} (hu : s.usable) : existsEnc cd e s = (.error .encodeError, s) := by
  unfold existsEnc
  have := patternEnc_bad ha hV (b := false) he.pattern h hu
  rw [show (Val.seq false e.elems) = e from he.tup_elems.symm] at this
  rw [bind_err _ _ _ this]

theorem space_sent (ha : HasAscii cd.sends) (t : Str) {t' : Str} (h : strPlus1 (t ++ lit " ") = .ok t') :
    [t ++ lit " ", t'].all (fun t => t.all cd.sends) = t.all cd.sends := by
  have h1 : (t ++ lit " ").all cd.sends = t.all cd.sends := by
    rw [List.all_append, ascii_lit ha (lit " ") (by decide), Bool.and_true]
  cases hb : t.all cd.sends with
  | false => simp [h1, hb]
  | true =>
    have h2 := strPlus1_all h (h1.trans hb)
    rw [nextIn_of_last ha (c := ' ') (by simp [lit]) (by decide)] at h2
    simp only [List.all_cons, List.all_nil, h1, hb, h2, Bool.and_true]

theorem slash_sent (ha : HasAscii cd.sends) (t : Str) {t' : Str} (h : strPlus1 (t ++ lit "/") = .ok t') :
    [t ++ lit "/", t'].all (fun t => t.all cd.sends) = t.all cd.sends := by
  have h1 : (t ++ lit "/").all cd.sends = t.all cd.sends := by
    rw [List.all_append, ascii_lit ha (lit "/") (by decide), Bool.and_true]
  cases hb : t.all cd.sends with
  | false => simp [h1, hb]
  | true =>
    have h2 := strPlus1_all h (h1.trans hb)
    rw [nextIn_of_last ha (c := '/') (by simp [lit]) (by decide)] at h2
    simp only [List.all_cons, List.all_nil, h1, hb, h2, Bool.and_true]

theorem str2permsEnc_same (ha : HasAscii cd.sends) {t : Str} (h : t.all cd.sends = true) :
    (str2permsEnc cd t : M (List (Val F))) = str2perms t := by
  unfold str2permsEnc str2perms
  cases hs : strPlus1 (t ++ lit " ") with
  | error er => simp only [hs]; rfl
  | ok t' =>
    simp only [hs, liftE_bind]
    have := space_sent ha t hs
    rw [h] at this
    simp only [readEnc_ok this]

theorem str2permsEnc_bad (ha : HasAscii cd.sends) {t : Str} (h : t.all cd.sends = false) {s : St} (hu : s.usable) :
    (str2permsEnc cd t : M (List (Val F))) s = (.error .encodeError, s) := by
  unfold str2permsEnc
  have hs := strPlus1_space t
  have hb := space_sent ha t hs
  rw [h] at hb
  simp only [hs, liftE_bind]
  rw [bind_run _ _ _ (openCursor_local s), bind_err _ _ _ (readEnc_bad hb _ _ hu)]

theorem starEnc_text (v : Val F) (cd : Codec) :
    hgStarEnc cd v = str2permsEnc cd (edge2str v) ∧ hgStar v = str2perms (edge2str v) := by
  cases v <;> exact ⟨rfl, rfl⟩

theorem starEnc_same (ha : HasAscii cd.sends) {v : Val F} (h : v.uses cd.sends = true) : hgStarEnc cd v = hgStar v := by
  rw [(starEnc_text v cd).1, (starEnc_text v cd).2, str2permsEnc_same ha (by rw [edge2str_all ha, h])]

theorem starEnc_bad (ha : HasAscii cd.sends) {v : Val F} (h : v.uses cd.sends = false) {s : St} (hu : s.usable) :
    hgStarEnc cd v s = (.error .encodeError, s) := by
  rw [(starEnc_text v cd).1, str2permsEnc_bad ha (by rw [edge2str_all ha, h]) hu]

theorem symbolsEnc_same (ha : HasAscii cd.sends) {r : Str} (h : r.all cd.sends = true) :
    hgSymbolsWithRootEnc cd r = hgSymbolsWithRoot r := by
  unfold hgSymbolsWithRootEnc hgSymbolsWithRoot symbolsWithRoot
  cases hs : strPlus1 (r ++ lit "/") with
  | error er => simp only [hs]; rfl
  | ok t' =>
    simp only [hs, liftE_bind]
    have := slash_sent ha r hs
    rw [h] at this
    simp only [readEnc_ok this]

theorem symbolsEnc_bad (ha : HasAscii cd.sends) {r : Str} (h : r.all cd.sends = false) {s : St} (hu : s.usable) :
    hgSymbolsWithRootEnc cd r s = (.error .encodeError, s) := by
  unfold hgSymbolsWithRootEnc
  obtain ⟨t', hs⟩ : ∃ t', strPlus1 (r ++ lit "/") = .ok t' := by
    rw [strPlus1_isOk_iff]
    exact hasSucc_of_lt (c := '/') (by simp [lit]) (by decide)
  have hb := slash_sent ha r hs
  rw [h] at hb
  simp only [hs, liftE_bind]
  rw [bind_run _ _ _ (openCursor_local s), bind_err _ _ _ (readEnc_bad hb _ _ hu)]

theorem degreeEnc_same (ha : HasAscii cd.sends) {v : Val F} (h : v.uses cd.sends = true) :
    hgDegreeEnc cd v = hgDegree v ∧ hgTimestampEnc cd v = hgTimestamp v := by
  have : [edge2str v].all (fun t => t.all cd.sends) = true := by simpa using (edge2str_all ha v).trans h
  unfold hgDegreeEnc hgDegree sqlDegree hgTimestampEnc hgTimestamp sqlTimestamp
  simp only [readEnc_ok this]
  exact ⟨rfl, rfl⟩

theorem degreeEnc_bad (ha : HasAscii cd.sends) {v : Val F} (h : v.uses cd.sends = false) {s : St} (hu : s.usable) :
    hgDegreeEnc cd v s = (.error .encodeError, s) ∧ hgTimestampEnc cd v s = (.error .encodeError, s) := by
  have hb : [edge2str v].all (fun t => t.all cd.sends) = false := by
    rw [List.all_cons, edge2str_all ha, h]; rfl
  constructor
  · unfold hgDegreeEnc
    rw [bind_run _ _ _ (openCursor_local s), bind_err _ _ _ (readEnc_bad hb _ _ hu)]
  · unfold hgTimestampEnc
    rw [bind_run _ _ _ (openCursor_local s), bind_err _ _ _ (readEnc_bad hb _ _ hu)]

/-- The pattern of `sources`. -/
theorem sources_pattern {e : Val F} (h1 : V (.str (lit "src/1"))) (h2 : V e) :
    PatternOver V [.str constSource, e, .none] := by
  refine ⟨?_, [], .str constSource, [e, .none], rfl, by simp, rfl⟩
  intro x hx
  simp only [List.mem_cons, List.not_mem_nil, or_false] at hx
  rcases hx with rfl | rfl | rfl
  · exact .inr h1
  · exact .inr h2
  · exact .inl rfl

theorem src_uses (ha : HasAscii cd.sends) : (Val.str constSource : Val F).uses cd.sends = true :=
  ascii_lit ha constSource (by decide)

theorem sources_sent (ha : HasAscii cd.sends) {e : Val F} (hn : e.isNone = false) :
    patSent cd.sends [.str constSource, e, .none] = (e.uses cd.sends && e.endsWell cd.sends) := by
  unfold patSent
  have hnn : (Val.none : Val F).uses cd.sends = true := rfl
  simp only [List.all_cons, List.all_nil, src_uses ha, hnn, Bool.and_true, Bool.true_and]
  have : ([Val.str constSource, e, Val.none].filter fun x => !x.isNone) = [Val.str constSource, e] := by
    rw [List.filter_cons_of_pos (by rfl), List.filter_cons_of_pos (by simp [hn]), List.filter_cons_of_neg (by simp [Val.isNone])]
    rfl
  rw [this]
  rfl

theorem support_sent (ha : HasAscii cd.sends) (e src : Val F) :
    patSent cd.sends (support e src).elems = patSent cd.sends [e, src] := by
  show patSent cd.sends [.str constSource, e, src] = _
  unfold patSent
  simp only [List.all_cons, src_uses ha, Bool.true_and]
  congr 1
  have : ([Val.str constSource, e, src].filter fun x => !x.isNone) = .str constSource :: ([e, src].filter fun x => !x.isNone) := by
    rw [List.filter_cons_of_pos (by rfl)]
  rw [this, List.getLast?_cons]
  cases h : ([e, src].filter fun x => !x.isNone).getLast? with
  | none =>
    have h0 : (Val.str constSource : Val F).endsWell cd.sends = true :=
      nextIn_of_last ha (t := constSource) (c := '1') (by decide) (by decide)
    simpa using h0
  | some q => rfl

/-! ### writing -/

/-- The texts of the elements of an edge. -/
theorem patSent_uses {p : Char → Bool} {ps : List (Val F)} (h : patSent p ps = true) : ∀ x ∈ ps, x.uses p = true := by
  unfold patSent at h
  rw [Bool.and_eq_true] at h
  exact List.all_eq_true.1 h.1

theorem edge_uses {p : Char → Bool} {e : Val F} (he : EdgeOver V e) : e.uses p = true ↔ ∀ x ∈ e.elems, x.uses p = true := by
  rw [he.tup_elems]
  show usesAll p e.elems = true ↔ _
  rw [usesAll_eq, List.all_eq_true]
  rfl

theorem rows_all {p : Char → Bool} (ha : HasAscii p) {es : List (Val F)} (h : ∀ x ∈ es, x.uses p = true) :
    ∀ t ∈ rowsOf es, t.all p = true := by
  intro t ht
  unfold rowsOf at ht
  rw [List.mem_map] at ht
  obtain ⟨n, hn, rfl⟩ := ht
  rw [List.mem_range] at hn
  rw [rowOf, nodes2str_all ha, List.all_eq_true]
  intro x hx
  rw [List.mem_append] at hx
  rcases hx with hx | hx
  · exact h x ((permN_perm hn).subset hx)
  · obtain rfl : x = .int n := by simpa using hx
    rfl

theorem upsertVertexEnc_same {t : Str} (h : t.all cd.sends = true) (h2 : t.all cd.stores = true) (d ts : Int) :
    updateOrInsertVertexEnc cd t d ts = addStr t d ts := by
  unfold updateOrInsertVertexEnc addStr updateOrInsertVertex
  simp only [writeEnc_ok (cd := cd) (ts := [t]) (by simpa using h), insertEnc_ok h h2]

theorem upsertPermEnc_same {t : Str} (h : t.all cd.sends = true) (h2 : t.all cd.stores = true) :
    updateOrInsertPermEnc cd t = updateOrInsertPerm t := by
  unfold updateOrInsertPermEnc updateOrInsertPerm
  simp only [writeEnc_ok (cd := cd) (ts := [t]) (by simpa using h), insertEnc_ok h h2]

theorem incDegreeEnc_same {t : Str} (h : t.all cd.sends = true) : incDegreeEnc cd t = incDegree t := by
  unfold incDegreeEnc incDegree
  simp only [writeEnc_ok (cd := cd) (ts := [t]) (by simpa using h)]

theorem decDegreeEnc_same {t : Str} (h : t.all cd.sends = true) : decDegreeEnc cd t = decDegree t := by
  unfold decDegreeEnc decDegree
  simp only [writeEnc_ok (cd := cd) (ts := [t]) (by simpa using h)]

theorem addVertEnc_same (ha : HasAscii cd.sends) (hb : HasAscii cd.stores) {x : Val F} (h : x.uses cd.sends = true)
    (h2 : x.uses cd.stores = true) (ts : Int) : addVertEnc cd ts x = addVert ts x := by
  have h1' : (edge2str x).all cd.sends = true := (edge2str_all ha x).trans h
  have h2' : (edge2str x).all cd.stores = true := (edge2str_all hb x).trans h2
  unfold addVertEnc addVert addStrEnc
  simp only [incDegreeEnc_same h1', upsertVertexEnc_same h1' h2']

theorem addRawEnc_same (ha : HasAscii cd.sends) (hb : HasAscii cd.stores) (hV : Vocab V) {e : Val F} (he : EdgeOver V e)
    (h : patSent cd.sends e.elems = true) (h2 : e.uses cd.stores = true) (ts : Int) : addRawEnc cd e ts = addRaw e ts := by
  have hu := patSent_uses h
  have hs := (edge_uses he).1 h2
  have e1 := existsEnc_same ha hV he h
  have e2 : forEach (addVertEnc cd ts) e.elems = forEach (addVert ts) e.elems :=
    forEach_congr fun x hx => addVertEnc_same ha hb (hu x hx) (hs x hx) ts
  have e3 : addStrEnc cd (edge2str e) 0 ts = addStr (edge2str e) 0 ts := by
    refine upsertVertexEnc_same ?_ ?_ 0 ts
    · rw [edge2str_all ha, edge_uses he]; exact hu
    · rw [edge2str_all hb]; exact h2
  have e4 : writeEdgePermutationsEnc cd e.elems = writeEdgePermutations e.elems := by
    unfold writeEdgePermutationsEnc writeEdgePermutations
    rw [doWithPerms_eq he.elems_ne, doWithPerms_eq he.elems_ne]
    apply forEach_congr
    intro t ht
    exact upsertPermEnc_same (rows_all ha hu t ht) (rows_all hb hs t ht)
  unfold addRawEnc addRaw
  rw [e1, iter_edge he]
  simp only [liftE_bind, e2, e3, e4]

theorem removeRawEnc_same (ha : HasAscii cd.sends) (hV : Vocab V) {e : Val F} (he : EdgeOver V e)
    (h : patSent cd.sends e.elems = true) : removeRawEnc cd e = removeRaw e := by
  have hu := patSent_uses h
  have e1 := existsEnc_same ha hV he h
  have e2 : forEach (fun v => do let _ ← decDegreeEnc cd (edge2str v)) e.elems =
      forEach (fun v => do let _ ← decDegree (edge2str v)) e.elems := by
    apply forEach_congr
    intro x hx
    rw [decDegreeEnc_same ((edge2str_all ha x).trans (hu x hx))]
  have e3 : removeStrEnc cd (edge2str e) = removeStr (edge2str e) := by
    have : [edge2str e].all (fun t => t.all cd.sends) = true := by
      rw [List.all_cons, List.all_nil, Bool.and_true, edge2str_all ha, edge_uses he]; exact hu
    unfold removeStrEnc removeStr
    simp only [writeEnc_ok this]
  have e4 : removeEdgePermutationsEnc cd e.elems = removeEdgePermutations e.elems := by
    unfold removeEdgePermutationsEnc removeEdgePermutations
    rw [doWithPerms_eq he.elems_ne, doWithPerms_eq he.elems_ne]
    apply forEach_congr
    intro t ht
    have : [edge2str (F := F) (.str t)].all (fun t => t.all cd.sends) = true := by
      rw [List.all_cons, List.all_nil, Bool.and_true]
      exact rows_all ha hu t ht
    unfold removeEdgePermutationEnc removeEdgePermutation
    simp only [writeEnc_ok this]
  unfold removeRawEnc removeRaw
  rw [e1, iter_edge he]
  simp only [liftE_bind, e2, e3, e4]

theorem hgAddEnc_single {e h : Val F} (hh : e.head0 = .ok h) (hs : h.isSeq = false) (ts : Int) :
    hgAddEnc cd e ts = (addRawEnc cd e ts >>= fun _ => Pure.pure e) := by
  unfold hgAddEnc
  rw [hh, liftE_bind]
  simp only [hs, Bool.false_eq_true, if_false]

theorem hgRemoveEnc_single {e h : Val F} (hh : e.head0 = .ok h) (hs : h.isSeq = false) :
    hgRemoveEnc cd e = removeRawEnc cd e := by
  unfold hgRemoveEnc
  rw [hh, liftE_bind]
  simp only [hs, Bool.false_eq_true, if_false]

theorem hgRemoveEnc_many {b : Bool} {es : List (Val F)} (hne : es ≠ []) (hes : ∀ e ∈ es, EdgeOver V e) :
    hgRemoveEnc cd (.seq b es) = forEach (removeRawEnc cd) es := by
  obtain ⟨h, hh, hs⟩ := head0_coll (b := b) hne hes
  unfold hgRemoveEnc
  rw [hh, liftE_bind]
  simp only [hs, if_true]
  rfl

theorem addEnc_same (ha : HasAscii cd.sends) (hb : HasAscii cd.stores) (hV : Vocab V) {e : Val F} (he : EdgeOver V e)
    (h : patSent cd.sends e.elems = true) (h2 : e.uses cd.stores = true) (ts : Int) : hgAddEnc cd e ts = hgAdd e ts := by
  obtain ⟨k, hk, hks⟩ := head0_edge he
  rw [hgAddEnc_single hk hks, hgAdd_single hk hks, addRawEnc_same ha hb hV he h h2]

theorem removeEnc_same (ha : HasAscii cd.sends) (hV : Vocab V) {e : Val F} (he : EdgeOver V e)
    (h : patSent cd.sends e.elems = true) : hgRemoveEnc cd e = hgRemove e := by
  obtain ⟨k, hk, hks⟩ := head0_edge he
  rw [hgRemoveEnc_single hk hks, hgRemove_single hk hks, removeRawEnc_same ha hV he h]

theorem addRawEnc_bad (ha : HasAscii cd.sends) (hV : Vocab V) {e : Val F} (he : EdgeOver V e)
    (h : patSent cd.sends e.elems = false) (ts : Int) {s : St} (hu : s.usable) :
    addRawEnc cd e ts s = (.error .encodeError, s) := by
  unfold addRawEnc
  rw [bind_err _ _ _ (existsEnc_bad ha hV he h hu)]

theorem removeRawEnc_bad (ha : HasAscii cd.sends) (hV : Vocab V) {e : Val F} (he : EdgeOver V e)
    (h : patSent cd.sends e.elems = false) {s : St} (hu : s.usable) :
    removeRawEnc cd e s = (.error .encodeError, s) := by
  unfold removeRawEnc
  rw [bind_err _ _ _ (existsEnc_bad ha hV he h hu)]

theorem addManyEnc_same (ha : HasAscii cd.sends) (hb : HasAscii cd.stores) (hV : Vocab V) {b : Bool} {es : List (Val F)}
    (hne : es ≠ []) (hes : ∀ e ∈ es, EdgeOver V e) (h : ∀ e ∈ es, patSent cd.sends e.elems = true)
    (h2 : ∀ e ∈ es, e.uses cd.stores = true) (ts : Int) : hgAddEnc cd (.seq b es) ts = hgAdd (.seq b es) ts := by
  obtain ⟨k, hk, hks⟩ := head0_coll (b := b) hne hes
  have : forEach (fun e => (do let _ ← addRawEnc cd e ts : M Unit)) es = forEach (fun e => (do let _ ← addRaw e ts : M Unit)) es := by
    apply forEach_congr
    intro e he
    rw [addRawEnc_same ha hb hV (hes e he) (h e he) (h2 e he)]
  have hit : (Val.seq b es).iter = .ok es := rfl
  unfold hgAddEnc hgAdd sqlAdd
  rw [hk, hit]
  simp only [liftE_bind, hks, if_true]
  rw [this]

/-! ### calls -/

theorem isNone_of_V (hV : Vocab V) {e : Val F} (h : V e) : e.isNone = false := by
  cases hn : e.isNone with
  | false => rfl
  | true => exact absurd (isNone_iff.1 hn) (V_ne_none hV h)

theorem sourcesEnc_same (ha : HasAscii cd.sends) (hV : Vocab V) {e : Val F} (h1 : V (.str (lit "src/1"))) (h2 : V e)
    (h : (e.uses cd.sends && e.endsWell cd.sends) = true) : hgSourcesEnc cd e = hgSources e := by
  rw [← sources_sent ha (isNone_of_V hV h2)] at h
  have := patternEnc_same ha hV (b := false) (sources_pattern h1 h2) h
  unfold hgSourcesEnc hgSources hgPattern2edges
  rw [this]

theorem sourcesEnc_bad (ha : HasAscii cd.sends) (hV : Vocab V) {e : Val F} (h1 : V (.str (lit "src/1"))) (h2 : V e)
    (h : (e.uses cd.sends && e.endsWell cd.sends) = false) {s : St} (hu : s.usable) :
    hgSourcesEnc cd e s = (.error .encodeError, s) := by
  rw [← sources_sent ha (isNone_of_V hV h2)] at h
  have := patternEnc_bad ha hV (b := false) (sources_pattern h1 h2) h hu
  unfold hgSourcesEnc
  rw [bind_err _ _ _ this]

theorem Query.encSame (ha : HasAscii cd.sends) (hV : Vocab V) {q : Query F} (hq : q.Over V) (h : q.sent cd.sends = true) :
    q.runEnc cd = q.run := by
  cases q with
  | «exists» e =>
    show (existsEnc cd e >>= fun _ => Pure.pure ()) = (existsM e >>= fun _ => Pure.pure ())
    rw [existsEnc_same ha hV hq h]
  | pattern ps =>
    show (pattern2edgesEnc cd (.tup ps) >>= fun _ => Pure.pure ()) = (pattern2edges (.tup ps) >>= fun _ => Pure.pure ())
    rw [show pattern2edgesEnc cd (.tup ps) = pattern2edges (.tup ps) from patternEnc_same ha hV (b := false) hq h]
  | star c =>
    show (hgStarEnc cd c >>= fun _ => Pure.pure ()) = (hgStar c >>= fun _ => Pure.pure ())
    rw [starEnc_same ha h]
  | symbolsWithRoot r =>
    show (hgSymbolsWithRootEnc cd r >>= fun _ => Pure.pure ()) = (hgSymbolsWithRoot r >>= fun _ => Pure.pure ())
    rw [symbolsEnc_same ha h]
  | sources e =>
    show (hgSourcesEnc cd e >>= fun _ => Pure.pure ()) = (hgSources e >>= fun _ => Pure.pure ())
    rw [sourcesEnc_same ha hV hq.1 hq.2 h]
  | fAll => rfl

theorem Query.encBad (ha : HasAscii cd.sends) (hV : Vocab V) {q : Query F} (hq : q.Over V) (h : q.sent cd.sends = false)
    {s : St} (hu : s.usable) : q.runEnc cd s = (.error .encodeError, s) := by
  cases q with
  | «exists» e => exact bind_err _ _ _ (existsEnc_bad ha hV hq h hu)
  | pattern ps => exact bind_err _ _ _ (patternEnc_bad ha hV (b := false) hq h hu)
  | star c => exact bind_err _ _ _ (starEnc_bad ha h hu)
  | symbolsWithRoot r => exact bind_err _ _ _ (symbolsEnc_bad ha h hu)
  | sources e => exact bind_err _ _ _ (sourcesEnc_bad ha hV hq.1 hq.2 h hu)
  | fAll => exact nomatch h

/-- What is present can be looked up. -/
def Spec.Sends (p : Char → Bool) (S : Spec F) : Prop := ∀ e, S.Present e → patSent p e.elems = true

theorem Spec.Sends.add {p : Char → Bool} {S : Spec F} (h : S.Sends p) {e : Val F} (he : patSent p e.elems = true) (ts : Int) :
    (S.add e ts).Sends p := by
  intro x hx
  by_cases hxe : x = e
  · rw [hxe]; exact he
  · apply h x
    unfold Spec.Present Spec.add at *
    split at hx
    · exact hx
    · simpa [hxe] using hx

theorem Spec.Sends.prim {p : Char → Bool} {S : Spec F} (h : S.Sends p) {a : Prim F} (ha : a.sent p = true) :
    (S.prim a).Sends p := by
  have less : ∀ {S' : Spec F}, S'.Less S → S'.Sends p := fun hl e he => h e (hl.2 e he)
  cases a with
  | add e ts => exact h.add ha ts
  | remove e => exact less (Spec.less_remove S e)
  | removeMany es => exact less (Spec.less_foldRemove es S)
  | removeByPattern ps => exact less (Spec.less_removeWhere S _)
  | removeBelief src e =>
    show (S.removeBelief src e).Sends p
    unfold Spec.removeBelief
    simp only
    split
    · exact less (Spec.less_remove S _)
    · exact less ((Spec.less_remove _ e).trans (Spec.less_remove S _))
  | destroy => exact fun v hv => by simp [Spec.prim, Spec.empty, Spec.Present] at hv
  | query q => exact h

theorem Prim.encSame (ha : HasAscii cd.sends) (hb : HasAscii cd.stores) (hV : Vocab V) {a : Prim F} (hp : a.Over V)
    (h : a.sent cd.sends = true) (h2 : a.stored cd.stores = true) {A : Abs F} (hA : AbsOk V A) {S : Spec F} (hR : Rel A S)
    (hS : S.Sends cd.sends) {s : St} (hu : s.usable) (hw : s.work = A.conc) : a.runEnc cd s = a.run s := by
  cases a with
  | add e ts =>
    show (hgAddEnc cd e ts >>= fun _ => Pure.pure ()) s = (hgAdd e ts >>= fun _ => Pure.pure ()) s
    rw [addEnc_same ha hb hV hp h h2]
  | remove e =>
    show hgRemoveEnc cd e s = hgRemove e s
    rw [removeEnc_same ha hV hp h]
  | removeMany es =>
    show hgRemoveEnc cd (.seq true es) s = hgRemove (.seq true es) s
    rw [hgRemoveEnc_many hp.1 hp.2, hgRemove_many hp.1 hp.2]
    apply congrFun
    apply forEach_congr
    intro e he
    exact removeRawEnc_same ha hV (hp.2 e he) (List.all_eq_true.1 h e he)
  | removeByPattern ps =>
    show hgRemoveByPatternEnc cd (.tup ps) s = hgRemoveByPattern (.tup ps) s
    unfold hgRemoveByPatternEnc hgRemoveByPattern hgPattern2edges
    rw [show pattern2edgesEnc cd (.tup ps) = pattern2edges (.tup ps) from patternEnc_same ha hV (b := false) hp h]
    obtain ⟨res, e2, _, hm⟩ := pattern2edges_run hV hA (b := false) hp hu hw
    rw [bind_run _ _ _ (show pattern2edges (.tup ps) s = (.ok res, s) from e2),
      bind_run _ _ _ (show pattern2edges (.tup ps) s = (.ok res, s) from e2)]
    apply congrFun
    apply forEach_congr
    intro e he
    have hme := ((hm e).1 he).1
    exact removeEnc_same ha hV (hA.over e hme) (hS e ((hR.present e).2 hme))
  | removeBelief src e =>
    have hbv : BeliefOver V src e := hp
    have h' : (patSent cd.sends [e, src] && patSent cd.sends e.elems) = true := h
    rw [Bool.and_eq_true] at h'
    have hsup := support_over hbv
    have r1 : hgRemoveEnc cd (.tup [.str constSource, e, src]) = hgRemove (.tup [.str constSource, e, src]) :=
      removeEnc_same ha hV (e := support e src) hsup (by rw [support_sent ha]; exact h'.1)
    have r2 : hgSourcesEnc cd e = hgSources e := by
      refine sourcesEnc_same ha hV hbv.srcConst hbv.fact ?_
      have : e.endsWell cd.sends = true := by
        obtain ⟨x, t, rfl, _⟩ := hbv.edge
        rfl
      rw [this, Bool.and_true]
      exact patSent_uses h'.1 e (by simp)
    show hgRemoveBeliefEnc cd src e s = hgRemoveBelief src e s
    unfold hgRemoveBeliefEnc hgRemoveBelief
    rw [r1, r2, removeEnc_same ha hV hbv.edge h'.2]
  | destroy => rfl
  | query q => rw [show (Prim.query q).runEnc cd = q.runEnc cd from rfl, Query.encSame ha hV hp h]; rfl

theorem Prim.encSameAll (ha : HasAscii cd.sends) (hb : HasAscii cd.stores) (hV : Vocab V) (ps : List (Prim F))
    (hps : ∀ p ∈ ps, p.Over V) (h : ∀ p ∈ ps, p.sent cd.sends = true) (h2 : ∀ p ∈ ps, p.stored cd.stores = true) :
    ∀ {A : Abs F} {S : Spec F} {s : St}, AbsOk V A → Rel A S → S.Sends cd.sends → s.usable → s.work = A.conc →
    forEach (Prim.runEnc cd) ps s = forEach Prim.run ps s := by
  induction ps with
  | nil => intro A S s _ _ _ _ _; exact forEach_nil_run.trans forEach_nil_run.symm
  | cons p ps ih =>
    intro A S s hA hR hS hu hw
    have h1 := Prim.encSame ha hb hV (hps p (by simp)) (h p (by simp)) (h2 p (by simp)) hA hR hS hu hw
    obtain ⟨A', hA', hR', s1, e1, st1⟩ := Prim.sim hV (hps p (by simp)) A S s hA hR hu hw
    rw [forEach_cons_run e1, forEach_cons_run (h1.trans e1)]
    exact ih (fun q hq => hps q (by simp [hq])) (fun q hq => h q (by simp [hq])) (fun q hq => h2 q (by simp [hq])) hA' hR'
      (hS.prim (h p (by simp))) (st1.usable hu) st1.work

end GB
