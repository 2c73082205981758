import Verif.Proofs.FrText
import Verif.Proofs.MySql

/-! The methods of class SQL with a limited stack. -/

set_option linter.unusedSectionVars false

namespace GB

variable {F : Type} [PyFloat F] [DecidableEq F] {V : Val F → Prop}

/-! ### methods that need a fixed number of frames -/

theorem openCursorR_eq {k : Nat} (h : 1 ≤ k) (l : Bool) : openCursorR k l = openCursor l := by
  match k, h with
  | k + 1, _ => rfl

theorem closeCursorR_eq {k : Nat} (h : 1 ≤ k) (l c : Bool) : closeCursorR k l c = closeCursor l c := by
  match k, h with
  | k + 1, _ => rfl

theorem comprR_eq {k : Nat} (h : 1 ≤ k) : comprR k = (Pure.pure () : M Unit) := by
  match k, h with
  | k + 1, _ => rfl

theorem updateOrInsertVertexR_eq {k : Nat} (h : 2 ≤ k) (id : Str) (d ts : Int) :
    updateOrInsertVertexR k id d ts = updateOrInsertVertex id d ts := by
  match k, h with
  | k + 2, _ => rfl

theorem updateOrInsertPermR_eq {k : Nat} (h : 2 ≤ k) (id : Str) : updateOrInsertPermR k id = updateOrInsertPerm id := by
  match k, h with
  | k + 2, _ => rfl

theorem addStrR_eq {k : Nat} (h : 3 ≤ k) (v : Str) (d ts : Int) : addStrR k v d ts = addStr v d ts := by
  match k, h with
  | k + 3, _ => rfl

theorem writeEdgePermutationR_eq {k : Nat} (h : 3 ≤ k) (p : Str) :
    writeEdgePermutationR F k p = writeEdgePermutation (F := F) p := by
  match k, h with
  | k + 3, _ => rfl

theorem removeEdgePermutationR_eq {k : Nat} (h : 3 ≤ k) (p : Str) :
    removeEdgePermutationR F k p = removeEdgePermutation (F := F) p := by
  match k, h with
  | k + 3, _ => rfl

theorem removeStrR_eq {k : Nat} (h : 2 ≤ k) (v : Str) : removeStrR k v = removeStr v := by
  match k, h with
  | k + 2, _ => rfl

theorem incDegreeR_eq {k : Nat} (h : 2 ≤ k) (v : Str) : incDegreeR k v = incDegree v := by
  match k, h with
  | k + 2, _ => rfl

theorem decDegreeR_eq {k : Nat} (h : 2 ≤ k) (v : Str) : decDegreeR k v = decDegree v := by
  match k, h with
  | k + 2, _ => rfl

theorem hgDestroyR_eq {k : Nat} (h : 3 ≤ k) : hgDestroyR k = hgDestroy := by
  match k, h with
  | k + 3, _ => rfl

/-! ### writing -/

theorem doWithR_eq {k : Nat} {edge : List (Val F)} {f : Nat → Str → M Unit} {g : Str → M Unit} (hk : 4 ≤ k)
    (hd : 2 * depths edge + 3 ≤ k) (hf : ∀ p, f (k - 1) p = g p) :
    doWithEdgePermutationsR k edge f = doWithEdgePermutations edge g := by
  match k, hk with
  | k + 1, hk =>
    unfold doWithEdgePermutationsR doWithEdgePermutations
    simp only [enterM]
    apply forEach_congr
    intro n hn
    rw [permStrR_eq (by omega) (by omega)]
    congr 1
    funext p
    exact hf p

theorem writeEdgePermutationsR_eq {k : Nat} {edge : List (Val F)} (hk : 5 ≤ k) (hd : 2 * depths edge + 4 ≤ k) :
    writeEdgePermutationsR k edge = writeEdgePermutations edge := by
  match k, hk with
  | k + 1, hk =>
    unfold writeEdgePermutationsR writeEdgePermutations
    simp only [enterM]
    exact doWithR_eq (by omega) (by omega) fun p => writeEdgePermutationR_eq (by omega) p

theorem removeEdgePermutationsR_eq {k : Nat} {edge : List (Val F)} (hk : 5 ≤ k) (hd : 2 * depths edge + 4 ≤ k) :
    removeEdgePermutationsR k edge = removeEdgePermutations edge := by
  match k, hk with
  | k + 1, hk =>
    unfold removeEdgePermutationsR removeEdgePermutations
    simp only [enterM]
    exact doWithR_eq (by omega) (by omega) fun p => removeEdgePermutationR_eq (by omega) p

theorem addVertR_eq {k : Nat} (hk : 3 ≤ k) (ts : Int) {v : Val F} (hd : 2 * v.depth + 1 ≤ k) :
    addVertR k ts v = addVert ts v := by
  unfold addVertR addVert
  rw [edge2strR_enough k v (by omega) hd]
  show (incDegreeR k (edge2str v) >>= fun known => if !known then addStrR k (edge2str v) 1 ts else Pure.pure ()) = _
  rw [incDegreeR_eq (by omega), addStrR_eq hk]

theorem iterM_depth {e : Val F} {xs : List (Val F)} (h : e.isSeq = true) (hi : e.iter = .ok xs) : e.depth = depths xs + 1 := by
  cases e with
  | seq b ys => simp only [Val.iter] at hi; cases hi; rw [Val.depth]
  | _ => simp [Val.isSeq] at h

/-- `add_raw` when the reading part does the same. -/
theorem addRawR_of {k : Nat} {e : Val F} (he : EdgeOver V e) (ts : Int) {s : St} (hex : existsR k e s = existsM e s)
    (hk : 5 ≤ k) (hd : 2 * e.depth + 2 ≤ k) : addRawR (k + 1) e ts s = addRaw e ts s := by
  unfold addRawR addRaw
  simp only [enterM]
  refine bind_same hex ?_
  intro present s1 _
  cases present with
  | true => rfl
  | false =>
    simp only [Bool.not_false, if_true]
    rw [iter_edge he]
    obtain ⟨h, t, rfl, ht, hh, hx⟩ := he
    have hdep : (Val.tup (h :: t)).depth = depths (Val.tup (h :: t)).elems + 1 := depth_tup _
    rw [edge2strR_enough k _ (by omega) (by omega)]
    have h1 : forEach (addVertR k ts) (Val.tup (h :: t)).elems = forEach (addVert ts) (Val.tup (h :: t)).elems := by
      apply forEach_congr
      intro x hx
      have := depth_le_depths hx
      exact addVertR_eq (by omega) ts (by omega)
    have h2 := writeEdgePermutationsR_eq (k := k) (edge := (Val.tup (h :: t)).elems) (by omega) (by omega)
    show (forEach (addVertR k ts) (Val.tup (h :: t)).elems >>= fun _ =>
      addStrR k (edge2str (Val.tup (h :: t))) 0 ts >>= fun _ =>
      writeEdgePermutationsR k (Val.tup (h :: t)).elems >>= fun _ => Pure.pure (Val.tup (h :: t))) s1 =
      (forEach (addVert ts) (Val.tup (h :: t)).elems >>= fun _ =>
      addStr (edge2str (Val.tup (h :: t))) 0 ts >>= fun _ =>
      writeEdgePermutations (Val.tup (h :: t)).elems >>= fun _ => Pure.pure (Val.tup (h :: t))) s1
    rw [h1, h2, addStrR_eq (by omega)]

/-- `remove_raw` when the reading part does the same, and leaves enough frames if the edge is there. -/
theorem removeRawR_of {k : Nat} {e : Val F} (he : EdgeOver V e) {s s1 : St} {b : Bool}
    (hex : existsR k e s = (.ok b, s1)) (hex' : existsM e s = (.ok b, s1))
    (hk : b = true → 5 ≤ k ∧ 2 * e.depth + 2 ≤ k) : removeRawR (k + 1) e s = removeRaw e s := by
  unfold removeRawR removeRaw
  simp only [enterM]
  rw [bind_run _ _ _ hex, bind_run _ _ _ hex']
  cases b with
  | false => rfl
  | true =>
    obtain ⟨hk, hd⟩ := hk rfl
    simp only [if_true]
    rw [iter_edge he]
    obtain ⟨h, t, rfl, ht, hh, hx⟩ := he
    have hdep : (Val.tup (h :: t)).depth = depths (Val.tup (h :: t)).elems + 1 := depth_tup _
    rw [edge2strR_enough k _ (by omega) (by omega)]
    have h1 : forEach (fun v => (do
        let vertStr ← liftE (edge2strR k v)
        let _ ← decDegreeR k vertStr : M Unit)) (Val.tup (h :: t)).elems =
        forEach (fun v => (do let _ ← decDegree (edge2str v) : M Unit)) (Val.tup (h :: t)).elems := by
      apply forEach_congr
      intro x hx
      have := depth_le_depths hx
      rw [edge2strR_enough k x (by omega) (by omega)]
      show (decDegreeR k (edge2str x) >>= fun _ => Pure.pure ()) = _
      rw [decDegreeR_eq (by omega)]
    have h2 := removeEdgePermutationsR_eq (k := k) (edge := (Val.tup (h :: t)).elems) (by omega) (by omega)
    show (forEach _ (Val.tup (h :: t)).elems >>= fun _ =>
      removeEdgePermutationsR k (Val.tup (h :: t)).elems >>= fun _ => removeStrR k (edge2str (Val.tup (h :: t)))) s1 =
      (forEach _ (Val.tup (h :: t)).elems >>= fun _ =>
      removeEdgePermutations (Val.tup (h :: t)).elems >>= fun _ => removeStr (edge2str (Val.tup (h :: t)))) s1
    rw [h1, h2, removeStrR_eq (by omega)]

/-! ### reading -/

/-- The edges of the store with a row starting with a given text. -/
def Hits (A : Abs F) (t : Str) (e : Val F) : Prop :=
  e ∈ A.edges ∧ ∃ n, n < factorial e.elems.length ∧ t <+: rowOf e.elems n

theorem decodeRowR_hit (hV : Vocab V) {A : Abs F} (hA : AbsOk V A) {c : Char} {t : Str} (hc : c ≠ '(') (k : Nat)
    {e : Val F} (he : e ∈ A.edges) {n : Nat} (hn : n < factorial e.elems.length) (hpre : (c :: t) <+: rowOf e.elems n) :
    decodeRowR k (rowOf e.elems n) = (if 3 * e.depth + 1 ≤ k then .ok e else .error .recursionError) ∧
    decodeRow (rowOf e.elems n) = .ok e := by
  obtain ⟨h, t, rfl, ht, hh, hx⟩ := hA.over e he
  have hperm := permN_perm hn
  cases hp : permN (Val.tup (h :: t)).elems n with
  | nil =>
    rw [hp] at hperm
    have := List.nil_perm.1 hperm
    simp [Val.elems] at this
  | cons x r =>
    have hxw : WfVal x := hV.wf x (hx x (hperm.subset (by simp [hp])))
    have hxa : x.isAtom = true := by
      rw [rowOf, hp] at hpre
      exact atom_of_prefix hxw hc hpre
    exact ⟨decodeRowR_rowOf (fun y hy => hV.wf y (hx y hy)) hh ht hn hp hxa k,
      decodeRow_rowOf (fun y hy => hV.wf y (hx y hy)) hh ht hn hp hxa⟩

theorem hits_row {A : Abs F} {t : Str} {r : Str} (h : r ∈ A.conc.perms.filter fun r => t.isPrefixOf r) :
    ∃ e ∈ A.edges, ∃ n, n < factorial e.elems.length ∧ r = rowOf e.elems n ∧ t <+: rowOf e.elems n := by
  rw [List.mem_filter, mem_conc_perms, List.isPrefixOf_iff_prefix] at h
  obtain ⟨⟨e, he, n, hn, rfl⟩, hp⟩ := h
  exact ⟨e, he, n, hn, rfl, hp⟩

theorem cur2edgesR_enough (hV : Vocab V) {A : Abs F} (hA : AbsOk V A) {c : Char} {t : Str} (hc : c ≠ '(') {k : Nat}
    (h : ∀ e, Hits A (c :: t) e → 3 * e.depth + 2 ≤ k) (hk : 1 ≤ k) :
    cur2edgesR k (A.conc.perms.filter fun r => (c :: t).isPrefixOf r) =
      (cur2edges (A.conc.perms.filter fun r => (c :: t).isPrefixOf r) : Except PyErr (List (Val F))) := by
  match k, hk with
  | k + 1, _ =>
    unfold cur2edgesR cur2edges
    simp only [enter]
    rw [mapE_congr (f := decodeRowR k) (g := decodeRow)]
    intro r hr
    obtain ⟨e, he, n, hn, rfl, hp⟩ := hits_row hr
    obtain ⟨h1, h2⟩ := decodeRowR_hit hV hA hc k he hn hp
    have := h e ⟨he, n, hn, hp⟩
    rw [h1, h2, if_pos (by omega)]

theorem cur2edgesR_few (hV : Vocab V) {A : Abs F} (hA : AbsOk V A) {c : Char} {t : Str} (hc : c ≠ '(') {k : Nat}
    (h : ∃ e, Hits A (c :: t) e ∧ k < 3 * e.depth + 2) :
    cur2edgesR k (A.conc.perms.filter fun r => (c :: t).isPrefixOf r) =
      (.error .recursionError : Except PyErr (List (Val F))) := by
  match k with
  | 0 => rfl
  | k + 1 =>
    unfold cur2edgesR
    simp only [enter]
    have hall : ∀ r ∈ A.conc.perms.filter (fun r => (c :: t).isPrefixOf r),
        (decodeRowR k r : Except PyErr (Val F)) = .ok (match (decodeRow r : Except PyErr (Val F)) with
          | .ok e => e
          | .error _ => .none) ∨ (decodeRowR k r : Except PyErr (Val F)) = .error .recursionError := by
      intro r hr
      obtain ⟨e, he, n, hn, rfl, hp⟩ := hits_row hr
      obtain ⟨h1, h2⟩ := decodeRowR_hit hV hA hc k he hn hp
      rw [h1, h2]
      split
      · exact .inl rfl
      · exact .inr rfl
    rw [mapE_some_error hall]
    · rfl
    · obtain ⟨e, ⟨he, n, hn, hp⟩, hk⟩ := h
      refine ⟨rowOf e.elems n, ?_, ?_⟩
      · rw [List.mem_filter, mem_conc_perms, List.isPrefixOf_iff_prefix]
        exact ⟨⟨e, he, n, hn, rfl⟩, hp⟩
      · rw [(decodeRowR_hit hV hA hc k he hn hp).1, if_neg (by omega)]

/-- The text that a pattern looks for. -/
def patText (ps : List (Val F)) : Str := nodes2str (ps.filter fun n => !n.isNone)

theorem patText_head (hV : Vocab V) {ps : List (Val F)} (hp : PatternOver V ps) :
    ∃ c t, patText ps = c :: t ∧ c ≠ '(' ∧ ∃ endS, strPlus1 (patText ps) = .ok endS := by
  obtain ⟨pre, c, post, hps, hpre, hca⟩ := hp.first
  have hnodes : ps.filter (fun n => !n.isNone) = c :: post.filter (fun n => !n.isNone) := by
    rw [hps]; exact filter_first hpre hca
  have hnV : ∀ x ∈ ps.filter (fun n => !n.isNone), V x := by
    intro x hx
    rw [List.mem_filter] at hx
    rcases hp.over x hx.1 with rfl | h
    · simp [Val.isNone] at hx
    · exact h
  have hcV : V c := hnV c (by rw [hnodes]; simp)
  obtain ⟨ch, s0, hs0, hch⟩ := edge2str_head_atom (hV.wf c hcV) hca
  obtain ⟨s1, hs1⟩ := nodes2str_cons_head (xs := post.filter (fun n => !n.isNone)) hs0
  have hsucc := hasSucc_nodes2str hV (by rw [hnodes]; simp) hnV
  refine ⟨ch, s1, by rw [patText, hnodes, hs1], hch, ?_⟩
  exact (strPlus1_isOk_iff _).2 hsucc

/-- The nodes of a pattern are not deeper than the pattern. -/
theorem depths_nodes (ps : List (Val F)) : depths (ps.filter fun n => !n.isNone) = depths ps := by
  apply Nat.le_antisymm
  · exact depths_le fun x hx => depth_le_depths (List.mem_filter.1 hx).1
  · apply depths_le
    intro x hx
    cases hn : x.isNone with
    | true => rw [isNone_iff.1 hn]; simp [Val.depth]
    | false => exact depth_le_depths (List.mem_filter.2 ⟨hx, by simp [hn]⟩)

theorem edgeMatchesPatternR_eq {k : Nat} (hk : 1 ≤ k) (e p : Val F) : edgeMatchesPatternR k e p = edgeMatchesPattern e p := by
  match k, hk with
  | k + 1, _ => rfl

/-- `pattern2edges`, step by step. -/
theorem pattern2edgesR_steps (hV : Vocab V) {A : Abs F} {b : Bool} {ps : List (Val F)} (hp : PatternOver V ps) {k : Nat}
    {s : St} (hu : s.usable) (hw : s.work = A.conc) (hk : 2 ≤ k) (hd : 2 * depths ps + 2 ≤ k) :
    pattern2edgesR (k + 1) (.seq b ps) s =
      (liftE (cur2edgesR k (A.conc.perms.filter fun r => (patText ps).isPrefixOf r)) >>= fun edges =>
        closeCursor true false >>= fun _ =>
        liftE (filterE (fun e => edgeMatchesPattern e (.seq b ps)) edges) >>= fun res => Pure.pure (pySet res)) s ∧
    pattern2edges (.seq b ps) s =
      (liftE (cur2edges (A.conc.perms.filter fun r => (patText ps).isPrefixOf r)) >>= fun edges =>
        closeCursor true false >>= fun _ =>
        liftE (filterE (fun e => edgeMatchesPattern e (.seq b ps)) edges) >>= fun res => Pure.pure (pySet res)) s := by
  obtain ⟨c, t, hpt, hc, endS, hend⟩ := patText_head hV hp
  constructor
  · unfold pattern2edgesR
    simp only [enterM]
    rw [bind_run _ _ _ (liftE_ok (x := (Val.seq b ps).iter) (a := ps) rfl s), comprR_eq (by omega)]
    rw [bind_run _ _ _ (show (Pure.pure () : M Unit) s = (.ok (), s) from rfl)]
    rw [bind_run _ _ _ (liftE_ok (nodes2strR_enough (xs := ps.filter fun n => !n.isNone)
      (by rw [depths_nodes]; exact hd)) s)]
    have hend' : strPlus1R k (patText ps) = .ok endS := by
      match k, hk with
      | k + 1, _ => exact hend
    rw [show nodes2str (ps.filter fun n => !n.isNone) = patText ps from rfl, bind_run _ _ _ (liftE_ok hend' s),
      openCursorR_eq (by omega), bind_run _ _ _ (openCursor_local s), bind_run _ _ _ (execRead_local hu _ _), hw,
      DB.selectRange, selectRange_eq hend, closeCursorR_eq (by omega)]
    match k, hk with
    | k + 2, _ =>
      simp only [enter]
      rfl
  · unfold pattern2edges
    rw [bind_run _ _ _ (liftE_ok (x := (Val.seq b ps).iter) (a := ps) rfl s)]
    rw [show nodes2str (ps.filter fun n => !n.isNone) = patText ps from rfl, bind_run _ _ _ (liftE_ok hend s),
      bind_run _ _ _ (openCursor_local s), bind_run _ _ _ (execRead_local hu _ _), hw, DB.selectRange, selectRange_eq hend]

theorem pattern2edgesR_enough (hV : Vocab V) {A : Abs F} (hA : AbsOk V A) {b : Bool} {ps : List (Val F)}
    (hp : PatternOver V ps) {k : Nat} {s : St} (hu : s.usable) (hw : s.work = A.conc) (hk : 2 ≤ k)
    (hd : 2 * depths ps + 2 ≤ k) (h : ∀ e, Hits A (patText ps) e → 3 * e.depth + 2 ≤ k) :
    pattern2edgesR (k + 1) (.seq b ps) s = pattern2edges (.seq b ps) s := by
  obtain ⟨h1, h2⟩ := pattern2edgesR_steps hV (b := b) hp hu hw hk hd
  obtain ⟨c, t, hpt, hc, _⟩ := patText_head hV hp
  rw [h1, h2]
  rw [hpt] at h ⊢
  rw [cur2edgesR_enough hV hA hc h (by omega)]

theorem pattern2edgesR_few (hV : Vocab V) {A : Abs F} (hA : AbsOk V A) {b : Bool} {ps : List (Val F)}
    (hp : PatternOver V ps) {k : Nat} {s : St} (hu : s.usable) (hw : s.work = A.conc) (hk : 2 ≤ k)
    (hd : 2 * depths ps + 2 ≤ k) (h : ∃ e, Hits A (patText ps) e ∧ k < 3 * e.depth + 2) :
    pattern2edgesR (k + 1) (.seq b ps) s = (.error .recursionError, s) := by
  obtain ⟨h1, h2⟩ := pattern2edgesR_steps hV (b := b) hp hu hw hk hd
  obtain ⟨c, t, hpt, hc, _⟩ := patText_head hV hp
  rw [h1]
  rw [hpt] at h ⊢
  rw [cur2edgesR_few hV hA hc h]
  rfl

end GB
