import Verif.Proofs.FrSql
import Verif.Proofs.CollRun

/-! Calls and histories with a limited stack. -/

set_option linter.unusedSectionVars false

namespace GB

variable {F : Type} [PyFloat F] [DecidableEq F] {V : Val F → Prop}

/-! ### reading -/

theorem existsR_enough (hV : Vocab V) {A : Abs F} (hA : AbsOk V A) {e : Val F} (he : EdgeOver V e) {k : Nat} {s : St}
    (hu : s.usable) (hw : s.work = A.conc) (hd : 2 * e.depth ≤ k) (h : ∀ x, Hits A (patText e.elems) x → 3 * x.depth + 2 ≤ k) :
    existsR (k + 2) e s = existsM e s := by
  unfold existsR existsM
  simp only [enterM]
  have hdep : e.depth = depths e.elems + 1 := by
    obtain ⟨a, t, rfl, _⟩ := he
    exact depth_tup _
  have := pattern2edgesR_enough hV hA (b := false) he.pattern hu hw (k := k) (by omega) (by omega) h
  rw [show (Val.seq false e.elems) = e from he.tup_elems.symm] at this
  exact bind_same this fun _ _ _ => rfl

theorem existsR_few (hV : Vocab V) {A : Abs F} (hA : AbsOk V A) {e : Val F} (he : EdgeOver V e) {k : Nat} {s : St}
    (hu : s.usable) (hw : s.work = A.conc) (hd : 2 * e.depth ≤ k)
    (h : ∃ x, Hits A (patText e.elems) x ∧ k < 3 * x.depth + 2) :
    existsR (k + 2) e s = (.error .recursionError, s) := by
  unfold existsR
  simp only [enterM]
  have hdep : e.depth = depths e.elems + 1 := by
    obtain ⟨a, t, rfl, _⟩ := he
    exact depth_tup _
  have := pattern2edgesR_few hV hA (b := false) he.pattern hu hw (k := k) (by omega) (by omega) h
  rw [show (Val.seq false e.elems) = e from he.tup_elems.symm] at this
  rw [bind_err _ _ _ this]

theorem hits_self (hV : Vocab V) {A : Abs F} {e : Val F} (he : EdgeOver V e) (hm : e ∈ A.edges) : Hits A (patText e.elems) e := by
  obtain ⟨n, hn, hpn⟩ := exists_permN (List.Perm.refl e.elems)
  refine ⟨hm, n, hn, ?_⟩
  have : e.elems.filter (fun n => !n.isNone) = e.elems := by
    rw [List.filter_eq_self]
    intro x hx
    have := V_ne_none hV (he.mem x hx)
    cases hn : x.isNone with
    | false => rfl
    | true => exact absurd (isNone_iff.1 hn) this
  rw [patText, this, rowOf, hpn]
  exact nodes2str_prefix he.elems_ne (by simp)

/-- `star` of a symbol, step by step. -/
theorem starR_steps (hV : Vocab V) {A : Abs F} {c : Val F} (hc : V c) (hca : c.isAtom = true) {k : Nat} {s : St}
    (hu : s.usable) (hw : s.work = A.conc) (hk : 1 ≤ k) :
    sqlStarR (k + 2) c s =
      (liftE (cur2edgesR k (A.conc.perms.filter fun r => (edge2str c ++ lit " ").isPrefixOf r)) >>= fun edges =>
        closeCursor true false >>= fun _ => Pure.pure (pySet edges)) s ∧
    sqlStar c s =
      (liftE (cur2edges (A.conc.perms.filter fun r => (edge2str c ++ lit " ").isPrefixOf r)) >>= fun edges =>
        closeCursor true false >>= fun _ => Pure.pure (pySet edges)) s := by
  have hseq : c.isSeq = false := by cases c <;> simp_all [Val.isAtom, Val.isSeq]
  have hend := strPlus1_space (atomStr c)
  rw [edge2str_atom hca]
  constructor
  · unfold sqlStarR
    simp only [enterM, hseq, Bool.false_eq_true, if_false]
    unfold str2permsR
    simp only [enterM]
    match k, hk with
    | k + 1, _ =>
      rw [bind_run _ _ _ (liftE_ok (show strPlus1R (k + 1) (atomStr c ++ lit " ") = _ from hend) s),
        openCursorR_eq (by omega), bind_run _ _ _ (openCursor_local s), bind_run _ _ _ (execRead_local hu _ _), hw,
        DB.selectRange, selectRange_eq hend, closeCursorR_eq (by omega)]
  · unfold sqlStar str2perms
    simp only [hseq, Bool.false_eq_true, if_false]
    rw [bind_run _ _ _ (liftE_ok hend s), bind_run _ _ _ (openCursor_local s), bind_run _ _ _ (execRead_local hu _ _), hw,
      DB.selectRange, selectRange_eq hend]

theorem star_text {c : Val F} (hV : Vocab V) (hc : V c) (hca : c.isAtom = true) :
    ∃ ch t, edge2str c ++ lit " " = ch :: t ∧ ch ≠ '(' := by
  obtain ⟨ch, s0, hs0, hch⟩ := edge2str_head_atom (hV.wf c hc) hca
  exact ⟨ch, s0 ++ lit " ", by rw [hs0]; rfl, hch⟩

theorem hits_star (hV : Vocab V) {A : Abs F} (hA : AbsOk V A) {c : Val F} (hc : V c) (hca : c.isAtom = true) (e : Val F) :
    Hits A (edge2str c ++ lit " ") e ↔ e ∈ A.edges ∧ c ∈ e.elems := by
  obtain ⟨ch, s0, hs0, hch⟩ := edge2str_head_atom (hV.wf c hc) hca
  have hcw := hV.wf c hc
  apply and_congr_right
  intro he
  have hov := hA.over e he
  constructor
  · rintro ⟨n, hn, hp⟩
    have hperm := permN_perm hn
    cases hpn : permN e.elems n with
    | nil => rw [hpn] at hperm; exact absurd (List.nil_perm.1 hperm) hov.elems_ne
    | cons x r =>
      rw [rowOf, hpn] at hp
      have hxm : x ∈ e.elems := hperm.subset (by simp [hpn])
      have hxw := hV.wf x (hov.mem x hxm)
      have hxa : x.isAtom = true := by
        rw [hs0] at hp
        exact atom_of_prefix hxw hch hp
      rw [List.cons_append, nodes2str_cons (by simp)] at hp
      have := (word_prefix (atom_noSpace hcw hca) (atom_noSpace hxw hxa)).1 hp
      rw [edge2str_inj hcw hxw this]
      exact hxm
  · intro hm
    obtain ⟨r, hr⟩ := exists_pick hm
    obtain ⟨n, hn, hpn⟩ := exists_permN (picks_perm hr)
    refine ⟨n, hn, ?_⟩
    rw [rowOf, hpn, List.cons_append, nodes2str_cons (by simp)]
    exact List.prefix_append _ _

theorem starR_enough (hV : Vocab V) {A : Abs F} (hA : AbsOk V A) {c : Val F} (hc : V c) (hca : c.isAtom = true) {k : Nat}
    {s : St} (hu : s.usable) (hw : s.work = A.conc) (hk : 1 ≤ k)
    (h : ∀ e ∈ A.edges, c ∈ e.elems → 3 * e.depth + 2 ≤ k) : sqlStarR (k + 2) c s = sqlStar c s := by
  obtain ⟨h1, h2⟩ := starR_steps hV hc hca hu hw hk
  have hh : ∀ x, Hits A (edge2str c ++ lit " ") x → 3 * x.depth + 2 ≤ k := fun x hx =>
    h x ((hits_star hV hA hc hca x).1 hx).1 ((hits_star hV hA hc hca x).1 hx).2
  obtain ⟨ch, t, ht, hch⟩ := star_text hV hc hca
  rw [h1, h2]
  rw [ht] at hh ⊢
  rw [cur2edgesR_enough hV hA hch hh hk]

theorem starR_few (hV : Vocab V) {A : Abs F} (hA : AbsOk V A) {c : Val F} (hc : V c) (hca : c.isAtom = true) {k : Nat}
    {s : St} (hu : s.usable) (hw : s.work = A.conc) (hk : 1 ≤ k)
    (h : ∃ e ∈ A.edges, c ∈ e.elems ∧ k < 3 * e.depth + 2) : sqlStarR (k + 2) c s = (.error .recursionError, s) := by
  obtain ⟨h1, h2⟩ := starR_steps hV hc hca hu hw hk
  obtain ⟨e, he, hce, hlt⟩ := h
  have hh : ∃ x, Hits A (edge2str c ++ lit " ") x ∧ k < 3 * x.depth + 2 :=
    ⟨e, (hits_star hV hA hc hca e).2 ⟨he, hce⟩, hlt⟩
  obtain ⟨ch, t, ht, hch⟩ := star_text hV hc hca
  rw [h1]
  rw [ht] at hh ⊢
  rw [cur2edgesR_few hV hA hch hh]
  rfl

theorem symbolsR_eq {k : Nat} (hk : 3 ≤ k) (root : Str) : symbolsWithRootR k root = symbolsWithRoot root := by
  match k, hk with
  | k + 3, _ =>
    unfold symbolsWithRootR symbolsWithRoot
    simp only [enterM]
    have : rowFirstTokenR (k + 2) = rowFirstToken := by
      funext row
      unfold rowFirstTokenR rowFirstToken
      rw [splitEdgeStrR_eq (by omega)]
      rfl
    rw [this]
    rfl

theorem degreeR_eq {k : Nat} {v : Val F} (hk : 2 ≤ k) (hd : 2 * v.depth + 1 ≤ k) : sqlDegreeR (k + 1) v = sqlDegree v := by
  unfold sqlDegreeR sqlDegree
  simp only [enterM]
  rw [edge2strR_enough k v hk hd]
  match k, hk with
  | k + 2, _ => rfl

theorem timestampR_eq {k : Nat} {v : Val F} (hk : 2 ≤ k) (hd : 2 * v.depth + 1 ≤ k) :
    sqlTimestampR (k + 1) v = sqlTimestamp v := by
  unfold sqlTimestampR sqlTimestamp
  simp only [enterM]
  rw [edge2strR_enough k v hk hd]
  match k, hk with
  | k + 2, _ => rfl

theorem fAllR_run {β : Type} {A : Abs F} (hk : KeysWf A.verts) (f : Val F → Int → β) {k : Nat} {s : St} (hu : s.usable)
    (hw : s.work = A.conc) (hk1 : 4 ≤ k) (h : ∀ r ∈ A.verts, 3 * r.v.depth + 1 ≤ k) :
    sqlFAllR (k + 1) f s = (.ok (A.verts.map fun r => f r.v r.deg), s) := by
  unfold sqlFAllR
  simp only [enterM]
  rw [openCursorR_eq (by omega), bind_run _ _ _ (openCursor_local s), bind_run _ _ _ (execRead_local hu _ _), hw]
  have : mapE (fun row : VRow => do
      let v ← str2edgeR k row.id
      enter k fun _ => Except.ok (f v row.degree)) A.conc.vertices = .ok (A.verts.map fun r => f r.v r.deg) := by
    show mapE _ (A.verts.map VEnt.row) = _
    rw [mapE_map]
    apply mapE_ok
    intro r hr
    have := h r hr
    simp only [VEnt.row]
    rw [str2edgeR_edge2str (hk r hr), if_pos (by omega)]
    match k, hk1 with
    | k + 1, _ => rfl
  rw [bind_run _ _ _ (liftE_ok this s), closeCursorR_eq (by omega), bind_run _ _ _ (closeCursor_local s)]
  rfl

/-! ### all edges nested at most `D` levels -/

theorem within_vocab (hV : Vocab V) (d : Nat) : Vocab (NestedWithin V d) :=
  ⟨fun v h => hV.wf v h.1, fun v h => hV.last v h.1, fun v w h h' => hV.eq v w h.1 h'.1⟩

theorem within_depth {d : Nat} {e : Val F} (he : EdgeOver (NestedWithin V d) e) : e.depth ≤ d + 1 := by
  obtain ⟨h, t, rfl, _, _, hx⟩ := he
  rw [depth_tup]
  have := depths_le (xs := h :: t) (d := d) fun x hxm => (hx x hxm).2
  omega

theorem depth_edge {e : Val F} (he : EdgeOver V e) : e.depth = depths e.elems + 1 := by
  obtain ⟨a, t, rfl, _⟩ := he
  exact depth_tup _

theorem pattern_depths {d : Nat} {ps : List (Val F)} (hp : PatternOver (NestedWithin V d) ps) : depths ps ≤ d := by
  apply depths_le
  intro x hx
  rcases hp.over x hx with rfl | h
  · simp [Val.depth]
  · exact h.2


section
variable {d : Nat} (hV : Vocab (NestedWithin V d)) {A : Abs F} (hA : AbsOk (NestedWithin V d) A) {s : St} (hu : s.usable)
  (hw : s.work = A.conc)
include hV hA hu hw

theorem patternR_in {b : Bool} {ps : List (Val F)} (hp : PatternOver (NestedWithin V d) ps) {j : Nat} (hj : 3 * d + 6 ≤ j) :
    pattern2edgesR j (.seq b ps) s = pattern2edges (.seq b ps) s := by
  have hd := pattern_depths hp
  match j, hj with
  | j + 1, hj =>
    exact pattern2edgesR_enough hV hA hp hu hw (by omega) (by omega) fun x hx => by
      have := within_depth (hA.over x hx.1); omega

theorem existsR_in {e : Val F} (he : EdgeOver (NestedWithin V d) e) {j : Nat} (hj : 3 * d + 7 ≤ j) :
    existsR j e s = existsM e s := by
  have hd := within_depth he
  match j, hj with
  | j + 2, hj =>
    exact existsR_enough hV hA he hu hw (by omega) fun x hx => by have := within_depth (hA.over x hx.1); omega

theorem addRawR_in {e : Val F} (he : EdgeOver (NestedWithin V d) e) (ts : Int) {j : Nat} (hj : 3 * d + 8 ≤ j) :
    addRawR j e ts s = addRaw e ts s := by
  have hd := within_depth he
  match j, hj with
  | j + 1, hj => exact addRawR_of he ts (existsR_in hV hA hu hw he (by omega)) (by omega) (by omega)

theorem removeRawR_in {e : Val F} (he : EdgeOver (NestedWithin V d) e) {j : Nat} (hj : 3 * d + 8 ≤ j) :
    removeRawR j e s = removeRaw e s := by
  have hd := within_depth he
  have hex := existsM_run hV hA he hu hw
  match j, hj with
  | j + 1, hj =>
    exact removeRawR_of he ((existsR_in hV hA hu hw he (by omega)).trans hex) hex fun _ => ⟨by omega, by omega⟩

end

theorem hgAddR_single {e h : Val F} (hh : e.head0 = .ok h) (hs : h.isSeq = false) (ts : Int) (k : Nat) :
    hgAddR (k + 2) e ts = (addRawR k e ts >>= fun _ => Pure.pure e) := by
  unfold hgAddR sqlAddR
  simp only [enterM]
  rw [hh, liftE_bind]
  simp only [hs, Bool.false_eq_true, if_false]

theorem hgRemoveR_single {e h : Val F} (hh : e.head0 = .ok h) (hs : h.isSeq = false) (k : Nat) :
    hgRemoveR (k + 2) e = removeRawR k e := by
  unfold hgRemoveR sqlRemoveR
  simp only [enterM]
  rw [hh, liftE_bind]
  simp only [hs, Bool.false_eq_true, if_false]

theorem hgRemoveR_many {b : Bool} {es : List (Val F)} (hne : es ≠ []) (hes : ∀ e ∈ es, EdgeOver V e) (k : Nat) :
    hgRemoveR (k + 2) (.seq b es) = forEach (removeRawR k) es := by
  obtain ⟨h, hh, hs⟩ := head0_coll (b := b) hne hes
  unfold hgRemoveR sqlRemoveR
  simp only [enterM]
  rw [hh, liftE_bind]
  simp only [hs, if_true]
  rfl

section
variable {d : Nat} (hV : Vocab (NestedWithin V d))
include hV

theorem hgAddR_in {A : Abs F} (hA : AbsOk (NestedWithin V d) A) {s : St} (hu : s.usable) (hw : s.work = A.conc)
    {e : Val F} (he : EdgeOver (NestedWithin V d) e) (ts : Int) {j : Nat} (hj : 3 * d + 10 ≤ j) :
    hgAddR j e ts s = hgAdd e ts s := by
  obtain ⟨h, hh, hs⟩ := head0_edge he
  match j, hj with
  | j + 2, hj =>
    rw [hgAddR_single hh hs, hgAdd_single hh hs]
    exact bind_same (addRawR_in hV hA hu hw he ts (by omega)) fun _ _ _ => rfl

theorem hgRemoveR_in {A : Abs F} (hA : AbsOk (NestedWithin V d) A) {s : St} (hu : s.usable) (hw : s.work = A.conc)
    {e : Val F} (he : EdgeOver (NestedWithin V d) e) {j : Nat} (hj : 3 * d + 10 ≤ j) :
    hgRemoveR j e s = hgRemove e s := by
  obtain ⟨h, hh, hs⟩ := head0_edge he
  match j, hj with
  | j + 2, hj =>
    rw [hgRemoveR_single hh hs, hgRemove_single hh hs]
    exact removeRawR_in hV hA hu hw he (by omega)

theorem removeEachR_in {j : Nat} (hj : 3 * d + 10 ≤ j) (es : List (Val F)) (hes : ∀ e ∈ es, EdgeOver (NestedWithin V d) e) :
    ∀ {A : Abs F} {s : St}, AbsOk (NestedWithin V d) A → s.usable → s.work = A.conc →
    forEach (hgRemoveR j) es s = forEach hgRemove es s := by
  induction es with
  | nil => intro A s _ _ _; exact forEach_nil_run.trans forEach_nil_run.symm
  | cons e es ih =>
    intro A s hA hu hw
    have h1 := hgRemoveR_in hV hA hu hw (hes e (by simp)) hj
    obtain ⟨s1, e1, st1⟩ := remove_run (T := TT) hV hA (hes e (by simp)) hu hw (fun _ _ _ => trivial)
    have e1' : hgRemove e s = (.ok (), s1) := e1
    rw [forEach_cons_run e1', forEach_cons_run (h1.trans e1')]
    exact ih (fun x hx => hes x (by simp [hx])) (hA.remove e) (st1.usable hu) st1.work

theorem sourcesR_in {A : Abs F} (hA : AbsOk (NestedWithin V d) A) {s : St} (hu : s.usable) (hw : s.work = A.conc)
    {e : Val F} (hc : NestedWithin V d (.str (lit "src/1"))) (he : NestedWithin V d e) {j : Nat} (hj : 3 * d + 8 ≤ j) :
    hgSourcesR j e s = hgSources e s := by
  have hpat : PatternOver (NestedWithin V d) [.str (lit "src/1"), e, .none] := by
    refine ⟨?_, [], .str (lit "src/1"), [e, .none], rfl, by simp, rfl⟩
    intro p hp
    simp only [List.mem_cons, List.not_mem_nil, or_false] at hp
    rcases hp with rfl | rfl | rfl
    · exact .inr hc
    · exact .inr he
    · exact .inl rfl
  match j, hj with
  | j + 2, hj =>
    unfold hgSourcesR hgSources hgPattern2edgesR hgPattern2edges
    simp only [enterM, enter]
    exact bind_same (patternR_in hV hA hu hw (b := false) hpat (by omega)) fun _ _ _ => rfl

end

/-! ### what is known is not nested deeper -/

/-- What is known is nested at most `m` levels. -/
def Spec.Shallow (m : Nat) (S : Spec F) : Prop := ∀ v, S.known v ≠ none → v.depth ≤ m

theorem Spec.Shallow.add {d : Nat} {S : Spec F} (h : S.Shallow (d + 1)) {e : Val F} (he : EdgeOver (NestedWithin V d) e) (ts : Int) :
    (S.add e ts).Shallow (d + 1) := by
  unfold Spec.add
  by_cases hc : (S.created e).isSome = true
  · rw [if_pos hc]; exact h
  · rw [if_neg hc]
    intro v hv
    by_cases hve : v = e
    · rw [hve]; exact within_depth he
    · by_cases hm : v ∈ e.elems
      · have := (he.mem v hm).2; omega
      · exact h v (by simpa [hve, hm] using hv)

theorem Spec.Shallow.prim {d : Nat} {S : Spec F} (h : S.Shallow (d + 1)) {p : Prim F} (hp : p.Over (NestedWithin V d)) :
    (S.prim p).Shallow (d + 1) := by
  have less : ∀ {S' : Spec F}, S'.Less S → S'.Shallow (d + 1) := fun hl v hv => h v (hl.1 v hv)
  cases p with
  | add e ts => exact h.add hp ts
  | remove e => exact less (Spec.less_remove S e)
  | removeMany es => exact less (Spec.less_foldRemove es S)
  | removeByPattern ps => exact less (Spec.less_removeWhere S _)
  | removeBelief src e =>
    show (S.removeBelief src e).Shallow (d + 1)
    unfold Spec.removeBelief
    simp only
    split
    · exact less (Spec.less_remove S _)
    · exact less ((Spec.less_remove _ e).trans (Spec.less_remove S _))
  | destroy => exact fun v hv => by simp [Spec.prim, Spec.empty] at hv
  | query q => exact h

theorem Spec.Shallow.prims {d : Nat} (ps : List (Prim F)) (hps : ∀ p ∈ ps, p.Over (NestedWithin V d)) :
    ∀ {S : Spec F}, S.Shallow (d + 1) → (ps.foldl Spec.prim S).Shallow (d + 1) := by
  induction ps with
  | nil => intro S h; exact h
  | cons p ps ih => intro S h; exact ih (fun q hq => hps q (by simp [hq])) (h.prim (hps p (by simp)))

theorem Spec.Shallow.abs {m : Nat} {A : Abs F} {S : Spec F} (h : S.Shallow m) (hR : Rel A S) : ∀ r ∈ A.verts, r.v.depth ≤ m := by
  intro r hr
  apply h r.v
  rw [hR.known]
  intro hn
  have : hasV r.v A.verts = false := by
    rw [← lookV_none]
    unfold tsOf at hn
    cases hl : lookV r.v A.verts with
    | none => rfl
    | some q => rw [hl] at hn; simp at hn
  unfold hasV at this
  have := List.any_eq_false.1 this r hr
  simp at this

/-! ### histories -/

section
variable {d j : Nat} (hV : Vocab (NestedWithin V d))
include hV

theorem Query.frSame (hj : 3 * d + 10 ≤ j) {q : Query F} (hq : q.Over (NestedWithin V d)) {A : Abs F}
    (hA : AbsOk (NestedWithin V d) A) {S : Spec F} (hR : Rel A S) (hS : S.Shallow (d + 1)) {s : St} (hu : s.usable)
    (hw : s.work = A.conc) : q.runR j s = q.run s := by
  match j, hj with
  | j + 4, hj =>
    cases q with
    | «exists» e =>
      exact bind_same (m' := existsR (j + 3) e) (existsR_in hV hA hu hw hq (by omega)) fun _ _ _ => rfl
    | pattern ps =>
      exact bind_same (m' := pattern2edgesR (j + 3) (.tup ps)) (patternR_in hV hA hu hw (b := false) hq (by omega))
        fun _ _ _ => rfl
    | star c =>
      refine bind_same (m' := sqlStarR (j + 3) c) (starR_enough hV hA hq.1 hq.2 hu hw (by omega) ?_) fun _ _ _ => rfl
      intro e he _
      have := within_depth (hA.over e he)
      omega
    | symbolsWithRoot r =>
      refine bind_same (m' := symbolsWithRootR (j + 3) r) ?_ fun _ _ _ => rfl
      rw [symbolsR_eq (by omega)]
      rfl
    | sources e =>
      exact bind_same (m' := hgSourcesR (j + 4) e) (sourcesR_in hV hA hu hw hq.1 hq.2 (by omega)) fun _ _ _ => rfl
    | fAll =>
      refine bind_same (m' := hgFAllR (j + 4) _) ?_ fun _ _ _ => rfl
      have h1 : hgFAllR (j + 4) (fun (v : Val F) (d : Int) => (v, d)) s = sqlFAllR (j + 4) (fun v d => (v, d)) s := rfl
      have h2 := hS.abs hR
      rw [h1, fAllR_run hA.wf _ hu hw (by omega) fun r hr => by have := h2 r hr; omega]
      exact (fAll_run hA.wf _ hu hw).symm

theorem Prim.frSame (hj : 3 * d + 11 ≤ j) {p : Prim F} (hp : p.Over (NestedWithin V d)) {A : Abs F}
    (hA : AbsOk (NestedWithin V d) A) {S : Spec F} (hR : Rel A S) (hS : S.Shallow (d + 1)) {s : St} (hu : s.usable)
    (hw : s.work = A.conc) : p.runR j s = p.run s := by
  match j, hj with
  | j + 2, hj =>
    cases p with
    | add e ts => exact bind_same (hgAddR_in hV hA hu hw hp ts (by omega)) fun _ _ _ => rfl
    | remove e => exact hgRemoveR_in hV hA hu hw hp (by omega)
    | removeMany es =>
      show hgRemoveR (j + 2) (.seq true es) s = hgRemove (.seq true es) s
      rw [hgRemoveR_many hp.1 hp.2, hgRemove_many hp.1 hp.2]
      have h1 : forEach (removeRawR j) es = forEach (hgRemoveR (j + 2)) es := by
        apply forEach_congr
        intro e he
        obtain ⟨h, hh, hs⟩ := head0_edge (hp.2 e he)
        rw [hgRemoveR_single hh hs]
      have h2 : forEach removeRaw es = forEach hgRemove es := by
        apply forEach_congr
        intro e he
        obtain ⟨h, hh, hs⟩ := head0_edge (hp.2 e he)
        rw [hgRemove_single hh hs]
      rw [h1, h2]
      exact removeEachR_in hV (by omega) es hp.2 hA hu hw
    | removeByPattern ps =>
      show hgRemoveByPatternR (j + 2) (.tup ps) s = hgRemoveByPattern (.tup ps) s
      unfold hgRemoveByPatternR hgRemoveByPattern hgPattern2edgesR hgPattern2edges
      simp only [enterM]
      obtain ⟨res, e2, _, hm⟩ := pattern2edges_run hV hA (b := false) hp hu hw
      have e1 := (patternR_in hV hA hu hw (b := false) hp (j := j) (by omega)).trans e2
      rw [bind_run _ _ _ (show pattern2edgesR j (.tup ps) s = (.ok res, s) from e1),
        bind_run _ _ _ (show pattern2edges (.tup ps) s = (.ok res, s) from e2)]
      exact removeEachR_in hV (by omega) res (fun e he => hA.over e ((hm e).1 he).1) hA hu hw
    | removeBelief src e =>
      have hb : BeliefOver (NestedWithin V d) src e := hp
      have hsup := support_over hb
      show hgRemoveBeliefR (j + 2) src e s = hgRemoveBelief src e s
      unfold hgRemoveBeliefR hgRemoveBelief
      simp only [enterM]
      have h1 := hgRemoveR_in hV hA hu hw hsup (j := j + 1) (by omega)
      obtain ⟨s1, e1, st1⟩ := remove_run (T := TT) hV hA hsup hu hw (fun _ _ _ => trivial)
      have e1' : hgRemove (support e src) s = (.ok (), s1) := e1
      rw [bind_run _ _ _ (show hgRemove (.tup [.str constSource, e, src]) s = (.ok (), s1) from e1'),
        bind_run _ _ _ (show hgRemoveR (j + 1) (.tup [.str constSource, e, src]) s = (.ok (), s1) from h1.trans e1')]
      have hA1 := hA.remove (support e src)
      refine bind_same (sourcesR_in hV hA1 (st1.usable hu) st1.work hb.srcConst hb.fact (by omega)) ?_
      intro srcs s2 hs2
      obtain ⟨r2, q2, _⟩ := sources_run hV hA1 hb.srcConst hb.fact (st1.usable hu) st1.work
      rw [q2] at hs2
      obtain ⟨rfl, rfl⟩ : r2 = srcs ∧ s1 = s2 := by simpa using hs2
      by_cases h0 : r2.length = 0
      · simp only [h0, if_true]
        exact hgRemoveR_in hV hA1 (st1.usable hu) st1.work hb.edge (by omega)
      · simp only [h0, if_false]
    | destroy =>
      show hgDestroyR (j + 2) s = hgDestroy s
      rw [hgDestroyR_eq (by omega)]
    | query q => exact Query.frSame hV (by omega) hp hA hR hS hu hw

theorem Prim.frSameAll (hj : 3 * d + 11 ≤ j) (ps : List (Prim F)) (hps : ∀ p ∈ ps, p.Over (NestedWithin V d)) :
    ∀ {A : Abs F} {S : Spec F} {s : St}, AbsOk (NestedWithin V d) A → Rel A S → S.Shallow (d + 1) → s.usable →
    s.work = A.conc → forEach (Prim.runR j) ps s = forEach Prim.run ps s := by
  induction ps with
  | nil => intro A S s _ _ _ _ _; exact forEach_nil_run.trans forEach_nil_run.symm
  | cons p ps ih =>
    intro A S s hA hR hS hu hw
    have h1 := Prim.frSame hV hj (hps p (by simp)) hA hR hS hu hw
    obtain ⟨A', hA', hR', s1, e1, st1⟩ := Prim.sim hV (hps p (by simp)) A S s hA hR hu hw
    rw [forEach_cons_run e1, forEach_cons_run (h1.trans e1)]
    exact ih (fun q hq => hps q (by simp [hq])) hA' hR' (hS.prim (hps p (by simp))) (st1.usable hu) st1.work

theorem addManyR_in (hj : 3 * d + 13 ≤ j) {b : Bool} {es : List (Val F)} (hne : es ≠ [])
    (hes : ∀ e ∈ es, EdgeOver (NestedWithin V d) e) (ts : Int) {A : Abs F} {S : Spec F} {s : St} (hA : AbsOk (NestedWithin V d) A)
    (hR : Rel A S) (hS : S.Shallow (d + 1)) (hcur : s.cur = none) (hw : s.work = A.conc) :
    hgAddR j (.seq b es) ts s = hgAdd (.seq b es) ts s := by
  obtain ⟨h0, hh, hs⟩ := head0_coll (b := b) hne hes
  have hps : ∀ p ∈ es.map (fun e => Prim.add e ts), p.Over (NestedWithin V d) := by
    intro p hp
    obtain ⟨e, he, rfl⟩ := List.mem_map.1 hp
    exact hes e he
  match j, hj with
  | j + 2, hj =>
    have hall := Prim.frSameAll (j := j + 2) hV (by omega) _ hps (s := { s with cur := some true }) hA hR hS
      (by simp [St.usable]) hw
    rw [forEach_map, forEach_map] at hall
    have hopen : openCursor false s = (.ok .shared, { s with cur := some true }) := by
      unfold openCursor; simp [hcur]
    show _ = sqlAdd (.seq b es) ts s
    unfold hgAddR sqlAddR sqlAdd
    simp only [enterM]
    rw [bind_run _ _ _ (liftE_ok hh s), bind_run _ _ _ (liftE_ok hh s)]
    simp only [hs, if_true]
    rw [openCursorR_eq (by omega), bind_run _ _ _ hopen, bind_run _ _ _ hopen]
    have hit : liftE (Val.seq b es).iter { s with cur := some true } = (.ok es, { s with cur := some true }) := rfl
    rw [bind_run _ _ _ hit, bind_run _ _ _ hit]
    have ea := forEach_raw_eq (m := hgAddR (j + 2)) (raw := addRawR j) (ts := ts) (es := es) (fun e he => by
        obtain ⟨h0, hh, hs⟩ := head0_edge (hes e he)
        exact hgAddR_single hh hs ts j) { s with cur := some true }
    have eb := forEach_raw_eq (m := hgAdd) (raw := addRaw) (ts := ts) (es := es) (fun e he => by
        obtain ⟨h0, hh, hs⟩ := head0_edge (hes e he)
        exact hgAdd_single hh hs ts) { s with cur := some true }
    have hsame : forEach (fun e => (do let _ ← addRawR j e ts : M Unit)) es { s with cur := some true } =
        forEach (fun e => (do let _ ← addRaw e ts : M Unit)) es { s with cur := some true } := by
      rw [ea, eb]; exact hall
    rw [closeCursorR_eq (by omega)]
    exact bind_same hsame (fun _ _ _ => rfl)

theorem Op.frSame (hj : 3 * d + 14 ≤ j) {op : Op F} (hop : op.Over (NestedWithin V d)) (hq : op.AsksWithin d) {A : Abs F}
    (hA : AbsOk (NestedWithin V d) A) {S : Spec F} (hR : Rel A S) (hS : S.Shallow (d + 1)) {s : St} (hcur : s.cur = none)
    (hw : s.work = A.conc) : op.runR j s = op.run s := by
  match j, hj with
  | j + 3, hj =>
    cases op with
    | prim p => exact Prim.frSame hV (by omega) hop hA hR hS (St.usable_of_none hcur) hw
    | addMany es ts =>
      exact bind_same (addManyR_in hV (by omega) hop.1 hop.2 ts hA hR hS hcur hw) fun _ _ _ => rfl
    | addBelief src e ts =>
      have hb : BeliefOver (NestedWithin V d) src e := hop
      show hgAddBeliefR (j + 3) src e ts s = hgAddBelief src e ts s
      unfold hgAddBeliefR hgAddBelief
      simp only [enterM]
      rw [bind_run _ _ _ (liftE_ok (beliefEdges_single hb.edge) s),
        bind_run _ _ _ (liftE_ok (beliefEdges_single hb.edge) s)]
      refine bind_same (addManyR_in hV (by omega) (b := false) (es := [e, support e src]) (by simp) ?_ ts hA hR hS
        hcur hw) fun _ _ _ => rfl
      intro x hx
      simp only [List.mem_cons, List.not_mem_nil, or_false] at hx
      rcases hx with rfl | rfl
      · exact hb.edge
      · exact support_over hb
    | addBeliefs src es ts =>
      have hb : ∀ e ∈ es, BeliefOver (NestedWithin V d) src e := hop.2
      have hall : ∀ x ∈ es.flatMap (fun e => [e, support e src]), EdgeOver (NestedWithin V d) x := by
        intro x hx
        rw [List.mem_flatMap] at hx
        obtain ⟨e, he, hx⟩ := hx
        simp only [List.mem_cons, List.not_mem_nil, or_false] at hx
        rcases hx with rfl | rfl
        · exact (hb _ he).edge
        · exact support_over (hb _ he)
      have hne : es.flatMap (fun e => [e, support e src]) ≠ [] := by
        have := hop.1
        cases es with
        | nil => contradiction
        | cons e es => simp
      show hgAddBeliefR (j + 3) src (.seq true es) ts s = hgAddBelief src (.seq true es) ts s
      unfold hgAddBeliefR hgAddBelief
      simp only [enterM]
      have hbe := beliefEdges_many (src := src) hop.1 (fun e he => (hb e he).edge)
      rw [bind_run _ _ _ (liftE_ok hbe s), bind_run _ _ _ (liftE_ok hbe s)]
      exact bind_same (addManyR_in hV (by omega) (b := true) hne hall ts hA hR hS hcur hw) fun _ _ _ => rfl
    | batch ps =>
      show hgBatchExecR (j + 3) (ps.map fun p k => enterM k fun k => p.runR k) s = hgBatchExec (ps.map Prim.run) s
      unfold hgBatchExecR sqlBatchExecR hgBatchExec sqlBatchExec
      simp only [enterM]
      have hopen : openCursor false s = (.ok .shared, { s with cur := some true }) := by
        unfold openCursor; simp [hcur]
      rw [openCursorR_eq (by omega), bind_run _ _ _ hopen, bind_run _ _ _ hopen, forEach_map, forEach_map]
      have h1 := Prim.frSameAll (j := j) hV (by omega) ps hop (s := { s with cur := some true }) hA hR hS
        (by simp [St.usable]) hw
      rw [closeCursorR_eq (by omega)]
      exact bind_same h1 (fun _ _ _ => rfl)
    | degree v =>
      have hv : v.depth ≤ d + 1 := hq
      refine bind_same (m' := sqlDegreeR (j + 2) v) ?_ fun _ _ _ => rfl
      rw [degreeR_eq (by omega) (by omega)]
      rfl
    | timestamp v =>
      have hv : v.depth ≤ d + 1 := hq
      refine bind_same (m' := sqlTimestampR (j + 2) v) ?_ fun _ _ _ => rfl
      rw [timestampR_eq (by omega) (by omega)]
      rfl

theorem runOpsR_same (hj : 3 * d + 14 ≤ j) (ops : List (Op F)) (hops : ∀ op ∈ ops, op.Over (NestedWithin V d))
    (hq : ∀ op ∈ ops, op.AsksWithin d) :
    ∀ {A : Abs F} {S : Spec F} {s : St}, AbsOk (NestedWithin V d) A → Rel A S → S.Shallow (d + 1) → s.cur = none →
    s.work = A.conc → runOpsR j ops s = runOps ops s ∧
      ∃ A', AbsOk (NestedWithin V d) A' ∧ Rel A' (ops.foldl Spec.op S) ∧ (ops.foldl Spec.op S).Shallow (d + 1) ∧
        ∃ s', runOps ops s = (.ok (), s') ∧ s'.cur = none ∧ s'.work = A'.conc := by
  induction ops with
  | nil =>
    intro A S s hA hR hS hc hw
    exact ⟨forEach_nil_run.trans forEach_nil_run.symm, A, hA, hR, hS, s, forEach_nil_run, hc, hw⟩
  | cons op ops ih =>
    intro A S s hA hR hS hc hw
    have h1 := Op.frSame hV hj (hops op (by simp)) (hq op (by simp)) hA hR hS hc hw
    obtain ⟨A', hA', hR', s1, e1, st1⟩ := Op.sim hV (hops op (by simp)) A S s hA hR hc hw
    have hS' : (S.op op).Shallow (d + 1) := by
      rw [← Op.steps_fold]
      exact Spec.Shallow.prims _ (Op.steps_over (hops op (by simp))) hS
    obtain ⟨h2, A2, hA2, hR2, hS2, s2, e2, hc2, hw2⟩ := ih (fun o ho => hops o (by simp [ho])) (fun o ho => hq o (by simp [ho])) hA' hR' hS'
      (by rw [st1.cur]; exact hc) st1.work
    have hrun : runOps (op :: ops) s = runOps ops s1 := forEach_cons_run e1
    refine ⟨?_, A2, hA2, hR2, hS2, s2, hrun.trans e2, hc2, hw2⟩
    rw [hrun]
    exact (forEach_cons_run (h1.trans e1)).trans h2

end

end GB
