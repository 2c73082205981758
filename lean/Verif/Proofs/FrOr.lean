import Verif.Proofs.FrRun

/-! With too few frames, a call raises `RecursionError` and changes nothing. -/

set_option linter.unusedSectionVars false

namespace GB

variable {F : Type} [PyFloat F] [DecidableEq F] {V : Val F → Prop}

theorem pattern_wf (hV : Vocab V) {ps : List (Val F)} (hp : PatternOver V ps) :
    (∀ x ∈ ps.filter (fun n => !n.isNone), WfVal x) ∧ ps.filter (fun n => !n.isNone) ≠ [] := by
  obtain ⟨pre, c, post, hps, hpre, hca⟩ := hp.first
  refine ⟨?_, ?_⟩
  · intro x hx
    rw [List.mem_filter] at hx
    rcases hp.over x hx.1 with rfl | h
    · simp [Val.isNone] at hx
    · exact hV.wf x h
  · rw [hps, filter_first hpre hca]; simp

section
variable (hV : Vocab V) {A : Abs F} (hA : AbsOk V A) {s : St} (hu : s.usable) (hw : s.work = A.conc)
include hV hA hu hw

theorem patternR_or {b : Bool} {ps : List (Val F)} (hp : PatternOver V ps) (k : Nat) :
    (pattern2edgesR k (.seq b ps) s = pattern2edges (.seq b ps) s ∧ 2 * depths ps + 3 ≤ k ∧
      ∀ x, Hits A (patText ps) x → 3 * x.depth + 3 ≤ k) ∨
    (pattern2edgesR k (.seq b ps) s = (.error .recursionError, s) ∧
      (k < 2 * depths ps + 3 ∨ ∃ x, Hits A (patText ps) x ∧ k < 3 * x.depth + 3)) := by
  match k with
  | 0 => exact .inr ⟨rfl, .inl (by omega)⟩
  | k + 1 =>
    by_cases hd : 2 * depths ps + 2 ≤ k
    · by_cases hh : ∀ x, Hits A (patText ps) x → 3 * x.depth + 2 ≤ k
      · exact .inl ⟨pattern2edgesR_enough hV hA hp hu hw (by omega) hd hh, by omega, fun x hx => by have := hh x hx; omega⟩
      · simp only [Classical.not_forall, Nat.not_le] at hh
        obtain ⟨x, hx, hlt⟩ := hh
        exact .inr ⟨pattern2edgesR_few hV hA hp hu hw (by omega) hd ⟨x, hx, hlt⟩, .inr ⟨x, hx, by omega⟩⟩
    · refine .inr ⟨?_, .inl (by omega)⟩
      unfold pattern2edgesR
      simp only [enterM]
      rw [bind_run _ _ _ (liftE_ok (x := (Val.seq b ps).iter) (a := ps) rfl s)]
      match k with
      | 0 => rfl
      | k + 1 =>
        rw [comprR_eq (by omega), bind_run _ _ _ (show (Pure.pure () : M Unit) s = (.ok (), s) from rfl)]
        obtain ⟨h1, h2⟩ := pattern_wf hV hp
        rw [nodes2strR_few h1 h2 (by rw [depths_nodes]; omega)]
        rfl

theorem existsR_or {e : Val F} (he : EdgeOver V e) (k : Nat) :
    (existsR k e s = existsM e s ∧ 2 * e.depth + 2 ≤ k ∧ ∀ x, Hits A (patText e.elems) x → 3 * x.depth + 4 ≤ k) ∨
    (existsR k e s = (.error .recursionError, s) ∧
      (k < 2 * e.depth + 2 ∨ ∃ x, Hits A (patText e.elems) x ∧ k < 3 * x.depth + 4)) := by
  have hdep := depth_edge he
  match k with
  | 0 => exact .inr ⟨rfl, .inl (by omega)⟩
  | k + 1 =>
    have h := patternR_or hV hA hu hw (b := false) he.pattern k
    rw [show (Val.seq false e.elems) = e from he.tup_elems.symm] at h
    rcases h with ⟨h1, h2, h3⟩ | ⟨h1, h2⟩
    · refine .inl ⟨?_, by omega, fun x hx => by have := h3 x hx; omega⟩
      unfold existsR existsM
      simp only [enterM]
      exact bind_same h1 fun _ _ _ => rfl
    · refine .inr ⟨?_, ?_⟩
      · unfold existsR
        simp only [enterM]
        rw [bind_err _ _ _ h1]
      · rcases h2 with h2 | ⟨x, hx, hlt⟩
        · exact .inl (by omega)
        · exact .inr ⟨x, hx, by omega⟩

theorem addRawR_or {e : Val F} (he : EdgeOver V e) (ts : Int) {k : Nat} (hk : k ≠ 5) :
    addRawR k e ts s = addRaw e ts s ∨ addRawR k e ts s = (.error .recursionError, s) := by
  have hdep := depth_edge he
  match k with
  | 0 => exact .inr rfl
  | k + 1 =>
    rcases existsR_or hV hA hu hw he k with ⟨h1, h2, _⟩ | ⟨h1, _⟩
    · exact .inl (addRawR_of he ts h1 (by omega) h2)
    · right
      unfold addRawR
      simp only [enterM]
      rw [bind_err _ _ _ h1]

theorem removeRawR_or {e : Val F} (he : EdgeOver V e) (k : Nat) :
    removeRawR k e s = removeRaw e s ∨ removeRawR k e s = (.error .recursionError, s) := by
  have hdep := depth_edge he
  match k with
  | 0 => exact .inr rfl
  | k + 1 =>
    have hex := existsM_run hV hA he hu hw
    rcases existsR_or hV hA hu hw he k with ⟨h1, h2, h3⟩ | ⟨h1, _⟩
    · refine .inl (removeRawR_of he (h1.trans hex) hex ?_)
      intro hb
      have := h3 e (hits_self hV he (of_decide_eq_true hb))
      exact ⟨by omega, h2⟩
    · right
      unfold removeRawR
      simp only [enterM]
      rw [bind_err _ _ _ h1]

theorem hgAddR_or {e : Val F} (he : EdgeOver V e) (ts : Int) {k : Nat} (hk : k ≠ 7) :
    hgAddR k e ts s = hgAdd e ts s ∨ hgAddR k e ts s = (.error .recursionError, s) := by
  obtain ⟨h, hh, hs⟩ := head0_edge he
  match k with
  | 0 => exact .inr rfl
  | 1 => exact .inr rfl
  | k + 2 =>
    rw [hgAddR_single hh hs, hgAdd_single hh hs]
    rcases addRawR_or hV hA hu hw he ts (k := k) (by omega) with h | h
    · exact .inl (bind_same h fun _ _ _ => rfl)
    · exact .inr (by rw [bind_err _ _ _ h])

theorem hgRemoveR_or {e : Val F} (he : EdgeOver V e) (k : Nat) :
    hgRemoveR k e s = hgRemove e s ∨ hgRemoveR k e s = (.error .recursionError, s) := by
  obtain ⟨h, hh, hs⟩ := head0_edge he
  match k with
  | 0 => exact .inr rfl
  | 1 => exact .inr rfl
  | k + 2 =>
    rw [hgRemoveR_single hh hs, hgRemove_single hh hs]
    exact removeRawR_or hV hA hu hw he k

theorem starR_or {c : Val F} (hc : V c) (hca : c.isAtom = true) (k : Nat) :
    hgStarR k c s = hgStar c s ∨ hgStarR k c s = (.error .recursionError, s) := by
  have hseq : c.isSeq = false := by cases c <;> simp_all [Val.isAtom, Val.isSeq]
  match k with
  | 0 => exact .inr rfl
  | 1 => exact .inr rfl
  | 2 =>
    right
    show sqlStarR 1 c s = _
    unfold sqlStarR
    simp only [enterM, hseq, Bool.false_eq_true, if_false]
    rfl
  | 3 =>
    right
    show sqlStarR 2 c s = _
    unfold sqlStarR
    simp only [enterM, hseq, Bool.false_eq_true, if_false]
    rfl
  | k + 4 =>
    by_cases hh : ∀ e ∈ A.edges, c ∈ e.elems → 3 * e.depth + 2 ≤ k + 1
    · exact .inl (starR_enough hV hA hc hca hu hw (by omega) hh)
    · simp only [Classical.not_forall, Nat.not_le] at hh
      obtain ⟨e, he, hce, hlt⟩ := hh
      exact .inr (starR_few hV hA hc hca hu hw (by omega) ⟨e, he, hce, hlt⟩)

theorem sourcesR_or {e : Val F} (hc : V (.str (lit "src/1"))) (he : V e) (k : Nat) :
    hgSourcesR k e s = hgSources e s ∨ hgSourcesR k e s = (.error .recursionError, s) := by
  have hpat : PatternOver V [.str (lit "src/1"), e, .none] := by
    refine ⟨?_, [], .str (lit "src/1"), [e, .none], rfl, by simp, rfl⟩
    intro p hp
    simp only [List.mem_cons, List.not_mem_nil, or_false] at hp
    rcases hp with rfl | rfl | rfl
    · exact .inr hc
    · exact .inr he
    · exact .inl rfl
  match k with
  | 0 => exact .inr rfl
  | 1 => exact .inr rfl
  | k + 2 =>
    unfold hgSourcesR hgSources hgPattern2edgesR hgPattern2edges
    simp only [enterM, enter]
    rcases patternR_or hV hA hu hw (b := false) hpat k with ⟨h, _⟩ | ⟨h, _⟩
    · exact .inl (bind_same (m' := pattern2edgesR k (.tup [.str (lit "src/1"), e, .none])) h fun _ _ _ => rfl)
    · exact .inr (by rw [bind_err _ _ _ (show pattern2edgesR k (.tup [.str constSource, e, .none]) s = _ from h)])

end

theorem mapE_or {α β : Type} {f f' : α → Except PyErr β} {xs : List α}
    (h : ∀ x ∈ xs, f' x = f x ∨ f' x = .error .recursionError) :
    mapE f' xs = mapE f xs ∨ mapE f' xs = .error .recursionError := by
  induction xs with
  | nil => exact .inl rfl
  | cons x xs ih =>
    rw [mapE, mapE]
    rcases h x (by simp) with h1 | h1
    · rw [h1]
      cases hx : f x with
      | error e => exact .inl rfl
      | ok y =>
        rcases ih fun z hz => h z (by simp [hz]) with h2 | h2
        · rw [h2]; exact .inl rfl
        · rw [h2]; exact .inr rfl
    · rw [h1]; exact .inr rfl

theorem rowFirstTokenR_or (row : Str) :
    rowFirstTokenR 1 row = rowFirstToken row ∨ rowFirstTokenR 1 row = .error .recursionError := by
  unfold rowFirstTokenR rowFirstToken splitEdgeStrR splitEdgeStr
  simp only [enter]
  match row with
  | [] => exact .inl rfl
  | c :: rest =>
    simp only
    split
    · cases pySplit rest.dropLast with
      | nil => exact .inl rfl
      | cons t ts => exact .inr rfl
    · cases pySplit (c :: rest) with
      | nil => exact .inl rfl
      | cons t ts => exact .inr rfl

theorem symbolsR_or (root : Str) {s : St} (hu : s.usable) (k : Nat) :
    hgSymbolsWithRootR k root s = hgSymbolsWithRoot root s ∨ hgSymbolsWithRootR k root s = (.error .recursionError, s) := by
  match k with
  | 0 => exact .inr rfl
  | 1 => exact .inr rfl
  | 2 => exact .inr rfl
  | 3 =>
    show symbolsWithRootR 2 root s = symbolsWithRoot root s ∨ symbolsWithRootR 2 root s = _
    unfold symbolsWithRootR symbolsWithRoot
    simp only [enterM]
    obtain ⟨endS, hend⟩ : ∃ endS, strPlus1 (root ++ lit "/") = .ok endS := by
      rw [strPlus1_isOk_iff]
      exact hasSucc_of_lt (c := '/') (by simp [lit]) (by decide)
    rw [bind_run _ _ _ (liftE_ok (show strPlus1R 1 (root ++ lit "/") = .ok endS from hend) s),
      bind_run _ _ _ (liftE_ok hend s), openCursorR_eq (by omega), bind_run _ _ _ (openCursor_local s),
      bind_run _ _ _ (openCursor_local s), bind_run _ _ _ (execRead_local hu _ _), bind_run _ _ _ (execRead_local hu _ _)]
    rcases mapE_or (f' := rowFirstTokenR 1) (f := rowFirstToken)
      (xs := DB.selectRange s.work (root ++ lit "/") endS) (fun r _ => rowFirstTokenR_or r) with h | h
    · left; rw [h]; rfl
    · right; rw [h]; rfl
  | k + 4 =>
    left
    show symbolsWithRootR (k + 3) root s = symbolsWithRoot root s
    rw [symbolsR_eq (by omega)]

theorem fAllR_or {A : Abs F} (hA : AbsOk V A) {β : Type} (f : Val F → Int → β) {s : St} (hu : s.usable) (hw : s.work = A.conc)
    (k : Nat) : hgFAllR k f s = hgFAll f s ∨ hgFAllR k f s = (.error .recursionError, s) := by
  match k with
  | 0 => exact .inr rfl
  | 1 => exact .inr rfl
  | k + 2 =>
    show sqlFAllR (k + 2) f s = sqlFAll f s ∨ sqlFAllR (k + 2) f s = _
    unfold sqlFAllR sqlFAll
    simp only [enterM]
    rw [openCursorR_eq (by omega), bind_run _ _ _ (openCursor_local s), bind_run _ _ _ (openCursor_local s),
      bind_run _ _ _ (execRead_local hu _ _), bind_run _ _ _ (execRead_local hu _ _)]
    rcases mapE_or (f' := fun row : VRow => do
        let v ← str2edgeR (k + 1) row.id
        enter (k + 1) fun _ => Except.ok (f v row.degree)) (f := fun row => do
        let v ← str2edge row.id
        Except.ok (f v row.degree)) (xs := s.work.vertices) (by
      intro row hrow
      rw [hw] at hrow
      obtain ⟨r, hr, rfl⟩ := List.mem_map.1 hrow
      simp only [VEnt.row, str2edge_edge2str (hA.wf r hr), str2edgeR_edge2str (hA.wf r hr)]
      split
      · exact .inl rfl
      · exact .inr rfl) with h | h
    · left
      rw [h, closeCursorR_eq (by omega)]
    · right
      rw [h]
      rfl

theorem Query.frOr (hV : Vocab V) {A : Abs F} (hA : AbsOk V A) {s : St} (hu : s.usable) (hw : s.work = A.conc)
    {q : Query F} (hq : q.Over V) (k : Nat) : q.runR k s = q.run s ∨ q.runR k s = (.error .recursionError, s) := by
  have lift : ∀ {α : Type} {m' m : M α}, (m' s = m s ∨ m' s = (.error .recursionError, s)) →
      (m' >>= fun _ => (Pure.pure () : M Unit)) s = (m >>= fun _ => Pure.pure ()) s ∨
      (m' >>= fun _ => (Pure.pure () : M Unit)) s = (.error .recursionError, s) := by
    intro α m' m h
    rcases h with h | h
    · exact .inl (bind_same h fun _ _ _ => rfl)
    · exact .inr (by rw [bind_err _ _ _ h])
  cases q with
  | «exists» e =>
    refine lift (m' := hgExistsR k e) (m := hgExists e) ?_
    match k with
    | 0 => exact .inr rfl
    | k + 1 =>
      rcases existsR_or hV hA hu hw hq k with ⟨h, _⟩ | ⟨h, _⟩
      · exact .inl h
      · exact .inr h
  | pattern ps =>
    refine lift (m' := hgPattern2edgesR k (.tup ps)) (m := hgPattern2edges (.tup ps)) ?_
    match k with
    | 0 => exact .inr rfl
    | k + 1 =>
      rcases patternR_or hV hA hu hw (b := false) hq k with ⟨h, _⟩ | ⟨h, _⟩
      · exact .inl h
      · exact .inr h
  | star c => exact lift (starR_or hV hA hu hw hq.1 hq.2 k)
  | symbolsWithRoot r => exact lift (symbolsR_or r hu k)
  | sources e => exact lift (sourcesR_or hV hA hu hw hq.1 hq.2 k)
  | fAll => exact lift (fAllR_or hA _ hu hw k)

theorem Prim.frOr (hV : Vocab V) {A : Abs F} (hA : AbsOk V A) {s : St} (hu : s.usable) (hw : s.work = A.conc)
    {p : Prim F} (hp : p.Over V) (h1 : p.OneEdge) {k : Nat} (hk : k ≠ 7) :
    p.runR k s = p.run s ∨ p.runR k s = (.error .recursionError, s) := by
  cases p with
  | add e ts =>
    rcases hgAddR_or hV hA hu hw (e := e) hp ts hk with h | h
    · exact .inl (bind_same h fun _ _ _ => rfl)
    · right
      show (hgAddR k e ts >>= fun _ => Pure.pure ()) s = _
      rw [bind_err _ _ _ h]
  | remove e => exact hgRemoveR_or hV hA hu hw (e := e) hp k
  | query q => exact Query.frOr hV hA hu hw hp k
  | _ => exact h1.elim

theorem tryR_all (hV : Vocab V) {k : Nat} (hk : k ≠ 7) (ps : List (Prim F)) (hps : ∀ p ∈ ps, p.Over V)
    (h1 : ∀ p ∈ ps, p.OneEdge) :
    ∀ {A : Abs F} {S : Spec F} {s : St}, AbsOk V A → Rel A S → s.usable → s.work = A.conc →
    ∃ done : List (Prim F), done.Sublist ps ∧ forEach (Prim.tryR k) ps s = forEach Prim.run done s := by
  induction ps with
  | nil => intro A S s _ _ _ _; exact ⟨[], List.Sublist.refl _, forEach_nil_run.trans forEach_nil_run.symm⟩
  | cons p ps ih =>
    intro A S s hA hR hu hw
    have hq : ∀ q ∈ ps, q.Over V := fun q hq => hps q (by simp [hq])
    have hq1 : ∀ q ∈ ps, q.OneEdge := fun q hq => h1 q (by simp [hq])
    rcases Prim.frOr hV hA hu hw (hps p (by simp)) (h1 p (by simp)) hk with h | h
    · obtain ⟨A', hA', hR', s1, e1, st1⟩ := Prim.sim hV (hps p (by simp)) A S s hA hR hu hw
      obtain ⟨done, hd, he⟩ := ih hq hq1 hA' hR' (st1.usable hu) st1.work
      refine ⟨p :: done, hd.cons_cons p, ?_⟩
      rw [forEach_cons_run e1, forEach_cons_run (show p.tryR k s = (.ok (), s1) from by
        unfold Prim.tryR; rw [h, e1])]
      exact he
    · obtain ⟨done, hd, he⟩ := ih hq hq1 hA hR hu hw
      refine ⟨done, hd.cons p, ?_⟩
      rw [forEach_cons_run (show p.tryR k s = (.ok (), s) from by unfold Prim.tryR; rw [h])]
      exact he

end GB
