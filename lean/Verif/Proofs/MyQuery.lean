import Verif.Proofs.MyFrame
import Verif.Proofs.StmJoin

/-! What a client asks of the database depends on its own edges only. -/

set_option linter.unusedSectionVars false

namespace GB

variable {F : Type} [PyFloat F] [DecidableEq F] {V : Val F → Prop}

theorem pySet_sub {ys : List (Val F)} {y : Val F} (h : y ∈ pySet ys) : y ∈ ys := by
  induction ys with
  | nil => exact h
  | cons x xs ih =>
    rw [pySet] at h
    rcases List.mem_cons.1 h with rfl | h
    · simp
    · exact List.mem_cons_of_mem _ (ih (List.mem_filter.1 h).1)

theorem pySet_filter {m : Val F → Bool} {ys : List (Val F)} (h : ∀ a ∈ ys, ∀ b ∈ ys, pyEq a b = true → a = b) :
    (pySet ys).filter m = pySet (ys.filter m) := by
  induction ys with
  | nil => rfl
  | cons x xs ih =>
    have ih := ih fun a ha b hb => h a (by simp [ha]) b (by simp [hb])
    rw [pySet]
    by_cases hx : m x = true
    · rw [List.filter_cons_of_pos hx, List.filter_cons_of_pos hx, pySet, ← ih, List.filter_filter, List.filter_filter]
      congr 1
      apply List.filter_congr
      intro y _
      exact Bool.and_comm _ _
    · rw [List.filter_cons_of_neg hx, List.filter_cons_of_neg hx, ← ih, List.filter_filter]
      apply List.filter_congr
      intro y hy
      by_cases hm : m y = true
      · have : pyEq x y = false := by
          rw [Bool.eq_false_iff]
          intro he
          have := h x (by simp) y (List.mem_cons_of_mem _ (pySet_sub hy)) he
          exact hx (this ▸ hm)
        simp [this]
      · simp [hm]

open Classical in
/-- The edges of a query are read off the rows of the edges satisfying `O`, if all that match satisfy `O`. -/
theorem pattern_frame (hV : Vocab V) {b : Bool} {ps : List (Val F)} (hp : PatternOver V ps) {O : Val F → Prop}
    (hO : ∀ x, EdgeOver V x → Matches ps x.elems → O x) {db d : DB} (hR : RowsOk V db.perms) (hR' : RowsOk V d.perms)
    (h : rowsIn V O db.perms = rowsIn V O d.perms) :
    (pattern2edges (.seq b ps) (reopen db false)).1 = (pattern2edges (.seq b ps) (reopen d false)).1 := by
  obtain ⟨pre, c, post, hps, hpre, hca⟩ := hp.first
  have hnodes : ps.filter (fun n => !n.isNone) = c :: post.filter (fun n => !n.isNone) := by
    rw [hps]; exact filter_first hpre hca
  have hnV : ∀ x ∈ ps.filter (fun n => !n.isNone), V x := by
    intro x hx
    rw [List.mem_filter] at hx
    rcases hp.over x hx.1 with rfl | h
    · simp [Val.isNone] at hx
    · exact h
  have hcV : V c := hnV c (by rw [hnodes]; simp)
  obtain ⟨ch, s0, hs0, hch⟩ := edge2str_head_atom (hV.wf c hcV) hca
  obtain ⟨s1, hs1⟩ := nodes2str_cons_head (xs := post.filter (fun n => !n.isNone)) hs0
  have hstart : nodes2str (ps.filter (fun n => !n.isNone)) = ch :: s1 := by rw [hnodes, hs1]
  have hsucc := hasSucc_nodes2str hV (by rw [hnodes]; simp) hnV
  rw [hstart, ← strPlus1_isOk_iff] at hsucc
  obtain ⟨endS, hend⟩ := hsucc
  have hdec : ∀ e, EdgeOver V e → ∀ n, n < factorial e.elems.length → (ch :: s1) <+: rowOf e.elems n →
      decodeRow (rowOf e.elems n) = .ok e := by
    intro e he n hn hpre
    obtain ⟨h, t, rfl, ht, hh, hx⟩ := he
    have hperm := permN_perm hn
    cases hp : permN (Val.tup (h :: t)).elems n with
    | nil =>
      rw [hp] at hperm
      have := List.nil_perm.1 hperm
      simp [Val.elems] at this
    | cons x r =>
      have hxw : WfVal x := hV.wf x (hx x (hperm.subset (by simp [hp])))
      have hxa : x.isAtom = true := by
        rw [rowOf, hp] at hpre
        exact atom_of_prefix hxw hch hpre
      exact decodeRow_rowOf (fun y hy => hV.wf y (hx y hy)) hh ht hn hp hxa
  let dec : Str → Val F := fun r => match decodeRow r with | .ok e => e | .error _ => .none
  have hrow : ∀ {perms : List Str}, RowsOk V perms → ∀ r ∈ perms.filter (fun r => (ch :: s1).isPrefixOf r),
      ∃ e n, EdgeOver V e ∧ n < factorial e.elems.length ∧ r = rowOf e.elems n ∧ decodeRow r = .ok e ∧ dec r = e := by
    intro perms hR r hr
    rw [List.mem_filter, List.isPrefixOf_iff_prefix] at hr
    obtain ⟨e, n, he, hn, rfl⟩ := hR r hr.1
    have := hdec e he n hn hr.2
    exact ⟨e, n, he, hn, rfl, this, by simp only [dec, this]⟩
  have key : ∀ db : DB, RowsOk V db.perms → (pattern2edges (.seq b ps) (reopen db false)).1 =
      .ok (pySet (pySet ((((rowsIn V O db.perms).filter fun r => (ch :: s1).isPrefixOf r).map dec).filter
        fun e => decide (Matches ps e.elems)))) := by
    intro db hR
    have hu : (reopen db false).usable := by simp [St.usable, reopen]
    have hov : ∀ e ∈ (db.perms.filter fun r => (ch :: s1).isPrefixOf r).map dec, EdgeOver V e := by
      intro e he
      obtain ⟨r, hr, rfl⟩ := List.mem_map.1 he
      obtain ⟨e, n, h1, _, _, _, h5⟩ := hrow hR r hr
      rw [h5]; exact h1
    have hds : cur2edges (db.perms.filter fun r => (ch :: s1).isPrefixOf r) =
        .ok (pySet ((db.perms.filter fun r => (ch :: s1).isPrefixOf r).map dec)) := by
      rw [cur2edges, mapE_ok' (g := dec)]
      · rfl
      · intro r hr
        obtain ⟨e, n, _, _, _, h4, h5⟩ := hrow hR r hr
        rw [h4, h5]
    have hfil := filterE_spec (p := fun e => edgeMatchesPattern e (.seq b ps))
      (q := fun e => decide (Matches ps e.elems))
      (xs := pySet ((db.perms.filter fun r => (ch :: s1).isPrefixOf r).map dec)) (by
        intro e he
        exact edgeMatches_eq hV (hov e (pySet_sub he)) hp.over)
    have hrun : pattern2edges (.seq b ps) (reopen db false) =
        (.ok (pySet ((pySet ((db.perms.filter fun r => (ch :: s1).isPrefixOf r).map dec)).filter
          fun e => decide (Matches ps e.elems))), reopen db false) := by
      unfold pattern2edges
      rw [bind_run _ _ _ (liftE_ok (x := (Val.seq b ps).iter) (a := ps) rfl _)]
      rw [hstart, bind_run _ _ _ (liftE_ok hend _), bind_run _ _ _ (openCursor_local _),
        bind_run _ _ _ (execRead_local hu _ _)]
      rw [DB.selectRange, selectRange_eq hend]
      rw [show (reopen db false).work = db from rfl, bind_run _ _ _ (liftE_ok hds _), bind_run _ _ _ (closeCursor_local _),
        bind_run _ _ _ (liftE_ok hfil _)]
      rfl
    rw [hrun]
    show Except.ok _ = Except.ok _
    rw [pySet_filter fun a ha b hb => (hov a ha).pyEq_eq hV (hov b hb)]
    have hl : ((db.perms.filter fun r => (ch :: s1).isPrefixOf r).map dec).filter (fun e => decide (Matches ps e.elems)) =
        (((rowsIn V O db.perms).filter fun r => (ch :: s1).isPrefixOf r).map dec).filter
          fun e => decide (Matches ps e.elems) := by
      unfold rowsIn
      simp only [List.filter_map, List.filter_filter]
      congr 1
      apply List.filter_congr
      intro r hr
      by_cases h1 : (ch :: s1).isPrefixOf r = true
      · by_cases h2 : Matches ps (dec r).elems
        · obtain ⟨e, n, he, hn, h3, h4, h5⟩ := hrow hR r (List.mem_filter.2 ⟨hr, h1⟩)
          have : RowIn V O r := ⟨e, n, hO e he (h5 ▸ h2), he, hn, h3⟩
          simp [this]
        · simp [h2]
      · simp [h1]
    rw [hl]
  rw [key db hR, key d hR', h]

variable {k : Nat} {X : Field F}

theorem loc_pattern (hV : Vocab V) (hX : X.Ok V k) {ps : List (Val F)} (hp : PatternOver V ps)
    (hO : ∀ x, EdgeOver V x → Matches ps x.elems → X.own x) :
    (cPattern2edges (.seq false ps)).Loc (Alike V k X) (MyMoves V k X) fun res => ∀ x ∈ res,
      EdgeOver V x ∧ Matches ps x.elems ∧ (X.mine x → X.used x) := by
  refine (asks_pattern _).loc hX.some fun db d h => ?_
  rw [run_pattern]
  refine ⟨pattern_frame hV hp hO h.inv.rows h.inv'.rows h.rows, ?_⟩
  obtain ⟨res, h1, h2, h3⟩ := pattern_rows hV (b := false) hp (s := reopen d false) (by simp [St.usable, reopen]) h.inv'.rows
  intro a ha
  rw [h1] at ha
  cases ha
  intro x hx
  obtain ⟨k1, k2, n, k3, _⟩ := (h3 x).1 hx
  exact ⟨k1, k2, fun hm => h.mine x n k1 hm k3⟩

theorem loc_exists (hV : Vocab V) (hX : X.Ok V k) {e : Val F} (he : EdgeOver V e) (ho : X.own e) :
    (cExists e).Loc (Alike V k X) (MyMoves V k X) fun b => b = true → X.mine e → X.used e := by
  have hself : ∀ x, EdgeOver V x → Matches e.elems x.elems → e = x := fun x hx hm =>
    he.eq_of_elems hx ((Matches.self_iff (fun p hp => V_ne_none hV (he.mem p hp))).1 hm)
  unfold cExists
  have h := loc_pattern hV hX he.pattern fun x hx hm => hself x hx hm ▸ ho
  rw [show (Val.seq false e.elems) = e from he.tup_elems.symm] at h
  refine h.bind fun res hres => Conn.Loc.pure fun hb hm => ?_
  obtain ⟨x, hx⟩ := List.exists_mem_of_length_pos (by simpa using hb)
  obtain ⟨k1, k2, k3⟩ := hres x hx
  exact hself x k1 k2 ▸ k3 (hself x k1 k2 ▸ hm)

theorem loc_sources (hV : Vocab V) (hX : X.Ok V k) {e : Val F} (hc : V (.str (lit "src/1"))) (he : V e)
    (hO : ∀ x, EdgeOver V x → Matches [.str (lit "src/1"), e, .none] x.elems → X.own x) :
    (cSources e).Loc (Alike V k X) (MyMoves V k X) fun _ => True := by
  have hpat : PatternOver V [.str (lit "src/1"), e, .none] := by
    refine ⟨?_, [], .str (lit "src/1"), [e, .none], rfl, by simp, rfl⟩
    intro p hp
    simp only [List.mem_cons, List.not_mem_nil, or_false] at hp
    rcases hp with rfl | rfl | rfl
    · exact .inr hc
    · exact .inr he
    · exact .inl rfl
  unfold cSources
  exact (loc_pattern hV hX hpat hO).bind fun res _ => (Conn.Loc.lift (post := fun _ => True) fun _ _ => trivial).bind fun _ _ =>
    Conn.Loc.pure trivial

end GB
