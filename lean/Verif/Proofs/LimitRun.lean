import Verif.Proofs.Limit
import Verif.Proofs.MySqlRun
import Verif.Spec.Crash

/-! An addition that does not fit, step by step. -/

set_option linter.unusedSectionVars false

namespace GB

variable {F : Type} [PyFloat F] [DecidableEq F] {V : Val F → Prop} {n : Nat}

/-- The base model with columns of `n` characters. -/
abbrev narrow (n : Nat) : Server := Server.sqlite.limit n

theorem forEach_snoc {α : Type} (f : α → M Unit) (xs ys : List α) :
    forEach f (xs ++ ys) = (forEach f xs >>= fun _ => forEach f ys) := by
  induction xs with
  | nil => rfl
  | cons x xs ih =>
    show (f x >>= fun _ => forEach f (xs ++ ys)) = (f x >>= fun _ => forEach f xs) >>= fun _ => forEach f ys
    rw [ih, bind_assoc']

theorem insert_long {t : Str} (h : ¬ t.length ≤ n) {s : St} (hu : s.usable) (q : DB → Option (Unit × DB)) :
    limitInsert n t (execWrite s.lcur q) s = (.error .dataError, s) := by
  unfold limitInsert
  rw [if_neg h]
  unfold execWrite
  have hn : s.cur ≠ some false := hu
  simp only [hn, and_false, if_false]
  cases q s.work with
  | none => rfl
  | some p => obtain ⟨u, db⟩ := p; rfl

theorem step_same (s : St) : Step true TT s (s.wr s.work) s.work := by
  cases ha : s.autocommit with
  | false => refine ⟨?_, ?_, ?_, ?_, ?_, ?_, ?_⟩ <;> simp_all [St.wr]
  | true => refine ⟨?_, ?_, ?_, ?_, ?_, ?_, ?_⟩ <;> simp_all [St.wr, St.commit, TT]

theorem addStr_long {t : Str} (h : ¬ t.length ≤ n) (d ts : Int) {s : St} (hu : s.usable) (hno : ∀ r ∈ s.work.vertices, r.id ≠ t) :
    ∃ s', addStrOn (narrow n) t d ts s = (.error .dataError, s') ∧ Step true TT s s' s.work := by
  have h0 : s.work.updateVertex t d ts = (0, s.work) := by
    refine Prod.ext ?_ ?_
    · simpa [DB.updateVertex, List.countP_eq_zero] using hno
    · show DB.mk (s.work.vertices.map _) s.work.perms = s.work
      have : s.work.vertices.map (fun r => if r.id = t then (⟨t, d, ts⟩ : VRow) else r) = s.work.vertices :=
        (List.map_congr_left fun r hr => if_neg (hno r hr)).trans (List.map_id _)
      rw [this]
  have e1 : execWrite s.lcur (fun db => some (db.updateVertex t d ts)) s = (.ok 0, s.wr s.work) := by
    rw [execWrite_local hu (by rw [h0])]
  have hu' : (s.wr s.work).usable := by unfold St.usable at *; rwa [wr_cur]
  refine ⟨s.wr s.work, ?_, step_same s⟩
  unfold addStrOn updateOrInsertVertexOn
  rw [bind_run _ _ _ (openCursor_local s), bind_run _ _ _ (show (narrow n).updateVertex s.lcur t d ts s = _ from e1)]
  refine bind_err _ _ _ ?_
  have := insert_long h hu' (fun db => db.insertVertex t d ts)
  rw [wr_lcur] at this
  exact this

theorem write_long {t : Str} (h : ¬ t.length ≤ n) {s : St} (hu : s.usable) (hno : t ∉ s.work.perms) :
    ∃ s', writeEdgePermutationOn F (narrow n) t s = (.error .dataError, s') ∧ Step true TT s s' s.work := by
  have h0 : s.work.updatePerm t = (0, s.work) := by
    refine Prod.ext ?_ rfl
    simp only [DB.updatePerm, List.countP_eq_zero]
    intro a ha hat
    simp at hat; subst hat; exact hno ha
  have e1 : execWrite s.lcur (fun db => some (db.updatePerm t)) s = (.ok 0, s.wr s.work) := by
    rw [execWrite_local hu (by rw [h0])]
  have hu' : (s.wr s.work).usable := by unfold St.usable at *; rwa [wr_cur]
  refine ⟨s.wr s.work, ?_, step_same s⟩
  unfold writeEdgePermutationOn updateOrInsertPermOn
  rw [bind_run _ _ _ (openCursor_local s)]
  rw [show edge2str (F := F) (.str t) = t from rfl, bind_run _ _ _ (show (narrow n).updatePerm s.lcur t s = _ from e1)]
  refine bind_err _ _ _ ?_
  have := insert_long h hu' (fun db => db.insertPerm t)
  rw [wr_lcur] at this
  exact this

/-- The text of the value fits. -/
def fitsCol (n : Nat) (x : Val F) : Bool := decide ((edge2str x).length ≤ n)

theorem addVertLim_run {x : Val F} (h : fitsCol n x = true) (ts : Int) : addVertOn (narrow n) ts x = addVert ts x :=
  addVertLim_same (of_decide_eq_true h) ts

/-- The loop over elements that fit. -/
theorem loop_fits {xs : List (Val F)} (hwx : ∀ x ∈ xs, WfVal x) (hf : ∀ x ∈ xs, fitsCol n x = true) (ts : Int) (ps : List Str)
    {vs : List (VEnt F)} (hk : KeysOk vs) {s : St} (hu : s.usable) (hw : s.work = ⟨vs.map VEnt.row, ps⟩) :
    Runs true TT (forEach (addVertOn (narrow n) ts) xs) s () ⟨(xs.foldl (touchV ts) vs).map VEnt.row, ps⟩ := by
  rw [forEach_congr fun x hx => addVertLim_run (hf x hx) ts]
  apply Runs.forEachA (fun vs : List (VEnt F) => (⟨vs.map VEnt.row, ps⟩ : DB)) (touchV ts) KeysOk
    _ vs s hk (fun _ _ => trivial) hu hw
  intro x hx vs hvs hTx s hu hw
  exact ⟨addVert_run hvs.2 (hwx x hx) ts hu hw hTx, hvs.touch (hwx x hx) ts⟩

theorem touch_fits {xs : List (Val F)} (hf : ∀ x ∈ xs, fitsCol n x = true) (ts : Int) {vs : List (VEnt F)}
    (hst : ∀ r ∈ vs, fitsCol n r.v = true) : ∀ r ∈ xs.foldl (touchV ts) vs, fitsCol n r.v = true := by
  induction xs generalizing vs with
  | nil => exact hst
  | cons x xs ih =>
    refine ih (fun y hy => hf y (by simp [hy])) ?_
    intro r hr
    unfold touchV at hr
    split at hr
    · unfold bumpV at hr
      rw [List.mem_map] at hr
      obtain ⟨r', hr', rfl⟩ := hr
      split <;> exact hst r' hr'
    · rw [List.mem_append] at hr
      rcases hr with hr | hr
      · exact hst r hr
      · rw [List.mem_singleton] at hr; rw [hr]; exact hf x (by simp)

theorem no_row {vs : List (VEnt F)} (hst : ∀ r ∈ vs, fitsCol n r.v = true) {t : Str} (h : ¬ t.length ≤ n) :
    ∀ r ∈ vs.map VEnt.row, r.id ≠ t := by
  intro r hr hrt
  obtain ⟨r', hr', rfl⟩ := List.mem_map.1 hr
  have := of_decide_eq_true (hst r' hr')
  exact h (by rw [← hrt]; exact this)

/-- The loop with an element that is too long. -/
theorem loop_long (ts : Int) (ps : List Str) {pre : List (Val F)} {x : Val F} {post : List (Val F)}
    (hwx : ∀ y ∈ pre ++ x :: post, WfVal y) (hpre : ∀ y ∈ pre, fitsCol n y = true) (hx : fitsCol n x = false)
    {vs : List (VEnt F)} (hk : KeysOk vs) (hst : ∀ r ∈ vs, fitsCol n r.v = true) {s : St} (hu : s.usable)
    (hw : s.work = ⟨vs.map VEnt.row, ps⟩) :
    ∃ s', forEach (addVertOn (narrow n) ts) (pre ++ x :: post) s = (.error .dataError, s') ∧
      Step true TT s s' ⟨(pre.foldl (touchV ts) vs).map VEnt.row, ps⟩ := by
  have hxl : ¬ (edge2str x).length ≤ n := of_decide_eq_false hx
  obtain ⟨s1, e1, st1⟩ := loop_fits (fun y hy => hwx y (by simp [hy])) hpre ts ps hk hu hw
  have hk1 : KeysOk (pre.foldl (touchV ts) vs) := KeysOk.foldTouch hk ts fun y hy => hwx y (by simp [hy])
  have hst1 := touch_fits hpre ts hst
  have hf : hasV x (pre.foldl (touchV ts) vs) = false := by
    cases hh : hasV x (pre.foldl (touchV ts) vs) with
    | false => rfl
    | true =>
      unfold hasV at hh
      rw [List.any_eq_true] at hh
      obtain ⟨r, hr, hrx⟩ := hh
      rw [decide_eq_true_eq] at hrx
      have := hst1 r hr
      rw [hrx, hx] at this
      exact nomatch this
  obtain ⟨s2, e2, st2⟩ := incDegree_run (q := true) (T := TT) (st1.usable hu) (edge2str x) (fun _ => trivial)
  rw [st1.work] at e2 st2
  have hwx' := hwx x (by simp)
  rw [bump_row hk1.2 hwx' 1 ps, bumpV_absent hf] at st2
  have hz : ¬ (0 < ((pre.foldl (touchV ts) vs).map VEnt.row).countP fun r => r.id = edge2str x) := by
    rw [countP_row hk1.2 hwx', hf]; simp
  have hd : decide ((DB.bumpDegree ⟨(pre.foldl (touchV ts) vs).map VEnt.row, ps⟩ 1 (edge2str x)).1 > 0) = false := by
    simpa [DB.bumpDegree] using hz
  rw [hd] at e2
  obtain ⟨s3, e3, st3⟩ := addStr_long hxl 1 ts (st2.usable (st1.usable hu)) (by rw [st2.work]; exact no_row hst1 hxl)
  rw [st2.work] at st3
  refine ⟨s3, ?_, st1.trans (st2.trans st3)⟩
  rw [forEach_snoc, bind_run _ _ _ e1, forEach]
  refine bind_err _ _ _ ?_
  unfold addVertOn
  rw [bind_run _ _ _ (show incDegreeOn (narrow n) (edge2str x) s1 = (.ok false, s2) from e2)]
  exact e3

theorem mem_takeWhile {α : Type} {p : α → Bool} {l : List α} {x : α} (h : x ∈ l.takeWhile p) : p x = true := by
  induction l with
  | nil => simp at h
  | cons y l ih =>
    rw [List.takeWhile_cons] at h
    split at h
    · rcases List.mem_cons.1 h with rfl | h
      · assumption
      · exact ih h
    · simp at h

theorem takeWhile_all {α : Type} {p : α → Bool} {l : List α} (h : ∀ x ∈ l, p x = true) : l.takeWhile p = l := by
  induction l with
  | nil => rfl
  | cons y l ih => rw [List.takeWhile_cons, if_pos (h y (by simp)), ih fun x hx => h x (by simp [hx])]

theorem split_first {α : Type} {p : α → Bool} {l : List α} (h : ∃ x ∈ l, p x = false) :
    ∃ x post, l = l.takeWhile p ++ x :: post ∧ p x = false := by
  induction l with
  | nil => simp at h
  | cons y l ih =>
    cases hy : p y with
    | false => exact ⟨y, l, by simp [List.takeWhile, hy], hy⟩
    | true =>
      obtain ⟨x, post, h1, h2⟩ := ih (by
        obtain ⟨x, hx, hp⟩ := h
        rcases List.mem_cons.1 hx with rfl | hx
        · rw [hy] at hp; exact nomatch hp
        · exact ⟨x, hx, hp⟩)
      exact ⟨x, post, by rw [List.takeWhile_cons_of_pos hy, List.cons_append, ← h1], h2⟩

theorem row_zero {es : List (Val F)} (hne : es ≠ []) : (rowOf es 0).length = (edge2str (Val.seq true es)).length := by
  have := length_rowOf hne (factorial_pos es.length)
  have h0 : (natStr 0).length = 1 := rfl
  omega

theorem edge_text {e : Val F} (he : EdgeOver V e) : edge2str (Val.seq true e.elems) = edge2str e := by
  obtain ⟨h, t, rfl, _⟩ := he
  simp [edge2str, Val.elems]

theorem long_row {e : Val F} (he : EdgeOver V e) (h : ¬ KeyFits n e) : ∃ r ∈ rowsOf e.elems, decide (r.length ≤ n) = false := by
  apply Classical.byContradiction
  intro hno
  apply h
  intro i hi
  have h1 := length_rowOf he.elems_ne hi
  rw [edge_text he] at h1
  have : (rowOf e.elems i).length ≤ n := by
    apply Classical.byContradiction
    intro hl
    exact hno ⟨_, mem_rowsOf.2 ⟨i, hi, rfl⟩, decide_eq_false hl⟩
  omega

/-- Adding an absent edge that does not fit. -/
theorem add_long (hV : Vocab V) {A : Abs F} (hA : AbsOk V A) (hroom : A.Room n) {e : Val F} (he : EdgeOver V e)
    (hnot : e ∉ A.edges) (hbad : ¬ KeyFits n e) (ts : Int) {s : St} (hu : s.usable) (hw : s.work = A.conc) :
    ∃ s1 db, hgAddOn (narrow n) e ts s = (.error .dataError, s1) ∧ Step true TT s s1 db ∧
      ((fitsCol n e = false ∧
          db = ⟨((e.elems.takeWhile (fitsCol n)).foldl (touchV ts) A.verts).map VEnt.row, A.conc.perms⟩) ∨
        (fitsCol n e = true ∧ db = ⟨(setV e 0 ts (e.elems.foldl (touchV ts) A.verts)).map VEnt.row,
          A.conc.perms ++ (rowsOf e.elems).takeWhile fun r => decide (r.length ≤ n)⟩)) := by
  have hst : ∀ r ∈ A.verts, fitsCol n r.v = true := fun r hr => decide_eq_true (hroom.1 r hr)
  have hwx := edge_wf hV he
  have hk : KeysOk A.verts := ⟨hA.keys, hA.wf⟩
  have hex : existsOn (narrow n) e s = (.ok false, s) := by
    have := existsM_run hV hA he hu hw
    simp only [hnot, decide_false] at this
    exact this
  obtain ⟨h, hh, hs⟩ := head0_edge he
  have hstart : ∀ s1, (do
      forEach (addVertOn (narrow n) ts) e.elems
      addStrOn (narrow n) (edge2str e) 0 ts
      writeEdgePermutationsOn (narrow n) e.elems : M Unit) s = (.error .dataError, s1) →
      hgAddOn (narrow n) e ts s = (.error .dataError, s1) := by
    intro s1 h1
    rw [addOn_single hh hs]
    refine bind_err _ _ _ ?_
    unfold addRawOn
    rw [bind_run _ _ _ hex]
    simp only [Bool.not_false, if_true]
    rw [bind_run _ _ _ (liftE_ok (iter_edge he) s)]
    have hb := bind_err _ (fun _ => (Pure.pure e : M (Val F))) _ h1
    rw [bind_assoc'] at hb
    simp only [bind_assoc'] at hb
    exact hb
  cases hall : e.elems.all (fitsCol n) with
  | false =>
    have hex : ∃ x ∈ e.elems, fitsCol n x = false := by
      simpa [List.all_eq_false] using hall
    obtain ⟨x, post, hsp, hx⟩ := split_first hex
    obtain ⟨s1, e1, st1⟩ := loop_long (n := n) (pre := e.elems.takeWhile (fitsCol n)) (x := x) (post := post) ts A.conc.perms
      (by rw [← hsp]; exact hwx) (fun y hy => mem_takeWhile hy) hx hk hst hu hw
    rw [← hsp] at e1
    refine ⟨s1, _, hstart s1 (bind_err _ _ _ e1), st1, .inl ⟨?_, rfl⟩⟩
    obtain ⟨y, hy, hyl⟩ := hex
    refine decide_eq_false fun hl => of_decide_eq_false hyl ?_
    obtain ⟨h, t, rfl, _⟩ := he
    have hx' : edge2str y ∈ nodeStrs (h :: t) := by rw [nodeStrs_eq_map]; exact List.mem_map_of_mem hy
    have h2 := mem_length_pyJoin hx'
    simp only [edge2str, List.length_append] at hl
    omega
  | true =>
    have hall' : ∀ x ∈ e.elems, fitsCol n x = true := List.all_eq_true.1 hall
    obtain ⟨s1, e1, st1⟩ := loop_fits hwx hall' ts A.conc.perms hk hu hw
    have hk1 : KeysOk (e.elems.foldl (touchV ts) A.verts) := KeysOk.foldTouch hk ts hwx
    have hst1 := touch_fits hall' ts hst
    cases hfe : fitsCol n e with
    | false =>
      obtain ⟨s2, e2, st2⟩ := addStr_long (of_decide_eq_false hfe) 0 ts (st1.usable hu)
        (by rw [st1.work]; exact no_row hst1 (of_decide_eq_false hfe))
      rw [st1.work] at st2
      refine ⟨s2, _, hstart s2 ?_, st1.trans st2, .inl ⟨rfl, ?_⟩⟩
      · rw [bind_run _ _ _ e1]; exact bind_err _ _ _ e2
      · rw [takeWhile_all hall']
    | true =>
      have hset := upsert_row hk1.2 (he.wf hV) 0 ts A.conc.perms
      have hadds : Runs true TT (addStrOn (narrow n) (edge2str e) 0 ts) s1 ()
          ⟨(setV e 0 ts (e.elems.foldl (touchV ts) A.verts)).map VEnt.row, A.conc.perms⟩ := by
        rw [addStrLim_same (of_decide_eq_true hfe)]
        have := upsertVertex_run (q := true) (T := TT) (st1.usable hu) (edge2str e) 0 ts (fun _ => trivial)
        rw [st1.work, hset] at this
        exact this
      obtain ⟨s2, e2, st2⟩ := hadds
      obtain ⟨r, post, hsp, hr⟩ := split_first (long_row he hbad)
      generalize hpre : (rowsOf e.elems).takeWhile (fun r => decide (r.length ≤ n)) = pre at hsp
      have hprefit : ∀ t ∈ pre, t.length ≤ n := by
        intro t ht
        rw [← hpre] at ht
        exact of_decide_eq_true (mem_takeWhile (p := fun r : Str => decide (r.length ≤ n)) ht)
      have hnd := rowsOf_nodup (fun x hx => hwx x hx)
      have hfresh := rows_fresh hV hA he hnot
      rw [hsp] at hnd hfresh
      have hu2 := st2.usable (st1.usable hu)
      obtain ⟨s3, e3, st3⟩ := writeRows_run (F := F) (q := true) (T := TT) pre A.conc.perms s2 hu2 st2.work
        (fun t ht => hfresh t (by simp [ht])) (List.nodup_append.1 hnd).1 (fun _ _ => trivial)
      obtain ⟨s4, e4, st4⟩ := write_long (F := F) (of_decide_eq_false hr) (st3.usable hu2) (by
        rw [st3.work]
        show r ∉ A.conc.perms ++ pre
        rw [List.mem_append]
        rintro (h | h)
        · exact hfresh r (by simp) h
        · exact (List.nodup_append.1 hnd).2.2 r h r (by simp) rfl)
      rw [st3.work] at st4
      refine ⟨s4, _, hstart s4 ?_, st1.trans (st2.trans (st3.trans st4)), .inr ⟨rfl, rfl⟩⟩
      rw [bind_run _ _ _ e1, bind_run _ _ _ e2]
      unfold writeEdgePermutationsOn
      rw [doWithPerms_eq he.elems_ne, hsp, forEach_snoc]
      have e3' : forEach (writeEdgePermutationOn F (narrow n)) pre s2 = (.ok (), s3) := by
        rw [forEach_congr fun t ht => writeLim_same (srv := Server.sqlite) (hprefit t ht)]
        exact e3
      rw [bind_run _ _ _ e3', forEach]
      exact bind_err _ _ _ e4

/-! ### where a call stops, it could have been killed -/

/-- `a` does what `b` does, or raises an exception on the way, with no other commits than `b` makes. -/
def Cuts {α : Type} (a b : M α) : Prop :=
  ∀ s, a s = b s ∨ ((a s).1 = .error .dataError ∧ ∃ l, (b s).2.commits = (a s).2.commits ++ l)

theorem Cuts.refl {α : Type} (a : M α) : Cuts a a := fun _ => .inl rfl

theorem Cuts.bind {α β : Type} {a b : M α} {f g : α → M β} (h : Cuts a b) (hf : ∀ x, Cuts (f x) (g x)) (hg : ∀ x, Tame (g x)) :
    Cuts (a >>= f) (b >>= g) := by
  intro s
  cases ha : a s with
  | mk r t =>
    cases r with
    | error e =>
      rw [bind_err _ _ _ ha]
      rcases h s with h | ⟨h, l, hl⟩
      · rw [ha] at h; rw [bind_err _ _ _ h.symm]; exact .inl rfl
      · rw [ha] at h hl
        injection h with h
        refine .inr ⟨by rw [h], ?_⟩
        cases hb : b s with
        | mk r' t' =>
          rw [hb] at hl
          cases r' with
          | error e' => rw [bind_err _ _ _ hb]; exact ⟨l, hl⟩
          | ok y =>
            rw [bind_run _ _ _ hb]
            obtain ⟨l', h1, _⟩ := (hg y).trace t'
            exact ⟨l ++ l', by rw [h1, ← List.append_assoc]; exact congrArg (· ++ l') hl⟩
    | ok x =>
      rw [bind_run _ _ _ ha]
      rcases h s with h | ⟨h, _⟩
      · rw [ha] at h; rw [bind_run _ _ _ h.symm]; exact hf x t
      · rw [ha] at h; cases h

theorem Cuts.each {α : Type} {f g : α → M Unit} (xs : List α) (h : ∀ x, Cuts (f x) (g x)) (hg : ∀ x, Tame (g x)) :
    Cuts (forEach f xs) (forEach g xs) := by
  induction xs with
  | nil => exact Cuts.refl _
  | cons x xs ih => exact (h x).bind (fun _ => ih) fun _ => Tame.forEach fun x _ => hg x

theorem Cuts.ite {α : Type} {p : Prop} [Decidable p] {a b a' b' : M α} (h : Cuts a b) (h' : Cuts a' b') :
    Cuts (if p then a else a') (if p then b else b') := by split <;> assumption

theorem cuts_insert (t : Str) (c : Cursor) (q : DB → Option (Unit × DB)) : Cuts (limitInsert n t (execWrite c q)) (execWrite c q) := by
  intro s
  have htr := (Tame.execWrite c q).trace s
  obtain ⟨l, hl, _⟩ := htr
  unfold limitInsert
  split
  · exact .inl rfl
  · split
    · exact .inr ⟨rfl, l, hl⟩
    · exact .inr ⟨rfl, l, hl⟩
    · next h => rw [h]; exact .inl rfl

theorem cuts_addStr (t : Str) (d ts : Int) : Cuts (addStrOn (narrow n) t d ts) (addStr t d ts) := by
  have hi : ∀ c, Cuts ((narrow n).insertVertex c t d ts) (execWrite c fun db => db.insertVertex t d ts) := fun c =>
    cuts_insert (n := n) t c fun db => db.insertVertex t d ts
  refine (Cuts.refl _).bind (fun _ => (Cuts.refl _).bind (fun _ => ?_) fun _ => ?_) fun _ => ?_
  · exact Cuts.ite ((hi _).bind (fun _ => Cuts.refl _) fun _ => Tame.closeCursor _ _) (Cuts.refl _)
  · exact Tame.ite ((Tame.execWrite _ _).bind fun _ => Tame.closeCursor _ _) (Tame.closeCursor _ _)
  · exact (Tame.execWrite _ _).bind fun _ => Tame.ite ((Tame.execWrite _ _).bind fun _ => Tame.closeCursor _ _) (Tame.closeCursor _ _)

theorem cuts_write (t : Str) : Cuts (writeEdgePermutationOn F (narrow n) t) (writeEdgePermutation (F := F) t) := by
  have hi : ∀ c, Cuts ((narrow n).insertPerm c t) (execWrite c fun db => db.insertPerm t) := fun c =>
    cuts_insert (n := n) t c fun db => db.insertPerm t
  refine (Cuts.refl _).bind (fun _ => (Cuts.refl _).bind (fun _ => ?_) fun _ => ?_) fun _ => ?_
  · exact Cuts.ite ((hi _).bind (fun _ => Cuts.refl _) fun _ => Tame.closeCursor _ _) (Cuts.refl _)
  · exact Tame.ite ((Tame.execWrite _ _).bind fun _ => Tame.closeCursor _ _) (Tame.closeCursor _ _)
  · exact (Tame.execWrite _ _).bind fun _ => Tame.ite ((Tame.execWrite _ _).bind fun _ => Tame.closeCursor _ _) (Tame.closeCursor _ _)

theorem cuts_addVert (ts : Int) (x : Val F) : Cuts (addVertOn (narrow n) ts x) (addVert ts x) :=
  (Cuts.refl _).bind (fun _ => Cuts.ite (cuts_addStr _ _ _) (Cuts.refl _))
    fun _ => Tame.ite (tame_updateOrInsertVertex _ _ _) (Tame.pure _)

theorem cuts_addRaw (e : Val F) (ts : Int) : Cuts (addRawOn (narrow n) e ts) (addRaw e ts) := by
  have hw : ∀ verts : List (Val F), Tame (writeEdgePermutations verts) := fun verts =>
    tame_doWithEdgePermutations _ fun _ => tame_updateOrInsertPerm _
  have h3 : ∀ verts : List (Val F), Tame (do writeEdgePermutations verts; Pure.pure e) := fun verts =>
    (hw verts).bind fun _ => Tame.pure _
  have h2 : ∀ verts : List (Val F), Tame (do addStr (edge2str e) 0 ts; writeEdgePermutations verts; Pure.pure e) := fun verts =>
    (tame_updateOrInsertVertex _ _ _).bind fun _ => h3 verts
  have h1 : ∀ verts : List (Val F), Tame (do forEach (addVert ts) verts; addStr (edge2str e) 0 ts; writeEdgePermutations verts; Pure.pure e) :=
    fun verts => (Tame.forEach fun x _ => tame_addVert ts x).bind fun _ => h2 verts
  refine (Cuts.refl _).bind (fun _ => Cuts.ite ?_ (Cuts.refl _)) fun b => ?_
  · refine (Cuts.refl _).bind (fun verts => (Cuts.each verts (fun x => cuts_addVert ts x) fun x => tame_addVert ts x).bind (fun _ =>
      (cuts_addStr _ _ _).bind (fun _ => (Cuts.each _ (fun _ => (Cuts.refl _).bind (fun _ => cuts_write _) fun _ =>
        tame_updateOrInsertPerm _) fun _ => (Tame.liftE _).bind fun _ => tame_updateOrInsertPerm _).bind (fun _ => Cuts.refl _)
          fun _ => Tame.pure _) fun _ => h3 verts) fun _ => h2 verts) fun verts => h1 verts
  · exact Tame.ite ((Tame.liftE _).bind fun verts => h1 verts) (Tame.pure _)

theorem cuts_add (e : Val F) (he : EdgeOver V e) (ts : Int) : Cuts (hgAddOn (narrow n) e ts) (hgAdd e ts) := by
  obtain ⟨h, hh, hs⟩ := head0_edge he
  have : hgAdd e ts = (addRaw e ts >>= fun _ => Pure.pure e) := by
    show sqlAdd e ts = _
    unfold sqlAdd
    rw [hh, liftE_bind]
    simp only [hs, Bool.false_eq_true, if_false]
  rw [addOn_single hh hs, this]
  exact (cuts_addRaw e ts).bind (fun _ => Cuts.refl _) fun _ => Tame.pure _

theorem cuts_trace {m m' : M (Val F)} (h : Cuts m m') {s s1 : St} (h1 : m s = (.error .dataError, s1)) :
    ∃ l, (m' s).2.commits = s1.commits ++ l := by
  rcases h s with h | ⟨_, l, hl⟩
  · rw [← h, h1]; exact ⟨[], by simp⟩
  · rw [h1] at hl; exact ⟨l, hl⟩

end GB
