import Verif.Proofs.Tally
import Verif.Proofs.Sync
import Verif.Model.MySql
import Verif.Spec.MySql

/-! Where the statements of MySQL and of SQLite have the same effect. -/

set_option linter.unusedSectionVars false

namespace GB

variable {F : Type} [PyFloat F] [DecidableEq F] {V : Val F → Prop}

/-! ### single statements -/

theorem bind_same {α β : Type} {m m' : M α} {f f' : α → M β} {s : St} (h : m' s = m s)
    (hf : ∀ a s1, m s = (.ok a, s1) → f' a s1 = f a s1) : (m' >>= f') s = (m >>= f) s := by
  show (match m' s with
    | (.ok a, s') => f' a s'
    | (.error e, s') => (.error e, s')) = (match m s with
    | (.ok a, s') => f a s'
    | (.error e, s') => (.error e, s'))
  rw [h]
  cases hm : m s with
  | mk r s1 =>
    cases r with
    | error e => rfl
    | ok a => exact hf a s1 hm

theorem take_short {k : Nat} {a b : Str} (ha : a.length ≤ k) (hb : b.length ≤ k) :
    a.take k = b.take k ↔ a = b := by
  rw [List.take_of_length_le ha, List.take_of_length_le hb]

/-- All texts are at most `k` characters long. -/
def DB.Short (k : Nat) (db : DB) : Prop :=
  (∀ r ∈ db.vertices, r.id.length ≤ k) ∧ ∀ r ∈ db.perms, r.length ≤ k

theorem any_congr_mem {α : Type} {l : List α} {p q : α → Bool} (h : ∀ x ∈ l, p x = q x) : l.any p = l.any q := by
  induction l with
  | nil => rfl
  | cons x l ih =>
    rw [List.any_cons, List.any_cons, h x (by simp), ih fun y hy => h y (by simp [hy])]

theorem execWrite_congr {α : Type} (c : Cursor) {q q' : DB → Option (α × DB)} {s : St} (h : q' s.work = q s.work) :
    execWrite c q' s = execWrite c q s := by
  unfold execWrite
  rw [h]

theorem myUpsertVertex_same {k : Nat} {s : St} {id : Str} {deg ts : Int} (hs : s.work.Short k) (hid : id.length ≤ k)
    (hne : (⟨id, deg, ts⟩ : VRow) ∉ s.work.vertices) :
    myUpdateOrInsertVertex k id deg ts s = updateOrInsertVertex id deg ts s := by
  unfold myUpdateOrInsertVertex updateOrInsertVertex
  refine bind_same rfl ?_
  intro cur s1 h1
  have hs1 : s1 = s := by rw [openCursor_local] at h1; exact (by simpa using h1.symm : cur = s.lcur ∧ s1 = s).2
  rw [hs1]
  have hcnt : s.work.myUpdateVertex id deg ts = s.work.updateVertex id deg ts := by
    unfold DB.myUpdateVertex DB.updateVertex
    congr 1
    apply List.countP_congr
    intro r hr
    simp only [Bool.and_eq_true, decide_eq_true_eq]
    refine ⟨fun h => h.1, fun h => ⟨h, ?_⟩⟩
    rintro rfl
    exact hne hr
  refine bind_same (execWrite_congr cur (by rw [hcnt])) ?_
  intro rc s2 h2
  by_cases hrc : rc = 0
  · simp only [hrc, if_true]
    refine bind_same (execWrite_congr cur ?_) (fun _ _ _ => rfl)
    have hw2 : s2.work = (s.work.updateVertex id deg ts).2 := by
      unfold execWrite at h2
      split at h2
      · simp at h2
      · simp only at h2
        cases ha : s.autocommit <;> rw [ha] at h2 <;>
          (simp only [Bool.false_eq_true, if_false, if_true, Prod.mk.injEq, Except.ok.injEq] at h2
           rw [← h2.2]
           try rfl)
    have hany : (s2.work.vertices.any fun r => decide (r.id.take k = id.take k)) =
        s2.work.vertices.any fun r => decide (r.id = id) := by
      apply any_congr_mem
      intro r hr
      have hl : r.id.length ≤ k := by
        rw [hw2] at hr
        simp only [DB.updateVertex, List.mem_map] at hr
        obtain ⟨r0, h0, rfl⟩ := hr
        by_cases hi : r0.id = id
        · simp [hi, hid]
        · simp [hi, hs.1 r0 h0]
      simp [take_short hl hid]
    unfold DB.myInsertVertex DB.insertVertex
    rw [hany]
  · simp only [hrc, if_false]

theorem myUpsertPerm_same {k : Nat} {s : St} {id : Str} (hs : s.work.Short k) (hid : id.length ≤ k)
    (hne : id ∉ s.work.perms) : myUpdateOrInsertPerm k id s = updateOrInsertPerm id s := by
  unfold myUpdateOrInsertPerm updateOrInsertPerm
  refine bind_same rfl ?_
  intro cur s1 h1
  have hs1 : s1 = s := by rw [openCursor_local] at h1; exact (by simpa using h1.symm : cur = s.lcur ∧ s1 = s).2
  rw [hs1]
  have hcnt : s.work.myUpdatePerm id = s.work.updatePerm id := by
    unfold DB.myUpdatePerm DB.updatePerm
    congr 1
    symm
    rw [List.countP_eq_zero]
    intro r hr
    simp only [decide_eq_true_eq]
    rintro rfl
    exact hne hr
  refine bind_same (execWrite_congr cur (by rw [hcnt])) ?_
  intro rc s2 h2
  by_cases hrc : rc = 0
  · simp only [hrc, if_true]
    refine bind_same (execWrite_congr cur ?_) (fun _ _ _ => rfl)
    have hw2 : s2.work = s.work := by
      unfold execWrite at h2
      split at h2
      · simp at h2
      · simp only at h2
        cases ha : s.autocommit <;> rw [ha] at h2 <;>
          (simp only [Bool.false_eq_true, if_false, if_true, Prod.mk.injEq, Except.ok.injEq] at h2
           rw [← h2.2]; rfl)
    have hany : (s2.work.perms.any fun r => decide (r.take k = id.take k)) =
        s2.work.perms.any fun r => decide (r = id) := by
      apply any_congr_mem
      intro r hr
      rw [hw2] at hr
      simp [take_short (hs.2 r hr) hid]
    unfold DB.myInsertPerm DB.insertPerm
    rw [hany]
  · simp only [hrc, if_false]

/-! ### lengths -/

theorem length_pyJoin (xs : List Str) : (pyJoin (lit " ") xs).length + 1 = (xs.map List.length).sum + xs.length ∨ xs = [] := by
  induction xs with
  | nil => exact .inr rfl
  | cons x xs ih =>
    left
    cases xs with
    | nil => simp [pyJoin]
    | cons y ys =>
      rcases ih with ih | ih
      · have : pyJoin (lit " ") (x :: y :: ys) = x ++ lit " " ++ pyJoin (lit " ") (y :: ys) := by
          simp [pyJoin]
        rw [this]
        simp only [List.length_append, List.map_cons, List.sum_cons, List.length_cons] at ih ⊢
        have : (lit " ").length = 1 := rfl
        omega
      · simp at ih

theorem length_rowOf {es : List (Val F)} (hne : es ≠ []) {n : Nat} (hn : n < factorial es.length) :
    (rowOf es n).length + 1 = (edge2str (Val.seq true es)).length + (natStr n).length := by
  have hp := permN_perm hn
  have hpne : permN es n ≠ [] := fun h => hne (by rw [h] at hp; exact List.nil_perm.1 hp)
  rw [rowOf, nodes2str_snoc hpne]
  have h1 := length_pyJoin ((permN es n).map edge2str)
  have h2 := length_pyJoin (es.map edge2str)
  have hsum : (((permN es n).map edge2str).map List.length).sum = ((es.map edge2str).map List.length).sum :=
    List.Perm.sum_nat ((hp.map edge2str).map List.length)
  have hlen : ((permN es n).map edge2str).length = (es.map edge2str).length := (hp.map edge2str).length_eq
  rw [edge2str, nodeStrs_eq_map]
  rcases h1 with h1 | h1
  · rcases h2 with h2 | h2
    · simp only [List.length_append]
      have e1 : (lit " ").length = 1 := rfl
      have e2 : (lit "(").length = 1 := rfl
      have e3 : (lit ")").length = 1 := rfl
      omega
    · simp at h2; exact absurd h2 hne
  · simp at h1; exact absurd h1 hpne

theorem KeyFits.rows {k : Nat} {e : Val F} (he : EdgeOver V e) (hf : KeyFits k e) : ∀ r ∈ rowsOf e.elems, r.length ≤ k := by
  intro r hr
  obtain ⟨n, hn, rfl⟩ := mem_rowsOf.1 hr
  have h := hf n hn
  have hl := length_rowOf he.elems_ne hn
  have : edge2str (Val.seq true e.elems) = edge2str e := by
    obtain ⟨h, t, rfl, _⟩ := he
    simp [edge2str, Val.elems, Val.tup]
  rw [this] at hl
  omega

theorem factorial_pos' (n : Nat) : 0 < factorial n := by
  induction n with
  | zero => simp [factorial]
  | succ n ih => simp only [factorial]; exact Nat.mul_pos (by omega) ih

theorem KeyFits.text {k : Nat} {e : Val F} (hf : KeyFits k e) : (edge2str e).length ≤ k := by
  have := hf 0 (factorial_pos' _)
  have h0 : (natStr 0).length = 1 := rfl
  omega

theorem mem_length_pyJoin {xs : List Str} {x : Str} (h : x ∈ xs) : x.length ≤ (pyJoin (lit " ") xs).length := by
  induction xs with
  | nil => simp at h
  | cons y ys ih =>
    cases ys with
    | nil => simp at h; subst h; simp [pyJoin]
    | cons z zs =>
      simp only [pyJoin, List.length_append]
      rcases List.mem_cons.1 h with rfl | h
      · omega
      · have := ih h; omega

theorem KeyFits.elem {k : Nat} {e : Val F} (he : EdgeOver V e) (hf : KeyFits k e) : ∀ x ∈ e.elems, (edge2str x).length ≤ k := by
  intro x hx
  have h1 := hf.text
  obtain ⟨h, t, rfl, _⟩ := he
  have hx' : edge2str x ∈ nodeStrs (h :: t) := by
    rw [nodeStrs_eq_map]; exact List.mem_map_of_mem hx
  have h2 := mem_length_pyJoin hx'
  simp only [Val.tup, edge2str, List.length_append] at h1
  omega

/-! ### adding one edge -/

theorem forEach_same {α σ : Type} {f f' : α → M Unit} (C : σ → DB) (g : σ → α → σ) (I : σ → Prop) {xs : List α}
    (h : ∀ x ∈ xs, ∀ a, I a → ∀ s : St, s.usable → s.work = C a →
      Runs false TT (f x) s () (C (g a x)) ∧ I (g a x) ∧ f' x s = f x s) :
    ∀ a (s : St), I a → s.usable → s.work = C a → GB.forEach f' xs s = GB.forEach f xs s := by
  induction xs with
  | nil => intro a s _ _ _; rfl
  | cons x xs ih =>
    intro a s hI hu hw
    obtain ⟨⟨s1, e1, st1⟩, h2, h3⟩ := h x (by simp) a hI s hu hw
    rw [GB.forEach, GB.forEach, bind_run _ _ _ e1, bind_run _ _ _ (h3.trans e1)]
    exact ih (fun y hy => h y (by simp [hy])) (g a x) s1 h2 (st1.usable hu) st1.work

theorem short_conc {k : Nat} {vs : List (VEnt F)} {ps : List Str} (h1 : ∀ r ∈ vs, (edge2str r.v).length ≤ k)
    (h2 : ∀ r ∈ ps, r.length ≤ k) : DB.Short k ⟨vs.map VEnt.row, ps⟩ := by
  refine ⟨?_, h2⟩
  intro r hr
  obtain ⟨q, hq, rfl⟩ := List.mem_map.1 hr
  exact h1 q hq

theorem row_not_mem {vs : List (VEnt F)} (hk : KeysOk vs) {v : Val F} (hv : WfVal v) {d ts : Int}
    (h : lookV v vs ≠ some ⟨v, d, ts⟩) : (⟨edge2str v, d, ts⟩ : VRow) ∉ vs.map VEnt.row := by
  intro hm
  obtain ⟨r, hr, he⟩ := List.mem_map.1 hm
  simp only [VEnt.row, VRow.mk.injEq] at he
  have hrv : r.v = v := (text_eq_iff (hk.2 r hr) hv).1 he.1
  apply h
  have hall : ∀ q ∈ vs, q.v = v → q = r := by
    intro q hq hqv
    have hnd := hk.1
    clear hm h
    induction vs with
    | nil => simp at hq
    | cons w ws ih =>
      rw [List.map_cons, List.nodup_cons] at hnd
      rcases List.mem_cons.1 hr with rfl | hr'
      · rcases List.mem_cons.1 hq with rfl | hq'
        · rfl
        · exact absurd (List.mem_map.2 ⟨q, hq', hqv.trans hrv.symm⟩) hnd.1
      · rcases List.mem_cons.1 hq with rfl | hq'
        · exact absurd (List.mem_map.2 ⟨r, hr', hrv.trans hqv.symm⟩) hnd.1
        · exact ih ⟨hnd.2, fun x hx => hk.2 x (by simp [hx])⟩ hr' hq' hnd.2
  cases hl : lookV v vs with
  | none =>
    rw [lookV_none] at hl
    unfold hasV at hl
    have := List.any_eq_false.1 hl r hr
    simp [hrv] at this
  | some q =>
    have hq := List.mem_of_find?_eq_some hl
    rw [hall q hq (lookV_v hl)]
    obtain ⟨_, hd, ht⟩ := he
    cases r
    simp_all

theorem touch_mem {k : Nat} {ts : Int} {v : Val F} {vs : List (VEnt F)} (h : ∀ r ∈ vs, (edge2str r.v).length ≤ k)
    (hv : (edge2str v).length ≤ k) : ∀ r ∈ touchV ts vs v, (edge2str r.v).length ≤ k := by
  intro r hr
  have : r.v ∈ (touchV ts vs v).map VEnt.v := List.mem_map_of_mem hr
  rw [touchV_keys] at this
  by_cases hm : v ∈ vs.map VEnt.v
  · rw [if_pos hm] at this
    obtain ⟨q, hq, e⟩ := List.mem_map.1 this
    rw [← e]; exact h q hq
  · rw [if_neg hm] at this
    rcases List.mem_append.1 this with h' | h'
    · obtain ⟨q, hq, e⟩ := List.mem_map.1 h'
      rw [← e]; exact h q hq
    · simp at h'; rw [h']; exact hv

theorem set_mem {k : Nat} {d ts : Int} {v : Val F} {vs : List (VEnt F)} (h : ∀ r ∈ vs, (edge2str r.v).length ≤ k)
    (hv : (edge2str v).length ≤ k) : ∀ r ∈ setV v d ts vs, (edge2str r.v).length ≤ k := by
  intro r hr
  have : r.v ∈ (setV v d ts vs).map VEnt.v := List.mem_map_of_mem hr
  rw [setV_keys] at this
  by_cases hm : v ∈ vs.map VEnt.v
  · rw [if_pos hm] at this
    obtain ⟨q, hq, e⟩ := List.mem_map.1 this
    rw [← e]; exact h q hq
  · rw [if_neg hm] at this
    rcases List.mem_append.1 this with h' | h'
    · obtain ⟨q, hq, e⟩ := List.mem_map.1 h'
      rw [← e]; exact h q hq
    · simp at h'; rw [h']; exact hv

theorem myAddVert_same {k : Nat} {vs : List (VEnt F)} {ps : List Str} (hk : KeysOk vs)
    (hs : ∀ r ∈ vs, (edge2str r.v).length ≤ k) (hps : ∀ r ∈ ps, r.length ≤ k) {v : Val F} (hv : WfVal v)
    (hl : (edge2str v).length ≤ k) (ts : Int) {s : St} (hu : s.usable) (hw : s.work = ⟨vs.map VEnt.row, ps⟩) :
    myAddVert k ts v s = addVert ts v s := by
  unfold myAddVert addVert
  refine bind_same rfl ?_
  intro known s1 h1
  have hb := bump_row hk.2 hv 1 ps
  have hc := countP_row hk.2 hv
  have h1' := incDegree_run (q := false) (T := TT) hu (edge2str v) (fun _ => trivial)
  obtain ⟨s1', e1, st1⟩ := h1'
  have hkn : known = decide ((s.work.bumpDegree 1 (edge2str v)).1 > 0) ∧ s1 = s1' := by
    have := h1.symm.trans e1
    simpa using this
  obtain ⟨hkn, rfl⟩ := hkn
  cases hknown : known with
  | true => rfl
  | false =>
    simp only [Bool.not_false, if_true]
    have hno : hasV v vs = false := by
      cases hh : hasV v vs with
      | false => rfl
      | true =>
        have := hc.2 hh
        rw [hknown, hw] at hkn
        simp only [DB.bumpDegree] at hkn
        have h3 := of_decide_eq_false hkn.symm
        exact absurd this h3
    have hw1 : s1.work = ⟨vs.map VEnt.row, ps⟩ := by
      rw [st1.work, hw, hb, bumpV_absent hno]
    refine myUpsertVertex_same ?_ hl ?_
    · rw [hw1]; exact short_conc hs hps
    · rw [hw1]
      exact row_not_mem hk hv (by rw [lookV_none.2 hno]; simp)

theorem myWriteRows_same {k : Nat} {vs : List VRow} (hvs : ∀ r ∈ vs, r.id.length ≤ k) (rows : List Str) :
    ∀ (ps : List Str) (s : St), s.usable → s.work = ⟨vs, ps⟩ → (∀ r ∈ rows, r ∉ ps) → rows.Nodup →
    (∀ r ∈ rows, r.length ≤ k) → (∀ r ∈ ps, r.length ≤ k) →
    forEach (myWriteEdgePermutation (F := F) k) rows s = forEach (writeEdgePermutation (F := F)) rows s := by
  induction rows with
  | nil => intro ps s _ _ _ _ _ _; rfl
  | cons r rows ih =>
    intro ps s hu hw hn hnd hl hps
    have h1 : myWriteEdgePermutation (F := F) k r s = writeEdgePermutation (F := F) r s := by
      unfold myWriteEdgePermutation writeEdgePermutation
      have e : edge2str (F := F) (.str r) = r := by simp [edge2str]
      rw [e]
      refine myUpsertPerm_same ?_ (hl r (by simp)) ?_
      · rw [hw]; exact ⟨hvs, hps⟩
      · rw [hw]; exact hn r (by simp)
    obtain ⟨s1, e1, st1⟩ := writeRows_run (F := F) (q := false) (T := TT) (vs := vs) [r] ps s hu hw
      (fun r' hr' => by simp at hr'; subst hr'; exact hn r' (by simp)) (by simp) (fun _ _ => trivial)
    have e1' : writeEdgePermutation (F := F) r s = (.ok (), s1) := by
      have h2 : forEach (writeEdgePermutation (F := F)) [r] s = writeEdgePermutation (F := F) r s := by
        show (writeEdgePermutation (F := F) r >>= fun _ => Pure.pure ()) s = _
        cases hm : writeEdgePermutation (F := F) r s with
        | mk a b =>
          cases a with
          | error x => rw [bind_err _ _ _ hm]
          | ok u => rw [bind_run _ _ _ hm]; rfl
      rw [← h2]; exact e1
    rw [forEach, forEach, bind_run _ _ _ e1', bind_run _ _ _ (h1.trans e1')]
    refine ih (ps ++ [r]) s1 (st1.usable hu) st1.work ?_ (List.nodup_cons.1 hnd).2 (fun x hx => hl x (by simp [hx])) ?_
    · intro r' hr' hmem
      simp only [List.mem_append, List.mem_singleton] at hmem
      rcases hmem with h | rfl
      · exact hn r' (by simp [hr']) h
      · exact (List.nodup_cons.1 hnd).1 hr'
    · intro x hx
      rcases List.mem_append.1 hx with h | h
      · exact hps x h
      · simp at h; rw [h]; exact hl r (by simp)

/-- The texts of the store are at most `k` characters long. -/
def Abs.Room (k : Nat) (A : Abs F) : Prop :=
  (∀ r ∈ A.verts, (edge2str r.v).length ≤ k) ∧ ∀ e ∈ A.edges, ∀ r ∈ rowsOf e.elems, r.length ≤ k

theorem myAddRaw_same {k : Nat} (hV : Vocab V) {A : Abs F} (hA : AbsOk V A) (hroom : A.Room k) {e : Val F}
    (he : EdgeOver V e) (hf : KeyFits k e) (ts : Int) {s : St} (hu : s.usable) (hw : s.work = A.conc)
    (hc : e ∉ A.edges → lookV e A.verts ≠ some ⟨e, 0, ts⟩) : myAddRaw k e ts s = addRaw e ts s := by
  unfold myAddRaw addRaw
  have hex := existsM_run hV hA he hu hw
  rw [bind_run _ _ _ hex, bind_run _ _ _ hex]
  by_cases h : e ∈ A.edges
  · simp only [h, decide_true, Bool.not_true, Bool.false_eq_true, if_false]
  · simp only [h, decide_false, Bool.not_false, if_true]
    have hwx : ∀ x ∈ e.elems, WfVal x := fun x hx => hV.wf x (he.mem x hx)
    have hps : ∀ r ∈ A.conc.perms, r.length ≤ k := by
      intro r hr
      obtain ⟨x, hx, hr'⟩ := List.mem_flatMap.1 hr
      exact hroom.2 x hx r hr'
    refine bind_same rfl ?_
    intro es s1 h1
    rw [liftE_ok (iter_edge he)] at h1
    simp only [Prod.mk.injEq, Except.ok.injEq] at h1
    obtain ⟨rfl, rfl⟩ := h1
    have hloop : ∀ x ∈ e.elems, ∀ vs : List (VEnt F), (KeysOk vs ∧ ∀ r ∈ vs, (edge2str r.v).length ≤ k) →
        ∀ s : St, s.usable → s.work = ⟨vs.map VEnt.row, A.conc.perms⟩ →
        Runs false TT (addVert ts x) s () ⟨(touchV ts vs x).map VEnt.row, A.conc.perms⟩ ∧
          (KeysOk (touchV ts vs x) ∧ ∀ r ∈ touchV ts vs x, (edge2str r.v).length ≤ k) ∧
          myAddVert k ts x s = addVert ts x s := by
      intro x hx vs hvs s hu hw
      exact ⟨addVert_run hvs.1.2 (hwx x hx) ts hu hw trivial,
        ⟨hvs.1.touch (hwx x hx) ts, touch_mem hvs.2 (hf.elem he x hx)⟩,
        myAddVert_same hvs.1 hvs.2 hps (hwx x hx) (hf.elem he x hx) ts hu hw⟩
    have hrun : Runs false TT (forEach (addVert ts) e.elems) s ()
        ⟨(e.elems.foldl (touchV ts) A.verts).map VEnt.row, A.conc.perms⟩ :=
      Runs.forEachA (fun vs : List (VEnt F) => (⟨vs.map VEnt.row, A.conc.perms⟩ : DB)) (touchV ts)
        (fun vs => KeysOk vs ∧ ∀ r ∈ vs, (edge2str r.v).length ≤ k)
        (fun x hx vs hvs _ s hu hw => ⟨(hloop x hx vs hvs s hu hw).1, (hloop x hx vs hvs s hu hw).2.1⟩)
        A.verts s ⟨⟨hA.keys, hA.wf⟩, hroom.1⟩ (fun _ _ => trivial) hu hw
    have hsame : forEach (myAddVert k ts) e.elems s = forEach (addVert ts) e.elems s :=
      forEach_same (fun vs : List (VEnt F) => (⟨vs.map VEnt.row, A.conc.perms⟩ : DB)) (touchV ts)
        (fun vs => KeysOk vs ∧ ∀ r ∈ vs, (edge2str r.v).length ≤ k) hloop A.verts s ⟨⟨hA.keys, hA.wf⟩, hroom.1⟩ hu hw
    obtain ⟨s2, e2, st2⟩ := hrun
    have hu2 := st2.usable hu
    have hk2 : KeysOk (e.elems.foldl (touchV ts) A.verts) := KeysOk.foldTouch ⟨hA.keys, hA.wf⟩ ts hwx
    have hr2 : ∀ r ∈ e.elems.foldl (touchV ts) A.verts, (edge2str r.v).length ≤ k := by
      have : ∀ (xs : List (Val F)) (vs : List (VEnt F)), (∀ x ∈ xs, (edge2str x).length ≤ k) →
          (∀ r ∈ vs, (edge2str r.v).length ≤ k) → ∀ r ∈ xs.foldl (touchV ts) vs, (edge2str r.v).length ≤ k := by
        intro xs
        induction xs with
        | nil => intro vs _ hvs; exact hvs
        | cons x xs ih =>
          intro vs hxs hvs
          exact ih _ (fun y hy => hxs y (by simp [hy])) (touch_mem hvs (hxs x (by simp)))
      exact this _ _ (hf.elem he) hroom.1
    have hlook : lookV e (e.elems.foldl (touchV ts) A.verts) = lookV e A.verts := by
      have : ∀ (xs : List (Val F)) (vs : List (VEnt F)), e ∉ xs → lookV e (xs.foldl (touchV ts) vs) = lookV e vs := by
        intro xs
        induction xs with
        | nil => intro vs _; rfl
        | cons x xs ih =>
          intro vs hx
          rw [List.foldl_cons, ih _ (fun h => hx (by simp [h])), lookV_touch, if_neg (fun h => hx (by simp [h]))]
      exact this _ _ (not_mem_self e)
    refine bind_same hsame ?_
    intro u s2' h2'
    have hs2 : s2' = s2 := by
      have := h2'.symm.trans e2
      simpa using this
    subst hs2
    refine bind_same ?_ ?_
    · refine myUpsertVertex_same ?_ hf.text ?_
      · rw [st2.work]; exact short_conc hr2 hps
      · rw [st2.work]
        exact row_not_mem hk2 (he.wf hV) (by rw [hlook]; exact hc h)
    · intro u s3 h3
      have hset := upsert_row hk2.2 (he.wf hV) 0 ts A.conc.perms
      obtain ⟨s3', e3, st3⟩ := upsertVertex_run (q := false) (T := TT) hu2 (edge2str e) 0 ts (fun _ => trivial)
      have hs3 : s3 = s3' := by
        have := h3.symm.trans e3
        simpa using this
      subst hs3
      rw [st2.work, hset] at st3
      refine bind_same ?_ (fun _ _ _ => rfl)
      unfold myWriteEdgePermutations writeEdgePermutations
      rw [doWithPerms_eq he.elems_ne, doWithPerms_eq he.elems_ne]
      refine myWriteRows_same ?_ _ _ s3 (st3.usable hu2) st3.work (rows_fresh hV hA he h) (rowsOf_nodup hwx)
        (hf.rows he) hps
      intro r hr
      obtain ⟨q, hq, rfl⟩ := List.mem_map.1 hr
      exact set_mem hr2 hf.text q hq

end GB
