import Verif.Proofs.CollRead

/-! Writing under a collation. -/

set_option linter.unusedSectionVars false

namespace GB

variable {F : Type} [PyFloat F] [DecidableEq F] {V : Val F → Prop} {w : Char → Nat} {S : Char → Prop}

/-- All texts are tidy and at most `k` characters long. -/
structure Neat (S : Char → Prop) (k : Nat) (db : DB) : Prop where
  verts : ∀ r ∈ db.vertices, TidyText S r.id ∧ r.id.length ≤ k
  perms : ∀ r ∈ db.perms, TidyText S r ∧ r.length ≤ k

/-- From tables with property `I`, `m'` does the same as `m`, and `I` holds after. -/
def Echoes (I : DB → Prop) {α : Type} (m' m : M α) : Prop := ∀ s : St, I s.work → m' s = m s ∧ I (m s).2.work

variable {I : DB → Prop}

theorem Echoes.bind {α β : Type} {m' m : M α} {f' f : α → M β} (h : Echoes I m' m) (hf : ∀ a, Echoes I (f' a) (f a)) :
    Echoes I (m' >>= f') (m >>= f) := by
  intro s hs
  obtain ⟨e, h1⟩ := h s hs
  refine ⟨bind_same e fun a s1 hm => (hf a s1 (by rw [hm] at h1; exact h1)).1, ?_⟩
  cases hm : m s with
  | mk r s1 =>
    rw [hm] at h1
    cases r with
    | error x => rw [bind_err _ _ _ hm]; exact h1
    | ok a => rw [bind_run _ _ _ hm]; exact (hf a s1 h1).2

theorem Echoes.pure {α : Type} (a : α) : Echoes I (Pure.pure a : M α) (Pure.pure a) := fun _ hs => ⟨rfl, hs⟩

theorem Echoes.liftE {α : Type} (x : Except PyErr α) : Echoes I (GB.liftE x) (GB.liftE x) := fun _ hs => ⟨rfl, hs⟩

theorem Echoes.open (b : Bool) : Echoes I (openCursor b) (openCursor b) := by
  intro s hs
  refine ⟨rfl, ?_⟩
  unfold openCursor
  cases b <;> cases s.cur <;> exact hs

theorem Echoes.close (b c : Bool) : Echoes I (closeCursor b c) (closeCursor b c) := by
  intro s hs
  refine ⟨rfl, ?_⟩
  unfold closeCursor
  cases b <;> cases c <;> cases h : s.cur <;> simp [St.commit, h, hs]

theorem Echoes.commit : Echoes I commitM commitM := fun _ hs => ⟨rfl, hs⟩

theorem Echoes.write {α : Type} (c : Cursor) {q' q : DB → Option (α × DB)}
    (h : ∀ db, I db → q' db = q db ∧ ∀ a db', q db = some (a, db') → I db') : Echoes I (execWrite c q') (execWrite c q) := by
  intro s hs
  obtain ⟨e, h1⟩ := h s.work hs
  refine ⟨execWrite_congr c e, ?_⟩
  unfold execWrite
  split
  · exact hs
  · cases hq : q s.work with
    | none => exact hs
    | some p =>
      obtain ⟨a, db⟩ := p
      have := h1 a db hq
      simp only
      cases s.autocommit <;> exact this

theorem Echoes.forEach {α : Type} {f' f : α → M Unit} {xs : List α} (h : ∀ x ∈ xs, Echoes I (f' x) (f x)) :
    Echoes I (GB.forEach f' xs) (GB.forEach f xs) := by
  induction xs with
  | nil => exact fun _ hs => ⟨rfl, hs⟩
  | cons x xs ih => exact (h x (by simp)).bind fun _ => ih fun y hy => h y (by simp [hy])

theorem Echoes.ite {α : Type} {c : Prop} [Decidable c] {a' a b' b : M α} (h1 : Echoes I a' a) (h2 : Echoes I b' b) :
    Echoes I (if c then a' else b') (if c then a else b) := by
  by_cases h : c
  · simpa [h] using h1
  · simpa [h] using h2

/-! ### statements -/

theorem Neat.updateVertex {k : Nat} {db : DB} (h : Neat S k db) (hT : Apt w S) {id : Str} (hid : TidyText S id)
    (hl : id.length ≤ k) (deg ts : Int) :
    db.coUpdateVertex w id deg ts = db.myUpdateVertex id deg ts ∧ Neat S k (db.myUpdateVertex id deg ts).2 := by
  refine ⟨?_, ?_⟩
  · unfold DB.coUpdateVertex DB.myUpdateVertex
    congr 1
    · apply List.countP_congr
      intro r hr
      rw [padEq_tidy hT (h.verts r hr).1 hid]
    · congr 1
      apply List.map_congr_left
      intro r hr
      rw [padEq_tidy hT (h.verts r hr).1 hid]
      simp
  · refine ⟨?_, h.perms⟩
    intro r hr
    simp only [DB.myUpdateVertex, List.mem_map] at hr
    obtain ⟨q, hq, rfl⟩ := hr
    by_cases hi : q.id = id
    · simp [hi, hid, hl]
    · simpa [hi] using h.verts q hq

theorem Neat.insertVertex {k : Nat} {db : DB} (h : Neat S k db) (hT : Apt w S) {id : Str} (hid : TidyText S id)
    (hl : id.length ≤ k) (deg ts : Int) :
    db.coInsertVertex w k id deg ts = db.myInsertVertex k id deg ts ∧
      ∀ a db', db.myInsertVertex k id deg ts = some (a, db') → Neat S k db' := by
  refine ⟨?_, ?_⟩
  · unfold DB.coInsertVertex DB.myInsertVertex
    have : (db.vertices.any fun r => padEq w (r.id.take k) (id.take k)) =
        db.vertices.any fun r => decide (r.id.take k = id.take k) := by
      apply any_congr_mem
      intro r hr
      rw [List.take_of_length_le (h.verts r hr).2, List.take_of_length_le hl, padEq_tidy hT (h.verts r hr).1 hid]
    rw [this]
  · intro a db' he
    unfold DB.myInsertVertex at he
    split at he
    · simp at he
    · simp only [Option.some.injEq, Prod.mk.injEq] at he
      rw [← he.2]
      refine ⟨?_, h.perms⟩
      intro r hr
      rcases List.mem_append.1 hr with hr | hr
      · exact h.verts r hr
      · simp only [List.mem_singleton] at hr
        rw [hr]; exact ⟨hid, hl⟩

theorem Neat.updatePerm {k : Nat} {db : DB} (h : Neat S k db) (hT : Apt w S) {id : Str} (hid : TidyText S id) :
    db.coUpdatePerm w id = db.myUpdatePerm id := by
  unfold DB.coUpdatePerm DB.myUpdatePerm
  have h1 : (db.perms.countP fun r => padEq w r id && decide (r ≠ id)) = 0 := by
    rw [List.countP_eq_zero]
    intro r hr
    rw [padEq_tidy hT (h.perms r hr).1 hid]
    simp
  have h2 : (db.perms.map fun r => if padEq w r id = true then id else r) = db.perms := by
    conv => rhs; rw [← List.map_id db.perms]
    apply List.map_congr_left
    intro r hr
    rw [padEq_tidy hT (h.perms r hr).1 hid]
    by_cases hi : r = id <;> simp [hi]
  rw [h1, h2]

theorem Neat.insertPerm {k : Nat} {db : DB} (h : Neat S k db) (hT : Apt w S) {id : Str} (hid : TidyText S id)
    (hl : id.length ≤ k) :
    db.coInsertPerm w k id = db.myInsertPerm k id ∧ ∀ a db', db.myInsertPerm k id = some (a, db') → Neat S k db' := by
  refine ⟨?_, ?_⟩
  · unfold DB.coInsertPerm DB.myInsertPerm
    have : (db.perms.any fun r => padEq w (r.take k) (id.take k)) =
        db.perms.any fun r => decide (r.take k = id.take k) := by
      apply any_congr_mem
      intro r hr
      rw [List.take_of_length_le (h.perms r hr).2, List.take_of_length_le hl, padEq_tidy hT (h.perms r hr).1 hid]
    rw [this]
  · intro a db' he
    unfold DB.myInsertPerm at he
    split at he
    · simp at he
    · simp only [Option.some.injEq, Prod.mk.injEq] at he
      rw [← he.2]
      refine ⟨h.verts, ?_⟩
      intro r hr
      rcases List.mem_append.1 hr with hr | hr
      · exact h.perms r hr
      · simp only [List.mem_singleton] at hr
        rw [hr]; exact ⟨hid, hl⟩

theorem Neat.bump {k : Nat} {db : DB} (h : Neat S k db) (hT : Apt w S) {id : Str} (hid : TidyText S id) (d : Int) :
    db.coBumpDegree w d id = db.bumpDegree d id ∧ Neat S k (db.bumpDegree d id).2 := by
  refine ⟨?_, ?_⟩
  · unfold DB.coBumpDegree DB.bumpDegree
    congr 1
    · apply List.countP_congr
      intro r hr
      rw [padEq_tidy hT (h.verts r hr).1 hid]
    · congr 1
      apply List.map_congr_left
      intro r hr
      rw [padEq_tidy hT (h.verts r hr).1 hid]
      simp
  · refine ⟨?_, h.perms⟩
    intro r hr
    simp only [DB.bumpDegree, List.mem_map] at hr
    obtain ⟨q, hq, rfl⟩ := hr
    have := h.verts q hq
    by_cases hi : q.id = id
    · rw [if_pos hi]; exact this
    · rw [if_neg hi]; exact this

theorem Neat.deletePerm {k : Nat} {db : DB} (h : Neat S k db) (hT : Apt w S) {id : Str} (hid : TidyText S id) :
    db.coDeletePerm w id = db.deletePerm id ∧ Neat S k (db.deletePerm id) := by
  refine ⟨?_, h.verts, fun r hr => h.perms r ((List.mem_filter.1 hr).1)⟩
  unfold DB.coDeletePerm DB.deletePerm
  congr 1
  apply List.filter_congr
  intro r hr
  rw [padEq_tidy hT (h.perms r hr).1 hid]
  simp

theorem Neat.deleteVertex {k : Nat} {db : DB} (h : Neat S k db) (hT : Apt w S) {id : Str} (hid : TidyText S id) :
    db.coDeleteVertex w id = db.deleteVertex id ∧ Neat S k (db.deleteVertex id) := by
  refine ⟨?_, fun r hr => h.verts r ((List.mem_filter.1 hr).1), h.perms⟩
  unfold DB.coDeleteVertex DB.deleteVertex
  congr 1
  apply List.filter_congr
  intro r hr
  rw [padEq_tidy hT (h.verts r hr).1 hid]
  simp

theorem Neat.selectVertex {k : Nat} {db : DB} (h : Neat S k db) (hT : Apt w S) {id : Str} (hid : TidyText S id) :
    db.coSelectVertex w id = db.selectVertex id := by
  unfold DB.coSelectVertex DB.selectVertex
  apply List.filter_congr
  intro r hr
  rw [padEq_tidy hT (h.verts r hr).1 hid]

/-! ### methods -/

theorem coIncDegree_alike (hT : Apt w S) {k : Nat} {id : Str} (hid : TidyText S id) :
    Echoes (Neat S k) (coIncDegree w id) (incDegree id) := by
  refine (Echoes.open true).bind fun c => (Echoes.write c fun db h => ?_).bind fun rc =>
    (Echoes.close true true).bind fun _ => Echoes.pure _
  obtain ⟨h1, h2⟩ := h.bump hT hid 1
  refine ⟨by rw [h1], ?_⟩
  intro a db' he
  simp only [Option.some.injEq] at he
  rw [← show (db.bumpDegree 1 id).2 = db' from by rw [he]]
  exact h2

theorem coDecDegree_alike (hT : Apt w S) {k : Nat} {id : Str} (hid : TidyText S id) :
    Echoes (Neat S k) (coDecDegree w id) (decDegree id) := by
  refine (Echoes.open true).bind fun c => (Echoes.write c fun db h => ?_).bind fun rc =>
    (Echoes.close true true).bind fun _ => Echoes.pure _
  obtain ⟨h1, h2⟩ := h.bump hT hid (-1)
  refine ⟨by rw [h1], ?_⟩
  intro a db' he
  simp only [Option.some.injEq] at he
  rw [← show (db.bumpDegree (-1) id).2 = db' from by rw [he]]
  exact h2

theorem coUpsertVertex_alike (hT : Apt w S) {k : Nat} {id : Str} (hid : TidyText S id) (hl : id.length ≤ k) (deg ts : Int) :
    Echoes (Neat S k) (coUpdateOrInsertVertex w k id deg ts) (myUpdateOrInsertVertex k id deg ts) := by
  refine (Echoes.open true).bind fun c => (Echoes.write c fun db h => ?_).bind fun rc => ?_
  · obtain ⟨h1, h2⟩ := h.updateVertex hT hid hl deg ts
    refine ⟨by rw [h1], ?_⟩
    intro a db' he
    simp only [Option.some.injEq] at he
    rw [← show (db.myUpdateVertex id deg ts).2 = db' from by rw [he]]
    exact h2
  · by_cases hrc : rc = 0
    · simp only [hrc, if_true]
      exact (Echoes.write c fun db h => h.insertVertex hT hid hl deg ts).bind fun _ => Echoes.close true true
    · simp only [hrc, if_false]
      exact Echoes.close true true

theorem coUpsertPerm_alike (hT : Apt w S) {k : Nat} {id : Str} (hid : TidyText S id) (hl : id.length ≤ k) :
    Echoes (Neat S k) (coUpdateOrInsertPerm w k id) (myUpdateOrInsertPerm k id) := by
  refine (Echoes.open true).bind fun c => (Echoes.write c fun db h => ?_).bind fun rc => ?_
  · refine ⟨by rw [h.updatePerm hT hid], ?_⟩
    intro a db' he
    simp only [DB.myUpdatePerm, Option.some.injEq, Prod.mk.injEq] at he
    rw [← he.2]; exact h
  · by_cases hrc : rc = 0
    · simp only [hrc, if_true]
      exact (Echoes.write c fun db h => h.insertPerm hT hid hl).bind fun _ => Echoes.close true true
    · simp only [hrc, if_false]
      exact Echoes.close true true

theorem coAddVert_alike (hT : Apt w S) {k : Nat} {v : Val F} (hid : TidyText S (edge2str v)) (hl : (edge2str v).length ≤ k)
    (ts : Int) : Echoes (Neat S k) (coAddVert w k ts v) (myAddVert k ts v) := by
  refine (coIncDegree_alike hT hid).bind fun known => ?_
  cases known with
  | true => exact Echoes.pure ()
  | false => exact coUpsertVertex_alike hT hid hl 1 ts

theorem coWriteRows_alike (hT : Apt w S) {k : Nat} {rows : List Str} (h : ∀ r ∈ rows, TidyText S r ∧ r.length ≤ k) :
    Echoes (Neat S k) (forEach (coWriteEdgePermutation (F := F) w k) rows)
      (forEach (myWriteEdgePermutation (F := F) k) rows) := by
  refine Echoes.forEach fun r hr => ?_
  unfold coWriteEdgePermutation myWriteEdgePermutation
  have e : edge2str (F := F) (.str r) = r := by simp [edge2str]
  rw [e]
  exact coUpsertPerm_alike hT (h r hr).1 (h r hr).2

theorem coRemoveRows_alike (hT : Apt w S) {k : Nat} {rows : List Str} (h : ∀ r ∈ rows, TidyText S r) :
    Echoes (Neat S k) (forEach (coRemoveEdgePermutation (F := F) w) rows)
      (forEach (removeEdgePermutation (F := F)) rows) := by
  refine Echoes.forEach fun r hr => ?_
  unfold coRemoveEdgePermutation removeEdgePermutation
  have e : edge2str (F := F) (.str r) = r := by simp [edge2str]
  rw [e]
  refine (Echoes.write _ fun db hdb => ?_).bind fun _ => Echoes.commit
  obtain ⟨h1, h2⟩ := hdb.deletePerm hT (h r hr)
  refine ⟨by rw [h1], ?_⟩
  intro a db' he
  simp only [Option.some.injEq, Prod.mk.injEq] at he
  rw [← he.2]; exact h2

theorem coRemoveStr_alike (hT : Apt w S) {k : Nat} {id : Str} (hid : TidyText S id) :
    Echoes (Neat S k) (coRemoveStr w id) (removeStr id) := by
  refine (Echoes.open true).bind fun c => (Echoes.write c fun db hdb => ?_).bind fun _ => Echoes.close true true
  obtain ⟨h1, h2⟩ := hdb.deleteVertex hT hid
  refine ⟨by rw [h1], ?_⟩
  intro a db' he
  simp only [Option.some.injEq, Prod.mk.injEq] at he
  rw [← he.2]; exact h2

theorem Suits.rows (hS : Suits w S V) {e : Val F} (he : EdgeOver V e) : ∀ r ∈ rowsOf e.elems, TidyText S r := by
  intro r hr
  obtain ⟨n, hn, rfl⟩ := mem_rowsOf.1 hr
  exact hS.tidyRow he hn

theorem liftE_bind {α β : Type} (a : α) (f : α → M β) : (liftE (.ok a) >>= f) = f a := rfl

/-- The writing part of `add_raw`. -/
theorem coAddRest_alike (hS : Suits w S V) (hV : Vocab V) {k : Nat} {e : Val F} (he : EdgeOver V e) (hf : KeyFits k e)
    (ts : Int) :
    Echoes (Neat S k) (coAddRest w k e ts) (do
      let verts ← liftE e.iter
      forEach (myAddVert k ts) verts
      myAddStr k (edge2str e) 0 ts
      myWriteEdgePermutations k verts) := by
  unfold coAddRest
  rw [iter_edge he, liftE_bind, liftE_bind]
  refine Echoes.bind (Echoes.forEach fun x hx => ?_) fun _ => Echoes.bind ?_ fun _ => ?_
  · exact coAddVert_alike hS.apt (hS.tidy hV (he.mem x hx)) (hf.elem he x hx) ts
  · exact coUpsertVertex_alike hS.apt (hS.tidyEdge hV he) hf.text 0 ts
  · unfold coWriteEdgePermutations myWriteEdgePermutations
    rw [doWithPerms_eq he.elems_ne, doWithPerms_eq he.elems_ne]
    exact coWriteRows_alike hS.apt fun r hr => ⟨hS.rows he r hr, hf.rows he r hr⟩

/-- The writing part of `remove_raw`. -/
theorem coRemoveRest_alike (hS : Suits w S V) (hV : Vocab V) {k : Nat} {e : Val F} (he : EdgeOver V e) :
    Echoes (Neat S k) (coRemoveRest w e) (do
      let verts ← liftE e.iter
      forEach (fun v => do let _ ← decDegree (edge2str v)) verts
      removeEdgePermutations verts
      removeStr (edge2str e)) := by
  unfold coRemoveRest
  rw [iter_edge he, liftE_bind, liftE_bind]
  refine Echoes.bind (Echoes.forEach fun x hx => ?_) fun _ => Echoes.bind ?_ fun _ => ?_
  · exact (coDecDegree_alike hS.apt (hS.tidy hV (he.mem x hx))).bind fun _ => Echoes.pure _
  · unfold coRemoveEdgePermutations removeEdgePermutations
    rw [doWithPerms_eq he.elems_ne, doWithPerms_eq he.elems_ne]
    exact coRemoveRows_alike hS.apt (hS.rows he)
  · exact coRemoveStr_alike hS.apt (hS.tidyEdge hV he)

/-- `add_raw` at a complete index. -/
theorem coAddRaw_same (hS : Suits w S V) (hV : Vocab V) {k : Nat} {A : Abs F} (hA : AbsOk V A) {e : Val F}
    (he : EdgeOver V e) (hf : KeyFits k e) (ts : Int) {s : St} (hu : s.usable) (hw : s.work = A.conc)
    (hn : Neat S k s.work) : coAddRaw w k e ts s = myAddRaw k e ts s ∧ Neat S k (myAddRaw k e ts s).2.work := by
  unfold coAddRaw myAddRaw
  rw [bind_run _ _ _ (coExists_run hS hV hA he hu hw), bind_run _ _ _ (existsM_run hV hA he hu hw)]
  by_cases h : e ∈ A.edges
  · simp only [h, decide_true, Bool.not_true, Bool.false_eq_true, if_false]
    exact ⟨trivial, hn⟩
  · simp only [h, decide_false, Bool.not_false, if_true]
    have := ((coAddRest_alike hS hV he hf ts).bind (f' := fun _ => (Pure.pure e : M (Val F))) (fun _ => Echoes.pure e)) s hn
    simpa only [bind_assoc'] using this

/-- `remove_raw` at a complete index. -/
theorem coRemoveRaw_same (hS : Suits w S V) (hV : Vocab V) {k : Nat} {A : Abs F} (hA : AbsOk V A) {e : Val F}
    (he : EdgeOver V e) {s : St} (hu : s.usable) (hw : s.work = A.conc)
    (hn : Neat S k s.work) : coRemoveRaw w e s = removeRaw e s ∧ Neat S k (removeRaw e s).2.work := by
  unfold coRemoveRaw removeRaw
  rw [bind_run _ _ _ (coExists_run hS hV hA he hu hw), bind_run _ _ _ (existsM_run hV hA he hu hw)]
  by_cases h : e ∈ A.edges
  · simp only [h, decide_true, if_true]
    exact coRemoveRest_alike hS hV he s hn
  · simp only [h, decide_false, Bool.false_eq_true, if_false]
    exact ⟨trivial, hn⟩

end GB
