import Verif.Proofs.Conc

/-! The single steps of processes. -/

set_option linter.unusedSectionVars false

namespace GB

variable {F : Type} [PyFloat F] [DecidableEq F] {V : Val F → Prop}

/-! ### rows of the vertices table -/

/-- The symbol is known: it has its row. -/
def KnownRow (v : Val F) (db : DB) : Prop := ∃ r, db.selectVertex (edge2str v) = [r]

/-- The degree in that row. -/
def degRow (v : Val F) (db : DB) : Int :=
  match db.selectVertex (edge2str v) with
  | [] => 0
  | r :: _ => r.degree

theorem select_bump (db : DB) (k : Int) (t t' : Str) :
    (db.bumpDegree k t').2.selectVertex t =
      (db.selectVertex t).map fun r => if t = t' then { r with degree := r.degree + k } else r := by
  unfold DB.bumpDegree DB.selectVertex
  simp only [List.filter_map]
  have h1 : (fun r : VRow => decide (r.id = t)) ∘ (fun r : VRow => if r.id = t' then { r with degree := r.degree + k } else r)
      = fun r => decide (r.id = t) := by
    funext r
    simp only [Function.comp_apply]
    split <;> rfl
  rw [h1]
  apply List.map_congr_left
  intro r hr
  have hid : r.id = t := by simpa using (List.mem_filter.1 hr).2
  rw [hid]

theorem select_upsert_ne (db : DB) {t t' : Str} (h : t ≠ t') (d ts : Int) :
    (db.upsertVertex t' d ts).selectVertex t = db.selectVertex t := by
  unfold DB.upsertVertex DB.selectVertex
  split
  · simp only [List.filter_map]
    have h1 : (fun r : VRow => decide (r.id = t)) ∘ (fun r : VRow => if r.id = t' then (⟨t', d, ts⟩ : VRow) else r)
        = fun r => decide (r.id = t) := by
      funext r
      simp only [Function.comp_apply]
      split
      · rename_i hr; simp [hr]
      · rfl
    rw [h1]
    conv => rhs; rw [← List.map_id (db.vertices.filter _)]
    apply List.map_congr_left
    intro r hr
    have hid : r.id = t := by simpa using (List.mem_filter.1 hr).2
    simp [hid, h]
  · simp [List.filter_append, Ne.symm h]

theorem select_upsert_known (db : DB) {t : Str} {r : VRow} (h : db.selectVertex t = [r]) (d ts : Int) :
    (db.upsertVertex t d ts).selectVertex t = [⟨t, d, ts⟩] := by
  have hmem : r ∈ db.vertices ∧ r.id = t := by
    have : r ∈ db.selectVertex t := by rw [h]; simp
    simpa [DB.selectVertex] using this
  have hany : (db.vertices.any fun r => r.id = t) = true := by
    simp; exact ⟨r, hmem⟩
  unfold DB.upsertVertex
  rw [if_pos hany]
  unfold DB.selectVertex at h ⊢
  simp only [List.filter_map]
  have h1 : (fun r : VRow => decide (r.id = t)) ∘ (fun r : VRow => if r.id = t then (⟨t, d, ts⟩ : VRow) else r)
      = fun r => decide (r.id = t) := by
    funext r
    simp only [Function.comp_apply]
    split
    · rename_i hr; simp [hr]
    · rfl
  rw [h1, h]
  simp [hmem.2]

theorem select_delete_ne (db : DB) {t t' : Str} (h : t ≠ t') :
    (db.deleteVertex t').selectVertex t = db.selectVertex t := by
  unfold DB.deleteVertex DB.selectVertex
  rw [List.filter_filter]
  apply List.filter_congr
  intro r _
  by_cases hr : r.id = t
  · simp [hr, h]
  · simp [hr]

theorem countP_select (db : DB) (t : Str) : (db.vertices.countP fun r => r.id = t) = (db.selectVertex t).length := by
  unfold DB.selectVertex
  rw [List.countP_eq_length_filter]

theorem degRow_bump {v : Val F} {db : DB} (h : KnownRow v db) (k : Int) (t : Str) :
    KnownRow v (db.bumpDegree k t).2 ∧
      degRow v (db.bumpDegree k t).2 = degRow v db + if edge2str v = t then k else 0 := by
  obtain ⟨r, hr⟩ := h
  have := select_bump db k (edge2str v) t
  rw [hr] at this
  refine ⟨⟨_, this⟩, ?_⟩
  unfold degRow
  rw [hr, this]
  simp only [List.map_cons]
  split <;> simp

theorem degRow_upsert {v : Val F} {db : DB} (h : KnownRow v db) {t : Str} (d ts : Int) :
    KnownRow v (db.upsertVertex t d ts) ∧
      (edge2str v ≠ t → degRow v (db.upsertVertex t d ts) = degRow v db) := by
  by_cases ht : edge2str v = t
  · obtain ⟨r, hr⟩ := h
    subst ht
    exact ⟨⟨_, select_upsert_known db hr d ts⟩, fun h => absurd rfl h⟩
  · have := select_upsert_ne db ht d ts
    refine ⟨?_, fun _ => ?_⟩
    · unfold KnownRow; rw [this]; exact h
    · unfold degRow; rw [this]

theorem degRow_delete {v : Val F} {db : DB} (h : KnownRow v db) {t : Str} (ht : edge2str v ≠ t) :
    KnownRow v (db.deleteVertex t) ∧ degRow v (db.deleteVertex t) = degRow v db := by
  have := select_delete_ne db ht
  unfold KnownRow degRow
  rw [this]
  exact ⟨h, rfl⟩

theorem degRow_perms {v : Val F} {db : DB} (ps : List Str) :
    (KnownRow v ⟨db.vertices, ps⟩ ↔ KnownRow v db) ∧ degRow v ⟨db.vertices, ps⟩ = degRow v db := ⟨Iff.rfl, rfl⟩

theorem known_bump {v : Val F} {db : DB} (h : KnownRow v db) (k : Int) :
    decide ((db.bumpDegree k (edge2str v)).1 > 0) = true := by
  obtain ⟨r, hr⟩ := h
  simp only [DB.bumpDegree, countP_select, hr]
  rfl

/-- The degree rises by at most `k` (a negative one perhaps up to `k`), falls at most to 0, and from a degree that is not
negative it ends positive if it was, or if `k` is. -/
def Rises (v : Val F) (k : Nat) (a b : DB) : Prop :=
  min (degRow v a) 0 ≤ degRow v b ∧ degRow v b ≤ max (degRow v a) 0 + k ∧
    (0 ≤ degRow v a → 1 ≤ degRow v a ∨ 1 ≤ k → 1 ≤ degRow v b)

theorem Rises.trans {v : Val F} {j k : Nat} {a b c : DB} (h1 : Rises v j a b) (h2 : Rises v k b c) :
    Rises v (j + k) a c := by
  obtain ⟨a1, a2, a3⟩ := h1
  obtain ⟨b1, b2, b3⟩ := h2
  refine ⟨by omega, by omega, fun h h' => b3 (by omega) ?_⟩
  by_cases hk : 1 ≤ k
  · exact .inr hk
  · exact .inl (a3 h (h'.imp id fun _ => by omega))

theorem Rises.same {v : Val F} {a b : DB} (h : degRow v b = degRow v a) : Rises v 0 a b := by
  unfold Rises
  rw [h]
  exact ⟨by omega, by omega, fun _ h' => h'.elim id fun h' => absurd h' (by omega)⟩

/-- From a degree that is not negative. -/
theorem Rises.pos {v : Val F} {k : Nat} {a b : DB} (h : Rises v k a b) (h0 : 0 ≤ degRow v a) :
    0 ≤ degRow v b ∧ degRow v b ≤ degRow v a + k ∧ (1 ≤ degRow v a ∨ 1 ≤ k → 1 ≤ degRow v b) := by
  obtain ⟨h1, h2, h3⟩ := h
  exact ⟨by omega, by omega, h3 h0⟩

theorem degRow_upsert_ne {v : Val F} {db : DB} {t : Str} (h : edge2str v ≠ t) (d ts : Int) :
    degRow v (db.upsertVertex t d ts) = degRow v db := by
  unfold degRow; rw [select_upsert_ne db h]

theorem select_upsert_head (db : DB) (t : Str) (d ts : Int) :
    ∃ r l, (db.upsertVertex t d ts).selectVertex t = r :: l ∧ r.degree = d := by
  unfold DB.upsertVertex
  by_cases h : (db.vertices.any fun r => r.id = t) = true
  · rw [if_pos h]
    obtain ⟨r, h1, h2⟩ := List.any_eq_true.1 h
    unfold DB.selectVertex
    simp only [List.filter_map]
    have hf : (fun r : VRow => decide (r.id = t)) ∘ (fun r : VRow => if r.id = t then (⟨t, d, ts⟩ : VRow) else r)
        = fun r => decide (r.id = t) := by
      funext r
      simp only [Function.comp_apply]
      split
      · rename_i hr; simp [hr]
      · rfl
    rw [hf]
    cases hl : db.vertices.filter (fun r => decide (r.id = t)) with
    | nil =>
      have : r ∈ db.vertices.filter (fun r => decide (r.id = t)) := List.mem_filter.2 ⟨h1, h2⟩
      rw [hl] at this
      simp at this
    | cons r' l =>
      have : r' ∈ db.vertices.filter (fun r => decide (r.id = t)) := by rw [hl]; simp
      have hid : r'.id = t := by simpa using (List.mem_filter.1 this).2
      exact ⟨_, _, rfl, by simp [hid]⟩
  · rw [if_neg h]
    have hn : db.vertices.filter (fun r => decide (r.id = t)) = [] := by
      rw [List.filter_eq_nil_iff]
      intro r hr hid
      exact h (List.any_eq_true.2 ⟨r, hr, hid⟩)
    unfold DB.selectVertex
    simp [List.filter_append, hn]

theorem degRow_upsert_eq (v : Val F) (db : DB) (d ts : Int) :
    degRow v (db.upsertVertex (edge2str v) d ts) = d := by
  obtain ⟨r, l, h1, h2⟩ := select_upsert_head db (edge2str v) d ts
  unfold degRow
  rw [h1]
  exact h2

theorem degRow_bump_ne {v : Val F} {db : DB} {t : Str} (h : edge2str v ≠ t) (k : Int) :
    degRow v (db.bumpDegree k t).2 = degRow v db := by
  have := select_bump db k (edge2str v) t
  simp only [h, if_false, List.map_id'] at this
  unfold degRow
  rw [this]

theorem degRow_bump_eq (v : Val F) (db : DB) (k : Int) :
    (decide ((db.bumpDegree k (edge2str v)).1 > 0) = true → degRow v (db.bumpDegree k (edge2str v)).2 = degRow v db + k) ∧
    (decide ((db.bumpDegree k (edge2str v)).1 > 0) = false →
      degRow v (db.bumpDegree k (edge2str v)).2 = degRow v db ∧ degRow v db = 0) := by
  have hs := select_bump db k (edge2str v) (edge2str v)
  simp only [if_true] at hs
  have hc : (db.bumpDegree k (edge2str v)).1 = (db.selectVertex (edge2str v)).length := countP_select db _
  rw [hc]
  unfold degRow
  rw [hs]
  cases db.selectVertex (edge2str v) with
  | nil => simp
  | cons r l => simp

/-! ### rows of the index -/

theorem hasRow_upsert (hV : Vocab V) {e x : Val F} (he : EdgeOver V e) (hx : EdgeOver V x) {n : Nat}
    (hn : n < factorial e.elems.length) (db : DB) (k : Nat) :
    HasRow (db.upsertPerm (rowOf e.elems n)).perms x k ↔ HasRow db.perms x k ∨ (x = e ∧ k = n) := by
  have hmem : ∀ r, r ∈ (db.upsertPerm (rowOf e.elems n)).perms ↔ r ∈ db.perms ∨ r = rowOf e.elems n := by
    intro r
    unfold DB.upsertPerm
    split
    · rename_i h
      refine ⟨.inl, ?_⟩
      rintro (h' | rfl)
      · exact h'
      · exact h
    · simp
  unfold HasRow
  rw [hmem]
  constructor
  · rintro ⟨h1, h2 | h2⟩
    · exact .inl ⟨h1, h2⟩
    · have := rowOf_inj (edge_wf hV hx) (edge_wf hV he) h1 hn h2
      exact .inr ⟨hx.eq_of_elems he this.1, this.2⟩
  · rintro (⟨h1, h2⟩ | ⟨rfl, rfl⟩)
    · exact ⟨h1, .inl h2⟩
    · exact ⟨hn, .inr rfl⟩

theorem hasRow_delete (hV : Vocab V) {e x : Val F} (he : EdgeOver V e) (hx : EdgeOver V x) {n : Nat}
    (hn : n < factorial e.elems.length) (db : DB) (k : Nat) :
    HasRow (db.deletePerm (rowOf e.elems n)).perms x k ↔ HasRow db.perms x k ∧ ¬ (x = e ∧ k = n) := by
  unfold HasRow DB.deletePerm
  simp only [List.mem_filter, decide_eq_true_eq]
  constructor
  · rintro ⟨h1, h2, h3⟩
    refine ⟨⟨h1, h2⟩, ?_⟩
    rintro ⟨rfl, rfl⟩
    exact h3 rfl
  · rintro ⟨⟨h1, h2⟩, h3⟩
    refine ⟨h1, h2, ?_⟩
    intro h
    have := rowOf_inj (edge_wf hV hx) (edge_wf hV he) h1 hn h
    exact h3 ⟨hx.eq_of_elems he this.1, this.2⟩

theorem rowsOk_upsert {e : Val F} (he : EdgeOver V e) {n : Nat} (hn : n < factorial e.elems.length) {db : DB}
    (h : RowsOk V db.perms) : RowsOk V (db.upsertPerm (rowOf e.elems n)).perms := by
  unfold DB.upsertPerm
  split
  · exact h
  · intro r hr
    rcases List.mem_append.1 hr with hr | hr
    · exact h r hr
    · rw [List.mem_singleton] at hr
      exact ⟨e, n, he, hn, hr⟩

theorem rowsOk_delete {t : Str} {db : DB} (h : RowsOk V db.perms) : RowsOk V (db.deletePerm t).perms :=
  fun r hr => h r (List.mem_filter.1 hr).1

/-! ### method calls -/

theorem here_inc (db : DB) (t : Str) :
    ((incDegree t) (reopen db false)).1 = .ok (decide ((db.bumpDegree 1 t).1 > 0)) ∧
    ((incDegree t) (reopen db false)).2.disk = (db.bumpDegree 1 t).2 :=
  Runs.here (q := true) (T := fun _ => True) (incDegree_run (s := reopen db false) (by simp [St.usable, reopen]) t
    (fun _ => trivial))

theorem here_dec (db : DB) (t : Str) :
    ((decDegree t) (reopen db false)).1 = .ok (decide ((db.bumpDegree (-1) t).1 > 0)) ∧
    ((decDegree t) (reopen db false)).2.disk = (db.bumpDegree (-1) t).2 :=
  Runs.here (q := true) (T := fun _ => True) (decDegree_run (s := reopen db false) (by simp [St.usable, reopen]) t
    (fun _ => trivial))

theorem here_addStr (db : DB) (t : Str) (d ts : Int) :
    ((addStr t d ts) (reopen db false)).1 = .ok () ∧
    ((addStr t d ts) (reopen db false)).2.disk = db.upsertVertex t d ts :=
  Runs.here (q := true) (T := fun _ => True) (upsertVertex_run (s := reopen db false) (by simp [St.usable, reopen]) t d ts
    (fun _ => trivial))

theorem here_removeStr (db : DB) (t : Str) :
    ((removeStr t) (reopen db false)).1 = .ok () ∧
    ((removeStr t) (reopen db false)).2.disk = db.deleteVertex t :=
  Runs.here (q := true) (T := fun _ => True) (removeStr_run (s := reopen db false) (by simp [St.usable, reopen]) t
    (fun _ => trivial))

theorem write_eq (t : Str) : writeEdgePermutation (F := F) t = updateOrInsertPerm t := by
  simp [writeEdgePermutation, edge2str]

theorem here_write (db : DB) (t : Str) :
    ((writeEdgePermutation (F := F) t) (reopen db false)).1 = .ok () ∧
    ((writeEdgePermutation (F := F) t) (reopen db false)).2.disk = db.upsertPerm t := by
  rw [write_eq]
  exact Runs.here (q := true) (T := fun _ => True) (upsertPerm_run (s := reopen db false) (by simp [St.usable, reopen]) t
    (fun _ => trivial))

theorem here_delete (db : DB) (t : Str) :
    ((removeEdgePermutation (F := F) t) (reopen db false)).1 = .ok () ∧
    ((removeEdgePermutation (F := F) t) (reopen db false)).2.disk = db.deletePerm t :=
  Runs.here (T := fun _ => True) (removePerm_run (s := reopen db false) t (fun _ => trivial))

/-- The edge is visible: the row that `exists` looks for is there. -/
def Visible (e : Val F) (db : DB) : Prop := ∃ n, HasRow db.perms e n ∧ patStart e.elems <+: rowOf e.elems n

theorem here_exists (hV : Vocab V) {db : DB} (hR : RowsOk V db.perms) {e : Val F} (he : EdgeOver V e) :
    ∃ b, ((existsM e) (reopen db false)).1 = .ok b ∧ ((existsM e) (reopen db false)).2.disk = db ∧
      (b = true ↔ Visible e db) := by
  obtain ⟨b, h1, h2⟩ := exists_rows hV he (s := reopen db false) (by simp [St.usable, reopen]) hR
  exact ⟨b, by rw [h1], by rw [h1]; rfl, h2⟩

theorem seen_all (hV : Vocab V) {e : Val F} (he : EdgeOver V e) {db : DB}
    (h : ∀ n, n < factorial e.elems.length → HasRow db.perms e n) : Visible e db := by
  obtain ⟨n, hn, hn2⟩ := pattern_has_row hV he.pattern he
      ((Matches.self_iff (fun p hp => V_ne_none hV (he.mem p hp))).2 rfl)
  exact ⟨n, h n hn, hn2⟩

theorem atom_text_ne (hV : Vocab V) {v e : Val F} (hv : WfVal v) (ha : v.isAtom = true) (he : EdgeOver V e) :
    edge2str v ≠ edge2str e :=
  fun h => atom_ne_edge ha he (edge2str_inj hv (he.wf hV) h)

/-! ### a whole bulk addition as one step -/

/-- What adding the absent edge `e` does to the contents. -/
def AddEff (e : Val F) (db db' : DB) : Prop :=
  (∀ r, r ∈ db'.perms ↔ r ∈ db.perms ∨ r ∈ rowsOf e.elems) ∧
  (∀ v : Val F, WfVal v → v.isAtom = true → KnownRow v db →
    KnownRow v db' ∧ degRow v db' = degRow v db + e.elems.count v) ∧
  ∀ v : Val F, WfVal v → v.isAtom = true → Rises v (e.elems.count v) db db'

theorem AddEff.rows {e : Val F} (he : EdgeOver V e) {db db' : DB} (h : AddEff e db db') (hR : RowsOk V db.perms) :
    RowsOk V db'.perms := by
  intro r hr
  rcases (h.1 r).1 hr with hr | hr
  · exact hR r hr
  · obtain ⟨n, hn, rfl⟩ := mem_rowsOf.1 hr
    exact ⟨e, n, he, hn, rfl⟩

theorem AddEff.hasRow (hV : Vocab V) {e x : Val F} (he : EdgeOver V e) (hx : EdgeOver V x) {db db' : DB}
    (h : AddEff e db db') (k : Nat) :
    HasRow db'.perms x k ↔ HasRow db.perms x k ∨ (x = e ∧ k < factorial e.elems.length) := by
  unfold HasRow
  rw [h.1]
  constructor
  · rintro ⟨h1, h2 | h2⟩
    · exact .inl ⟨h1, h2⟩
    · refine .inr ?_
      by_cases hne : x = e
      · subst hne; exact ⟨rfl, h1⟩
      · exact absurd h2 (not_rowsOf_other hV he hx hne h1)
  · rintro (⟨h1, h2⟩ | ⟨rfl, h1⟩)
    · exact ⟨h1, .inl h2⟩
    · exact ⟨h1, .inr (mem_rowsOf.2 ⟨k, h1, rfl⟩)⟩

/-- The contents go through the relations of the elements. -/
def Chain {α : Type} (R : α → DB → DB → Prop) : List α → DB → DB → Prop
  | [], a, b => b = a
  | x :: xs, a, c => ∃ b, R x a b ∧ Chain R xs b c

abbrev TTrue : DB → Prop := fun _ => True

theorem forEach_chain {α : Type} {f : α → M Unit} {I : DB → Prop} {R : α → DB → DB → Prop} {xs : List α}
    (h : ∀ x ∈ xs, ∀ s : St, s.usable → I s.work →
      ∃ db', Runs true TTrue (f x) s () db' ∧ I db' ∧ R x s.work db') :
    ∀ s : St, s.usable → I s.work → ∃ db', Runs true TTrue (forEach f xs) s () db' ∧ I db' ∧ Chain R xs s.work db' := by
  induction xs with
  | nil => intro s _ hI; exact ⟨s.work, Runs.pure (), hI, rfl⟩
  | cons x xs ih =>
    intro s hu hI
    obtain ⟨db1, ⟨s1, e1, st1⟩, hI1, hR1⟩ := h x (by simp) s hu hI
    obtain ⟨db2, ⟨s2, e2, st2⟩, hI2, hR2⟩ := ih (fun y hy => h y (by simp [hy])) s1 (st1.usable hu)
      (by rw [st1.work]; exact hI1)
    rw [st1.work] at hR2
    exact ⟨db2, ⟨s2, by rw [forEach, bind_run _ _ _ e1, e2], st1.trans st2⟩, hI2, db1, hR1, hR2⟩

/-- What the loop body of `add_raw` does. -/
def VertEff (x : Val F) (a b : DB) : Prop := b.perms = a.perms ∧ (∀ v : Val F, WfVal v → KnownRow v a →
  KnownRow v b ∧ degRow v b = degRow v a + if v = x then 1 else 0) ∧
  ∀ v : Val F, WfVal v → Rises v (if v = x then 1 else 0) a b

/-- What writing one row does. -/
def WriteEff (r : Str) (a b : DB) : Prop := b.vertices = a.vertices ∧ ∀ x, x ∈ b.perms ↔ x ∈ a.perms ∨ x = r

theorem addVert_eff {x : Val F} (hx : WfVal x) (ts : Int) (s : St) (hu : s.usable) :
    ∃ db', Runs true TTrue (addVert ts x) s () db' ∧ True ∧ VertEff x s.work db' := by
  have hinj : ∀ v : Val F, WfVal v → (edge2str v = edge2str x ↔ v = x) :=
    fun v hv => ⟨edge2str_inj hv hx, fun h => by rw [h]⟩
  have h1 := incDegree_run (q := true) (T := TTrue) hu (edge2str x) (fun _ => trivial)
  obtain ⟨s1, e1, st1⟩ := h1
  unfold addVert Runs
  simp only [bind_run _ _ _ e1]
  cases hk : decide ((s.work.bumpDegree 1 (edge2str x)).1 > 0) with
  | true =>
    refine ⟨(s.work.bumpDegree 1 (edge2str x)).2, ⟨s1, rfl, st1⟩, trivial, rfl, ?_, ?_⟩
    · intro v hv hkn
      have := degRow_bump hkn 1 (edge2str x)
      simpa only [hinj v hv] using this
    · intro v hv
      by_cases hvx : v = x
      · subst hvx
        have := (degRow_bump_eq v s.work 1).1 hk
        unfold Rises
        rw [this, if_pos rfl]
        omega
      · rw [if_neg hvx]
        exact Rises.same (degRow_bump_ne (fun h => hvx ((hinj v hv).1 h)) 1)
  | false =>
    have h2 := upsertVertex_run (q := true) (T := TTrue) (st1.usable hu) (edge2str x) 1 ts (fun _ => trivial)
    obtain ⟨s2, e2, st2⟩ := h2
    rw [st1.work] at st2
    refine ⟨_, ⟨s2, e2, st1.trans st2⟩, trivial, ?_, ?_, ?_⟩
    rotate_left 2
    · intro v hv
      by_cases hvx : v = x
      · subst hvx
        unfold Rises
        rw [degRow_upsert_eq, if_pos rfl]
        omega
      · rw [if_neg hvx]
        have hne : edge2str v ≠ edge2str x := fun h => hvx ((hinj v hv).1 h)
        exact Rises.same ((degRow_upsert_ne hne 1 ts).trans (degRow_bump_ne hne 1))
    · unfold DB.upsertVertex; split <;> rfl
    · intro v hv hkn
      have hne : v ≠ x := by
        rintro rfl
        rw [known_bump hkn] at hk
        exact absurd hk (by simp)
      obtain ⟨k1, k2⟩ := degRow_bump hkn 1 (edge2str x)
      obtain ⟨k3, k4⟩ := degRow_upsert k1 (t := edge2str x) 1 ts
      refine ⟨k3, ?_⟩
      rw [k4 (fun h => hne ((hinj v hv).1 h)), k2]
      simp only [hinj v hv]

theorem writeRow_eff (r : Str) (s : St) (hu : s.usable) :
    ∃ db', Runs true TTrue (writeEdgePermutation (F := F) r) s () db' ∧ True ∧ WriteEff r s.work db' := by
  rw [write_eq]
  refine ⟨_, upsertPerm_run hu r (fun _ => trivial), trivial, ?_, ?_⟩
  · unfold DB.upsertPerm; split <;> rfl
  · intro x
    unfold DB.upsertPerm
    split
    · refine ⟨.inl, ?_⟩
      rintro (h | rfl) <;> assumption
    · simp

theorem chain_vert {xs : List (Val F)} {db db' : DB}
    (h : Chain VertEff xs db db') :
    db'.perms = db.perms ∧ (∀ v : Val F, WfVal v → KnownRow v db →
      KnownRow v db' ∧ degRow v db' = degRow v db + xs.count v) ∧
      ∀ v : Val F, WfVal v → Rises v (xs.count v) db db' := by
  induction xs generalizing db with
  | nil =>
    cases h
    exact ⟨rfl, fun v _ hk => ⟨hk, by simp⟩, fun v _ => Rises.same rfl⟩
  | cons x xs ih =>
    obtain ⟨b, ⟨h1, h2, h2'⟩, h3⟩ := h
    obtain ⟨i1, i2, i3⟩ := ih h3
    refine ⟨i1.trans h1, ?_, fun v hv => ?_⟩
    rotate_left 1
    · have := (h2' v hv).trans (i3 v hv)
      rw [List.count_cons]
      by_cases hvx : v = x
      · subst hvx; simpa [Nat.add_comm] using this
      · have hb : (x == v) = false := by simpa using fun h => hvx h.symm
        simpa [hvx, hb] using this
    intro v hv hk
    obtain ⟨k1, k2⟩ := h2 v hv hk
    obtain ⟨k3, k4⟩ := i2 v hv k1
    refine ⟨k3, ?_⟩
    rw [k4, k2, List.count_cons]
    by_cases hvx : v = x
    · subst hvx; simp; omega
    · have : (x == v) = false := by simpa using fun h => hvx h.symm
      simp [hvx, this]

theorem chain_write {rows : List Str} {db db' : DB}
    (h : Chain WriteEff rows db db') :
    db'.vertices = db.vertices ∧ ∀ x, x ∈ db'.perms ↔ x ∈ db.perms ∨ x ∈ rows := by
  induction rows generalizing db with
  | nil =>
    cases h
    exact ⟨rfl, by simp⟩
  | cons r rows ih =>
    obtain ⟨b, ⟨h1, h2⟩, h3⟩ := h
    obtain ⟨i1, i2⟩ := ih h3
    refine ⟨i1.trans h1, fun x => ?_⟩
    rw [i2, h2, List.mem_cons, or_assoc]

theorem addNew_eff (hV : Vocab V) {e : Val F} (he : EdgeOver V e) (ts : Int) (s : St) (hu : s.usable) :
    ∃ db', Runs true TTrue (addNew e ts) s () db' ∧ AddEff e s.work db' := by
  obtain ⟨db1, ⟨s1, e1, st1⟩, _, h1⟩ := forEach_chain (I := TTrue) (xs := e.elems) (f := addVert ts) (R := VertEff)
    (fun x hx s hu _ => addVert_eff (edge_wf hV he x hx) ts s hu) s hu trivial
  obtain ⟨p1, d1, d2⟩ := chain_vert h1
  obtain ⟨s2, e2, st2⟩ := upsertVertex_run (q := true) (T := TTrue) (st1.usable hu) (edge2str e) 0 ts (fun _ => trivial)
  rw [st1.work] at st2
  obtain ⟨db3, ⟨s3, e3, st3⟩, _, h3⟩ := forEach_chain (I := TTrue) (xs := rowsOf e.elems)
    (f := writeEdgePermutation (F := F)) (R := WriteEff) (fun r _ s hu _ => writeRow_eff r s hu) s2 (st2.usable (st1.usable hu)) trivial
  obtain ⟨v3, p3⟩ := chain_write h3
  rw [st2.work] at v3 p3
  refine ⟨db3, ⟨s3, ?_, (st1.trans st2).trans st3⟩, ?_, ?_, ?_⟩
  · unfold addNew
    rw [bind_run _ _ _ (liftE_ok (iter_edge he) s), bind_run _ _ _ e1]
    unfold addStr
    rw [bind_run _ _ _ e2]
    unfold writeEdgePermutations
    rw [doWithPerms_eq he.elems_ne]
    exact e3
  · intro r
    rw [p3]
    have : (db1.upsertVertex (edge2str e) 0 ts).perms = s.work.perms := by
      rw [← p1]; unfold DB.upsertVertex; split <;> rfl
    rw [this]
  · intro v hv ha hk
    obtain ⟨k1, k2⟩ := d1 v hv hk
    obtain ⟨k3, k4⟩ := degRow_upsert k1 (t := edge2str e) 0 ts
    unfold KnownRow degRow DB.selectVertex at *
    rw [v3]
    exact ⟨k3, (k4 (atom_text_ne hV hv ha he)).trans k2⟩
  · intro v hv ha
    have h4 : Rises v 0 db1 db3 := by
      refine Rises.same ?_
      have : degRow v db3 = degRow v (db1.upsertVertex (edge2str e) 0 ts) := by
        unfold degRow DB.selectVertex; rw [v3]
      rw [this, degRow_upsert_ne (atom_text_ne hV hv ha he)]
    exact (d2 v hv).trans h4

/-- What `add_raw` does to the contents. -/
def RawEff (e : Val F) (db db' : DB) : Prop := (Visible e db ∧ db' = db) ∨ (¬ Visible e db ∧ AddEff e db db')

theorem addRaw_eff (hV : Vocab V) {e : Val F} (he : EdgeOver V e) (ts : Int) (s : St) (hu : s.usable)
    (hR : RowsOk V s.work.perms) :
    ∃ db', Runs true TTrue (do let _ ← addRaw e ts) s () db' ∧ RowsOk V db'.perms ∧ RawEff e s.work db' := by
  obtain ⟨b, hb, hb2⟩ := exists_rows hV he hu hR
  cases b with
  | true =>
    refine ⟨s.work, ⟨s, ?_, Step.refl s⟩, hR, .inl ⟨hb2.1 rfl, rfl⟩⟩
    unfold addRaw
    rw [bind_run _ _ _ (show _ = (Except.ok e, s) from by rw [bind_run _ _ _ hb]; rfl)]
    rfl
  | false =>
    obtain ⟨db', ⟨s', e1, st1⟩, heff⟩ := addNew_eff hV he ts s hu
    refine ⟨db', ⟨s', ?_, st1⟩, heff.rows he hR, .inr ⟨fun h => by simpa using hb2.2 h, heff⟩⟩
    have : addRaw e ts s = (.ok e, s') := by
      unfold addRaw
      rw [bind_run _ _ _ hb]
      simp only [Bool.not_false, if_true]
      have h2 : (addNew e ts >>= fun _ => (pure e : M (Val F))) s = (.ok e, s') := by
        rw [bind_run _ _ _ e1]; rfl
      rw [← h2]
      unfold addNew
      simp only [bind_assoc']
    rw [bind_run _ _ _ this]
    rfl

/-- The rest of a bulk addition, from the first absent edge on. -/
theorem bulk_run (hV : Vocab V) {e : Val F} (he : EdgeOver V e) {es : List (Val F)} (hes : ∀ x ∈ es, EdgeOver V x)
    (ts : Int) (db : DB) (hR : RowsOk V db.perms) :
    ∃ s' db1 db2, (do
          let _ ← openCursor false
          addNew e ts
          forEach (fun e => do let _ ← addRaw e ts) es
          closeCursor false true : M Unit) (reopen db false) = (.ok (), s') ∧ s'.disk = db2 ∧ s'.work = db2 ∧
        s'.commits.length = 1 ∧ RowsOk V db1.perms ∧ RowsOk V db2.perms ∧
        AddEff e db db1 ∧ Chain RawEff es db1 db2 := by
  have h0 : openCursor false (reopen db false) = (.ok .shared, { reopen db false with cur := some true }) := rfl
  generalize hs0 : ({ reopen db false with cur := some true } : St) = s0 at h0
  have hu0 : s0.usable := by rw [← hs0]; simp [St.usable]
  have hw0 : s0.work = db := by rw [← hs0]; rfl
  obtain ⟨db1, ⟨s1, e1, st1⟩, h1⟩ := addNew_eff hV he ts s0 hu0
  have hR1 : RowsOk V db1.perms := h1.rows he (by rw [hw0]; exact hR)
  obtain ⟨db2, ⟨s2, e2, st2⟩, hR2, h2⟩ := forEach_chain (I := fun d => RowsOk V d.perms) (xs := es)
    (f := fun e => do let _ ← addRaw e ts) (R := RawEff)
    (fun x hx s hu hR => addRaw_eff hV (hes x hx) ts s hu hR) s1 (st1.usable hu0) (by rw [st1.work]; exact hR1)
  have hst := st1.trans st2
  have hcur : s2.cur = some true := by rw [hst.cur, ← hs0]
  have hq := hst.quiet rfl (by rw [← hs0]; simp) (by rw [← hs0]; rfl)
  have h3 : closeCursor false true s2 = (.ok (), { s2.commit with cur := none }) := by
    unfold closeCursor
    simp [St.commit, hcur]
  refine ⟨{ s2.commit with cur := none }, db1, db2, ?_, ?_, ?_, ?_, hR1, hR2, ?_, ?_⟩
  · rw [bind_run _ _ _ h0, bind_run _ _ _ e1, bind_run _ _ _ e2, h3]
  · exact st2.work
  · exact st2.work
  · show (s2.commits ++ [s2.work]).length = 1
    rw [hq.2, ← hs0]; rfl
  · rw [← hw0]; exact h1
  · rw [← st1.work]; exact h2

end GB
