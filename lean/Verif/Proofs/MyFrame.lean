import Verif.Proofs.MyTree
import Verif.Proofs.MySql

/-! The part of the database that belongs to one client, and what the statements of the client do with it. -/

set_option linter.unusedSectionVars false

namespace GB

variable {F : Type} [PyFloat F] [DecidableEq F] {V : Val F → Prop}

/-- What belongs to a client: edges no other client works on (`own`), the edges it works on (`used`), those its calls may
touch (`mine`), the ids of vertices no other client works with (`verts`); and the ids of symbols all know (`known`). -/
structure Field (F : Type) where
  own : Val F → Prop
  used : Val F → Prop
  mine : Val F → Prop
  verts : Str → Prop
  known : Str → Prop

/-- The row belongs to an edge satisfying `O`. -/
def RowIn (V : Val F → Prop) (O : Val F → Prop) (r : Str) : Prop :=
  ∃ x n, O x ∧ EdgeOver V x ∧ n < factorial x.elems.length ∧ r = rowOf x.elems n

open Classical in
/-- The rows of the edges satisfying `O`, in their order. -/
noncomputable def rowsIn (V : Val F → Prop) (O : Val F → Prop) (ps : List Str) : List Str :=
  ps.filter fun r => decide (RowIn V O r)

open Classical in
/-- The other rows, in their order. -/
noncomputable def rowsOut (V : Val F → Prop) (O : Val F → Prop) (ps : List Str) : List Str :=
  ps.filter fun r => decide (¬ RowIn V O r)

/-- The id of an edge the client works on, or of one of its elements. -/
def Field.Works (X : Field F) (t : Str) : Prop := ∃ x, X.used x ∧ (t = edge2str x ∨ ∃ v ∈ x.elems, t = edge2str v)

/-- What holds of the contents at all times. -/
structure MyInv (V : Val F → Prop) (k : Nat) (known : Str → Prop) (db : DB) : Prop where
  rows : RowsOk V db.perms
  short : DB.Short k db
  known : ∀ t, known t → ∃ r, db.selectVertex t = [r]

/-- The degree in the row of `t`. -/
def degAt (t : Str) (db : DB) : Int :=
  match db.selectVertex t with
  | [] => 0
  | r :: _ => r.degree

/-- The time stamp in the row of `t`. -/
def tsAt (t : Str) (db : DB) : Int :=
  match db.selectVertex t with
  | [] => -1
  | r :: _ => r.timestamp

/-- The degree and the time stamp of `t` change by the same amounts. -/
def SameChange (t : Str) (db db' d d' : DB) : Prop :=
  degAt t db' - degAt t db = degAt t d' - degAt t d ∧ tsAt t db' - tsAt t db = tsAt t d' - tsAt t d

/-- The client cannot tell the contents apart. -/
structure Alike (V : Val F → Prop) (k : Nat) (X : Field F) (db d : DB) : Prop where
  inv : MyInv V k X.known db
  inv' : MyInv V k X.known d
  rows : rowsIn V X.own db.perms = rowsIn V X.own d.perms
  verts : ∀ t, X.verts t → db.selectVertex t = d.selectVertex t
  mine : ∀ x n, EdgeOver V x → X.mine x → HasRow d.perms x n → X.used x

/-- The client changes only what it works with; and the degrees (and time stamps) of known symbols by the same amount. -/
structure MyMoves (V : Val F → Prop) (k : Nat) (X : Field F) (db db' d d' : DB) : Prop where
  inv : MyInv V k X.known db'
  rows : rowsOut V X.used db'.perms = rowsOut V X.used db.perms
  verts : ∀ t, ¬ X.Works t → db'.selectVertex t = db.selectVertex t
  deg : ∀ t, X.known t → SameChange t db db' d d'

/-- The parts fit together. -/
structure Field.Ok (V : Val F → Prop) (k : Nat) (X : Field F) : Prop where
  own : ∀ x, X.used x → X.own x
  edge : ∀ x, X.used x → EdgeOver V x
  self : ∀ x, X.used x → X.verts (edge2str x)
  elems : ∀ x, X.used x → ∀ v ∈ x.elems, X.verts (edge2str v) ∨ X.known (edge2str v)
  keep : ∀ x, X.used x → ¬ X.known (edge2str x)
  some : ∃ db d, Alike V k X db d

variable {k : Nat} {X : Field F}

theorem MyMoves.refl {db d : DB} (h : Alike V k X db d) : MyMoves V k X db db d d :=
  ⟨h.inv, rfl, fun _ _ => rfl, fun _ _ => by unfold SameChange; omega⟩

/-! ### vertices -/

theorem degAt_eq {t : Str} {db d : DB} (h : db.selectVertex t = d.selectVertex t) : degAt t db = degAt t d := by
  unfold degAt; rw [h]

theorem tsAt_eq {t : Str} {db d : DB} (h : db.selectVertex t = d.selectVertex t) : tsAt t db = tsAt t d := by
  unfold tsAt; rw [h]

/-- A change of the table `vertices` at one id `t`. -/
theorem alike_vertex {db d db' d' : DB} (h : Alike V k X db d) {t : Str} (hp : db'.perms = db.perms) (hp' : d'.perms = d.perms)
    (hother : ∀ t', t' ≠ t → db'.selectVertex t' = db.selectVertex t')
    (hother' : ∀ t', t' ≠ t → d'.selectVertex t' = d.selectVertex t')
    (hshort : ∀ r ∈ db'.vertices, r.id.length ≤ k) (hshort' : ∀ r ∈ d'.vertices, r.id.length ≤ k)
    (hsame : X.verts t → db'.selectVertex t = d'.selectVertex t)
    (hknown : X.known t → (∃ r, db'.selectVertex t = [r]) ∧ ∃ r, d'.selectVertex t = [r])
    (hdeg : X.known t → SameChange t db db' d d') (hw : X.Works t) :
    Alike V k X db' d' ∧ MyMoves V k X db db' d d' := by
  have i1 : MyInv V k X.known db' := by
    refine ⟨by rw [hp]; exact h.inv.rows, ⟨hshort, by rw [hp]; exact h.inv.short.2⟩, fun t' ht' => ?_⟩
    by_cases e : t' = t
    · subst e; exact (hknown ht').1
    · rw [hother t' e]; exact h.inv.known t' ht'
  have i2 : MyInv V k X.known d' := by
    refine ⟨by rw [hp']; exact h.inv'.rows, ⟨hshort', by rw [hp']; exact h.inv'.short.2⟩, fun t' ht' => ?_⟩
    by_cases e : t' = t
    · subst e; exact (hknown ht').2
    · rw [hother' t' e]; exact h.inv'.known t' ht'
  refine ⟨⟨i1, i2, by rw [hp, hp']; exact h.rows, fun t' ht' => ?_, by rw [hp']; exact h.mine⟩,
    i1, by rw [hp], fun t' ht' => ?_, fun t' ht' => ?_⟩
  · by_cases e : t' = t
    · subst e; exact hsame ht'
    · rw [hother t' e, hother' t' e]; exact h.verts t' ht'
  · exact hother t' fun e => ht' (e ▸ hw)
  · by_cases e : t' = t
    · subst e; exact hdeg ht'
    · unfold SameChange
      rw [degAt_eq (hother t' e), degAt_eq (hother' t' e), tsAt_eq (hother t' e), tsAt_eq (hother' t' e)]; omega

theorem deg_both {db d db' d' : DB} {t : Str} (h : db.selectVertex t = d.selectVertex t)
    (h' : db'.selectVertex t = d'.selectVertex t) : SameChange t db db' d d' := by
  unfold SameChange
  rw [degAt_eq h, degAt_eq h', tsAt_eq h, tsAt_eq h']
  exact ⟨rfl, rfl⟩

theorem loc_bump {cu : Cursor} (n : Int) {t : Str} (ht : X.verts t ∨ X.known t) (hw : X.Works t) :
    (cWrite cu fun db => some (db.bumpDegree n t)).Loc (Alike V k X) (MyMoves V k X) fun c => X.known t → 0 < c := by
  refine loc_write fun db d h => .inl ?_
  have hc : (db.bumpDegree n t).1 = (d.bumpDegree n t).1 := by
    simp only [DB.bumpDegree, countP_select]
    rcases ht with ht | ht
    · rw [h.verts t ht]
    · obtain ⟨r, hr⟩ := h.inv.known t ht
      obtain ⟨r', hr'⟩ := h.inv'.known t ht
      rw [hr, hr']
      rfl
  have hs : ∀ (b : DB) t', t' ≠ t → (b.bumpDegree n t).2.selectVertex t' = b.selectVertex t' := by
    intro b t' e
    rw [select_bump]
    simp [e]
  have hsh : ∀ (b : DB), (∀ r ∈ b.vertices, r.id.length ≤ k) → ∀ r ∈ (b.bumpDegree n t).2.vertices, r.id.length ≤ k := by
    intro b hb r hr
    obtain ⟨q, hq, rfl⟩ := List.mem_map.1 hr
    split
    · exact hb q hq
    · exact hb q hq
  have hk : ∀ (b : DB), (∃ r, b.selectVertex t = [r]) → (∃ r, (b.bumpDegree n t).2.selectVertex t = [r]) ∧
      degAt t (b.bumpDegree n t).2 - degAt t b = n ∧ tsAt t (b.bumpDegree n t).2 - tsAt t b = 0 := by
    rintro b ⟨r, hr⟩
    have := select_bump b n t t
    rw [hr] at this
    refine ⟨⟨_, this⟩, ?_⟩
    unfold degAt tsAt
    rw [this, hr]
    simp only [List.map_cons, List.map_nil, if_true]
    omega
  obtain ⟨a1, a2⟩ := alike_vertex h (t := t) (db' := (db.bumpDegree n t).2) (d' := (d.bumpDegree n t).2) rfl rfl
    (hs db) (hs d) (hsh db h.inv.short.1) (hsh d h.inv'.short.1)
    (fun hv => by rw [select_bump, select_bump, h.verts t hv])
    (fun hkn => ⟨(hk db (h.inv.known t hkn)).1, (hk d (h.inv'.known t hkn)).1⟩)
    (fun hkn => by
      obtain ⟨e1, e2⟩ := (hk db (h.inv.known t hkn)).2
      obtain ⟨e3, e4⟩ := (hk d (h.inv'.known t hkn)).2
      exact ⟨e1.trans e3.symm, e2.trans e4.symm⟩) hw
  refine ⟨(d.bumpDegree n t).1, _, _, by rw [← hc], rfl, a1, a2, fun hkn => ?_⟩
  simp only [DB.bumpDegree, countP_select]
  obtain ⟨r, hr⟩ := h.inv'.known t hkn
  rw [hr]
  simp

theorem select_myUpdate (db : DB) (t t' : Str) (deg ts : Int) :
    (db.myUpdateVertex t deg ts).2.selectVertex t' =
      (db.selectVertex t').map fun r => if t' = t then (⟨t, deg, ts⟩ : VRow) else r := by
  unfold DB.myUpdateVertex DB.selectVertex
  simp only [List.filter_map]
  have h1 : (fun r : VRow => decide (r.id = t')) ∘ (fun r : VRow => if r.id = t then (⟨t, deg, ts⟩ : VRow) else r)
      = fun r => decide (r.id = t') := by
    funext r
    simp only [Function.comp_apply]
    by_cases h : r.id = t
    · simp [h]
    · simp [h]
  rw [h1]
  apply List.map_congr_left
  intro r hr
  rw [List.mem_filter] at hr
  have : r.id = t' := by simpa using hr.2
  rw [this]

theorem loc_update {cu : Cursor} {t : Str} (deg ts : Int) (ht : X.verts t) (hw : X.Works t) :
    (cWrite cu fun db => some (db.myUpdateVertex t deg ts)).Loc (Alike V k X) (MyMoves V k X) fun _ => True := by
  refine loc_write fun db d h => .inl ?_
  have hcnt : ∀ b : DB, (b.myUpdateVertex t deg ts).1 = (b.selectVertex t).countP fun r => decide (r ≠ ⟨t, deg, ts⟩) := by
    intro b
    unfold DB.myUpdateVertex DB.selectVertex
    rw [List.countP_filter]
    show List.countP _ _ = _
    apply List.countP_congr
    intro r _
    rw [Bool.and_comm]
  have hc : (db.myUpdateVertex t deg ts).1 = (d.myUpdateVertex t deg ts).1 := by
    rw [hcnt, hcnt, h.verts t ht]
  have hs : ∀ (b : DB) t', t' ≠ t → (b.myUpdateVertex t deg ts).2.selectVertex t' = b.selectVertex t' := by
    intro b t' e
    rw [select_myUpdate]
    simp [e]
  have hsh : ∀ (b : DB), (∀ r ∈ b.vertices, r.id.length ≤ k) →
      ∀ r ∈ (b.myUpdateVertex t deg ts).2.vertices, r.id.length ≤ k := by
    intro b hb r hr
    obtain ⟨q, hq, rfl⟩ := List.mem_map.1 hr
    split
    · next e => have := hb q hq; rw [e] at this; exact this
    · exact hb q hq
  have hk : ∀ (b : DB), (∃ r, b.selectVertex t = [r]) → ∃ r, (b.myUpdateVertex t deg ts).2.selectVertex t = [r] := by
    rintro b ⟨r, hr⟩
    have := select_myUpdate b t t deg ts
    rw [hr] at this
    exact ⟨_, this⟩
  have hsame : (db.myUpdateVertex t deg ts).2.selectVertex t = (d.myUpdateVertex t deg ts).2.selectVertex t := by
    rw [select_myUpdate, select_myUpdate, h.verts t ht]
  obtain ⟨a1, a2⟩ := alike_vertex h (t := t) (db' := (db.myUpdateVertex t deg ts).2) (d' := (d.myUpdateVertex t deg ts).2)
    rfl rfl (hs db) (hs d) (hsh db h.inv.short.1) (hsh d h.inv'.short.1) (fun _ => hsame)
    (fun hkn => ⟨hk db (h.inv.known t hkn), hk d (h.inv'.known t hkn)⟩)
    (fun _ => deg_both (h.verts t ht) hsame) hw
  exact ⟨(d.myUpdateVertex t deg ts).1, _, _, by rw [← hc], rfl, a1, a2, trivial⟩

theorem my_any {db : DB} {t : Str} (hs : ∀ r ∈ db.vertices, r.id.length ≤ k) (ht : t.length ≤ k) :
    (db.vertices.any fun r => decide (r.id.take k = t.take k)) = !(db.selectVertex t).isEmpty := by
  have h1 : (db.vertices.any fun r => decide (r.id.take k = t.take k)) = db.vertices.any fun r => decide (r.id = t) :=
    any_congr_mem fun r hr => by simp [take_short (hs r hr) ht]
  rw [h1, Bool.eq_iff_iff]
  unfold DB.selectVertex
  simp [List.filter_eq_nil_iff]

theorem loc_insert {cu : Cursor} {t : Str} (deg ts : Int) (ht : X.verts t) (hw : X.Works t) (hl : t.length ≤ k) :
    (cWrite cu fun db => db.myInsertVertex k t deg ts).Loc (Alike V k X) (MyMoves V k X) fun _ => True := by
  refine loc_write fun db d h => ?_
  have ha := my_any h.inv.short.1 hl
  have ha' := my_any h.inv'.short.1 hl
  rw [h.verts t ht] at ha
  by_cases hemp : (d.selectVertex t).isEmpty = true
  · left
    rw [hemp] at ha ha'
    have hnil : d.selectVertex t = [] := List.isEmpty_iff.1 hemp
    have hnil' : db.selectVertex t = [] := (h.verts t ht).trans hnil
    have hsel : ∀ (b : DB) t', (DB.mk (b.vertices ++ [⟨t, deg, ts⟩]) b.perms).selectVertex t' =
        b.selectVertex t' ++ if t = t' then [⟨t, deg, ts⟩] else [] := by
      intro b t'
      unfold DB.selectVertex
      rw [List.filter_append]
      congr 1
      by_cases e : t = t' <;> simp [e]
    have hs : ∀ (b : DB) t', t' ≠ t → (DB.mk (b.vertices ++ [⟨t, deg, ts⟩]) b.perms).selectVertex t' = b.selectVertex t' := by
      intro b t' e
      rw [hsel, if_neg fun h => e h.symm, List.append_nil]
    have hsh : ∀ (b : DB), (∀ r ∈ b.vertices, r.id.length ≤ k) →
        ∀ r ∈ b.vertices ++ [(⟨t, deg, ts⟩ : VRow)], r.id.length ≤ k := by
      intro b hb r hr
      rcases List.mem_append.1 hr with hr | hr
      · exact hb r hr
      · rw [List.mem_singleton.1 hr]; exact hl
    have hsame : (DB.mk (db.vertices ++ [⟨t, deg, ts⟩]) db.perms).selectVertex t =
        (DB.mk (d.vertices ++ [⟨t, deg, ts⟩]) d.perms).selectVertex t := by
      rw [hsel, hsel, h.verts t ht]
    have hno : ¬ X.known t := fun hkn => by
      obtain ⟨r, hr⟩ := h.inv'.known t hkn
      rw [hnil] at hr
      cases hr
    obtain ⟨a1, a2⟩ := alike_vertex h (t := t) (db' := ⟨db.vertices ++ [⟨t, deg, ts⟩], db.perms⟩)
      (d' := ⟨d.vertices ++ [⟨t, deg, ts⟩], d.perms⟩) rfl rfl (hs db) (hs d) (hsh db h.inv.short.1)
      (hsh d h.inv'.short.1) (fun _ => hsame) (fun hkn => absurd hkn hno) (fun hkn => absurd hkn hno) hw
    refine ⟨(), _, _, ?_, ?_, a1, a2, trivial⟩
    · unfold DB.myInsertVertex; rw [ha]; rfl
    · unfold DB.myInsertVertex; rw [ha']; rfl
  · right
    have hemp : (d.selectVertex t).isEmpty = false := by simpa using hemp
    rw [hemp] at ha ha'
    exact ⟨by unfold DB.myInsertVertex; rw [ha]; rfl, by unfold DB.myInsertVertex; rw [ha']; rfl⟩

theorem select_delete_self (db : DB) (t : Str) : (db.deleteVertex t).selectVertex t = [] := by
  unfold DB.deleteVertex DB.selectVertex
  rw [List.filter_filter, List.filter_eq_nil_iff]
  intro r _
  simp

theorem loc_deleteVertex {cu : Cursor} {t : Str} (hk : ¬ X.known t) (hw : X.Works t) :
    (cWrite cu fun db => some ((), db.deleteVertex t)).Loc (Alike V k X) (MyMoves V k X) fun _ => True := by
  refine loc_write fun db d h => .inl ?_
  have hs : ∀ (b : DB) t', t' ≠ t → (b.deleteVertex t).selectVertex t' = b.selectVertex t' :=
    fun b t' e => select_delete_ne b e
  have hsh : ∀ (b : DB), (∀ r ∈ b.vertices, r.id.length ≤ k) → ∀ r ∈ (b.deleteVertex t).vertices, r.id.length ≤ k :=
    fun b hb r hr => hb r (List.mem_filter.1 hr).1
  obtain ⟨a1, a2⟩ := alike_vertex h (t := t) (db' := db.deleteVertex t) (d' := d.deleteVertex t) rfl rfl (hs db) (hs d)
    (hsh db h.inv.short.1) (hsh d h.inv'.short.1) (fun _ => by rw [select_delete_self, select_delete_self])
    (fun hkn => absurd hkn hk) (fun hkn => absurd hkn hk) hw
  exact ⟨(), _, _, rfl, rfl, a1, a2, trivial⟩

/-! ### rows of the index -/

theorem edge_ext {x y : Val F} (hx : EdgeOver V x) (hy : EdgeOver V y) (h : x.elems = y.elems) : x = y := by
  obtain ⟨a, b, rfl, _⟩ := hx
  obtain ⟨c, d, rfl, _⟩ := hy
  simpa [Val.elems] using h

theorem rowIn_of {O : Val F → Prop} {x : Val F} (ho : O x) (hx : EdgeOver V x) {n : Nat} (hn : n < factorial x.elems.length) :
    RowIn V O (rowOf x.elems n) := ⟨x, n, ho, hx, hn, rfl⟩

theorem rowIn_iff (hV : Vocab V) {O : Val F → Prop} {x : Val F} (hx : EdgeOver V x) {n : Nat}
    (hn : n < factorial x.elems.length) : RowIn V O (rowOf x.elems n) ↔ O x := by
  refine ⟨?_, fun h => rowIn_of h hx hn⟩
  rintro ⟨y, m, hy, hyv, hm, e⟩
  have := (rowOf_inj (edge_wf hV hx) (edge_wf hV hyv) hn hm e).1
  rwa [edge_ext hx hyv this]

theorem mem_rowsIn {O : Val F → Prop} {ps : List Str} {r : Str} : r ∈ rowsIn V O ps ↔ r ∈ ps ∧ RowIn V O r := by
  unfold rowsIn; simp [List.mem_filter]

/-- A change of the table `perms` at one row. -/
theorem alike_perm {db d db' d' : DB} (h : Alike V k X db d) (hv : db'.vertices = db.vertices) (hv' : d'.vertices = d.vertices)
    (hR : RowsOk V db'.perms) (hR' : RowsOk V d'.perms) (hS : ∀ r ∈ db'.perms, r.length ≤ k) (hS' : ∀ r ∈ d'.perms, r.length ≤ k)
    (hin : rowsIn V X.own db'.perms = rowsIn V X.own d'.perms)
    (hout : rowsOut V X.used db'.perms = rowsOut V X.used db.perms)
    (hm : ∀ x n, EdgeOver V x → X.mine x → HasRow d'.perms x n → X.used x) :
    Alike V k X db' d' ∧ MyMoves V k X db db' d d' := by
  have hs : ∀ t, db'.selectVertex t = db.selectVertex t := fun t => by unfold DB.selectVertex; rw [hv]
  have hs' : ∀ t, d'.selectVertex t = d.selectVertex t := fun t => by unfold DB.selectVertex; rw [hv']
  have i1 : MyInv V k X.known db' := ⟨hR, ⟨by rw [hv]; exact h.inv.short.1, hS⟩, fun t ht => by rw [hs]; exact h.inv.known t ht⟩
  have i2 : MyInv V k X.known d' :=
    ⟨hR', ⟨by rw [hv']; exact h.inv'.short.1, hS'⟩, fun t ht => by rw [hs']; exact h.inv'.known t ht⟩
  exact ⟨⟨i1, i2, hin, fun t ht => by rw [hs, hs']; exact h.verts t ht, hm⟩, i1, hout, fun t _ => hs t, fun t _ => by
    unfold SameChange
    rw [degAt_eq (hs t), degAt_eq (hs' t), tsAt_eq (hs t), tsAt_eq (hs' t)]; omega⟩

theorem rowsOk_snoc {ps : List Str} (h : RowsOk V ps) {x : Val F} (hx : EdgeOver V x) {n : Nat}
    (hn : n < factorial x.elems.length) : RowsOk V (ps ++ [rowOf x.elems n]) := by
  intro r hr
  rcases List.mem_append.1 hr with hr | hr
  · exact h r hr
  · exact ⟨x, n, hx, hn, List.mem_singleton.1 hr⟩

theorem my_anyPerm {ps : List Str} {t : Str} (hs : ∀ r ∈ ps, r.length ≤ k) (ht : t.length ≤ k) :
    (ps.any fun r => decide (r.take k = t.take k)) = decide (t ∈ ps) := by
  have h1 : (ps.any fun r => decide (r.take k = t.take k)) = ps.any fun r => decide (r = t) :=
    any_congr_mem fun r hr => by simp [take_short (hs r hr) ht]
  rw [h1, Bool.eq_iff_iff]
  simp

theorem loc_insertPerm (hV : Vocab V) (hX : X.Ok V k) {cu : Cursor} {x : Val F} (hu : X.used x) {n : Nat}
    (hn : n < factorial x.elems.length) (hl : (rowOf x.elems n).length ≤ k) :
    (cWrite cu fun db => db.myInsertPerm k (rowOf x.elems n)).Loc (Alike V k X) (MyMoves V k X) fun _ => True := by
  refine loc_write fun db d h => ?_
  have hx := hX.edge x hu
  have ha := my_anyPerm h.inv.short.2 hl
  have ha' := my_anyPerm h.inv'.short.2 hl
  have hmem : rowOf x.elems n ∈ db.perms ↔ rowOf x.elems n ∈ d.perms := by
    have : rowOf x.elems n ∈ rowsIn V X.own db.perms ↔ rowOf x.elems n ∈ rowsIn V X.own d.perms := by rw [h.rows]
    rw [mem_rowsIn, mem_rowsIn] at this
    have hr : RowIn V X.own (rowOf x.elems n) := rowIn_of (hX.own x hu) hx hn
    simpa [hr] using this
  by_cases hin : rowOf x.elems n ∈ d.perms
  · right
    rw [decide_eq_true (hmem.2 hin)] at ha
    rw [decide_eq_true hin] at ha'
    exact ⟨by unfold DB.myInsertPerm; rw [ha]; rfl, by unfold DB.myInsertPerm; rw [ha']; rfl⟩
  · left
    rw [decide_eq_false fun h => hin (hmem.1 h)] at ha
    rw [decide_eq_false hin] at ha'
    have hS : ∀ (ps : List Str), (∀ r ∈ ps, r.length ≤ k) → ∀ r ∈ ps ++ [rowOf x.elems n], r.length ≤ k := by
      intro ps hps r hr
      rcases List.mem_append.1 hr with hr | hr
      · exact hps r hr
      · rw [List.mem_singleton.1 hr]; exact hl
    obtain ⟨a1, a2⟩ := alike_perm h (db' := ⟨db.vertices, db.perms ++ [rowOf x.elems n]⟩)
      (d' := ⟨d.vertices, d.perms ++ [rowOf x.elems n]⟩) rfl rfl (rowsOk_snoc h.inv.rows hx hn)
      (rowsOk_snoc h.inv'.rows hx hn) (hS _ h.inv.short.2) (hS _ h.inv'.short.2)
      (by
        have := h.rows
        unfold rowsIn at this ⊢
        rw [List.filter_append, List.filter_append, this])
      (by
        unfold rowsOut
        rw [List.filter_append]
        have : RowIn V X.used (rowOf x.elems n) := rowIn_of hu hx hn
        simp [this])
      (by
        rintro y m hy hym ⟨hm, hr⟩
        rcases List.mem_append.1 hr with hr | hr
        · exact h.mine y m hy hym ⟨hm, hr⟩
        · have e := List.mem_singleton.1 hr
          have := (rowOf_inj (edge_wf hV hy) (edge_wf hV hx) hm hn e).1
          rwa [edge_ext hy hx this])
    refine ⟨(), _, _, ?_, ?_, a1, a2, trivial⟩
    · unfold DB.myInsertPerm; rw [ha]; rfl
    · unfold DB.myInsertPerm; rw [ha']; rfl

theorem loc_deletePerm (hX : X.Ok V k) {cu : Cursor} {x : Val F} (hu : X.used x) {n : Nat}
    (hn : n < factorial x.elems.length) :
    (cWrite cu fun db => some ((), db.deletePerm (rowOf x.elems n))).Loc (Alike V k X) (MyMoves V k X) fun _ => True := by
  refine loc_write fun db d h => .inl ?_
  have hx := hX.edge x hu
  obtain ⟨a1, a2⟩ := alike_perm h (db' := db.deletePerm (rowOf x.elems n)) (d' := d.deletePerm (rowOf x.elems n)) rfl rfl
    (rowsOk_delete h.inv.rows) (rowsOk_delete h.inv'.rows) (fun r hr => h.inv.short.2 r (List.mem_filter.1 hr).1)
    (fun r hr => h.inv'.short.2 r (List.mem_filter.1 hr).1)
    (by
      have := h.rows
      classical
      unfold rowsIn DB.deletePerm at *
      simp only [List.filter_filter] at this ⊢
      have hcomm : ∀ ps : List Str, ps.filter (fun r => decide (RowIn V X.own r) && decide (r ≠ rowOf x.elems n)) =
          (ps.filter fun r => decide (RowIn V X.own r)).filter fun r => decide (r ≠ rowOf x.elems n) := by
        intro ps
        rw [List.filter_filter]
        apply List.filter_congr
        intro r _
        exact Bool.and_comm _ _
      rw [hcomm, hcomm, this])
    (by
      unfold rowsOut DB.deletePerm
      simp only [List.filter_filter]
      apply List.filter_congr
      intro r _
      by_cases e : r = rowOf x.elems n
      · have : RowIn V X.used r := e ▸ rowIn_of hu hx hn
        simp [this]
      · simp [e])
    (by
      rintro y m hy hym ⟨hm, hr⟩
      exact h.mine y m hy hym ⟨hm, (List.mem_filter.1 hr).1⟩)
  exact ⟨(), _, _, rfl, rfl, a1, a2, trivial⟩

end GB
