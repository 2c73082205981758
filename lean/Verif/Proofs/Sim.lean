import Verif.Proofs.Abs
import Verif.Proofs.Step

/-! Simulation of the storage methods by operations on the abstract store. -/

set_option linter.unusedSectionVars false

namespace GB

variable {F : Type} [PyFloat F] [DecidableEq F] {V : Val F → Prop}

/-! ### abstract operations -/

/-- Is `v` a known vertex? -/
def hasV (v : Val F) (vs : List (VEnt F)) : Bool := vs.any fun r => r.v = v

/-- Change the degree of `v`, if known. -/
def bumpV (d : Int) (v : Val F) (vs : List (VEnt F)) : List (VEnt F) :=
  vs.map fun r => if r.v = v then { r with deg := r.deg + d } else r

/-- One more mention of `v`. -/
def touchV (ts : Int) (vs : List (VEnt F)) (v : Val F) : List (VEnt F) :=
  if hasV v vs then bumpV 1 v vs else vs ++ [⟨v, 1, ts⟩]

/-- Set degree and timestamp of `v`. -/
def setV (v : Val F) (d ts : Int) (vs : List (VEnt F)) : List (VEnt F) :=
  if hasV v vs then vs.map (fun r => if r.v = v then ⟨v, d, ts⟩ else r) else vs ++ [⟨v, d, ts⟩]

/-- Forget `v`. -/
def delV (v : Val F) (vs : List (VEnt F)) : List (VEnt F) := vs.filter fun r => r.v ≠ v

/-- Add an edge. -/
def Abs.add (A : Abs F) (e : Val F) (ts : Int) : Abs F :=
  if e ∈ A.edges then A
  else ⟨A.edges ++ [e], setV e 0 ts (e.elems.foldl (touchV ts) A.verts)⟩

/-- Remove an edge. -/
def Abs.remove (A : Abs F) (e : Val F) : Abs F :=
  if e ∈ A.edges then
    ⟨A.edges.filter (fun x => x ≠ e),
     delV e (e.elems.foldl (fun vs v => bumpV (-1) v vs) A.verts)⟩
  else A

/-- The empty store. -/
def Abs.empty : Abs F := ⟨[], []⟩

/-! ### vertex tables -/

/-- All keys are well-formed. -/
def KeysWf (vs : List (VEnt F)) : Prop := ∀ r ∈ vs, WfVal r.v

theorem text_eq_iff {v w : Val F} (hv : WfVal v) (hw : WfVal w) : edge2str v = edge2str w ↔ v = w :=
  ⟨edge2str_inj hv hw, fun h => by rw [h]⟩

theorem countP_row {vs : List (VEnt F)} (hk : KeysWf vs) {v : Val F} (hv : WfVal v) :
    (0 < (vs.map VEnt.row).countP fun r => r.id = edge2str v) ↔ hasV v vs = true := by
  rw [List.countP_pos_iff]
  simp only [List.mem_map, hasV, List.any_eq_true, decide_eq_true_eq, VEnt.row]
  constructor
  · rintro ⟨_, ⟨r, hr, rfl⟩, h⟩
    exact ⟨r, hr, edge2str_inj (hk r hr) hv h⟩
  · rintro ⟨r, hr, rfl⟩
    exact ⟨_, ⟨r, hr, rfl⟩, rfl⟩

theorem any_row {vs : List (VEnt F)} (hk : KeysWf vs) {v : Val F} (hv : WfVal v) :
    ((vs.map VEnt.row).any fun r => r.id = edge2str v) = hasV v vs := by
  rw [Bool.eq_iff_iff, ← countP_row hk hv, List.countP_pos_iff, List.any_eq_true]

theorem map_row_cond {vs : List (VEnt F)} (hk : KeysWf vs) {v : Val F} (hv : WfVal v)
    (f : VRow → VRow) (g : VEnt F → VEnt F) (h : ∀ r, r.v = v → f r.row = (g r).row) :
    (vs.map VEnt.row).map (fun r => if r.id = edge2str v then f r else r) =
      (vs.map fun r => if r.v = v then g r else r).map VEnt.row := by
  rw [List.map_map, List.map_map]
  apply List.map_congr_left
  intro r hr
  simp only [Function.comp]
  have : (r.row.id = edge2str v) ↔ r.v = v := text_eq_iff (hk r hr) hv
  by_cases hrv : r.v = v
  · rw [if_pos (this.2 hrv), if_pos hrv, h r hrv]
  · rw [if_neg (fun h => hrv (this.1 h)), if_neg hrv]

theorem bump_row {vs : List (VEnt F)} (hk : KeysWf vs) {v : Val F} (hv : WfVal v) (d : Int) (ps : List Str) :
    (DB.bumpDegree ⟨vs.map VEnt.row, ps⟩ d (edge2str v)).2 = ⟨(bumpV d v vs).map VEnt.row, ps⟩ := by
  simp only [DB.bumpDegree, bumpV]
  rw [map_row_cond hk hv]
  intro r _; rfl

theorem upsert_row {vs : List (VEnt F)} (hk : KeysWf vs) {v : Val F} (hv : WfVal v) (d ts : Int) (ps : List Str) :
    DB.upsertVertex ⟨vs.map VEnt.row, ps⟩ (edge2str v) d ts = ⟨(setV v d ts vs).map VEnt.row, ps⟩ := by
  simp only [DB.upsertVertex, setV, any_row hk hv]
  by_cases h : hasV v vs = true
  · rw [if_pos h, if_pos h, map_row_cond hk hv (fun _ => ⟨edge2str v, d, ts⟩) (fun _ => ⟨v, d, ts⟩)]
    intro r _; rfl
  · rw [if_neg h, if_neg h]
    simp [VEnt.row]

theorem delete_row {vs : List (VEnt F)} (hk : KeysWf vs) {v : Val F} (hv : WfVal v) (ps : List Str) :
    DB.deleteVertex ⟨vs.map VEnt.row, ps⟩ (edge2str v) = ⟨(delV v vs).map VEnt.row, ps⟩ := by
  simp only [DB.deleteVertex, delV]
  congr 1
  rw [List.filter_map]
  congr 1
  apply List.filter_congr
  intro r hr
  have : (r.row.id = edge2str v) ↔ r.v = v := text_eq_iff (hk r hr) hv
  by_cases h : r.v = v
  · simp [this.2 h, h]
  · simp [mt this.1 h, h]

theorem bumpV_keys (d : Int) (v : Val F) (vs : List (VEnt F)) : (bumpV d v vs).map VEnt.v = vs.map VEnt.v := by
  unfold bumpV
  rw [List.map_map]
  apply List.map_congr_left
  intro r _
  simp only [Function.comp]
  split <;> rfl

theorem bumpV_absent {d : Int} {v : Val F} {vs : List (VEnt F)} (h : hasV v vs = false) : bumpV d v vs = vs := by
  unfold bumpV
  conv => rhs; rw [← List.map_id vs]
  apply List.map_congr_left
  intro r hr
  have : r.v ≠ v := by
    intro h'
    simp only [hasV, List.any_eq_false, decide_eq_true_eq] at h
    exact h r hr h'
  simp [this]

theorem hasV_iff {v : Val F} {vs : List (VEnt F)} : hasV v vs = true ↔ v ∈ vs.map VEnt.v := by
  simp [hasV]

theorem touchV_keys (ts : Int) (vs : List (VEnt F)) (v : Val F) :
    (touchV ts vs v).map VEnt.v = if v ∈ vs.map VEnt.v then vs.map VEnt.v else vs.map VEnt.v ++ [v] := by
  unfold touchV
  by_cases h : hasV v vs = true
  · rw [if_pos h, bumpV_keys, if_pos (hasV_iff.1 h)]
  · rw [if_neg h, if_neg (mt hasV_iff.2 h)]; simp

theorem setV_keys (v : Val F) (d ts : Int) (vs : List (VEnt F)) :
    (setV v d ts vs).map VEnt.v = if v ∈ vs.map VEnt.v then vs.map VEnt.v else vs.map VEnt.v ++ [v] := by
  unfold setV
  by_cases h : hasV v vs = true
  · rw [if_pos h, if_pos (hasV_iff.1 h), List.map_map]
    apply List.map_congr_left
    intro r _
    simp only [Function.comp]
    split
    · rename_i h; exact h.symm
    · rfl
  · rw [if_neg h, if_neg (mt hasV_iff.2 h)]; simp

/-- Keys are distinct and well-formed. -/
def KeysOk (vs : List (VEnt F)) : Prop := (vs.map VEnt.v).Nodup ∧ KeysWf vs

theorem keysWf_iff {vs : List (VEnt F)} : KeysWf vs ↔ ∀ v ∈ vs.map VEnt.v, WfVal v := by
  simp [KeysWf]

theorem keysOk_append {ks : List (Val F)} {v : Val F} (h1 : ks.Nodup) (h2 : ∀ k ∈ ks, WfVal k)
    (hv : WfVal v) : (if v ∈ ks then ks else ks ++ [v]).Nodup ∧
      ∀ k ∈ (if v ∈ ks then ks else ks ++ [v]), WfVal k := by
  by_cases h : v ∈ ks
  · simp only [if_pos h]; exact ⟨h1, h2⟩
  · simp only [if_neg h]
    constructor
    · rw [List.nodup_append]
      refine ⟨h1, by simp, ?_⟩
      intro a ha b hb
      simp at hb; subst hb
      rintro rfl
      exact h ha
    · intro k hk
      simp only [List.mem_append, List.mem_singleton] at hk
      rcases hk with hk | rfl
      · exact h2 k hk
      · exact hv

theorem KeysOk.touch {vs : List (VEnt F)} (h : KeysOk vs) {v : Val F} (hv : WfVal v) (ts : Int) :
    KeysOk (touchV ts vs v) := by
  unfold KeysOk at *
  rw [keysWf_iff, touchV_keys]
  exact keysOk_append h.1 (keysWf_iff.1 h.2) hv

theorem KeysOk.set {vs : List (VEnt F)} (h : KeysOk vs) {v : Val F} (hv : WfVal v) (d ts : Int) :
    KeysOk (setV v d ts vs) := by
  unfold KeysOk at *
  rw [keysWf_iff, setV_keys]
  exact keysOk_append h.1 (keysWf_iff.1 h.2) hv

theorem KeysOk.bump {vs : List (VEnt F)} (h : KeysOk vs) (d : Int) (v : Val F) :
    KeysOk (bumpV d v vs) := by
  unfold KeysOk at *
  rw [keysWf_iff, bumpV_keys, ← keysWf_iff]
  exact h

theorem KeysOk.del {vs : List (VEnt F)} (h : KeysOk vs) (v : Val F) : KeysOk (delV v vs) := by
  unfold KeysOk at *
  refine ⟨?_, fun r hr => h.2 r (List.mem_filter.1 hr).1⟩
  exact h.1.sublist (List.Sublist.map _ List.filter_sublist)

theorem KeysOk.foldTouch {vs : List (VEnt F)} (h : KeysOk vs) (ts : Int) {xs : List (Val F)}
    (hx : ∀ x ∈ xs, WfVal x) : KeysOk (xs.foldl (touchV ts) vs) := by
  induction xs generalizing vs with
  | nil => exact h
  | cons x xs ih => exact ih (h.touch (hx x (by simp)) ts) (fun y hy => hx y (by simp [hy]))

theorem KeysOk.foldBump {vs : List (VEnt F)} (h : KeysOk vs) (d : Int) (xs : List (Val F)) :
    KeysOk (xs.foldl (fun vs v => bumpV d v vs) vs) := by
  induction xs generalizing vs with
  | nil => exact h
  | cons x xs ih => exact ih (h.bump d x)

/-! ### loops -/

theorem Runs.forEachA {α σ : Type} {q : Bool} {T : DB → Prop} {f : α → M Unit} (C : σ → DB)
    (g : σ → α → σ) (I : σ → Prop) {xs : List α}
    (h : ∀ x ∈ xs, ∀ a, I a → T (C (g a x)) → ∀ s : St, s.usable → s.work = C a →
      Runs q T (f x) s () (C (g a x)) ∧ I (g a x)) :
    ∀ a (s : St), I a → (∀ l, l <+: xs → T (C (l.foldl g a))) → s.usable → s.work = C a →
      Runs q T (GB.forEach f xs) s () (C (xs.foldl g a)) := by
  induction xs with
  | nil => intro a s _ _ _ hw; exact Runs.pure' () hw
  | cons x xs ih =>
    intro a s hI hT hu hw
    have hT1 : T (C (g a x)) := hT [x] (by simp)
    obtain ⟨h1, h2⟩ := h x (by simp) a hI hT1 s hu hw
    refine Runs.bind h1 ?_
    intro s1 st1
    refine ih (fun y hy => h y (by simp [hy])) (g a x) s1 h2 ?_ (st1.usable hu) st1.work
    intro l hl
    exact hT (x :: l) (by simpa using hl)

/-! ### adding -/

theorem addVert_run {q : Bool} {T : DB → Prop} {vs : List (VEnt F)} {ps : List Str} (hk : KeysWf vs)
    {v : Val F} (hv : WfVal v) (ts : Int) {s : St} (hu : s.usable)
    (hw : s.work = ⟨vs.map VEnt.row, ps⟩)
    (hT : T ⟨(touchV ts vs v).map VEnt.row, ps⟩) :
    Runs q T (addVert ts v) s () ⟨(touchV ts vs v).map VEnt.row, ps⟩ := by
  unfold addVert
  have hb := bump_row hk hv 1 ps
  have hc := countP_row hk hv
  by_cases h : hasV v vs = true
  · have ht : touchV ts vs v = bumpV 1 v vs := by simp [touchV, h]
    rw [ht] at hT ⊢
    have h1 := incDegree_run (q := q) (T := T) hu (edge2str v) (by
      intro _; rw [hw, hb]; exact hT)
    rw [hw, hb] at h1
    refine Runs.bind h1 ?_
    intro s1 st1
    have : decide ((DB.bumpDegree ⟨vs.map VEnt.row, ps⟩ 1 (edge2str v)).1 > 0) = true := by
      simpa [DB.bumpDegree] using hc.2 h
    rw [this]
    exact Runs.pure' () st1.work
  · have hf : hasV v vs = false := by simpa using h
    have hb' : bumpV 1 v vs = vs := bumpV_absent hf
    have h1 := incDegree_run (q := q) (T := T) hu (edge2str v) (by
      intro h; rw [hw, hb, hb', ← hw]; exact h)
    rw [hw, hb, hb'] at h1
    refine Runs.bind h1 ?_
    intro s1 st1
    have : decide ((DB.bumpDegree ⟨vs.map VEnt.row, ps⟩ 1 (edge2str v)).1 > 0) = false := by
      have := mt hc.1 h
      simpa [DB.bumpDegree] using this
    rw [this]
    have hset : setV v 1 ts vs = touchV ts vs v := by simp [setV, touchV, hf]
    have h2 := upsertVertex_run (q := q) (T := T) (st1.usable hu) (edge2str v) 1 ts (by
      intro _; rw [st1.work, upsert_row hk hv, hset]; exact hT)
    rw [st1.work, upsert_row hk hv, hset] at h2
    exact h2

/-- Contents on the way of adding an edge `e`. -/
inductive AddStage (A : Abs F) (e : Val F) (ts : Int) : DB → Prop where
  | verts (l : List (Val F)) : l <+: e.elems →
      AddStage A e ts ⟨(l.foldl (touchV ts) A.verts).map VEnt.row, A.conc.perms⟩
  | rows (l : List Str) : l <+: rowsOf e.elems →
      AddStage A e ts
        ⟨(setV e 0 ts (e.elems.foldl (touchV ts) A.verts)).map VEnt.row, A.conc.perms ++ l⟩

theorem forEach_congr {α : Type} {f g : α → M Unit} {xs : List α} (h : ∀ x ∈ xs, f x = g x) :
    forEach f xs = forEach g xs := by
  induction xs with
  | nil => rfl
  | cons x xs ih => rw [forEach, forEach, h x (by simp), ih (fun y hy => h y (by simp [hy]))]

theorem forEach_map {α β : Type} (f : β → M Unit) (g : α → β) (xs : List α) :
    forEach f (xs.map g) = forEach (fun x => f (g x)) xs := by
  induction xs with
  | nil => rfl
  | cons x xs ih => simp only [List.map_cons, forEach, ih]

theorem doWithPerms_eq {es : List (Val F)} (hne : es ≠ []) (f : Str → M Unit) :
    doWithEdgePermutations es f = forEach f (rowsOf es) := by
  unfold doWithEdgePermutations rowsOf
  rw [forEach_map]
  apply forEach_congr
  intro n hn
  funext s
  rw [permStr_eq hne (by simpa using hn)]
  rfl

theorem foldl_append_snoc {α : Type} (l acc : List α) :
    l.foldl (fun a x => a ++ [x]) acc = acc ++ l := by
  induction l generalizing acc with
  | nil => simp
  | cons x xs ih => simp [ih]

/-- writing rows none of which is there -/
theorem writeRows_run {q : Bool} {T : DB → Prop} {vs : List VRow} (rows : List Str) :
    ∀ (ps : List Str) (s : St), s.usable → s.work = ⟨vs, ps⟩ → (∀ r ∈ rows, r ∉ ps) → rows.Nodup →
    (∀ l, l <+: rows → T ⟨vs, ps ++ l⟩) →
    Runs q T (forEach (writeEdgePermutation (F := F)) rows) s () ⟨vs, ps ++ rows⟩ := by
  induction rows with
  | nil => intro ps s _ hw _ _ _; exact Runs.pure' () (by simpa using hw)
  | cons r rows ih =>
    intro ps s hu hw hn hnd hT
    have hup : s.work.upsertPerm r = ⟨vs, ps ++ [r]⟩ := by
      rw [hw]; simp only [DB.upsertPerm]; rw [if_neg (hn r (by simp))]
    have h1 := upsertPerm_run (q := q) (T := T) hu r (by
      intro _; rw [hup]; exact hT [r] (by simp))
    rw [hup] at h1
    have h1' : Runs q T (writeEdgePermutation (F := F) r) s () ⟨vs, ps ++ [r]⟩ := by
      simpa [writeEdgePermutation, edge2str] using h1
    refine Runs.bind h1' ?_
    intro s1 st1
    have := ih (ps ++ [r]) s1 (st1.usable hu) st1.work ?_ (List.nodup_cons.1 hnd).2 ?_
    · simpa using this
    · intro r' hr' hmem
      simp only [List.mem_append, List.mem_singleton] at hmem
      rcases hmem with h | rfl
      · exact hn r' (by simp [hr']) h
      · exact (List.nodup_cons.1 hnd).1 hr'
    · intro l hl
      have := hT (r :: l) (by simpa using hl)
      simpa using this

theorem rows_fresh (hV : Vocab V) {A : Abs F} (hA : AbsOk V A) {e : Val F} (he : EdgeOver V e)
    (hne : e ∉ A.edges) : ∀ r ∈ rowsOf e.elems, r ∉ A.conc.perms := by
  intro r hr hmem
  rw [mem_conc_perms] at hmem
  obtain ⟨e', he', n', hn', rfl⟩ := hmem
  obtain ⟨n, hn, hrow⟩ := mem_rowsOf.1 hr
  have hov := hA.over e' he'
  have := (rowOf_inj (fun x hx => hV.wf x (hov.mem x hx)) (fun x hx => hV.wf x (he.mem x hx)) hn' hn hrow).1
  have := hov.eq_of_elems he this
  subst this
  exact hne he'

end GB
