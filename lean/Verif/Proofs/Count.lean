import Verif.Model.Count
import Verif.Spec.Count
import Verif.Proofs.Limit

/-! Servers with a degree column of limited size. -/

set_option linter.unusedSectionVars false

namespace GB

variable {F : Type} [PyFloat F] [DecidableEq F] {V : Val F → Prop} {b : Nat} {srv : Server}

/-! ### the same, or `DataError` -/

theorem stops_bump (m : M Nat) : Stops (countBump b m) m := by
  intro s
  unfold countBump
  split
  · next h =>
    split
    · exact .inl h.symm
    · exact .inr rfl
  · exact .inl rfl

theorem stops_incC (t : Str) : Stops (incDegreeOn (srv.counts b) t) (incDegreeOn srv t) :=
  (Stops.refl _).bind fun _ => (stops_bump _).bind fun _ => Stops.refl _

theorem stops_decC (t : Str) : Stops (decDegreeOn (srv.counts b) t) (decDegreeOn srv t) :=
  (Stops.refl _).bind fun _ => (stops_bump _).bind fun _ => Stops.refl _

theorem stops_addRawC (e : Val F) (ts : Int) : Stops (addRawOn (srv.counts b) e ts) (addRawOn srv e ts) :=
  (Stops.refl _).bind fun _ => Stops.ite ((Stops.refl _).bind fun verts =>
    (Stops.each verts fun x => (stops_incC _).bind fun _ => Stops.refl _).bind fun _ => Stops.refl _) (Stops.refl _)

theorem stops_addC (e : Val F) (ts : Int) : Stops (hgAddOn (srv.counts b) e ts) (hgAddOn srv e ts) :=
  (Stops.refl _).bind fun _ => Stops.ite ((Stops.refl _).bind fun _ => (Stops.refl _).bind fun es =>
    (Stops.each es fun x => (stops_addRawC x ts).bind fun _ => Stops.refl _).bind fun _ => Stops.refl _)
    ((stops_addRawC e ts).bind fun _ => Stops.refl _)

theorem stops_removeRawC (e : Val F) : Stops (removeRawOn (srv.counts b) e) (removeRawOn srv e) :=
  (Stops.refl _).bind fun _ => Stops.ite ((Stops.refl _).bind fun verts =>
    (Stops.each verts fun x => (stops_decC _).bind fun _ => Stops.refl _).bind fun _ => Stops.refl _) (Stops.refl _)

theorem stops_removeC (e : Val F) : Stops (hgRemoveOn (srv.counts b) e) (hgRemoveOn srv e) :=
  (Stops.refl _).bind fun _ => Stops.ite ((Stops.refl _).bind fun es => Stops.each es stops_removeRawC) (stops_removeRawC e)

theorem stops_primC (p : Prim F) : Stops (p.srvRun (srv.counts b)) (p.srvRun srv) := by
  cases p with
  | add e ts => exact (stops_addC e ts).bind fun _ => Stops.refl _
  | remove e => exact stops_removeC e
  | removeMany es => exact stops_removeC _
  | removeByPattern ps => exact (Stops.refl _).bind fun es => Stops.each es stops_removeC
  | removeBelief src e =>
    exact (stops_removeC _).bind fun _ => (Stops.refl _).bind fun _ => Stops.ite (stops_removeC _) (Stops.refl _)
  | destroy => exact Stops.refl _
  | query q => cases q <;> exact Stops.refl _

theorem stops_opC (op : Op F) : Stops (op.srvRun (srv.counts b)) (op.srvRun srv) := by
  cases op with
  | prim p => exact stops_primC p
  | addMany es ts => exact (stops_addC _ ts).bind fun _ => Stops.refl _
  | addBelief src e ts => exact (Stops.refl _).bind fun _ => (stops_addC _ ts).bind fun _ => Stops.refl _
  | addBeliefs src es ts => exact (Stops.refl _).bind fun _ => (stops_addC _ ts).bind fun _ => Stops.refl _
  | batch ps => exact (Stops.refl _).bind fun _ => (stops_batch stops_primC ps).bind fun _ => Stops.refl _
  | degree v => exact Stops.refl _
  | timestamp v => exact Stops.refl _

/-! ### degrees within bounds -/

/-- The degree of every row is at most the bound for its text. -/
def DegWithin (B : Str → Nat) (s : St) : Prop := ∀ r ∈ s.work.vertices, r.degree ≤ (B r.id : Int)

theorem DegWithin.mono {B C : Str → Nat} (h : ∀ t, B t ≤ C t) {s : St} (hs : DegWithin B s) : DegWithin C s := fun r hr => by
  have := hs r hr
  have := h r.id
  omega

/-- No degree gets out of bounds. -/
def Quiet {α : Type} (m : M α) : Prop := ∀ B s, DegWithin B s → DegWithin B (m s).2

theorem Quiet.pure {α : Type} (a : α) : Quiet (pure a : M α) := fun _ _ h => h

theorem Quiet.liftE {α : Type} (r : Except PyErr α) : Quiet (liftE r : M α) := fun _ _ h => by cases r <;> exact h

theorem Quiet.openC (l : Bool) : Quiet (openCursor l) := by
  intro B s h
  unfold openCursor
  repeat' split
  all_goals exact h

theorem Quiet.closeC (l c : Bool) : Quiet (closeCursor l c) := by
  intro B s h
  cases l <;> cases c <;> cases hc : s.cur <;> simp [closeCursor, hc, St.commit] <;> exact h

theorem Quiet.closeD (c : Cursor) : Quiet (closeDirect c) := by
  intro B s h
  cases c <;> exact h

theorem Quiet.commit : Quiet commitM := fun _ _ h => h

theorem Quiet.bind {α β : Type} {m : M α} {f : α → M β} (h : Quiet m) (hf : ∀ x, Quiet (f x)) : Quiet (m >>= f) := by
  intro B s hs
  cases hm : m s with
  | mk r t =>
    have ht : DegWithin B t := by have := h B s hs; rwa [hm] at this
    cases r with
    | error e => rw [bind_err _ _ _ hm]; exact ht
    | ok x => rw [bind_run _ _ _ hm]; exact hf x B t ht

/-- What a server may do with degrees; `same t u` is whether it finds a row with the text `t` when asked for `u`. -/
structure SrvTame (same : Str → Str → Bool) (srv : Server) : Prop where
  refl : ∀ t, same t t = true
  update : ∀ (B : Str → Nat) c id (d : Int) ts s, DegWithin B s → d ≤ B id → DegWithin B (srv.updateVertex c id d ts s).2
  insert : ∀ (B : Str → Nat) c id (d : Int) ts s, DegWithin B s → d ≤ B id → DegWithin B (srv.insertVertex c id d ts s).2
  updatePerm : ∀ c id, Quiet (srv.updatePerm c id)
  insertPerm : ∀ c id, Quiet (srv.insertPerm c id)
  deletePerm : ∀ c id, Quiet (srv.deletePerm c id)
  delete : ∀ c id, Quiet (srv.deleteVertex c id)
  dec : ∀ c id, Quiet (srv.bumpDegree c (-1) id)
  inc : ∀ (B : Str → Nat) c id s, DegWithin B s → DegWithin (fun t => B t + (same t id).toNat) (srv.bumpDegree c 1 id s).2
  range : ∀ c lo hi, Quiet (srv.selectRange c lo hi)
  select : ∀ c id, Quiet (srv.selectVertex c id)

/-- With degrees that have room for `c`, `a` does what `m` does, and uses no more room than `c`. -/
def Calm (b : Nat) (c : Str → Nat) {α : Type} (a m : M α) : Prop :=
  ∀ B s, (∀ t, B t + c t ≤ b) → DegWithin B s → a s = m s ∧ DegWithin (fun t => B t + c t) (m s).2

theorem Quiet.calm {α : Type} {m : M α} (h : Quiet m) (c : Str → Nat) : Calm b c m m := fun B s _ hs =>
  ⟨rfl, (h B s hs).mono fun t => Nat.le_add_right _ _⟩

theorem Calm.mono {α : Type} {c c' : Str → Nat} (hc : ∀ t, c t ≤ c' t) {a m : M α} (h : Calm b c a m) : Calm b c' a m :=
  fun B s hb hs => by
    obtain ⟨h1, h2⟩ := h B s (fun t => by have := hb t; have := hc t; omega) hs
    exact ⟨h1, h2.mono fun t => by have := hc t; omega⟩

theorem Calm.bind {α β : Type} {c d : Str → Nat} {a m : M α} {f g : α → M β} (h : Calm b c a m)
    (hf : ∀ x, Calm b d (f x) (g x)) : Calm b (fun t => c t + d t) (a >>= f) (m >>= g) := by
  intro B s hb hs
  have hb' : ∀ t, B t + (c t + d t) ≤ b := hb
  obtain ⟨h1, h2⟩ := h B s (fun t => by have := hb' t; omega) hs
  cases hm : m s with
  | mk r t =>
    rw [hm] at h1 h2
    cases r with
    | error e =>
      rw [bind_err _ _ _ h1, bind_err _ _ _ hm]
      exact ⟨rfl, h2.mono fun t => by show _ ≤ B t + (c t + d t); omega⟩
    | ok x =>
      rw [bind_run _ _ _ h1, bind_run _ _ _ hm]
      obtain ⟨h3, h4⟩ := hf x (fun t => B t + c t) t (fun t => by have := hb' t; show B t + c t + d t ≤ b; omega) h2
      exact ⟨h3, h4.mono fun t => by show _ ≤ B t + (c t + d t); show B t + c t + d t ≤ _; omega⟩

/-- Before and after a step that needs no room. -/
theorem Calm.after {α β : Type} {d : Str → Nat} {m : M α} {f g : α → M β} (h : Quiet m)
    (hf : ∀ x, Calm b d (f x) (g x)) : Calm b d (m >>= f) (m >>= g) :=
  ((h.calm fun _ => 0).bind hf).mono fun t => by simp

theorem Calm.before {α β : Type} {d : Str → Nat} {a m : M α} {f : α → M β} (h : Calm b d a m)
    (hf : ∀ x, Quiet (f x)) : Calm b d (a >>= f) (m >>= f) :=
  (h.bind fun x => (hf x).calm fun _ => 0).mono fun t => by simp

theorem Calm.ite {α : Type} {p : Prop} [Decidable p] {d : Str → Nat} {a m a' m' : M α} (h : Calm b d a m) (h' : Calm b d a' m') :
    Calm b d (if p then a else a') (if p then m else m') := by split <;> assumption

theorem Calm.each {α : Type} {c : α → Str → Nat} {f g : α → M Unit} (xs : List α) (h : ∀ x ∈ xs, Calm b (c x) (f x) (g x)) :
    Calm b (fun t => (xs.map fun x => c x t).sum) (forEach f xs) (forEach g xs) := by
  induction xs with
  | nil => exact (Quiet.pure ()).calm _
  | cons x xs ih =>
    have := (h x (by simp)).bind fun _ => ih fun y hy => h y (by simp [hy])
    exact this.mono fun t => by simp

theorem Calm.each0 {α : Type} {f g : α → M Unit} (xs : List α) (h : ∀ x ∈ xs, Calm b (fun _ => 0) (f x) (g x)) :
    Calm b (fun _ => 0) (forEach f xs) (forEach g xs) :=
  (Calm.each (c := fun _ _ => 0) xs h).mono fun t => by induction xs <;> simp_all

theorem Quiet.each {α : Type} {f : α → M Unit} (xs : List α) (h : ∀ x, Quiet (f x)) : Quiet (forEach f xs) := by
  induction xs with
  | nil => exact Quiet.pure ()
  | cons x xs ih => exact (h x).bind fun _ => ih

/-! ### methods -/

variable {same : Str → Str → Bool}

theorem countBump_same {B : Str → Nat} (hB : ∀ t, B t ≤ b) {m : M Nat} {s : St} (h : DegWithin B (m s).2) :
    countBump b m s = m s := by
  unfold countBump
  split
  · next n s' hm =>
    rw [hm] at h
    rw [if_pos ?_, hm]
    rw [List.all_eq_true]
    intro r hr
    have h1 := h r hr
    have h2 := hB r.id
    have : r.degree ≤ b := by omega
    simp [this]
  · rfl

theorem calm_inc (hT : SrvTame same srv) (t : Str) :
    Calm b (fun u => (same u t).toNat) (incDegreeOn (srv.counts b) t) (incDegreeOn srv t) :=
  Calm.after (Quiet.openC _) fun c => Calm.before (f := fun rowcount => do
    closeCursor true true
    pure (decide (rowcount > 0))) (fun B s hb hs => by
      have h := hT.inc B c t s hs
      exact ⟨countBump_same hb h, h⟩) fun _ => (Quiet.closeC _ _).bind fun _ => Quiet.pure _

theorem calm_dec (hT : SrvTame same srv) (t : Str) : Calm b (fun _ => 0) (decDegreeOn (srv.counts b) t) (decDegreeOn srv t) :=
  Calm.after (Quiet.openC _) fun c => Calm.before (f := fun rowcount => do
    closeCursor true true
    pure (decide (rowcount > 0))) (fun B s hb hs => by
      have h := hT.dec c t B s hs
      exact ⟨countBump_same hb h, h⟩) fun _ => (Quiet.closeC _ _).bind fun _ => Quiet.pure _

theorem addStr_within (hT : SrvTame same srv) {B : Str → Nat} {s : St} (hs : DegWithin B s) {t : Str} {d : Int} (hd : d ≤ B t) (ts : Int) :
    DegWithin B (addStrOn srv t d ts s).2 := by
  unfold addStrOn updateOrInsertVertexOn
  have h1 := Quiet.openC true B s hs
  cases ho : openCursor true s with
  | mk r s1 =>
    rw [ho] at h1
    cases r with
    | error e => rw [bind_err _ _ _ ho]; exact h1
    | ok c =>
      rw [bind_run _ _ _ ho]
      have h2 := hT.update B c t d ts s1 h1 hd
      cases hup : srv.updateVertex c t d ts s1 with
      | mk r s2 =>
        rw [hup] at h2
        cases r with
        | error e => rw [bind_err _ _ _ hup]; exact h2
        | ok n =>
          rw [bind_run _ _ _ hup]
          by_cases hn : n = 0
          · simp only [hn, if_true]
            have h3 := hT.insert B c t d ts s2 h2 hd
            cases hin : srv.insertVertex c t d ts s2 with
            | mk r s3 =>
              rw [hin] at h3
              cases r with
              | error e => rw [bind_err _ _ _ hin]; exact h3
              | ok u => rw [bind_run _ _ _ hin]; exact Quiet.closeC _ _ B s3 h3
          · simp only [hn, if_false]
            exact Quiet.closeC _ _ B s2 h2

theorem quiet_addStr0 (hT : SrvTame same srv) (t : Str) (ts : Int) : Quiet (addStrOn srv t 0 ts) := fun _ _ hs =>
  addStr_within hT hs (Int.natCast_nonneg _) ts

theorem calm_addVert (hT : SrvTame same srv) (ts : Int) (x : Val F) :
    Calm b (fun u => (same u (edge2str x)).toNat) (addVertOn (srv.counts b) ts x) (addVertOn srv ts x) := by
  intro B s hb hs
  obtain ⟨h1, h2⟩ := calm_inc (b := b) hT (edge2str x) B s hb hs
  unfold addVertOn
  cases hm : incDegreeOn srv (edge2str x) s with
  | mk r s1 =>
    rw [hm] at h1 h2
    cases r with
    | error e =>
      rw [bind_err _ _ _ h1, bind_err _ _ _ hm]
      exact ⟨rfl, h2⟩
    | ok known =>
      rw [bind_run _ _ _ h1, bind_run _ _ _ hm]
      cases known with
      | true => exact ⟨rfl, h2⟩
      | false =>
        refine ⟨rfl, ?_⟩
        refine addStr_within hT h2 ?_ ts
        simp only [hT.refl, Bool.toNat_true]
        omega

theorem quiet_pattern (hT : SrvTame same srv) (p : Val F) : Quiet (pattern2edgesOn srv p : M (List (Val F))) :=
  (Quiet.liftE _).bind fun _ => (Quiet.liftE _).bind fun _ => (Quiet.openC _).bind fun _ => (hT.range _ _ _).bind fun _ =>
    (Quiet.liftE _).bind fun _ => (Quiet.closeC _ _).bind fun _ => (Quiet.liftE _).bind fun _ => Quiet.pure _

theorem quiet_exists (hT : SrvTame same srv) (p : Val F) : Quiet (existsOn srv p) :=
  (quiet_pattern hT p).bind fun _ => Quiet.pure _

theorem quiet_write (hT : SrvTame same srv) (t : Str) : Quiet (writeEdgePermutationOn F srv t) :=
  (Quiet.openC _).bind fun c => (hT.updatePerm c _).bind fun n => by
    split
    · exact (hT.insertPerm c _).bind fun _ => Quiet.closeC _ _
    · exact Quiet.closeC _ _

theorem quiet_writes (hT : SrvTame same srv) (xs : List (Val F)) : Quiet (writeEdgePermutationsOn srv xs) :=
  Quiet.each _ fun _ => (Quiet.liftE _).bind fun _ => quiet_write hT _

theorem quiet_removes (hT : SrvTame same srv) (xs : List (Val F)) : Quiet (removeEdgePermutationsOn srv xs) :=
  Quiet.each _ fun _ => (Quiet.liftE _).bind fun _ => (hT.deletePerm _ _).bind fun _ => Quiet.commit

theorem quiet_removeStr (hT : SrvTame same srv) (t : Str) : Quiet (removeStrOn srv t) :=
  (Quiet.openC _).bind fun _ => (hT.delete _ _).bind fun _ => Quiet.closeC _ _

theorem sum_occ_of (t : Str) (xs : List (Val F)) :
    (xs.map fun x => (same t (edge2str x)).toNat).sum = xs.countP fun x => same t (edge2str x) := by
  induction xs with
  | nil => rfl
  | cons x xs ih =>
    rw [List.map_cons, List.sum_cons, ih, List.countP_cons]
    cases same t (edge2str x) <;> simp <;> omega

theorem calm_addRaw (hT : SrvTame same srv) {e : Val F} (he : EdgeOver V e) (ts : Int) :
    Calm b (fun t => occ same t e) (addRawOn (srv.counts b) e ts) (addRawOn srv e ts) := by
  unfold addRawOn
  refine Calm.after (quiet_exists hT e) fun present => ?_
  refine Calm.ite ?_ ((Quiet.pure e).calm _)
  rw [iter_edge he]
  simp only [liftE_bind]
  refine Calm.mono (c := fun t => (e.elems.map fun x => (same t (edge2str x)).toNat).sum)
    (fun t => Nat.le_of_eq (sum_occ_of t e.elems)) ?_
  exact (Calm.each e.elems fun x _ => calm_addVert hT ts x).before fun _ => (quiet_addStr0 hT _ ts).bind fun _ =>
    (quiet_writes hT _).bind fun _ => Quiet.pure _

theorem calm_add (hT : SrvTame same srv) {e : Val F} (he : EdgeOver V e) (ts : Int) :
    Calm b (fun t => occ same t e) (hgAddOn (srv.counts b) e ts) (hgAddOn srv e ts) := by
  obtain ⟨h, hh, hs⟩ := head0_edge he
  rw [addOn_single hh hs, addOn_single hh hs]
  exact (calm_addRaw hT he ts).before fun _ => Quiet.pure _

theorem calm_addMany (hT : SrvTame same srv) {c : Bool} {es : List (Val F)} (hne : es ≠ []) (hes : ∀ e ∈ es, EdgeOver V e) (ts : Int) :
    Calm b (fun t => (es.map fun e => occ same t e).sum) (hgAddOn (srv.counts b) (.seq c es) ts) (hgAddOn srv (.seq c es) ts) := by
  obtain ⟨k, hk, hks⟩ := head0_coll (b := c) hne hes
  unfold hgAddOn
  rw [hk, show (Val.seq c es).iter = .ok es from rfl]
  simp only [liftE_bind, hks, if_true]
  refine Calm.after (Quiet.openC _) fun _ => Calm.before ?_ fun _ => (Quiet.closeC _ _).bind fun _ => Quiet.pure _
  exact Calm.each (c := fun e t => occ same t e) es fun e he => (calm_addRaw hT (hes e he) ts).before fun _ => Quiet.pure _

theorem calm_removeRaw (hT : SrvTame same srv) (e : Val F) : Calm b (fun _ => 0) (removeRawOn (srv.counts b) e) (removeRawOn srv e) := by
  unfold removeRawOn
  refine Calm.after (quiet_exists hT e) fun present => ?_
  refine Calm.ite (Calm.after (Quiet.liftE _) fun verts => ?_) ((Quiet.pure ()).calm _)
  refine Calm.before (Calm.each0 verts fun x _ => (calm_dec hT _).before fun _ => Quiet.pure _) fun _ =>
    (quiet_removes hT _).bind fun _ => quiet_removeStr hT _

theorem calm_remove (hT : SrvTame same srv) (e : Val F) : Calm b (fun _ => 0) (hgRemoveOn (srv.counts b) e) (hgRemoveOn srv e) :=
  Calm.after (Quiet.liftE _) fun _ => Calm.ite (Calm.after (Quiet.liftE _) fun es => Calm.each0 es fun x _ => calm_removeRaw hT x)
    (calm_removeRaw hT e)

theorem quiet_destroy : Quiet hgDestroy := by
  show Quiet sqlDestroy
  unfold sqlDestroy
  refine (Quiet.openC true).bind fun c => Quiet.bind ?_ fun _ => Quiet.bind ?_ fun _ => Quiet.closeC _ _
  · intro B s hs
    unfold execWrite
    split
    · exact hs
    · intro r hr
      dsimp only at hr
      split at hr <;> simp [St.commit] at hr
  · intro B s hs
    unfold execWrite
    split
    · exact hs
    · dsimp only
      split <;> exact hs

theorem quiet_read {α : Type} (c : Cursor) (q : DB → α) : Quiet (execRead c q) := by
  intro B s hs
  unfold execRead
  split <;> exact hs

theorem quiet_fAll {β : Type} (f : Val F → Int → β) : Quiet (hgFAll f) :=
  (Quiet.openC true).bind fun _ => (quiet_read _ _).bind fun _ => (Quiet.liftE _).bind fun _ => (Quiet.closeC _ _).bind fun _ =>
    Quiet.pure _

theorem quiet_sources (hT : SrvTame same srv) (e : Val F) : Quiet (hgSourcesOn srv e) :=
  (quiet_pattern hT _).bind fun _ => (Quiet.liftE _).bind fun _ => Quiet.pure _

theorem quiet_query (hT : SrvTame same srv) (q : Query F) : Quiet (q.srvRun srv) := by
  have hperms : ∀ t, Quiet (str2permsOn srv t : M (List (Val F))) := fun t =>
    (Quiet.liftE _).bind fun _ => (Quiet.openC _).bind fun _ => (hT.range _ _ _).bind fun _ =>
      (Quiet.liftE _).bind fun _ => (Quiet.closeC _ _).bind fun _ => Quiet.pure _
  cases q with
  | «exists» e => exact (quiet_exists hT e).bind fun _ => Quiet.pure _
  | pattern ps => exact (quiet_pattern hT _).bind fun _ => Quiet.pure _
  | star c =>
    refine Quiet.bind ?_ fun _ => Quiet.pure _
    unfold hgStarOn
    split <;> exact hperms _
  | symbolsWithRoot r =>
    exact Quiet.bind ((Quiet.liftE _).bind fun _ => (Quiet.openC _).bind fun _ => (hT.range _ _ _).bind fun _ =>
      (Quiet.liftE _).bind fun _ => (Quiet.closeC _ _).bind fun _ => Quiet.pure _) fun _ => Quiet.pure _
  | sources e => exact (quiet_sources hT e).bind fun _ => Quiet.pure _
  | fAll => exact (quiet_fAll _).bind fun _ => Quiet.pure _

/-! ### histories -/

theorem calm_prim (hT : SrvTame same srv) {p : Prim F} (hp : p.Over V) :
    Calm b (fun t => p.adds same t) (p.srvRun (srv.counts b)) (p.srvRun srv) := by
  cases p with
  | add e ts => exact (calm_add hT hp ts).before fun _ => Quiet.pure _
  | remove e => exact calm_remove hT e
  | removeMany es => exact calm_remove hT _
  | removeByPattern ps => exact Calm.after (quiet_pattern hT _) fun es => Calm.each0 es fun e _ => calm_remove hT e
  | removeBelief src e =>
    exact ((calm_remove hT _).bind fun _ => Calm.after (quiet_sources hT _) fun _ => Calm.ite (calm_remove hT _)
      ((Quiet.pure ()).calm _)).mono fun t => Nat.le_refl _
  | destroy => exact quiet_destroy.calm _
  | query q =>
    have : (Prim.query q).srvRun (srv.counts b) = (Prim.query q).srvRun srv := by cases q <;> rfl
    rw [this]
    exact (quiet_query hT q).calm _

theorem calm_op (hT : SrvTame same srv) {op : Op F} (hop : op.Over V) :
    Calm b (fun t => (op.steps.map fun p => p.adds same t).sum) (op.srvRun (srv.counts b)) (op.srvRun srv) := by
  cases op with
  | prim p => exact (calm_prim hT hop).mono fun t => by simp [Op.steps]
  | addMany es ts =>
    refine ((calm_addMany hT (c := true) hop.1 hop.2 ts).before fun _ => Quiet.pure _).mono fun t => ?_
    simp only [Op.steps, List.map_map]
    exact Nat.le_refl _
  | addBelief src e ts =>
    have hb : BeliefOver V src e := hop
    simp only [Op.srvRun, hgAddBeliefOn]
    rw [beliefEdges_single hb.edge]
    simp only [liftE_bind]
    refine ((calm_addMany (V := V) hT (c := false) (es := [e, support e src]) (by simp) ?_ ts).before fun _ => Quiet.pure _).mono
      fun t => ?_
    · intro x hx
      simp only [List.mem_cons, List.not_mem_nil, or_false] at hx
      rcases hx with rfl | rfl
      · exact hb.edge
      · exact support_over hb
    · simp [Op.steps, Prim.adds]
  | addBeliefs src es ts =>
    have hb : ∀ e ∈ es, BeliefOver V src e := hop.2
    have hne : es.flatMap (fun e => [e, support e src]) ≠ [] := by
      have := hop.1
      cases es with
      | nil => contradiction
      | cons e es => simp
    simp only [Op.srvRun, hgAddBeliefOn]
    rw [beliefEdges_many (src := src) hop.1 (fun e he => (hb e he).edge)]
    simp only [liftE_bind]
    refine ((calm_addMany (V := V) hT (c := true) hne ?_ ts).before fun _ => Quiet.pure _).mono fun t => ?_
    · intro x hx
      rw [List.mem_flatMap] at hx
      obtain ⟨e, he, hx⟩ := hx
      simp only [List.mem_cons, List.not_mem_nil, or_false] at hx
      rcases hx with rfl | rfl
      · exact (hb _ he).edge
      · exact support_over (hb _ he)
    · refine Nat.le_of_eq ?_
      simp only [Op.steps, List.map_flatMap, List.map_cons, List.map_nil, Prim.adds]
  | batch ps =>
    refine (Calm.after (Quiet.openC false) fun _ => Calm.before ?_ fun _ => Quiet.closeC _ _)
    rw [forEach_map, forEach_map]
    exact Calm.each (c := fun p t => Prim.adds same t p) ps fun p hp => calm_prim hT (hop p hp)
  | degree v =>
    refine Quiet.calm (Quiet.bind ((Quiet.openC _).bind fun c => (hT.select _ _).bind fun rows => ?_) fun _ => Quiet.pure _) _
    split
    · exact (Quiet.closeD _).bind fun _ => Quiet.pure _
    · exact (Quiet.closeC _ _).bind fun _ => Quiet.pure _
  | timestamp v =>
    refine Quiet.calm (Quiet.bind ((Quiet.openC _).bind fun c => (hT.select _ _).bind fun rows => ?_) fun _ => Quiet.pure _) _
    split
    · exact (Quiet.closeD _).bind fun _ => Quiet.pure _
    · exact (Quiet.closeC _ _).bind fun _ => Quiet.pure _

theorem calm_ops (hT : SrvTame same srv) (ops : List (Op F)) (hops : ∀ op ∈ ops, op.Over V) :
    Calm b (fun t => mentions same t ops) (runOpsOn (srv.counts b) ops) (runOpsOn srv ops) := by
  refine (Calm.each (c := fun op t => (op.steps.map fun p => p.adds same t).sum) ops fun op ho => calm_op hT (hops op ho)).mono
    fun t => Nat.le_of_eq ?_
  unfold mentions
  induction ops with
  | nil => rfl
  | cons op ops ih => simp [ih fun o ho => hops o (by simp [ho])]

/-! ### the servers -/

theorem quiet_sql {α : Type} {c : Cursor} {q : DB → Option (α × DB)}
    (h : ∀ db a db', q db = some (a, db') → ∀ r ∈ db'.vertices, ∃ r' ∈ db.vertices, r'.id = r.id ∧ r.degree ≤ r'.degree) :
    Quiet (execWrite c q) := by
  intro B s hs
  unfold execWrite
  split
  · exact hs
  · split
    · exact hs
    · next a db' hq =>
      have : DegWithin B { s with work := db' } := by
        intro r hr
        obtain ⟨r', hr', h1, h2⟩ := h _ _ _ hq r hr
        have := hs r' hr'
        rw [h1] at this
        omega
      dsimp only
      split <;> exact this

theorem sql_within {α : Type} {c : Cursor} {q : DB → Option (α × DB)} {B C : Str → Nat} (hBC : ∀ t, B t ≤ C t) {s : St}
    (hs : DegWithin B s)
    (h : ∀ a db', q s.work = some (a, db') → ∀ r ∈ db'.vertices, r.degree ≤ (C r.id : Int)) :
    DegWithin C (execWrite c q s).2 := by
  unfold execWrite
  split
  · exact hs.mono hBC
  · split
    · exact hs.mono hBC
    · next a db' hq =>
      have : DegWithin C { s with work := db' } := fun r hr => h _ _ hq r hr
      dsimp only
      split <;> exact this

end GB
