import Verif.Proofs.ConcSys
import Verif.Spec.Bounds

/-! Processes that keep a book: what they may still do, or what they answer for. -/

set_option linter.unusedSectionVars false
set_option linter.unusedVariables false

namespace GB

namespace Proc

variable {α β γ : Type} {I : γ → DB → Prop} {R : γ → DB → DB → γ → Prop}

/-- Whenever `I` holds of the book and the contents, the next step changes both as `R` says; the process returns with
a result and a book satisfying `Q`. -/
def Acts (I : γ → DB → Prop) (R : γ → DB → DB → γ → Prop) : Proc α → γ → (α → γ → Prop) → Prop
  | .ret r, g, Q => ∃ a, r = .ok a ∧ Q a g
  | .tx u n, g, Q => ∀ db, I g db → ∃ g', R g db (u db) g' ∧ Acts I R (n db) g' Q

theorem Acts.mono {p : Proc α} {g : γ} {Q Q' : α → γ → Prop} (h : p.Acts I R g Q) (hQ : ∀ a g, Q a g → Q' a g) :
    p.Acts I R g Q' := by
  induction p generalizing g with
  | ret r => obtain ⟨a, h1, h2⟩ := h; exact ⟨a, h1, hQ _ _ h2⟩
  | tx u n ih =>
    intro db hI
    obtain ⟨g', h1, h2⟩ := h db hI
    exact ⟨g', h1, ih db h2⟩

theorem Acts.bind {p : Proc α} {f : α → Proc β} {g : γ} {Q : β → γ → Prop}
    (h : p.Acts I R g fun a g' => (f a).Acts I R g' Q) : (p.bind f).Acts I R g Q := by
  induction p generalizing g with
  | ret r => obtain ⟨a, rfl, h⟩ := h; exact h
  | tx u n ih =>
    intro db hI
    obtain ⟨g', h1, h2⟩ := h db hI
    exact ⟨g', h1, ih db h2⟩

theorem Acts.each {f : α → Proc Unit} {xs : List α} {g : γ} (step : γ → α → γ)
    (h : ∀ x ∈ xs, ∀ g, (f x).Acts I R g fun _ g' => g' = step g x) :
    (Proc.each f xs).Acts I R g fun _ g' => g' = xs.foldl step g := by
  induction xs generalizing g with
  | nil => exact ⟨(), rfl, rfl⟩
  | cons x xs ih =>
    refine Acts.bind ((h x (by simp) g).mono ?_)
    rintro _ g' rfl
    exact ih fun y hy => h y (by simp [hy])

/-- A loop that keeps a property of the book. -/
theorem Acts.loop {f : α → Proc Unit} {xs : List α} {g : γ} (P : γ → Prop) (hg : P g)
    (h : ∀ x ∈ xs, ∀ g, P g → (f x).Acts I R g fun _ g' => P g') :
    (Proc.each f xs).Acts I R g fun _ g' => P g' := by
  induction xs generalizing g with
  | nil => exact ⟨(), rfl, hg⟩
  | cons x xs ih =>
    refine Acts.bind ((h x (by simp) g hg).mono ?_)
    intro _ g' hg'
    exact ih hg' fun y hy => h y (by simp [hy])

theorem Acts.atom {m : M α} {g : γ} {Q : α → γ → Prop}
    (h : ∀ db, I g db → ∃ a db' g', (m (reopen db false)).1 = .ok a ∧ (m (reopen db false)).2.disk = db' ∧
      R g db db' g' ∧ Q a g') : (Proc.atom m).Acts I R g Q := by
  intro db hI
  obtain ⟨a, db', g', h1, h2, h3, h4⟩ := h db hI
  simp only [h2]
  exact ⟨g', h3, a, h1, h4⟩

end Proc

/-- The books of all processes together satisfy whatever each step keeps. -/
theorem Sys.Reach.books {γ : Type} {I : γ → DB → Prop} {R : γ → DB → DB → γ → Prop} {Inv : DB → List γ → Prop} {σ τ : Sys}
    (h : σ.Reach τ) {gs : List γ} (hl : gs.length = σ.procs.length) (h0 : Inv σ.db gs)
    (hp : ∀ (i : Nat) (p : Proc Unit) (g : γ), σ.procs[i]? = some p → gs[i]? = some g → p.Acts I R g fun _ _ => True)
    (hI : ∀ db (gs : List γ) (i : Nat) (g : γ), Inv db gs → gs[i]? = some g → I g db)
    (hR : ∀ db db' (gs : List γ) (i : Nat) (g g' : γ), Inv db gs → gs[i]? = some g → R g db db' g' → Inv db' (gs.set i g')) :
    ∃ gs' : List γ, gs'.length = τ.procs.length ∧ Inv τ.db gs' ∧
      ∀ (i : Nat) (p : Proc Unit) (g : γ), τ.procs[i]? = some p → gs'[i]? = some g → p.Acts I R g fun _ _ => True := by
  induction h with
  | refl => exact ⟨gs, hl, h0, hp⟩
  | step _ hst ih =>
    obtain ⟨gs', hl', h1, h2⟩ := ih
    cases hst with
    | @tx db procs i u n hi =>
      have hil : i < procs.length := (List.getElem?_eq_some_iff.1 hi).1
      have hgi := List.getElem?_eq_getElem (show i < gs'.length by rw [hl']; exact hil)
      obtain ⟨g', h3, h4⟩ := h2 i _ _ hi hgi db (hI db gs' i _ h1 hgi)
      refine ⟨gs'.set i g', by simpa using hl', hR _ _ _ _ _ _ h1 hgi h3, ?_⟩
      intro j p g hj hg
      rcases getElem?_set_cases hj with ⟨rfl, rfl, _⟩ | ⟨hne, hj⟩
      · rcases getElem?_set_cases hg with ⟨_, rfl, _⟩ | ⟨hne, _⟩
        · exact h4
        · exact absurd rfl hne
      · rcases getElem?_set_cases hg with ⟨h, _, _⟩ | ⟨_, hg⟩
        · exact absurd h hne
        · exact h2 j p g hj hg

variable {F : Type} [PyFloat F] [DecidableEq F] {V : Val F → Prop}

/-- The calls that remove nothing. -/
theorem adds_only {a : PAct F} (ha : a.op.Over V) (h : ∀ x, ¬ a.Removes x) :
    (∃ e ts, a = .add e ts ∧ EdgeOver V e) ∨
    ∃ ts, (∀ x ∈ a.adds, EdgeOver V x) ∧ a.proc = addManyP ts a.adds := by
  cases a with
  | add e ts => exact .inl ⟨e, ts, rfl, ha⟩
  | addMany es ts => exact .inr ⟨ts, ha.2, addAny_many ha.1 ha.2 ts⟩
  | addBelief src e ts =>
    exact .inr ⟨ts, by simpa [PAct.adds] using ⟨BeliefOver.edge ha, support_over ha⟩, proc_addBelief ha ts⟩
  | addBeliefs src es ts => exact .inr ⟨ts, belief_pairs ha.2, proc_addBeliefs ha.1 ha.2 ts⟩
  | remove e => exact absurd rfl (h e)
  | removeMany es =>
    cases es with
    | nil => exact absurd rfl ha.1
    | cons e es => exact absurd (by simp [PAct.Removes]) (h e)
  | removeByPattern ps =>
    refine absurd ?_ (h (.tup ps))
    show Matches ps ps
    clear h ha
    induction ps with
    | nil => trivial
    | cons p ps ih => exact ⟨.inr rfl, ih⟩
  | removeBelief src e => exact absurd (.inl rfl) (h e)

/-! ### what a process may still add to a degree -/

/-- What a process may still add to the degree, and whether it knows that the degree is positive. -/
structure Purse where
  left : Nat
  pos : Bool

/-- Some row of the index is of an edge with `v` in it. -/
def RowWith (V : Val F → Prop) (v : Val F) (db : DB) : Prop :=
  ∃ x n, EdgeOver V x ∧ v ∈ x.elems ∧ HasRow db.perms x n

def PurseI (V : Val F → Prop) (v : Val F) (g : Purse) (db : DB) : Prop :=
  RowsOk V db.perms ∧ 0 ≤ degRow v db ∧ (g.pos = true → 1 ≤ degRow v db)

def PurseR (V : Val F → Prop) (v : Val F) (g : Purse) (a b : DB) (g' : Purse) : Prop :=
  RowsOk V b.perms ∧ 0 ≤ degRow v b ∧ degRow v b + g'.left ≤ degRow v a + g.left ∧
    (1 ≤ degRow v a → 1 ≤ degRow v b) ∧ (g'.pos = true → 1 ≤ degRow v b) ∧
    (RowWith V v b → RowWith V v a ∨ 1 ≤ degRow v b)

abbrev Pays (V : Val F → Prop) (v : Val F) {α : Type} (p : Proc α) (g : Purse) (Q : α → Purse → Prop) : Prop :=
  p.Acts (PurseI V v) (PurseR V v) g Q

/-- A step that leaves the degree and the index alone. -/
theorem purse_same {v : Val F} {g : Purse} {a b : DB} (hI : PurseI V v g a) (h1 : b.perms = a.perms)
    (h2 : degRow v b = degRow v a) : PurseR V v g a b g := by
  obtain ⟨i1, i2, i3⟩ := hI
  refine ⟨by rw [h1]; exact i1, by omega, by omega, by omega, fun h => by have := i3 h; omega, fun h => .inl ?_⟩
  unfold RowWith at h ⊢
  rwa [h1] at h

/-- A step that raises the degree and leaves the index alone. -/
theorem purse_rises {v : Val F} {g g' : Purse} {k : Nat} {a b : DB} (hI : PurseI V v g a) (h1 : b.perms = a.perms)
    (h2 : Rises v k a b) (hl : g'.left + k ≤ g.left) (hp : g'.pos = true → g.pos = true ∨ 1 ≤ k) : PurseR V v g a b g' := by
  obtain ⟨i1, i2, i3⟩ := hI
  obtain ⟨r1, r2, r3⟩ := h2.pos i2
  refine ⟨by rw [h1]; exact i1, r1, by omega, fun h => r3 (.inl h), fun h => r3 ((hp h).imp i3 id), fun h => .inl ?_⟩
  unfold RowWith at h ⊢
  rwa [h1] at h

theorem pays_exists (hV : Vocab V) {v e : Val F} (he : EdgeOver V e) (g : Purse) :
    Pays V v (Proc.atom (existsM e)) g fun _ g' => g' = g := by
  refine Proc.Acts.atom fun db hI => ?_
  obtain ⟨b, h1, h2, _⟩ := here_exists hV hI.1 he
  exact ⟨b, db, g, h1, h2, purse_same hI rfl rfl, rfl⟩

/-- Paying for one element. -/
def Purse.pay (v : Val F) (g : Purse) (x : Val F) : Purse :=
  ⟨g.left - if v = x then 1 else 0, g.pos || decide (v = x)⟩

theorem pays_addVert {v x : Val F} (hv : WfVal v) (hx : WfVal x) (ts : Int) (g : Purse) (hg : v = x → 1 ≤ g.left) :
    Pays V v (addVertP ts x) g fun _ g' => g' = g.pay v x := by
  have hinj : edge2str v = edge2str x ↔ v = x := ⟨edge2str_inj hv hx, fun h => by rw [h]⟩
  by_cases hvx : v = x
  · subst hvx
    have hg := hg rfl
    have hpay : g.pay v v = ⟨g.left - 1, true⟩ := by simp [Purse.pay]
    rw [hpay]
    refine Proc.Acts.bind (Proc.Acts.atom fun db hI => ?_)
    obtain ⟨k1, k2⟩ := degRow_bump_eq v db 1
    cases hk : decide ((db.bumpDegree 1 (edge2str v)).1 > 0) with
    | true =>
      refine ⟨true, _, ⟨g.left - 1, true⟩, by rw [(here_inc db _).1, hk], (here_inc db _).2, ?_, ⟨(), rfl, rfl⟩⟩
      refine purse_rises (k := 1) hI rfl ?_ (by simp; omega) (fun _ => .inr (by omega))
      have h0 := hI.2.1
      unfold Rises
      rw [k1 hk]
      omega
    | false =>
      refine ⟨false, _, g, by rw [(here_inc db _).1, hk], (here_inc db _).2, purse_same hI rfl (k2 hk).1, ?_⟩
      refine Proc.Acts.atom fun db hI => ⟨(), _, ⟨g.left - 1, true⟩, (here_addStr db _ _ _).1, (here_addStr db _ _ _).2, ?_, rfl⟩
      refine purse_rises (k := 1) hI (upsert_perms _ _ _ _) ?_ (by simp; omega) (fun _ => .inr (by omega))
      have h0 := hI.2.1
      unfold Rises
      rw [degRow_upsert_eq]
      omega
  · have hpay : g.pay v x = g := by simp [Purse.pay, hvx]
    rw [hpay]
    have hne : edge2str v ≠ edge2str x := fun h => hvx (hinj.1 h)
    refine Proc.Acts.bind (Proc.Acts.atom fun db hI =>
      ⟨_, _, g, (here_inc db _).1, (here_inc db _).2, purse_same hI rfl (degRow_bump_ne hne 1), ?_⟩)
    split
    · exact Proc.Acts.atom fun db hI => ⟨(), _, g, (here_addStr db _ _ _).1, (here_addStr db _ _ _).2,
        purse_same hI (upsert_perms _ _ _ _) (degRow_upsert_ne hne _ _), rfl⟩
    · exact ⟨(), rfl, rfl⟩

theorem pays_verts {v : Val F} (hv : WfVal v) (ts : Int) {xs : List (Val F)} (hx : ∀ x ∈ xs, WfVal x) (g : Purse)
    (hg : xs.count v ≤ g.left) :
    Pays V v (Proc.each (addVertP ts) xs) g fun _ g' =>
      g'.left = g.left - xs.count v ∧ g'.pos = (g.pos || decide (v ∈ xs)) := by
  induction xs generalizing g with
  | nil => exact ⟨(), rfl, by simp, by simp⟩
  | cons x xs ih =>
    rw [List.count_cons] at hg
    have h1 : v = x → 1 ≤ g.left := by
      rintro rfl
      simp at hg
      omega
    refine Proc.Acts.bind ((pays_addVert hv (hx x (by simp)) ts g h1).mono ?_)
    rintro _ g' rfl
    by_cases hvx : v = x
    · subst hvx
      simp at hg
      refine (ih (fun y hy => hx y (by simp [hy])) _ (by simp [Purse.pay]; omega)).mono ?_
      rintro _ g' ⟨h1, h2⟩
      refine ⟨?_, ?_⟩
      · rw [h1]; simp [Purse.pay]; omega
      · rw [h2]; simp [Purse.pay]
    · have hb : (x == v) = false := by simpa using fun h => hvx h.symm
      simp [hb] at hg
      refine (ih (fun y hy => hx y (by simp [hy])) _ (by simpa [Purse.pay, hvx] using hg)).mono ?_
      rintro _ g' ⟨h1, h2⟩
      refine ⟨?_, ?_⟩
      · rw [h1]; simp [Purse.pay, hvx, List.count_cons, hb]
      · rw [h2]; simp [Purse.pay, hvx]

theorem pays_write (hV : Vocab V) {v e : Val F} (he : EdgeOver V e) {n : Nat} (hn : n < factorial e.elems.length)
    (g : Purse) (hg : v ∈ e.elems → g.pos = true) :
    Pays V v (Proc.atom (writeEdgePermutation (F := F) (rowOf e.elems n))) g fun _ g' => g' = g := by
  refine Proc.Acts.atom fun db hI => ⟨(), _, g, (here_write (F := F) db _).1, (here_write (F := F) db _).2, ?_, rfl⟩
  obtain ⟨i1, i2, i3⟩ := hI
  have hd : degRow v (db.upsertPerm (rowOf e.elems n)) = degRow v db :=
    (known_of_vertices (upsertPerm_vertices _ _)).2
  refine ⟨rowsOk_upsert he hn i1, by rw [hd]; exact i2, by rw [hd]; omega, by rw [hd]; exact id, by rw [hd]; exact i3, ?_⟩
  rintro ⟨x, k, hx, hvx, hr⟩
  rcases (hasRow_upsert hV he hx hn db k).1 hr with hr | ⟨rfl, _⟩
  · exact .inl ⟨x, k, hx, hvx, hr⟩
  · rw [hd]; exact .inr (i3 (hg hvx))

theorem pays_add (hV : Vocab V) {v e : Val F} (hv : WfVal v) (ha : v.isAtom = true) (he : EdgeOver V e) (ts : Int) (g : Purse)
    (hg : e.elems.count v ≤ g.left) :
    Pays V v (addP e ts) g fun _ g' => g.left ≤ g'.left + e.elems.count v := by
  refine Proc.Acts.bind ((pays_exists hV he g).mono ?_)
  rintro b g' rfl
  split
  · rw [iter_edge he]
    refine Proc.Acts.bind ⟨_, rfl, ?_⟩
    refine Proc.Acts.bind ((pays_verts hv ts (edge_wf hV he) g' hg).mono ?_)
    rintro _ g1 ⟨h1, h2⟩
    refine Proc.Acts.bind (Proc.Acts.atom fun db hI => ⟨(), _, g1, (here_addStr db _ _ _).1, (here_addStr db _ _ _).2,
      purse_same hI (upsert_perms _ _ _ _) (degRow_upsert_ne (atom_text_ne hV hv ha he) _ _), ?_⟩)
    refine (Proc.Acts.loop (fun g => g = g1) rfl fun n hn g hg => ?_).mono ?_
    · subst hg
      rw [List.mem_range] at hn
      rw [permStr_eq he.elems_ne hn]
      exact pays_write hV he hn g fun hm => by rw [h2]; simp [hm]
    · rintro _ g2 rfl
      omega
  · exact ⟨(), rfl, by omega⟩

theorem rises_chain (hV : Vocab V) {v : Val F} (hv : WfVal v) (ha : v.isAtom = true) {es : List (Val F)}
    (hes : ∀ x ∈ es, EdgeOver V x) {a b : DB} (h : Chain RawEff es a b) :
    ∃ N : List (Val F), N.Sublist es ∧ Rises v (occurrences v N) a b ∧
      (KnownRow v a → KnownRow v b ∧ degRow v b = degRow v a + (occurrences v N : Nat)) ∧
      ∀ x, EdgeOver V x → ∀ n, HasRow b.perms x n → HasRow a.perms x n ∨ x ∈ N := by
  induction es generalizing a with
  | nil =>
    cases h
    exact ⟨[], List.Sublist.refl _, Rises.same rfl, fun h => ⟨h, by simp [occurrences]⟩, fun x _ n h => .inl h⟩
  | cons e es ih =>
    obtain ⟨c, h1, h2⟩ := h
    obtain ⟨N, k1, k2, k3, k4⟩ := ih (fun x hx => hes x (by simp [hx])) h2
    rcases h1 with ⟨_, rfl⟩ | ⟨_, heff⟩
    · exact ⟨N, k1.cons _, k2, k3, k4⟩
    · have hocc : occurrences v (e :: N) = e.elems.count v + occurrences v N := by simp [occurrences]
      refine ⟨e :: N, k1.cons_cons _, ?_, ?_, ?_⟩
      · rw [hocc]; exact (heff.2.2 v hv ha).trans k2
      · intro hk
        obtain ⟨j1, j2⟩ := heff.2.1 v hv ha hk
        obtain ⟨j3, j4⟩ := k3 j1
        refine ⟨j3, ?_⟩
        rw [j4, j2, hocc]
        omega
      · intro x hx n hr
        rcases k4 x hx n hr with hr | hr
        · rcases (heff.hasRow hV (hes e (by simp)) hx n).1 hr with hr | ⟨rfl, _⟩
          · exact .inl hr
          · exact .inr (by simp)
        · exact .inr (by simp [hr])

/-- A bulk addition, from the first absent edge on. -/
theorem bulk_eff (hV : Vocab V) {v : Val F} (hv : WfVal v) (ha : v.isAtom = true) {e : Val F} (he : EdgeOver V e)
    {es : List (Val F)} (hes : ∀ x ∈ es, EdgeOver V x) (ts : Int) (db : DB) (hR : RowsOk V db.perms) :
    ∃ db' N, ((do
          let _ ← openCursor false
          addNew e ts
          forEach (fun e => do let _ ← addRaw e ts) es
          closeCursor false true : M Unit) (reopen db false)).1 = .ok () ∧
        ((do
          let _ ← openCursor false
          addNew e ts
          forEach (fun e => do let _ ← addRaw e ts) es
          closeCursor false true : M Unit) (reopen db false)).2.disk = db' ∧
        RowsOk V db'.perms ∧ N.Sublist (e :: es) ∧ Rises v (occurrences v N) db db' ∧
        (KnownRow v db → KnownRow v db' ∧ degRow v db' = degRow v db + (occurrences v N : Nat)) ∧
        ∀ x, EdgeOver V x → ∀ n, HasRow db'.perms x n → HasRow db.perms x n ∨ x ∈ N := by
  obtain ⟨s', db1, db2, e1, d1, _, _, r1, r2, a1, c1⟩ := bulk_run hV he hes ts db hR
  obtain ⟨N, k1, k2, k3, k4⟩ := rises_chain hV hv ha hes c1
  have hocc : occurrences v (e :: N) = e.elems.count v + occurrences v N := by simp [occurrences]
  refine ⟨db2, e :: N, by rw [e1], by rw [e1]; exact d1, r2, k1.cons_cons _, ?_, ?_, ?_⟩
  · rw [hocc]; exact (a1.2.2 v hv ha).trans k2
  · intro hk
    obtain ⟨j1, j2⟩ := a1.2.1 v hv ha hk
    obtain ⟨j3, j4⟩ := k3 j1
    refine ⟨j3, ?_⟩
    rw [j4, j2, hocc]
    omega
  · intro x hx n hr
    rcases k4 x hx n hr with hr | hr
    · rcases (a1.hasRow hV he hx n).1 hr with hr | ⟨rfl, _⟩
      · exact .inl hr
      · exact .inr (by simp)
    · exact .inr (by simp [hr])

theorem occurrences_cons (v e : Val F) (l : List (Val F)) :
    occurrences v (e :: l) = e.elems.count v + occurrences v l := by simp [occurrences]

theorem occurrences_sublist {v : Val F} {l m : List (Val F)} (h : l.Sublist m) : occurrences v l ≤ occurrences v m := by
  induction h with
  | slnil => exact Nat.le_refl _
  | cons _ _ ih => rw [occurrences_cons]; omega
  | cons_cons _ _ ih => rw [occurrences_cons, occurrences_cons]; omega

theorem occurrences_pos {v x : Val F} {l : List (Val F)} (hx : x ∈ l) (hv : v ∈ x.elems) : 1 ≤ occurrences v l := by
  have h1 : occurrences v [x] ≤ occurrences v l := occurrences_sublist (List.singleton_sublist.2 hx)
  have h2 := List.count_pos_iff.2 hv
  rw [occurrences_cons] at h1
  omega

theorem pays_addMany (hV : Vocab V) {v : Val F} (hv : WfVal v) (ha : v.isAtom = true) (ts : Int) {es : List (Val F)}
    (hes : ∀ x ∈ es, EdgeOver V x) (g : Purse) (hg : occurrences v es ≤ g.left) :
    Pays V v (addManyP ts es) g fun _ g' => g.left ≤ g'.left + occurrences v es := by
  induction es generalizing g with
  | nil => exact ⟨(), rfl, by omega⟩
  | cons e es ih =>
    have he := hes e (by simp)
    have hes' : ∀ x ∈ es, EdgeOver V x := fun x hx => hes x (by simp [hx])
    refine Proc.Acts.bind ((pays_exists hV he g).mono ?_)
    rintro b g' rfl
    split
    · refine Proc.Acts.atom fun db hI => ?_
      obtain ⟨db', N, e1, e2, r, hN, hr, _, hrow⟩ := bulk_eff hV hv ha he hes' ts db hI.1
      have hle := occurrences_sublist (v := v) hN
      refine ⟨(), db', ⟨g'.left - occurrences v N, g'.pos⟩, e1, e2, ?_, by dsimp only; omega⟩
      obtain ⟨i1, i2, i3⟩ := hI
      obtain ⟨r1, r2, r3⟩ := hr.pos i2
      refine ⟨r, r1, by dsimp only; omega, fun h => r3 (.inl h), fun h => r3 (.inl (i3 h)), ?_⟩
      rintro ⟨x, k, hx, hvx, hrx⟩
      rcases hrow x hx k hrx with hrx | hrx
      · exact .inl ⟨x, k, hx, hvx, hrx⟩
      · exact .inr (r3 (.inr (occurrences_pos hrx hvx)))
    · rw [occurrences_cons] at hg
      refine (ih hes' g' (by omega)).mono ?_
      intro _ g2 h2
      rw [occurrences_cons]
      omega

theorem pays_program (hV : Vocab V) {v : Val F} (hv : WfVal v) (ha : v.isAtom = true) {prog : Program F}
    (ho : ∀ a ∈ prog, a.op.Over V) (hno : ∀ x, ¬ prog.Removes x) (g : Purse)
    (hg : occurrences v (prog.flatMap PAct.adds) ≤ g.left) :
    Pays V v (programP prog) g fun _ _ => True := by
  induction prog generalizing g with
  | nil => exact ⟨(), rfl, trivial⟩
  | cons a prog ih =>
    rw [List.flatMap_cons, occurrences_append] at hg
    have h1 : Pays V v a.proc g fun _ g' => g.left ≤ g'.left + occurrences v a.adds := by
      rcases adds_only (ho a (by simp)) fun x h => hno x ⟨a, by simp, h⟩ with ⟨e, ts, rfl, he⟩ | ⟨ts, he, hp⟩
      · show Pays V v (addAnyP e ts) g _
        rw [addAny_edge he]
        have hocc : occurrences v (PAct.add e ts).adds = e.elems.count v := by simp [PAct.adds, occurrences]
        rw [hocc] at hg ⊢
        exact pays_add hV hv ha he ts g (by omega)
      · rw [hp]
        exact pays_addMany hV hv ha ts he g (by omega)
    refine Proc.Acts.bind (h1.mono ?_)
    intro _ g' hg'
    exact ih (fun b hb => ho b (by simp [hb])) (fun x ⟨b, hb, h⟩ => hno x ⟨b, by simp [hb], h⟩) g' (by omega)

/-! ### what a process answers for -/

/-- What a process added to the degree, and edges for which it did. -/
structure Ledger (F : Type) where
  total : Int
  edges : List (Val F)

def LedgerR (V : Val F → Prop) (v : Val F) (g : Ledger F) (a b : DB) (g' : Ledger F) : Prop :=
  CInv V (some v) b ∧ g'.total = g.total + (degRow v b - degRow v a) ∧ (occurrences v g'.edges : Nat) ≤ g'.total ∧
    (∀ x ∈ g.edges, x ∈ g'.edges) ∧
    ∀ x, EdgeOver V x → ∀ n, HasRow b.perms x n → HasRow a.perms x n ∨ x ∈ g'.edges

abbrev Answers (V : Val F → Prop) (v : Val F) {α : Type} (p : Proc α) (g : Ledger F) (Q : α → Ledger F → Prop) : Prop :=
  p.Acts (fun _ => CInv V (some v)) (LedgerR V v) g Q

/-- The book is in order. -/
def Ledger.Sound (v : Val F) (g : Ledger F) : Prop := (occurrences v g.edges : Nat) ≤ g.total

theorem ledger_same {v : Val F} {g : Ledger F} (hg : g.Sound v) {a b : DB} (hI : CInv V (some v) b)
    (h1 : b.perms = a.perms) (h2 : degRow v b = degRow v a) : LedgerR V v g a b g := by
  refine ⟨hI, by omega, hg, fun _ h => h, fun x hx n h => .inl ?_⟩
  rwa [h1] at h

theorem answers_exists (hV : Vocab V) {v e : Val F} (he : EdgeOver V e) (g : Ledger F) (hg : g.Sound v) :
    Answers V v (Proc.atom (existsM e)) g fun _ g' => g' = g := by
  refine Proc.Acts.atom fun db hI => ?_
  obtain ⟨b, h1, h2, _⟩ := here_exists hV hI.1 he
  exact ⟨b, db, g, h1, h2, ledger_same hg hI rfl rfl, rfl⟩

theorem answers_addVert {v x : Val F} (hv : WfVal v) (hx : WfVal x) (ts : Int) (g : Ledger F) (hg : g.Sound v) :
    Answers V v (addVertP ts x) g fun _ g' => g' = ⟨g.total + if v = x then 1 else 0, g.edges⟩ := by
  have hinj : edge2str v = edge2str x ↔ v = x := ⟨edge2str_inj hv hx, fun h => by rw [h]⟩
  refine Proc.Acts.bind (Proc.Acts.atom fun db hI =>
    ⟨_, _, ⟨g.total + if v = x then 1 else 0, g.edges⟩, (here_inc db _).1, (here_inc db _).2, ?_, ?_⟩)
  · obtain ⟨k1, k2⟩ := degRow_bump (hI.2 v rfl) 1 (edge2str x)
    simp only [hinj] at k2
    refine ⟨⟨hI.1, fun w hw => by cases hw; exact k1⟩, by dsimp only; omega, ?_, fun _ h => h, fun y _ n h => .inl h⟩
    have : (occurrences v g.edges : Nat) ≤ g.total := hg
    dsimp only
    split <;> omega
  · split
    · rename_i hk
      have hne : v ≠ x := by
        rintro rfl
        rw [known_bump (hI.2 v rfl)] at hk
        simp at hk
      have hne' : edge2str v ≠ edge2str x := fun h => hne (hinj.1 h)
      simp only [hne, if_false, Int.add_zero]
      refine Proc.Acts.atom fun db hI => ⟨(), _, g, (here_addStr db _ _ _).1, (here_addStr db _ _ _).2, ?_, rfl⟩
      refine ledger_same hg ⟨?_, fun w hw => ?_⟩ (upsert_perms _ _ _ _) (degRow_upsert_ne hne' _ _)
      · rw [upsert_perms]; exact hI.1
      · cases hw; exact (degRow_upsert (hI.2 v rfl) _ _).1
    · exact ⟨(), rfl, rfl⟩

theorem answers_verts {v : Val F} (hv : WfVal v) (ts : Int) {xs : List (Val F)} (hx : ∀ x ∈ xs, WfVal x) (g : Ledger F)
    (hg : g.Sound v) :
    Answers V v (Proc.each (addVertP ts) xs) g fun _ g' => g' = ⟨g.total + (xs.count v : Nat), g.edges⟩ := by
  induction xs generalizing g with
  | nil => exact ⟨(), rfl, by simp⟩
  | cons x xs ih =>
    refine Proc.Acts.bind ((answers_addVert hv (hx x (by simp)) ts g hg).mono ?_)
    rintro _ g' rfl
    have hg' : Ledger.Sound v ⟨g.total + if v = x then 1 else 0, g.edges⟩ := by
      unfold Ledger.Sound at hg ⊢
      dsimp only
      split <;> omega
    refine (ih (fun y hy => hx y (by simp [hy])) _ hg').mono ?_
    rintro _ g' rfl
    rw [List.count_cons]
    by_cases hvx : v = x
    · subst hvx; simp; omega
    · have hb : (x == v) = false := by simpa using fun h => hvx h.symm
      simp [hvx, hb]

theorem answers_add (hV : Vocab V) {v e : Val F} (hv : WfVal v) (ha : v.isAtom = true) (he : EdgeOver V e) (ts : Int)
    (g : Ledger F) (hg : g.Sound v) : Answers V v (addP e ts) g fun _ g' => g'.Sound v := by
  refine Proc.Acts.bind ((answers_exists hV he g hg).mono ?_)
  rintro b g' rfl
  split
  · rw [iter_edge he]
    refine Proc.Acts.bind ⟨_, rfl, ?_⟩
    refine Proc.Acts.bind ((answers_verts hv ts (edge_wf hV he) g' hg).mono ?_)
    rintro _ g1 rfl
    have hs : Ledger.Sound v (F := F) ⟨g'.total + (e.elems.count v : Nat), e :: g'.edges⟩ := by
      unfold Ledger.Sound at hg ⊢
      dsimp only
      rw [occurrences_cons]
      omega
    refine Proc.Acts.bind (Proc.Acts.atom fun db hI =>
      ⟨(), _, ⟨g'.total + (e.elems.count v : Nat), e :: g'.edges⟩, (here_addStr db _ _ _).1, (here_addStr db _ _ _).2, ?_, ?_⟩)
    · refine ⟨⟨?_, fun w hw => ?_⟩, ?_, hs, fun x hx => by simp [hx], fun x hx n h => .inl ?_⟩
      · rw [upsert_perms]; exact hI.1
      · cases hw; exact (degRow_upsert (hI.2 v rfl) _ _).1
      · rw [degRow_upsert_ne (atom_text_ne hV hv ha he)]; dsimp only; omega
      · rwa [upsert_perms] at h
    · refine Proc.Acts.mono (Q := fun _ g => g = ⟨g'.total + (e.elems.count v : Nat), e :: g'.edges⟩)
        (Proc.Acts.loop (fun g => g = (⟨g'.total + (e.elems.count v : Nat), e :: g'.edges⟩ : Ledger F)) rfl fun n hn g hgg => ?_) (by rintro _ g rfl; exact hs)
      rw [List.mem_range] at hn
      rw [permStr_eq he.elems_ne hn]
      refine Proc.Acts.atom fun db hI => ⟨(), _, g, (here_write (F := F) db _).1, (here_write (F := F) db _).2, ?_, hgg⟩
      have hd : degRow v (db.upsertPerm (rowOf e.elems n)) = degRow v db :=
        (known_of_vertices (upsertPerm_vertices _ _)).2
      refine ⟨⟨rowsOk_upsert he hn hI.1, fun w hw => by
        cases hw; exact (known_of_vertices (upsertPerm_vertices _ _)).1.2 (hI.2 v rfl)⟩, by rw [hd]; omega, ?_, fun _ h => h, ?_⟩
      · rw [hgg]; exact hs
      · intro x hx k hr
        rcases (hasRow_upsert hV he hx hn db k).1 hr with hr | ⟨rfl, _⟩
        · exact .inl hr
        · rw [hgg]; exact .inr (by simp)
  · exact ⟨(), rfl, hg⟩

theorem answers_addMany (hV : Vocab V) {v : Val F} (hv : WfVal v) (ha : v.isAtom = true) (ts : Int) {es : List (Val F)}
    (hes : ∀ x ∈ es, EdgeOver V x) (g : Ledger F) (hg : g.Sound v) :
    Answers V v (addManyP ts es) g fun _ g' => g'.Sound v := by
  induction es generalizing g with
  | nil => exact ⟨(), rfl, hg⟩
  | cons e es ih =>
    have he := hes e (by simp)
    have hes' : ∀ x ∈ es, EdgeOver V x := fun x hx => hes x (by simp [hx])
    refine Proc.Acts.bind ((answers_exists hV he g hg).mono ?_)
    rintro b g' rfl
    split
    · refine Proc.Acts.atom fun db hI => ?_
      obtain ⟨db', N, e1, e2, r, hN, hr, hk, hrow⟩ := bulk_eff hV hv ha he hes' ts db hI.1
      obtain ⟨k1, k2⟩ := hk (hI.2 v rfl)
      have hs : Ledger.Sound v (F := F) ⟨g'.total + (occurrences v N : Nat), N ++ g'.edges⟩ := by
        unfold Ledger.Sound at hg ⊢
        dsimp only
        rw [occurrences_append]
        omega
      refine ⟨(), db', ⟨g'.total + (occurrences v N : Nat), N ++ g'.edges⟩, e1, e2,
        ⟨⟨r, fun w hw => by cases hw; exact k1⟩, by dsimp only; omega, hs, fun x hx => by simp [hx], fun x hx n h => ?_⟩, hs⟩
      exact (hrow x hx n h).imp id fun h => by simp [h]
    · exact ih hes' g' hg

theorem answers_program (hV : Vocab V) {v : Val F} (hv : WfVal v) (ha : v.isAtom = true) {prog : Program F}
    (ho : ∀ a ∈ prog, a.op.Over V) (hno : ∀ x, ¬ prog.Removes x) (g : Ledger F) (hg : g.Sound v) :
    Answers V v (programP prog) g fun _ _ => True := by
  induction prog generalizing g with
  | nil => exact ⟨(), rfl, trivial⟩
  | cons a prog ih =>
    have h1 : Answers V v a.proc g fun _ g' => g'.Sound v := by
      rcases adds_only (ho a (by simp)) fun x h => hno x ⟨a, by simp, h⟩ with ⟨e, ts, rfl, he⟩ | ⟨ts, he, hp⟩
      · show Answers V v (addAnyP e ts) g _
        rw [addAny_edge he]
        exact answers_add hV hv ha he ts g hg
      · rw [hp]
        exact answers_addMany hV hv ha ts he g hg
    refine Proc.Acts.bind (h1.mono ?_)
    intro _ g' hg'
    exact ih (fun b hb => ho b (by simp [hb])) (fun x ⟨b, hb, h⟩ => hno x ⟨b, by simp [hb], h⟩) g' hg'

/-! ### all processes together -/

theorem sum_set_nat {l : List Nat} {i : Nat} {c d : Nat} (h : l[i]? = some c) :
    (l.set i d).sum + c = l.sum + d := by
  induction l generalizing i with
  | nil => simp at h
  | cons x xs ih =>
    cases i with
    | zero => simp at h; subst h; simp; omega
    | succ i =>
      simp at h
      have := ih h
      simp
      omega

theorem start_length (db : DB) (progs : List (Program F)) : (Sys.start db progs).procs.length = progs.length := by
  simp [Sys.start]

/-- However the processes are scheduled, the degree is at most what it was and what they may add, and it is positive as
soon as the index has a row of an edge with the symbol in it. -/
theorem reach_purse (hV : Vocab V) {v : Val F} (hv : WfVal v) (ha : v.isAtom = true) {db : DB}
    (hR : RowsOk V db.perms) (h0 : 0 ≤ degRow v db) (hH : RowWith V v db → 1 ≤ degRow v db) {progs : List (Program F)}
    (ho : ∀ p ∈ progs, ∀ a ∈ p, a.op.Over V) (hno : ∀ p ∈ progs, ∀ x, ¬ Program.Removes p x) {τ : Sys}
    (h : (Sys.start db progs).Reach τ) :
    degRow v τ.db ≤ degRow v db + (occurrences v (addsOf progs) : Nat) ∧ 0 ≤ degRow v τ.db ∧
      (RowWith V v τ.db → 1 ≤ degRow v τ.db) := by
  obtain ⟨gs, _, ⟨_, i2, i3, _, i5⟩, _⟩ := h.books (I := PurseI V v) (R := PurseR V v)
    (Inv := fun d (gs : List Purse) => RowsOk V d.perms ∧ 0 ≤ degRow v d ∧
      degRow v d + ((gs.map Purse.left).sum : Nat) ≤ degRow v db + (occurrences v (addsOf progs) : Nat) ∧
      (∀ g ∈ gs, g.pos = true → 1 ≤ degRow v d) ∧ (RowWith V v d → 1 ≤ degRow v d))
    (gs := progs.map fun p => ⟨occurrences v (p.flatMap PAct.adds), false⟩) (by simp [Sys.start])
    (by
      refine ⟨hR, h0, ?_, ?_, hH⟩
      · have : ∀ l : List (Program F), ((l.map fun p => (⟨occurrences v (p.flatMap PAct.adds), false⟩ : Purse)).map Purse.left).sum =
            occurrences v (addsOf l) := by
          intro l
          induction l with
          | nil => rfl
          | cons p l ih =>
            unfold addsOf at ih ⊢
            rw [List.flatMap_cons, occurrences_append, ← ih]
            simp
        rw [this]
        exact Int.le_refl _
      · intro g hg hp
        obtain ⟨p, _, rfl⟩ := List.mem_map.1 hg
        cases hp)
    (by
      intro i p g hi hg
      obtain ⟨prog, h1, rfl⟩ := start_proc hi
      rw [List.getElem?_map, h1] at hg
      cases hg
      exact pays_program hV hv ha (ho prog (List.mem_of_getElem? h1)) (hno prog (List.mem_of_getElem? h1)) _ (Nat.le_refl _))
    (by
      rintro d gs i g ⟨j1, j2, _, j4, _⟩ hg
      exact ⟨j1, j2, j4 g (List.mem_of_getElem? hg)⟩)
    (by
      rintro d d' gs i g g' ⟨j1, j2, j3, j4, j5⟩ hg ⟨r1, r2, r3, r4, r5, r6⟩
      refine ⟨r1, r2, ?_, ?_, ?_⟩
      · have := sum_set_nat (l := gs.map Purse.left) (i := i) (c := g.left) (d := g'.left) (by rw [List.getElem?_map, hg]; rfl)
        rw [List.map_set]
        omega
      · intro k hk hp
        rcases List.mem_or_eq_of_mem_set hk with hk | rfl
        · exact r4 (j4 k hk hp)
        · exact r5 hp
      · intro hh
        exact (r6 hh).elim (fun h => r4 (j5 h)) id)
  exact ⟨by omega, i2, i5⟩

/-- However the processes are scheduled, the degree of a symbol known at the start counts all rows of the index. -/
theorem reach_ledger (hV : Vocab V) {v : Val F} (hv : WfVal v) (ha : v.isAtom = true) {db : DB}
    (hI : CInv V (some v) db) {progs : List (Program F)} (ho : ∀ p ∈ progs, ∀ a ∈ p, a.op.Over V)
    (hno : ∀ p ∈ progs, ∀ x, ¬ Program.Removes p x) {τ : Sys} (h : (Sys.start db progs).Reach τ) :
    ∃ D : List (Val F), degRow v db + (occurrences v D : Nat) ≤ degRow v τ.db ∧
      ∀ x, EdgeOver V x → ∀ n, HasRow τ.db.perms x n → HasRow db.perms x n ∨ x ∈ D := by
  obtain ⟨gs, hgl, ⟨_, i2, i3, i4⟩, hacts⟩ := h.books (I := fun _ => CInv V (some v)) (R := LedgerR V v)
    (Inv := fun d (gs : List (Ledger F)) => CInv V (some v) d ∧ degRow v d = degRow v db + (gs.map Ledger.total).sum ∧
      (∀ g ∈ gs, g.Sound v) ∧
      ∀ x, EdgeOver V x → ∀ n, HasRow d.perms x n → HasRow db.perms x n ∨ ∃ g ∈ gs, x ∈ g.edges)
    (gs := progs.map fun _ => ⟨0, []⟩) (by simp [Sys.start])
    (by
      refine ⟨hI, ?_, ?_, fun x _ n h => .inl h⟩
      · have : ((progs.map fun _ => (⟨0, []⟩ : Ledger F)).map Ledger.total).sum = 0 := by
          rw [List.map_map]; exact sum_zero progs
        rw [this]
        show degRow v db = _
        omega
      · intro g hg
        obtain ⟨p, _, rfl⟩ := List.mem_map.1 hg
        simp [Ledger.Sound, occurrences])
    (by
      intro i p g hi hg
      obtain ⟨prog, h1, rfl⟩ := start_proc hi
      rw [List.getElem?_map, h1] at hg
      cases hg
      exact answers_program hV hv ha (ho prog (List.mem_of_getElem? h1)) (hno prog (List.mem_of_getElem? h1)) _
        (by simp [Ledger.Sound, occurrences]))
    (by
      rintro d gs i g ⟨j1, _⟩ hg
      exact j1)
    (by
      rintro d d' gs i g g' ⟨j1, j2, j3, j4⟩ hg ⟨r1, r2, r3, r4, r5⟩
      have hlt : i < gs.length := (List.getElem?_eq_some_iff.1 hg).1
      have hmem : g' ∈ gs.set i g' := List.mem_set hlt g'
      refine ⟨r1, ?_, ?_, ?_⟩
      · have := sum_set (cs := gs.map Ledger.total) (i := i) (c := g.total) (d := g'.total) (by rw [List.getElem?_map, hg]; rfl)
        rw [List.map_set, this]
        omega
      · intro k hk
        rcases List.mem_or_eq_of_mem_set hk with hk | rfl
        · exact j3 k hk
        · exact r3
      · intro x hx n hr
        rcases r5 x hx n hr with hr | hr
        · rcases j4 x hx n hr with hr | ⟨k, hk, hxk⟩
          · exact .inl hr
          · right
            obtain ⟨j, hj⟩ := List.getElem?_of_mem hk
            by_cases hji : j = i
            · subst hji
              rw [hg] at hj
              cases hj
              exact ⟨g', hmem, r4 x hxk⟩
            · refine ⟨k, List.mem_of_getElem? (i := j) ?_, hxk⟩
              rw [List.getElem?_set, if_neg fun h => hji h.symm]
              exact hj
        · exact .inr ⟨g', hmem, hr⟩)
  refine ⟨gs.flatMap Ledger.edges, ?_, ?_⟩
  · have : ((occurrences v (gs.flatMap Ledger.edges) : Nat) : Int) ≤ (gs.map Ledger.total).sum := by
      clear i2 i4 hgl hacts
      induction gs with
      | nil => simp [occurrences]
      | cons g gs ih =>
        have h1 := ih (fun k hk => i3 k (by simp [hk]))
        have h2 : (occurrences v g.edges : Nat) ≤ g.total := i3 g (by simp)
        rw [List.flatMap_cons, occurrences_append, List.map_cons, List.sum_cons]
        omega
    omega
  · intro x hx n hr
    refine (i4 x hx n hr).imp id fun ⟨g, h1, h2⟩ => List.mem_flatMap.2 ⟨g, h1, h2⟩

end GB
