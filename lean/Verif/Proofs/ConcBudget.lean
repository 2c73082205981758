import Verif.Proofs.ConcBounds
import Verif.Spec.Budget

/-! What processes that add and remove may still do to the degree of a symbol. -/

set_option linter.unusedSectionVars false
set_option linter.unusedVariables false

namespace GB

variable {F : Type} [PyFloat F] [DecidableEq F] {V : Val F → Prop}

/-- What a process may still add to the degree, and take from it. -/
structure Budget where
  up : Nat
  down : Nat

/-- The rows of the index are of edges over the vocabulary that are in `U`; if `k`, the symbol is known. -/
def BudI (V : Val F → Prop) (U : List (Val F)) (v : Val F) (k : Bool) (db : DB) : Prop :=
  RowsOk V db.perms ∧ (∀ x, EdgeOver V x → ∀ n, HasRow db.perms x n → x ∈ U) ∧ (k = true → KnownRow v db)

def BudR (V : Val F → Prop) (U : List (Val F)) (v : Val F) (k : Bool) (g : Budget) (a b : DB) (g' : Budget) : Prop :=
  BudI V U v k b ∧ max (degRow v b) 0 + g'.up ≤ max (degRow v a) 0 + g.up ∧
    min (degRow v a) 0 - g.down ≤ min (degRow v b) 0 - g'.down ∧
    (k = true → degRow v a - g.down ≤ degRow v b - g'.down)

abbrev Spends (V : Val F → Prop) (U : List (Val F)) (v : Val F) (k : Bool) {α : Type} (p : Proc α) (g : Budget)
    (Q : α → Budget → Prop) : Prop :=
  p.Acts (fun _ => BudI V U v k) (BudR V U v k) g Q

variable {U : List (Val F)} {v : Val F} {k : Bool}

/-- A step that leaves the row of the symbol alone and only removes rows of the index. -/
theorem bud_same {g : Budget} {a b : DB} (hI : BudI V U v k a) (h1 : ∀ r ∈ b.perms, r ∈ a.perms)
    (h2 : b.selectVertex (edge2str v) = a.selectVertex (edge2str v)) : BudR V U v k g a b g := by
  obtain ⟨i1, i2, i3⟩ := hI
  have hd : degRow v b = degRow v a := by unfold degRow; rw [h2]
  refine ⟨⟨fun r hr => i1 r (h1 r hr), fun x hx n h => i2 x hx n ⟨h.1, h1 _ h.2⟩, fun hk => ?_⟩, by omega, by omega, by omega⟩
  unfold KnownRow
  rw [h2]
  exact i3 hk

theorem select_bump_ne {db : DB} {t t' : Str} (h : t ≠ t') (j : Int) :
    (db.bumpDegree j t').2.selectVertex t = db.selectVertex t := by
  rw [select_bump]
  simp [h]

theorem spends_exists (hV : Vocab V) {e : Val F} (he : EdgeOver V e) (g : Budget) :
    Spends V U v k (Proc.atom (existsM e)) g fun _ g' => g' = g := by
  refine Proc.Acts.atom fun db hI => ?_
  obtain ⟨b, h1, h2, _⟩ := here_exists hV hI.1 he
  exact ⟨b, db, g, h1, h2, bud_same hI (fun _ h => h) rfl, rfl⟩

theorem spends_addVert {x : Val F} (hv : WfVal v) (hx : WfVal x) (ts : Int) (g : Budget) (hg : v = x → 1 ≤ g.up) :
    Spends V U v k (addVertP ts x) g fun _ g' => g' = ⟨g.up - if v = x then 1 else 0, g.down⟩ := by
  have hinj : edge2str v = edge2str x ↔ v = x := ⟨edge2str_inj hv hx, fun h => by rw [h]⟩
  by_cases hvx : v = x
  · subst hvx
    have hg := hg rfl
    rw [if_pos rfl]
    refine Proc.Acts.bind (Proc.Acts.atom fun db hI => ?_)
    obtain ⟨k1, k2⟩ := degRow_bump_eq v db 1
    cases hk : decide ((db.bumpDegree 1 (edge2str v)).1 > 0) with
    | true =>
      refine ⟨true, _, ⟨g.up - 1, g.down⟩, by rw [(here_inc db _).1, hk], (here_inc db _).2, ?_, ⟨(), rfl, rfl⟩⟩
      unfold BudR
      rw [k1 hk]
      exact ⟨⟨hI.1, hI.2.1, fun h => (degRow_bump (hI.2.2 h) 1 _).1⟩, by dsimp only; omega, by dsimp only; omega,
        fun _ => by dsimp only; omega⟩
    | false =>
      have hkf : k = false := by
        cases k with
        | false => rfl
        | true => rw [known_bump (hI.2.2 rfl)] at hk; cases hk
      subst hkf
      refine ⟨false, _, g, by rw [(here_inc db _).1, hk], (here_inc db _).2, ?_, ?_⟩
      · unfold BudR
        rw [(k2 hk).1]
        exact ⟨⟨hI.1, hI.2.1, fun h => by cases h⟩, by omega, by omega, fun _ => by omega⟩
      · refine Proc.Acts.atom fun db hI => ⟨(), _, ⟨g.up - 1, g.down⟩, (here_addStr db _ _ _).1, (here_addStr db _ _ _).2, ?_, rfl⟩
        unfold BudR
        rw [degRow_upsert_eq]
        refine ⟨⟨?_, ?_, fun h => by cases h⟩, by dsimp only; omega, by dsimp only; omega, fun h => by cases h⟩
        · rw [upsert_perms]; exact hI.1
        · rw [upsert_perms]; exact hI.2.1
  · have hne : edge2str v ≠ edge2str x := fun h => hvx (hinj.1 h)
    rw [if_neg hvx]
    refine Proc.Acts.bind (Proc.Acts.atom fun db hI =>
      ⟨_, _, g, (here_inc db _).1, (here_inc db _).2, bud_same hI (fun _ h => h) (select_bump_ne hne 1), ?_⟩)
    split
    · exact Proc.Acts.atom fun db hI => ⟨(), _, g, (here_addStr db _ _ _).1, (here_addStr db _ _ _).2,
        bud_same hI (by rw [upsert_perms]; exact fun _ h => h) (select_upsert_ne db hne _ _), rfl⟩
    · exact ⟨(), rfl, rfl⟩

theorem spends_verts (hv : WfVal v) (ts : Int) {xs : List (Val F)} (hx : ∀ x ∈ xs, WfVal x) (g : Budget)
    (hg : xs.count v ≤ g.up) :
    Spends V U v k (Proc.each (addVertP ts) xs) g fun _ g' => g' = ⟨g.up - xs.count v, g.down⟩ := by
  induction xs generalizing g with
  | nil => exact ⟨(), rfl, by simp⟩
  | cons x xs ih =>
    rw [List.count_cons] at hg
    have h1 : v = x → 1 ≤ g.up := by
      rintro rfl
      simp at hg
      omega
    refine Proc.Acts.bind ((spends_addVert hv (hx x (by simp)) ts g h1).mono ?_)
    rintro _ g' rfl
    by_cases hvx : v = x
    · subst hvx
      simp at hg
      refine (ih (fun y hy => hx y (by simp [hy])) _ (by simp; omega)).mono ?_
      rintro _ g' rfl
      simp
      omega
    · have hb : (x == v) = false := by simpa using fun h => hvx h.symm
      simp [hb] at hg
      refine (ih (fun y hy => hx y (by simp [hy])) _ (by simpa [hvx] using hg)).mono ?_
      rintro _ g' rfl
      simp [hvx, List.count_cons, hb]

theorem spends_write (hV : Vocab V) {e : Val F} (he : EdgeOver V e) (hU : e ∈ U) {n : Nat} (hn : n < factorial e.elems.length)
    (g : Budget) :
    Spends V U v k (Proc.atom (writeEdgePermutation (F := F) (rowOf e.elems n))) g fun _ g' => g' = g := by
  refine Proc.Acts.atom fun db hI => ⟨(), _, g, (here_write (F := F) db _).1, (here_write (F := F) db _).2, ?_, rfl⟩
  obtain ⟨i1, i2, i3⟩ := hI
  have hd : degRow v (db.upsertPerm (rowOf e.elems n)) = degRow v db :=
    (known_of_vertices (upsertPerm_vertices _ _)).2
  refine ⟨⟨rowsOk_upsert he hn i1, ?_, fun h => (known_of_vertices (upsertPerm_vertices _ _)).1.2 (i3 h)⟩,
    by omega, by omega, fun _ => by omega⟩
  intro x hx j hr
  rcases (hasRow_upsert hV he hx hn db j).1 hr with hr | ⟨rfl, _⟩
  · exact i2 x hx j hr
  · exact hU

theorem spends_add (hV : Vocab V) {e : Val F} (hv : WfVal v) (ha : v.isAtom = true) (he : EdgeOver V e) (hU : e ∈ U)
    (ts : Int) (g : Budget) (hg : e.elems.count v ≤ g.up) :
    Spends V U v k (addP e ts) g fun _ g' => g.up ≤ g'.up + e.elems.count v ∧ g'.down = g.down := by
  refine Proc.Acts.bind ((spends_exists hV he g).mono ?_)
  rintro b g' rfl
  split
  · rw [iter_edge he]
    refine Proc.Acts.bind ⟨_, rfl, ?_⟩
    refine Proc.Acts.bind ((spends_verts hv ts (edge_wf hV he) g' hg).mono ?_)
    rintro _ g1 h1
    refine Proc.Acts.bind (Proc.Acts.atom fun db hI => ⟨(), _, g1, (here_addStr db _ _ _).1, (here_addStr db _ _ _).2,
      bud_same hI (by rw [upsert_perms]; exact fun _ h => h) (select_upsert_ne db (atom_text_ne hV hv ha he) _ _), ?_⟩)
    refine (Proc.Acts.loop (fun g => g = g1) rfl fun n hn g hg => ?_).mono ?_
    · subst hg
      rw [List.mem_range] at hn
      rw [permStr_eq he.elems_ne hn]
      exact spends_write hV he hU hn g
    · rintro _ g2 rfl
      subst h1
      exact ⟨by dsimp only; omega, rfl⟩
  · exact ⟨(), rfl, by omega, rfl⟩

theorem spends_addMany (hV : Vocab V) (hv : WfVal v) (ha : v.isAtom = true) (ts : Int) {es : List (Val F)}
    (hes : ∀ x ∈ es, EdgeOver V x) (hU : ∀ x ∈ es, x ∈ U) (g : Budget) (hg : occurrences v es ≤ g.up) :
    Spends V U v k (addManyP ts es) g fun _ g' => g.up ≤ g'.up + occurrences v es ∧ g'.down = g.down := by
  induction es generalizing g with
  | nil => exact ⟨(), rfl, by omega, rfl⟩
  | cons e es ih =>
    have he := hes e (by simp)
    have hes' : ∀ x ∈ es, EdgeOver V x := fun x hx => hes x (by simp [hx])
    refine Proc.Acts.bind ((spends_exists hV he g).mono ?_)
    rintro b g' rfl
    split
    · refine Proc.Acts.atom fun db hI => ?_
      obtain ⟨db', N, e1, e2, r, hN, hr, hk, hrow⟩ := bulk_eff hV hv ha he hes' ts db hI.1
      have hle := occurrences_sublist (v := v) hN
      refine ⟨(), db', ⟨g'.up - occurrences v N, g'.down⟩, e1, e2, ?_, by dsimp only; omega, rfl⟩
      obtain ⟨i1, i2, i3⟩ := hI
      obtain ⟨r1, r2, _⟩ := hr
      refine ⟨⟨r, ?_, fun h => (hk (i3 h)).1⟩, by dsimp only; omega, by dsimp only; omega, fun h => ?_⟩
      · intro x hx n h
        rcases hrow x hx n h with h | h
        · exact i2 x hx n h
        · exact hU x (hN.subset h)
      · have := (hk (i3 h)).2
        dsimp only
        omega
    · rw [occurrences_cons] at hg
      refine (ih hes' (fun x hx => hU x (by simp [hx])) g' (by omega)).mono ?_
      rintro _ g2 ⟨h2, h3⟩
      rw [occurrences_cons]
      exact ⟨by omega, h3⟩

theorem spends_dec {x : Val F} (hv : WfVal v) (hx : WfVal x) (g : Budget) (hg : v = x → 1 ≤ g.down) :
    Spends V U v k ((Proc.atom (decDegree (edge2str x))).bind fun _ => .ret (.ok ())) g fun _ g' =>
      g' = ⟨g.up, g.down - if v = x then 1 else 0⟩ := by
  have hinj : edge2str v = edge2str x ↔ v = x := ⟨edge2str_inj hv hx, fun h => by rw [h]⟩
  by_cases hvx : v = x
  · subst hvx
    have hg := hg rfl
    rw [if_pos rfl]
    refine Proc.Acts.bind (Proc.Acts.atom fun db hI => ⟨_, _, ⟨g.up, g.down - 1⟩, (here_dec db _).1, (here_dec db _).2, ?_,
      ⟨(), rfl, rfl⟩⟩)
    obtain ⟨k1, k2⟩ := degRow_bump_eq v db (-1)
    have hb : BudI V U v k (db.bumpDegree (-1) (edge2str v)).2 :=
      ⟨hI.1, hI.2.1, fun h => (degRow_bump (hI.2.2 h) (-1) _).1⟩
    unfold BudR
    cases hk : decide ((db.bumpDegree (-1) (edge2str v)).1 > 0) with
    | true =>
      rw [k1 hk]
      exact ⟨hb, by dsimp only; omega, by dsimp only; omega, fun _ => by dsimp only; omega⟩
    | false =>
      rw [(k2 hk).1]
      exact ⟨hb, by dsimp only; omega, by dsimp only; omega, fun _ => by dsimp only; omega⟩
  · have hne : edge2str v ≠ edge2str x := fun h => hvx (hinj.1 h)
    rw [if_neg hvx]
    exact Proc.Acts.bind (Proc.Acts.atom fun db hI => ⟨_, _, g, (here_dec db _).1, (here_dec db _).2,
      bud_same hI (fun _ h => h) (select_bump_ne hne (-1)), (), rfl, rfl⟩)

theorem spends_decs (hv : WfVal v) {xs : List (Val F)} (hx : ∀ x ∈ xs, WfVal x) (g : Budget) (hg : xs.count v ≤ g.down) :
    Spends V U v k (Proc.each (fun x => (Proc.atom (decDegree (edge2str x))).bind fun _ => .ret (.ok ())) xs) g
      fun _ g' => g' = ⟨g.up, g.down - xs.count v⟩ := by
  induction xs generalizing g with
  | nil => exact ⟨(), rfl, by simp⟩
  | cons x xs ih =>
    rw [List.count_cons] at hg
    have h1 : v = x → 1 ≤ g.down := by
      rintro rfl
      simp at hg
      omega
    refine Proc.Acts.bind ((spends_dec hv (hx x (by simp)) g h1).mono ?_)
    rintro _ g' rfl
    by_cases hvx : v = x
    · subst hvx
      simp at hg
      refine (ih (fun y hy => hx y (by simp [hy])) _ (by simp; omega)).mono ?_
      rintro _ g' rfl
      simp
      omega
    · have hb : (x == v) = false := by simpa using fun h => hvx h.symm
      simp [hb] at hg
      refine (ih (fun y hy => hx y (by simp [hy])) _ (by simpa [hvx] using hg)).mono ?_
      rintro _ g' rfl
      simp [hvx, List.count_cons, hb]

theorem spends_remove (hV : Vocab V) {e : Val F} (hv : WfVal v) (ha : v.isAtom = true) (he : EdgeOver V e) (g : Budget)
    (hg : e.elems.count v ≤ g.down) :
    Spends V U v k (removeP e) g fun _ g' => g'.up = g.up ∧ g.down ≤ g'.down + e.elems.count v := by
  refine Proc.Acts.bind ((spends_exists hV he g).mono ?_)
  rintro b g' rfl
  split
  · rw [iter_edge he]
    refine Proc.Acts.bind ⟨_, rfl, ?_⟩
    refine Proc.Acts.bind ((spends_decs hv (edge_wf hV he) g' hg).mono ?_)
    rintro _ g1 h1
    refine Proc.Acts.bind ((Proc.Acts.loop (fun g => g = g1) rfl fun n hn g hg => ?_).mono ?_)
    · subst hg
      rw [List.mem_range] at hn
      rw [permStr_eq he.elems_ne hn]
      refine Proc.Acts.atom fun db hI => ⟨(), _, g, (here_delete (F := F) db _).1, (here_delete (F := F) db _).2,
        bud_same hI (fun r hr => (List.mem_filter.1 hr).1) rfl, rfl⟩
    · rintro _ g2 rfl
      refine Proc.Acts.atom fun db hI => ⟨(), _, g2, (here_removeStr db _).1, (here_removeStr db _).2,
        bud_same hI (fun _ h => h) (select_delete_ne db (atom_text_ne hV hv ha he)), ?_⟩
      subst h1
      exact ⟨rfl, by dsimp only; omega⟩
  · exact ⟨(), rfl, rfl, by omega⟩

theorem spends_removes (hV : Vocab V) (hv : WfVal v) (ha : v.isAtom = true) {es : List (Val F)}
    (hes : ∀ x ∈ es, EdgeOver V x) (g : Budget) (hg : occurrences v es ≤ g.down) :
    Spends V U v k (Proc.each removeP es) g fun _ g' => g'.up = g.up ∧ g.down ≤ g'.down + occurrences v es := by
  induction es generalizing g with
  | nil => exact ⟨(), rfl, rfl, by omega⟩
  | cons e es ih =>
    rw [occurrences_cons] at hg
    refine Proc.Acts.bind ((spends_remove hV hv ha (hes e (by simp)) g (by omega)).mono ?_)
    rintro _ g1 ⟨h1, h2⟩
    refine (ih (fun x hx => hes x (by simp [hx])) g1 (by omega)).mono ?_
    rintro _ g2 ⟨h3, h4⟩
    rw [occurrences_cons]
    exact ⟨by omega, by omega⟩

theorem each_removeAny {l : List (Val F)} (hl : ∀ x ∈ l, EdgeOver V x) : Proc.each removeAnyP l = Proc.each removeP l := by
  induction l with
  | nil => rfl
  | cons x l ih =>
    show (removeAnyP x).seq _ = (removeP x).seq _
    rw [removeAny_edge (hl x (by simp)), ih fun y hy => hl y (by simp [hy])]

/-- A duplicate-free list has no more occurrences than one that has all its members. -/
theorem occurrences_le {v : Val F} {l m : List (Val F)} (hl : l.Nodup) (h : ∀ x ∈ l, x ∈ m) :
    occurrences v l ≤ occurrences v m := by
  induction l generalizing m with
  | nil => simp [occurrences]
  | cons x l ih =>
    rw [List.nodup_cons] at hl
    have hx := h x (by simp)
    have h1 : occurrences v l ≤ occurrences v (m.erase x) := by
      refine ih hl.2 fun y hy => ?_
      have hne : y ≠ x := by rintro rfl; exact hl.1 hy
      exact (List.mem_erase_of_ne hne).2 (h y (by simp [hy]))
    have h2 : occurrences v m = occurrences v (x :: m.erase x) := by
      unfold occurrences
      exact ((List.perm_cons_erase hx).map _).sum_nat
    rw [h2, occurrences_cons, occurrences_cons]
    omega

theorem spends_act (hV : Vocab V) (hv : WfVal v) (ha : v.isAtom = true) {a : PAct F} (ho : a.op.Over V)
    (hU : ∀ x ∈ a.adds, x ∈ U) (g : Budget) (h1 : occurrences v a.adds ≤ g.up) (h2 : occurrences v (a.drops U) ≤ g.down) :
    Spends V U v k a.proc g fun _ g' =>
      g.up ≤ g'.up + occurrences v a.adds ∧ g.down ≤ g'.down + occurrences v (a.drops U) := by
  have hone : ∀ e : Val F, occurrences v [e] = e.elems.count v := fun e => by simp [occurrences]
  cases a with
  | add e ts =>
    show Spends V U v k (addAnyP e ts) g _
    rw [addAny_edge ho]
    simp only [PAct.adds, hone] at h1 ⊢
    refine (spends_add hV hv ha ho (hU e (by simp [PAct.adds])) ts g h1).mono ?_
    rintro _ g' ⟨k1, k2⟩
    exact ⟨k1, by omega⟩
  | addMany es ts =>
    show Spends V U v k (addAnyP (.seq true es) ts) g _
    rw [addAny_many ho.1 ho.2]
    refine (spends_addMany hV hv ha ts ho.2 hU g h1).mono ?_
    rintro _ g' ⟨k1, k2⟩
    exact ⟨k1, by omega⟩
  | addBelief src e ts =>
    rw [proc_addBelief ho]
    refine (spends_addMany hV hv ha ts (by simpa [PAct.adds] using ⟨BeliefOver.edge ho, support_over ho⟩) hU g h1).mono ?_
    rintro _ g' ⟨k1, k2⟩
    exact ⟨k1, by omega⟩
  | addBeliefs src es ts =>
    rw [proc_addBeliefs ho.1 ho.2]
    refine (spends_addMany hV hv ha ts (belief_pairs ho.2) hU g h1).mono ?_
    rintro _ g' ⟨k1, k2⟩
    exact ⟨k1, by omega⟩
  | remove e =>
    show Spends V U v k (removeAnyP e) g _
    rw [removeAny_edge ho]
    simp only [PAct.drops, hone] at h2 ⊢
    refine (spends_remove hV hv ha ho g h2).mono ?_
    rintro _ g' ⟨k1, k2⟩
    exact ⟨by omega, k2⟩
  | removeMany es =>
    show Spends V U v k (removeAnyP (.seq true es)) g _
    rw [removeAny_many ho.1 ho.2]
    refine (spends_removes hV hv ha ho.2 g h2).mono ?_
    rintro _ g' ⟨k1, k2⟩
    exact ⟨by omega, k2⟩
  | removeByPattern ps =>
    have ho : PatternOver V ps := ho
    show Spends V U v k ((Proc.atom (hgPattern2edges (.tup ps))).bind fun edges => Proc.each removeAnyP edges) g _
    refine Proc.Acts.bind (Proc.Acts.atom fun db hI => ?_)
    obtain ⟨res, r1, r2, r3, r4⟩ := here_pattern hV ho hI.1
    refine ⟨res, db, g, r1, r2, bud_same hI (fun _ h => h) rfl, ?_⟩
    have hres : ∀ x ∈ res, EdgeOver V x := fun x hx => ((r4 x).1 hx).1
    have hle : occurrences v res ≤ occurrences v ((PAct.removeByPattern ps).drops U) := by
      refine occurrences_le r3 fun x hx => ?_
      obtain ⟨j1, j2, n, j3, _⟩ := (r4 x).1 hx
      exact List.mem_filter.2 ⟨hI.2.1 x j1 n j3, by simpa using j2⟩
    rw [each_removeAny hres]
    refine (spends_removes hV hv ha hres g (by omega)).mono ?_
    rintro _ g' ⟨k1, k2⟩
    exact ⟨by omega, by omega⟩
  | removeBelief src e =>
    have ho : BeliefOver V src e := ho
    rw [proc_removeBelief ho]
    have hocc : occurrences v ((PAct.removeBelief src e).drops U) = (support e src).elems.count v + e.elems.count v := by
      simp [PAct.drops, occurrences]
    rw [hocc] at h2 ⊢
    refine Proc.Acts.bind ((spends_remove hV hv ha (support_over ho) g (by omega)).mono ?_)
    rintro _ g1 ⟨k1, k2⟩
    refine Proc.Acts.bind (Proc.Acts.atom fun db hI => ?_)
    obtain ⟨res, r1, r2, _⟩ := here_sources hV ho.srcConst ho.fact hI.1
    refine ⟨res, db, g1, r1, r2, bud_same hI (fun _ h => h) rfl, ?_⟩
    split
    · refine (spends_remove hV hv ha ho.edge g1 (by omega)).mono ?_
      rintro _ g2 ⟨k3, k4⟩
      exact ⟨by omega, by omega⟩
    · exact ⟨(), rfl, by omega, by omega⟩

theorem spends_program (hV : Vocab V) (hv : WfVal v) (ha : v.isAtom = true) {prog : Program F}
    (ho : ∀ a ∈ prog, a.op.Over V) (hU : ∀ x ∈ prog.flatMap PAct.adds, x ∈ U) (g : Budget)
    (h1 : occurrences v (prog.flatMap PAct.adds) ≤ g.up) (h2 : occurrences v (prog.flatMap (PAct.drops U)) ≤ g.down) :
    Spends V U v k (programP prog) g fun _ _ => True := by
  induction prog generalizing g with
  | nil => exact ⟨(), rfl, trivial⟩
  | cons a prog ih =>
    rw [List.flatMap_cons, occurrences_append] at h1 h2
    refine Proc.Acts.bind ((spends_act hV hv ha (ho a (by simp)) (fun x hx => hU x (by simp [hx])) g (by omega) (by omega)).mono ?_)
    rintro _ g' ⟨k1, k2⟩
    exact ih (fun b hb => ho b (by simp [hb])) (fun x hx => hU x (by rw [List.flatMap_cons]; simp [hx])) g' (by omega) (by omega)

theorem occurrences_flat (v : Val F) (f : Program F → List (Val F)) (l : List (Program F)) :
    (l.map fun p => occurrences v (f p)).sum = occurrences v (l.flatMap f) := by
  induction l with
  | nil => rfl
  | cons p l ih => rw [List.flatMap_cons, occurrences_append, ← ih]; simp

/-- However the processes are scheduled, the degree stays between the bounds. -/
theorem reach_budget (hV : Vocab V) (hv : WfVal v) (ha : v.isAtom = true) {db : DB} (h0 : 0 ≤ degRow v db)
    (hI : BudI V U v k db) {progs : List (Program F)} (ho : ∀ p ∈ progs, ∀ a ∈ p, a.op.Over V)
    (hU : ∀ x ∈ addsOf progs, x ∈ U) {τ : Sys} (h : (Sys.start db progs).Reach τ) :
    degRow v τ.db ≤ degRow v db + (occurrences v (addsOf progs) : Nat) ∧
      -(occurrences v (dropsOf U progs) : Nat) ≤ degRow v τ.db ∧
      (k = true → degRow v db - (occurrences v (dropsOf U progs) : Nat) ≤ degRow v τ.db) := by
  obtain ⟨gs, _, ⟨_, i2, i3, i4⟩, _⟩ := h.books (I := fun _ => BudI V U v k) (R := BudR V U v k)
    (Inv := fun d (gs : List Budget) => BudI V U v k d ∧
      max (degRow v d) 0 + ((gs.map Budget.up).sum : Nat) ≤ degRow v db + (occurrences v (addsOf progs) : Nat) ∧
      -(occurrences v (dropsOf U progs) : Nat) ≤ min (degRow v d) 0 - ((gs.map Budget.down).sum : Nat) ∧
      (k = true → degRow v db - (occurrences v (dropsOf U progs) : Nat) ≤ degRow v d - ((gs.map Budget.down).sum : Nat)))
    (gs := progs.map fun p => ⟨occurrences v (p.flatMap PAct.adds), occurrences v (p.flatMap (PAct.drops U))⟩) (by simp [Sys.start])
    (by
      have e1 : ((progs.map fun p => (⟨occurrences v (p.flatMap PAct.adds), occurrences v (p.flatMap (PAct.drops U))⟩ : Budget)).map
          Budget.up).sum = occurrences v (addsOf progs) := by
        rw [List.map_map]; exact occurrences_flat v _ progs
      have e2 : ((progs.map fun p => (⟨occurrences v (p.flatMap PAct.adds), occurrences v (p.flatMap (PAct.drops U))⟩ : Budget)).map
          Budget.down).sum = occurrences v (dropsOf U progs) := by
        rw [List.map_map]; exact occurrences_flat v _ progs
      rw [e1, e2]
      refine ⟨hI, ?_, ?_, fun _ => ?_⟩
      · show max (degRow v db) 0 + _ ≤ _
        omega
      · show _ ≤ min (degRow v db) 0 - _
        omega
      · show _ ≤ degRow v db - _
        omega)
    (by
      intro i p g hi hg
      obtain ⟨prog, h1, rfl⟩ := start_proc hi
      rw [List.getElem?_map, h1] at hg
      cases hg
      have hm := List.mem_of_getElem? h1
      exact spends_program hV hv ha (ho prog hm) (fun x hx => hU x (List.mem_flatMap.2 ⟨prog, hm, hx⟩)) _ (Nat.le_refl _)
        (Nat.le_refl _))
    (by
      rintro d gs i g ⟨j1, _⟩ hg
      exact j1)
    (by
      rintro d d' gs i g g' ⟨j1, j2, j3, j4⟩ hg ⟨r1, r2, r3, r4⟩
      have e1 := sum_set_nat (l := gs.map Budget.up) (i := i) (c := g.up) (d := g'.up) (by rw [List.getElem?_map, hg]; rfl)
      have e2 := sum_set_nat (l := gs.map Budget.down) (i := i) (c := g.down) (d := g'.down) (by rw [List.getElem?_map, hg]; rfl)
      rw [List.map_set, List.map_set]
      exact ⟨r1, by omega, by omega, fun hk => by have := j4 hk; have := r4 hk; omega⟩)
  exact ⟨by omega, by omega, fun hk => by have := i4 hk; omega⟩

end GB
