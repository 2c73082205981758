import Verif.Proofs.MyBook

/-! What clients of a MySQL database, however they race, may do to degrees and edges. -/

set_option linter.unusedSectionVars false
set_option linter.unusedVariables false

namespace GB

variable {F : Type} [PyFloat F] [DecidableEq F] {V : Val F → Prop} {U : List (Val F)} {v : Val F} {kn : Bool}
  {D : Val F → Prop} {E : PyErr → Prop} {k : Nat}

/-- What a client may still add to the degree and take from it, rows of the index that it saw or wrote, and the edges whose
rows it wrote. -/
structure Sheet (F : Type) where
  up : Nat
  down : Nat
  rows : List (Val F × Nat)
  own : List (Val F)

def SheetR (V : Val F → Prop) (U : List (Val F)) (v : Val F) (kn : Bool) (D : Val F → Prop) (g : Sheet F) (a b : DB)
    (g' : Sheet F) : Prop :=
  BudR V U v kn ⟨g.up, g.down⟩ a b ⟨g'.up, g'.down⟩ ∧
    (∀ x n, EdgeOver V x → ¬ D x → HasRow a.perms x n → HasRow b.perms x n) ∧
    (∀ p ∈ g'.rows, p ∈ g.rows ∨ (EdgeOver V p.1 ∧ HasRow b.perms p.1 p.2)) ∧
    (∀ x ∈ g.own, x ∈ g'.own) ∧ ∀ x n, EdgeOver V x → HasRow b.perms x n → HasRow a.perms x n ∨ x ∈ g'.own

theorem sheet_refl (g : Sheet F) (db : DB) (hI : BudI V U v kn db) : SheetR V U v kn D g db db g :=
  ⟨bud_same hI (fun _ h => h) rfl, fun _ _ _ _ h => h, fun _ h => .inl h, fun _ h => h, fun _ _ _ h => .inl h⟩

/-- A step that changes only the table `vertices`, and the row of the symbol as the budget says. -/
theorem sheet_vert {g : Sheet F} {a b : DB} {u d : Nat} (h : BudR V U v kn ⟨g.up, g.down⟩ a b ⟨u, d⟩)
    (hp : b.perms = a.perms) : SheetR V U v kn D g a b ⟨u, d, g.rows, g.own⟩ :=
  ⟨h, fun _ _ _ _ h => by rw [hp]; exact h, fun _ h => .inl h, fun _ h => h, fun _ _ _ h => by rw [hp] at h; exact .inl h⟩

/-- A step that changes only the table `vertices`, and not the row of the symbol. -/
theorem sheet_same {g : Sheet F} {a b : DB} (hI : BudI V U v kn a) (hp : b.perms = a.perms)
    (hs : b.selectVertex (edge2str v) = a.selectVertex (edge2str v)) : SheetR V U v kn D g a b g :=
  sheet_vert (g := g) (bud_same hI (by rw [hp]; exact fun _ h => h) hs) hp

/-- The method keeps the book. -/
abbrev Conn.Books {α : Type} (V : Val F → Prop) (U : List (Val F)) (v : Val F) (kn : Bool) (D : Val F → Prop) (E : PyErr → Prop)
    (x : Conn α) (c c' : Option Bool) (g : Sheet F) (Q : α → Sheet F → Prop) : Prop :=
  x.Keeps (BudI V U v kn) (SheetR V U v kn D) E c c' g Q

theorem budI_noRows {db : DB} (h : BudI V U v kn db) : BudI V U v kn ⟨db.vertices, []⟩ :=
  ⟨fun r hr => by simp at hr, fun x _ n hr => by simp [HasRow] at hr, h.2.2⟩

variable {c : Option Bool}

theorem not_visible {e : Val F} {vs : List VRow} : ¬ Visible e ⟨vs, []⟩ := by
  rintro ⟨n, h, _⟩
  simp [HasRow] at h

/-- The edge is among the rows, where `exists` looks for it. -/
def Sheet.Has (g : Sheet F) (e : Val F) : Prop := ∃ n, (e, n) ∈ g.rows ∧ patStart e.elems <+: rowOf e.elems n

/-- After spending `u` and `d` at most, with the edges of `L` seen or written. -/
structure Sheet.After (g : Sheet F) (u d : Nat) (L : List (Val F)) (g' : Sheet F) : Prop where
  up : g.up ≤ g'.up + u
  down : g.down ≤ g'.down + d
  keep : ∀ p ∈ g.rows, p ∈ g'.rows
  has : ∀ x ∈ L, g'.Has x
  own : ∀ x ∈ g'.own, x ∈ g.own ∨ ∀ n, n < factorial x.elems.length → (x, n) ∈ g'.rows

theorem Sheet.After.refl (g : Sheet F) : g.After 0 0 [] g := ⟨by omega, by omega, fun _ h => h, by simp, fun _ h => .inl h⟩

theorem Sheet.After.trans {g g1 g2 : Sheet F} {u d u' d' : Nat} {L L' : List (Val F)} (h : g.After u d L g1)
    (h' : g1.After u' d' L' g2) : g.After (u + u') (d + d') (L ++ L') g2 := by
  refine ⟨by have := h.up; have := h'.up; omega, by have := h.down; have := h'.down; omega, fun p hp => h'.keep p (h.keep p hp), ?_, ?_⟩
  · intro x hx
    rcases List.mem_append.1 hx with hx | hx
    · obtain ⟨n, h1, h2⟩ := h.has x hx
      exact ⟨n, h'.keep _ h1, h2⟩
    · exact h'.has x hx
  · intro x hx
    rcases h'.own x hx with hx | hx
    · rcases h.own x hx with hx | hx
      · exact .inl hx
      · exact .inr fun n hn => h'.keep _ (hx n hn)
    · exact .inr hx

theorem Sheet.After.weaken {g g1 : Sheet F} {u d u' d' : Nat} {L L' : List (Val F)} (h : g.After u d L g1)
    (hu : u ≤ u') (hd : d ≤ d') (hL : ∀ x ∈ L', x ∈ L) : g.After u' d' L' g1 :=
  ⟨by have := h.up; omega, by have := h.down; omega, h.keep, fun x hx => h.has x (hL x hx), h.own⟩

/-- The method spends at most `u` and `d` and has the edges of `L` in the end. -/
def Conn.Costs {α : Type} (V : Val F → Prop) (U : List (Val F)) (v : Val F) (kn : Bool) (D : Val F → Prop) (E : PyErr → Prop)
    (x : Conn α) (c c' : Option Bool) (u d : Nat) (L : List (Val F)) (post : α → Prop) : Prop :=
  ∀ g : Sheet F, u ≤ g.up → d ≤ g.down → x.Books V U v kn D E c c' g fun a g' => g.After u d L g' ∧ post a

section costs

variable {α β : Type}

theorem Conn.Costs.bind {x : Conn α} {f : α → Conn β} {c c1 c2 : Option Bool} {u d u' d' : Nat} {L L' : List (Val F)}
    {post : α → Prop} {post' : β → Prop} (hx : x.Costs V U v kn D E c c1 u d L post)
    (hf : ∀ a, post a → (f a).Costs V U v kn D E c1 c2 u' d' L' post') :
    (x >>= f).Costs V U v kn D E c c2 (u + u') (d + d') (L ++ L') post' := by
  intro g hu hd
  refine Conn.Keeps.bind ((hx g (by omega) (by omega)).mono ?_)
  rintro a g1 ⟨h1, h2⟩
  refine (hf a h2 g1 (by have := h1.up; omega) (by have := h1.down; omega)).mono ?_
  rintro b g2 ⟨h3, h4⟩
  exact ⟨h1.trans h3, h4⟩

theorem Conn.Costs.weaken {x : Conn α} {c c1 : Option Bool} {u d u' d' : Nat} {L L' : List (Val F)}
    {post post' : α → Prop} (hx : x.Costs V U v kn D E c c1 u d L post) (hu : u ≤ u') (hd : d ≤ d') (hL : ∀ x ∈ L', x ∈ L)
    (hp : ∀ a, post a → post' a) : x.Costs V U v kn D E c c1 u' d' L' post' := by
  intro g h1 h2
  exact (hx g (by omega) (by omega)).mono fun a g' h => ⟨h.1.weaken hu hd hL, hp a h.2⟩

/-- A method that leaves the book alone. -/
theorem Conn.Costs.free {x : Conn α} {c c' : Option Bool} {post : α → Prop}
    (hx : ∀ g, x.Books V U v kn D E c c' g fun a g' => g' = g ∧ post a) : x.Costs V U v kn D E c c' 0 0 [] post := by
  intro g _ _
  exact (hx g).mono fun a g' h => ⟨h.1 ▸ Sheet.After.refl g, h.2⟩

theorem Conn.Costs.pure {a : α} {c : Option Bool} {post : α → Prop} (h : post a) :
    (Pure.pure a : Conn α).Costs V U v kn D E c c 0 0 [] post := .free fun _ => Conn.Keeps.pure ⟨rfl, h⟩

theorem Conn.Costs.lift {r : Except PyErr α} {a : α} (hr : r = .ok a) {c : Option Bool} :
    (cLift r).Costs V U v kn D E c c 0 0 [] (fun b => b = a) := .free fun _ => Conn.Keeps.lift hr ⟨rfl, rfl⟩

theorem Conn.Costs.each {f : α → Conn Unit} {xs : List α} {c : Option Bool} (u d : α → Nat) (L : α → List (Val F))
    (h : ∀ x ∈ xs, (f x).Costs V U v kn D E c c (u x) (d x) (L x) fun _ => True) :
    (cEach f xs).Costs V U v kn D E c c (xs.map u).sum (xs.map d).sum (xs.flatMap L) fun _ => True := by
  induction xs with
  | nil => exact .pure trivial
  | cons x xs ih => exact (h x (by simp)).bind fun _ _ => ih fun y hy => h y (by simp [hy])

theorem Conn.Costs.ite {p : Prop} [Decidable p] {x y : Conn α} {c c' : Option Bool} {u d : Nat} {L : List (Val F)}
    {post : α → Prop} (hx : p → x.Costs V U v kn D E c c' u d L post) (hy : ¬ p → y.Costs V U v kn D E c c' u d L post) :
    (if p then x else y).Costs V U v kn D E c c' u d L post := by
  split
  · exact hx ‹_›
  · exact hy ‹_›

end costs

/-! ### queries -/

theorem books_exists (hV : Vocab V) (hne : ∃ db, BudI V U v kn db) {e : Val F} (he : EdgeOver V e) (hc : CurOk c) (g : Sheet F) :
    (cExists e).Books V U v kn D E c c g fun b g' => g.After 0 0 (if b then [e] else []) g' := by
  refine (asks_exists e).keeps hc ?_ ?_
  · obtain ⟨db, hI⟩ := hne
    obtain ⟨b, h1, _, h2⟩ := here_exists hV (budI_noRows hI).1 he
    refine ⟨_, b, budI_noRows hI, by rw [run_exists]; exact h1, ?_⟩
    cases b with
    | false => exact Sheet.After.refl g
    | true => exact absurd (h2.1 rfl) not_visible
  · intro db hI
    obtain ⟨b, h1, _, h2⟩ := here_exists hV hI.1 he
    rw [run_exists]
    cases b with
    | false => exact ⟨false, g, h1, sheet_refl g db hI, Sheet.After.refl g⟩
    | true =>
      obtain ⟨n, h3, h4⟩ := h2.1 rfl
      refine ⟨true, ⟨g.up, g.down, (e, n) :: g.rows, g.own⟩, h1, ⟨bud_same hI (fun _ h => h) rfl, fun _ _ _ _ h => h, ?_,
        fun _ h => h, fun _ _ _ h => .inl h⟩, Nat.le_refl _, Nat.le_refl _, fun p hp => by simp [hp], ?_, fun _ h => .inl h⟩
      · intro p hp
        rcases List.mem_cons.1 hp with rfl | hp
        · exact .inr ⟨he, h3⟩
        · exact .inl hp
      · intro x hx
        simp only [if_true, List.mem_singleton] at hx
        subst hx
        exact ⟨n, by simp, h4⟩

theorem costs_pattern (hV : Vocab V) (hne : ∃ db, BudI V U v kn db) {ps : List (Val F)} (hp : PatternOver V ps) (hc : CurOk c) :
    (cPattern2edges (.tup ps)).Costs V U v kn D E c c 0 0 [] fun res => res.Nodup ∧
      ∀ x ∈ res, EdgeOver V x ∧ Matches ps x.elems ∧ x ∈ U := by
  refine .free fun g => ?_
  have key : ∀ db, BudI V U v kn db → ∃ res, ((cPattern2edges (.tup ps)).run (reopen db false)).1 = .ok res ∧ res.Nodup ∧
      ∀ x ∈ res, EdgeOver V x ∧ Matches ps x.elems ∧ x ∈ U := by
    intro db hI
    obtain ⟨res, h1, _, h2, h3⟩ := here_pattern hV hp hI.1
    refine ⟨res, by rw [run_pattern]; exact h1, h2, fun x hx => ?_⟩
    obtain ⟨k1, k2, n, k3, _⟩ := (h3 x).1 hx
    exact ⟨k1, k2, hI.2.1 x k1 n k3⟩
  refine (asks_pattern _).keeps hc ?_ ?_
  · obtain ⟨db, hI⟩ := hne
    obtain ⟨res, h1, h2⟩ := key db hI
    exact ⟨db, res, hI, h1, rfl, h2⟩
  · intro db hI
    obtain ⟨res, h1, h2⟩ := key db hI
    exact ⟨res, g, h1, sheet_refl g db hI, rfl, h2⟩

theorem costs_sources (hV : Vocab V) (hne : ∃ db, BudI V U v kn db) {e : Val F} (hs : V (.str (lit "src/1"))) (he : V e)
    (hc : CurOk c) : (cSources e).Costs V U v kn D E c c 0 0 [] fun _ => True := by
  refine .free fun g => ?_
  refine (asks_sources _).keeps hc ?_ ?_
  · obtain ⟨db, hI⟩ := hne
    obtain ⟨res, h1, _⟩ := here_sources hV hs he hI.1
    exact ⟨db, res, hI, by rw [run_sources]; exact h1, rfl, trivial⟩
  · intro db hI
    obtain ⟨res, h1, _⟩ := here_sources hV hs he hI.1
    exact ⟨res, g, by rw [run_sources]; exact h1, sheet_refl g db hI, rfl, trivial⟩

/-! ### single statements -/

theorem select_myUpdate_ne {db : DB} {t t' : Str} (h : t ≠ t') (deg ts : Int) :
    (db.myUpdateVertex t' deg ts).2.selectVertex t = db.selectVertex t := by
  rw [select_myUpdate]
  simp [h]

/-- If no row changed, the statement changed nothing. -/
theorem myUpdate_none {db : DB} {t : Str} {deg ts : Int} (h : (db.myUpdateVertex t deg ts).1 = 0) :
    (db.myUpdateVertex t deg ts).2 = db := by
  have h1 : ∀ r ∈ db.vertices, ¬ (decide (r.id = t) && decide (r ≠ ⟨t, deg, ts⟩)) = true := by
    have : db.vertices.countP (fun r => decide (r.id = t) && decide (r ≠ ⟨t, deg, ts⟩)) = 0 := h
    rwa [List.countP_eq_zero] at this
  show DB.mk (db.vertices.map _) db.perms = db
  have : db.vertices.map (fun r => if r.id = t then (⟨t, deg, ts⟩ : VRow) else r) = db.vertices := by
    conv => rhs; rw [← List.map_id db.vertices]
    apply List.map_congr_left
    intro r hr
    have := h1 r hr
    by_cases e : r.id = t
    · rw [if_pos e]
      simp only [e, decide_true, Bool.true_and, decide_eq_true_eq, ne_eq] at this
      exact (Classical.not_not.1 this).symm
    · rw [if_neg e]; rfl
  rw [this]

theorem degRow_myUpdate (v : Val F) (db : DB) (deg ts : Int) (h : (db.myUpdateVertex (edge2str v) deg ts).1 ≠ 0) :
    degRow v (db.myUpdateVertex (edge2str v) deg ts).2 = deg := by
  have hs := select_myUpdate db (edge2str v) (edge2str v) deg ts
  simp only [if_true] at hs
  unfold degRow
  rw [hs]
  cases hr : db.selectVertex (edge2str v) with
  | cons r l => rfl
  | nil =>
    exfalso
    apply h
    show db.vertices.countP _ = 0
    rw [List.countP_eq_zero]
    intro r hm
    have := List.filter_eq_nil_iff.1 hr r hm
    simp only [decide_eq_true_eq] at this
    simp [this]

theorem myInsert_some {db db' : DB} {t : Str} {deg ts : Int} {a : Unit} (h : db.myInsertVertex k t deg ts = some (a, db')) :
    db' = ⟨db.vertices ++ [⟨t, deg, ts⟩], db.perms⟩ ∧ db.selectVertex t = [] := by
  unfold DB.myInsertVertex at h
  split at h
  · cases h
  · rename_i hn
    cases h
    refine ⟨rfl, ?_⟩
    unfold DB.selectVertex
    rw [List.filter_eq_nil_iff]
    intro r hr he
    apply hn
    rw [List.any_eq_true]
    exact ⟨r, hr, by simpa using congrArg (List.take k) (by simpa using he : r.id = t)⟩

theorem select_snoc (db : DB) (t t' : Str) (deg ts : Int) : (DB.mk (db.vertices ++ [⟨t, deg, ts⟩]) db.perms).selectVertex t' =
    db.selectVertex t' ++ if t = t' then [⟨t, deg, ts⟩] else [] := by
  unfold DB.selectVertex
  rw [List.filter_append]
  congr 1
  by_cases e : t = t' <;> simp [e]

theorem myInsertPerm_some {db db' : DB} {t : Str} {a : Unit} (h : db.myInsertPerm k t = some (a, db')) :
    db' = ⟨db.vertices, db.perms ++ [t]⟩ := by
  unfold DB.myInsertPerm at h
  split at h
  · cases h
  · cases h; rfl

/-- A row of somebody else. -/
theorem costs_addStr_ne {t : Str} (ht : edge2str v ≠ t) (deg ts : Int) (hc : CurOk c) (hE : E .integrityError) :
    (cMyAddStr k t deg ts).Costs V U v kn D E c c 0 0 [] fun _ => True := by
  refine .free fun g => ?_
  unfold cMyAddStr cMyUpdateOrInsertVertex
  refine Conn.Keeps.bind (keeps_open.mono ?_)
  rintro cu _ rfl
  refine Conn.Keeps.bind (Q := fun _ g' => g' = g ∧ True) (c1 := c) ?_
  refine (keepsWrite (Q := fun _ g' => g = g') hc fun db hI => .inl ⟨_, _, g, rfl, ?_, rfl⟩).mono ?_
  · exact sheet_same hI rfl (select_myUpdate_ne ht deg ts)
  · rintro rc _ rfl
    have hclose : ∀ g : Sheet F, (cClose true true).Books V U v kn D E c c g fun _ g' => g' = g ∧ True := fun g =>
      keeps_close.mono fun _ _ h => ⟨h.symm, trivial⟩
    refine Conn.Keeps.ite (fun _ => Conn.Keeps.bind ((keepsWrite (Q := fun _ g' => g = g') hc fun db hI => ?_).mono ?_)) fun _ => hclose _
    · cases hq : db.myInsertVertex k t deg ts with
      | none => exact .inr ⟨rfl, hE⟩
      | some p =>
        obtain ⟨a, db'⟩ := p
        obtain ⟨rfl, _⟩ := myInsert_some hq
        refine .inl ⟨(), _, g, rfl, sheet_same hI rfl ?_, rfl⟩
        rw [select_snoc, if_neg fun h => ht h.symm, List.append_nil]
    · rintro _ _ rfl
      exact hclose _

/-- A new row of the symbol itself, which is not known to be there. -/
theorem costs_addStr_eq (hk : kn = false) (ts : Int) (hc : CurOk c) (hE : E .integrityError) :
    (cMyAddStr k (edge2str v) 1 ts).Costs V U v kn D E c c 1 0 [] fun _ => True := by
  subst hk
  intro g hu hd
  have hspent : g.After 1 0 [] ⟨g.up - 1, g.down, g.rows, g.own⟩ := ⟨by dsimp only; omega, by dsimp only; omega, fun _ h => h, by simp, fun _ h => .inl h⟩
  have hclose : ∀ g' : Sheet F, g.After 1 0 [] g' → (cClose true true).Books V U v false D E c c g' fun _ g' =>
      g.After 1 0 [] g' ∧ True := fun g' h => keeps_close.mono fun _ _ e => ⟨e ▸ h, trivial⟩
  unfold cMyAddStr cMyUpdateOrInsertVertex
  refine Conn.Keeps.bind (keeps_open.mono ?_)
  rintro cu _ rfl
  refine Conn.Keeps.bind (Q := fun _ g' => g.After 1 0 [] g' ∧ True) (c1 := c) ?_
  refine (keepsWrite (Q := fun rc g' => if rc = 0 then g' = g else g' = ⟨g.up - 1, g.down, g.rows, g.own⟩) hc fun db hI => .inl ?_).mono ?_
  · by_cases h0 : (db.myUpdateVertex (edge2str v) 1 ts).1 = 0
    · refine ⟨(db.myUpdateVertex (edge2str v) 1 ts).1, (db.myUpdateVertex (edge2str v) 1 ts).2, g, rfl, ?_, by rw [if_pos h0]⟩
      rw [myUpdate_none h0]
      exact sheet_refl g db hI
    · refine ⟨(db.myUpdateVertex (edge2str v) 1 ts).1, (db.myUpdateVertex (edge2str v) 1 ts).2, ⟨g.up - 1, g.down, g.rows, g.own⟩, rfl, sheet_vert ?_ rfl, by rw [if_neg h0]⟩
      unfold BudR
      rw [degRow_myUpdate v db 1 ts h0]
      exact ⟨⟨hI.1, hI.2.1, fun h => by cases h⟩, by dsimp only; omega, by dsimp only; omega, fun h => by cases h⟩
  · intro rc g1 h1
    refine Conn.Keeps.ite (fun h0 => ?_) fun h0 => ?_
    · rw [if_pos h0] at h1
      subst h1
      refine Conn.Keeps.bind ((keepsWrite (Q := fun _ g' => g' = ⟨g1.up - 1, g1.down, g1.rows, g1.own⟩) hc fun db hI => ?_).mono ?_)
      · cases hq : db.myInsertVertex k (edge2str v) 1 ts with
        | none => exact .inr ⟨rfl, hE⟩
        | some p =>
          obtain ⟨a, db'⟩ := p
          obtain ⟨rfl, hn⟩ := myInsert_some hq
          refine .inl ⟨(), _, _, rfl, sheet_vert ?_ rfl, rfl⟩
          have hd1 : degRow v (DB.mk (db.vertices ++ [⟨edge2str v, 1, ts⟩]) db.perms) = 1 := by
            unfold degRow
            rw [select_snoc, hn, if_pos rfl]
            rfl
          unfold BudR
          rw [hd1]
          exact ⟨⟨hI.1, hI.2.1, fun h => by cases h⟩, by dsimp only; omega, by dsimp only; omega, fun h => by cases h⟩
      · rintro _ _ rfl
        exact hclose _ hspent
    · rw [if_neg h0] at h1
      subst h1
      exact hclose _ hspent

theorem costs_addVert {x : Val F} (hv : WfVal v) (hx : WfVal x) (ts : Int) (hc : CurOk c) (hE : E .integrityError) :
    (cMyAddVert k ts x).Costs V U v kn D E c c (if v = x then 1 else 0) 0 [] fun _ => True := by
  have hinj : edge2str v = edge2str x ↔ v = x := ⟨edge2str_inj hv hx, fun h => by rw [h]⟩
  unfold cMyAddVert
  by_cases hvx : v = x
  · subst hvx
    rw [if_pos rfl]
    intro g hu hd
    have hspent : g.After 1 0 [] ⟨g.up - 1, g.down, g.rows, g.own⟩ := ⟨by dsimp only; omega, by dsimp only; omega, fun _ h => h, by simp, fun _ h => .inl h⟩
    refine Conn.Keeps.bind (Q := fun _ g' => g.After 1 0 [] g' ∧ True) (c1 := c) ?_
    refine Conn.Keeps.mono (Q := fun b g' => if b then g' = ⟨g.up - 1, g.down, g.rows, g.own⟩ else g' = g ∧ kn = false) ?_ ?_
    · unfold cIncDegree
      refine Conn.Keeps.bind (keeps_open.mono ?_)
      rintro cu _ rfl
      refine Conn.Keeps.bind (c1 := c) ((keepsWrite
        (Q := fun rc g' => if decide (rc > 0) then g' = ⟨g.up - 1, g.down, g.rows, g.own⟩ else g' = g ∧ kn = false)
        hc fun db hI => .inl ?_).mono ?_)
      · obtain ⟨k1, k2⟩ := degRow_bump_eq v db 1
        cases hk : decide ((db.bumpDegree 1 (edge2str v)).1 > 0) with
        | true =>
          refine ⟨(db.bumpDegree 1 (edge2str v)).1, (db.bumpDegree 1 (edge2str v)).2, ⟨g.up - 1, g.down, g.rows, g.own⟩, rfl, sheet_vert ?_ rfl, by rw [hk]; rfl⟩
          unfold BudR
          rw [k1 hk]
          exact ⟨⟨hI.1, hI.2.1, fun h => (degRow_bump (hI.2.2 h) 1 _).1⟩, by dsimp only; omega, by dsimp only; omega,
            fun _ => by dsimp only; omega⟩
        | false =>
          have hkf : kn = false := by
            cases kn with
            | false => rfl
            | true => rw [known_bump (hI.2.2 rfl)] at hk; cases hk
          subst hkf
          refine ⟨(db.bumpDegree 1 (edge2str v)).1, (db.bumpDegree 1 (edge2str v)).2, g, rfl, sheet_vert (g := g) ?_ rfl, by rw [hk]; exact ⟨rfl, rfl⟩⟩
          unfold BudR
          rw [(k2 hk).1]
          exact ⟨⟨hI.1, hI.2.1, fun h => by cases h⟩, by omega, by omega, fun _ => by omega⟩
      · intro rc g1 h1
        refine Conn.Keeps.bind (c1 := c) (keeps_close.mono ?_)
        rintro _ _ rfl
        exact Conn.Keeps.pure h1
    · intro b g1 h1
      cases b with
      | true =>
        simp only [if_true] at h1
        subst h1
        exact Conn.Keeps.pure ⟨hspent, trivial⟩
      | false =>
        simp only [Bool.false_eq_true, if_false] at h1
        obtain ⟨rfl, hk⟩ := h1
        exact costs_addStr_eq hk ts hc hE g1 hu hd
  · have hne : edge2str v ≠ edge2str x := fun h => hvx (hinj.1 h)
    rw [if_neg hvx]
    have h1 : (cIncDegree (edge2str x)).Costs V U v kn D E c c 0 0 [] fun _ => True := by
      refine .free fun g => ?_
      unfold cIncDegree
      refine Conn.Keeps.bind (keeps_open.mono ?_)
      rintro cu _ rfl
      refine Conn.Keeps.bind (c1 := c) ((keepsWrite (Q := fun _ g' => g = g') hc fun db hI => .inl
        ⟨(db.bumpDegree 1 (edge2str x)).1, (db.bumpDegree 1 (edge2str x)).2, g, rfl,
          sheet_same hI rfl (select_bump_ne hne 1), rfl⟩).mono ?_)
      rintro _ _ rfl
      refine Conn.Keeps.bind (c1 := c) (keeps_close.mono ?_)
      rintro _ _ rfl
      exact Conn.Keeps.pure ⟨rfl, trivial⟩
    exact (h1.bind (u' := 0) (d' := 0) (L' := []) fun b _ => Conn.Costs.ite (fun _ => costs_addStr_ne hne 1 ts hc hE)
      fun _ => .pure trivial)

theorem costs_dec {x : Val F} (hv : WfVal v) (hx : WfVal x) (hc : CurOk c) :
    (do let _ ← cDecDegree (edge2str x) : Conn Unit).Costs V U v kn D E c c 0 (if v = x then 1 else 0) [] fun _ => True := by
  have hinj : edge2str v = edge2str x ↔ v = x := ⟨edge2str_inj hv hx, fun h => by rw [h]⟩
  intro g hu hd
  have hspent : g.After 0 (if v = x then 1 else 0) [] ⟨g.up, g.down - (if v = x then 1 else 0), g.rows, g.own⟩ :=
    ⟨by dsimp only; omega, by dsimp only; omega, fun _ h => h, by simp, fun _ h => .inl h⟩
  refine Conn.Keeps.bind (Q := fun _ g' => g.After 0 (if v = x then 1 else 0) [] g' ∧ True) (c1 := c) ?_
  unfold cDecDegree
  refine Conn.Keeps.bind (keeps_open.mono ?_)
  rintro cu _ rfl
  refine Conn.Keeps.bind (c1 := c) ((keepsWrite
    (Q := fun _ g' => g' = ⟨g.up, g.down - (if v = x then 1 else 0), g.rows, g.own⟩) hc fun db hI => .inl
      ⟨(db.bumpDegree (-1) (edge2str x)).1, (db.bumpDegree (-1) (edge2str x)).2, _, rfl, ?_, rfl⟩).mono ?_)
  · refine sheet_vert ?_ rfl
    by_cases hvx : v = x
    · subst hvx
      rw [if_pos rfl] at hd ⊢
      obtain ⟨k1, k2⟩ := degRow_bump_eq v db (-1)
      have hb : BudI V U v kn (db.bumpDegree (-1) (edge2str v)).2 :=
        ⟨hI.1, hI.2.1, fun h => (degRow_bump (hI.2.2 h) (-1) _).1⟩
      unfold BudR
      cases hk : decide ((db.bumpDegree (-1) (edge2str v)).1 > 0) with
      | true =>
        rw [k1 hk]
        exact ⟨hb, by dsimp only; omega, by dsimp only; omega, fun _ => by dsimp only; omega⟩
      | false =>
        rw [(k2 hk).1]
        exact ⟨hb, by dsimp only; omega, by dsimp only; omega, fun _ => by dsimp only; omega⟩
    · have hne : edge2str v ≠ edge2str x := fun h => hvx (hinj.1 h)
      rw [if_neg hvx]
      exact bud_same hI (fun _ h => h) (select_bump_ne hne (-1))
  · rintro _ _ rfl
    refine Conn.Keeps.bind (c1 := c) (keeps_close.mono ?_)
    rintro _ _ rfl
    exact Conn.Keeps.pure (Conn.Keeps.pure ⟨hspent, trivial⟩)

/-! ### rows of the index -/

theorem hasRow_snoc {ps : List Str} {e x : Val F} {n m : Nat} (hV : Vocab V) (he : EdgeOver V e) (hx : EdgeOver V x)
    (hn : n < factorial e.elems.length) (h : HasRow (ps ++ [rowOf e.elems n]) x m) : HasRow ps x m ∨ x = e := by
  obtain ⟨h1, h2⟩ := h
  rcases List.mem_append.1 h2 with h2 | h2
  · exact .inl ⟨h1, h2⟩
  · have := (rowOf_inj (edge_wf hV hx) (edge_wf hV he) h1 hn (List.mem_singleton.1 h2)).1
    exact .inr (edge_ext hx he this)

/-- The row is in the book afterwards. -/
theorem books_writePerm (hV : Vocab V) {e : Val F} (he : EdgeOver V e) (hU : e ∈ U) {n : Nat} (hn : n < factorial e.elems.length)
    (hc : CurOk c) (hE : E .integrityError) (g : Sheet F) :
    (cMyWritePerm (F := F) k (rowOf e.elems n)).Books V U v kn D E c c g fun _ g' => g' = ⟨g.up, g.down, (e, n) :: g.rows, e :: g.own⟩ := by
  unfold cMyWritePerm cMyUpdateOrInsertPerm
  refine Conn.Keeps.bind (keeps_open.mono ?_)
  rintro cu _ rfl
  refine Conn.Keeps.bind (c1 := c) ((keepsWrite (Q := fun rc g' => rc = 0 ∧ g = g') hc fun db hI => .inl
    ⟨0, db, g, rfl, sheet_refl g db hI, rfl, rfl⟩).mono ?_)
  rintro rc _ ⟨rfl, rfl⟩
  rw [if_pos rfl]
  refine Conn.Keeps.bind (c1 := c) ((keepsWrite (Q := fun _ g' => g' = ⟨g.up, g.down, (e, n) :: g.rows, e :: g.own⟩) hc fun db hI => ?_).mono ?_)
  · show _ ∨ db.myInsertPerm k (rowOf e.elems n) = none ∧ _
    cases hq : db.myInsertPerm k (rowOf e.elems n) with
    | none => exact .inr ⟨rfl, hE⟩
    | some p =>
      obtain ⟨a, db'⟩ := p
      have := myInsertPerm_some hq
      subst this
      have hb : BudI V U v kn ⟨db.vertices, db.perms ++ [rowOf e.elems n]⟩ := ⟨rowsOk_snoc hI.1 he hn, fun x hx m hr =>
        (hasRow_snoc hV he hx hn hr).elim (hI.2.1 x hx m) fun h => h ▸ hU, hI.2.2⟩
      refine .inl ⟨(), ⟨db.vertices, db.perms ++ [rowOf e.elems n]⟩, ⟨g.up, g.down, (e, n) :: g.rows, e :: g.own⟩, hq, ⟨⟨hb, Int.le_refl _, Int.le_refl _, fun _ => Int.le_refl _⟩, ?_, ?_, fun _ h => by simp [h],
        fun x m hx h => (hasRow_snoc hV he hx hn h).imp id fun h => by simp [h]⟩, rfl⟩
      · rintro x m _ _ ⟨h1, h2⟩
        exact ⟨h1, List.mem_append.2 (.inl h2)⟩
      · intro p hp
        rcases List.mem_cons.1 hp with rfl | hp
        · exact .inr ⟨he, hn, List.mem_append.2 (.inr (by simp))⟩
        · exact .inl hp
  · rintro _ _ rfl
    exact keeps_close.mono fun _ _ h => h.symm

theorem books_perms (hV : Vocab V) {e : Val F} (he : EdgeOver V e) (hU : e ∈ U) (hc : CurOk c) (hE : E .integrityError)
    (ns : List Nat) (hns : ∀ n ∈ ns, n < factorial e.elems.length) (g : Sheet F) :
    (cEach (fun nperm => do
      let permS ← cLift (permStr e.elems nperm)
      cMyWritePerm (F := F) k permS) ns).Books V U v kn D E c c g fun _ g' =>
        g'.up = g.up ∧ g'.down = g.down ∧ (∀ p ∈ g.rows, p ∈ g'.rows) ∧ (∀ x ∈ g'.own, x ∈ g.own ∨ x = e) ∧
          ∀ n ∈ ns, (e, n) ∈ g'.rows := by
  induction ns generalizing g with
  | nil => exact Conn.Keeps.pure ⟨rfl, rfl, fun _ h => h, fun _ h => .inl h, by simp⟩
  | cons n ns ih =>
    have hn := hns n (by simp)
    refine Conn.Keeps.bind (c1 := c) (Conn.Keeps.bind (c1 := c) (Conn.Keeps.lift (permStr_eq he.elems_ne hn)
      ((books_writePerm hV he hU hn hc hE g).mono ?_)))
    rintro _ _ rfl
    refine (ih (fun m hm => hns m (by simp [hm])) _).mono ?_
    rintro _ g' ⟨h1, h2, h3, h5, h4⟩
    refine ⟨h1, h2, fun p hp => h3 p (by simp [hp]), fun x hx => ?_, fun m hm => ?_⟩
    · rcases h5 x hx with h | h
      · exact (List.mem_cons.1 h).symm
      · exact .inr h
    rcases List.mem_cons.1 hm with rfl | hm
    · exact h3 _ (by simp)
    · exact h4 m hm

theorem costs_writePerms (hV : Vocab V) {e : Val F} (he : EdgeOver V e) (hU : e ∈ U) (hc : CurOk c) (hE : E .integrityError) :
    (cPerms e.elems (cMyWritePerm (F := F) k)).Costs V U v kn D E c c 0 0 [e] fun _ => True := by
  intro g _ _
  refine (books_perms hV he hU hc hE _ (fun n hn => List.mem_range.1 hn) g).mono ?_
  rintro _ g' ⟨h1, h2, h3, h5, h4⟩
  refine ⟨⟨by omega, by omega, h3, ?_, fun x hx => (h5 x hx).imp id ?_⟩, trivial⟩
  rotate_left
  · rintro rfl n hn
    exact h4 n (List.mem_range.2 hn)
  intro x hx
  rw [List.mem_singleton] at hx
  subst hx
  obtain ⟨n, hn, hn2⟩ := pattern_has_row hV he.pattern he
      ((Matches.self_iff (fun p hp => V_ne_none hV (he.mem p hp))).2 rfl)
  exact ⟨n, h4 n (List.mem_range.2 hn), hn2⟩

theorem costs_removePerm {e : Val F} (hV : Vocab V) (he : EdgeOver V e) (hD : D e) {n : Nat} (hn : n < factorial e.elems.length)
    (hc : CurOk c) : (cRemovePerm (F := F) (rowOf e.elems n)).Costs V U v kn D E c c 0 0 [] fun _ => True := by
  refine .free fun g => ?_
  unfold cRemovePerm
  refine Conn.Keeps.bind (c1 := c) ((keepsWrite (Q := fun _ g' => g = g') hc fun db hI => .inl
    ⟨(), db.deletePerm (rowOf e.elems n), g, rfl, ⟨bud_same hI (fun r hr => (List.mem_filter.1 hr).1) rfl, ?_, fun _ h => .inl h,
      fun _ h => h, fun _ _ _ h => .inl ⟨h.1, (List.mem_filter.1 h.2).1⟩⟩, rfl⟩).mono ?_)
  · rintro _ _ rfl
    exact keeps_commit.mono fun _ _ h => ⟨h.symm, trivial⟩
  · rintro x m hx hxD ⟨h1, h2⟩
    refine ⟨h1, List.mem_filter.2 ⟨h2, ?_⟩⟩
    simp only [decide_eq_true_eq, ne_eq]
    intro he'
    have := (rowOf_inj (edge_wf hV hx) (edge_wf hV he) h1 hn he').1
    exact hxD (edge_ext hx he this ▸ hD)

theorem costs_removeStr {t : Str} (ht : edge2str v ≠ t) (hc : CurOk c) :
    (cRemoveStr t).Costs V U v kn D E c c 0 0 [] fun _ => True := by
  refine .free fun g => ?_
  unfold cRemoveStr
  refine Conn.Keeps.bind (c1 := c) (keeps_open.mono ?_)
  rintro cu _ rfl
  refine Conn.Keeps.bind (c1 := c) ((keepsWrite (Q := fun _ g' => g = g') hc fun db hI => .inl
    ⟨(), db.deleteVertex t, g, rfl, sheet_same hI rfl (select_delete_ne db ht), rfl⟩).mono ?_)
  rintro _ _ rfl
  exact keeps_close.mono fun _ _ h => ⟨h.symm, trivial⟩

/-! ### edges -/

theorem count_sum (v : Val F) (xs : List (Val F)) : (xs.map fun x => if v = x then 1 else 0).sum = xs.count v := by
  induction xs with
  | nil => rfl
  | cons x xs ih =>
    rw [List.map_cons, List.sum_cons, ih, List.count_cons]
    by_cases h : v = x
    · subst h; simp; omega
    · have : (x == v) = false := by simpa using fun e => h e.symm
      simp [h, this]

theorem zero_sum {α : Type} (xs : List α) : (xs.map fun _ => 0).sum = 0 := by
  induction xs with
  | nil => rfl
  | cons x xs ih => rw [List.map_cons, List.sum_cons, ih]

theorem costs_addRaw (hV : Vocab V) (hne : ∃ db, BudI V U v kn db) (hv : WfVal v) (ha : v.isAtom = true) {e : Val F}
    (he : EdgeOver V e) (hU : e ∈ U) (ts : Int) (hc : CurOk c) (hE : E .integrityError) :
    (cMyAddRaw k e ts).Costs V U v kn D E c c (e.elems.count v) 0 [e] fun _ => True := by
  intro g hu hd
  unfold cMyAddRaw
  refine Conn.Keeps.bind (c1 := c) ((books_exists hV hne he hc g).mono ?_)
  intro b g1 h1
  cases b with
  | true => exact Conn.Keeps.pure ⟨h1.weaken (by omega) (Nat.le_refl _) fun _ h => h, trivial⟩
  | false =>
    have h2 : (cMyAddNew k e ts).Costs V U v kn D E c c (e.elems.count v) 0 [e] fun _ => True := by
      unfold cMyAddNew
      have h3 : (cEach (cMyAddVert k ts) e.elems).Costs V U v kn D E c c (e.elems.count v) 0 [] fun _ => True := by
        have := Conn.Costs.each (f := cMyAddVert k ts) (xs := e.elems) (c := c) (V := V) (U := U) (v := v) (kn := kn) (D := D)
          (E := E) (fun x => if v = x then 1 else 0) (fun _ => 0) (fun _ => [])
          fun x hx => costs_addVert hv (edge_wf hV he x hx) ts hc hE
        rw [count_sum] at this
        exact this.weaken (Nat.le_refl _) (by rw [zero_sum]; exact Nat.le_refl _) (by simp) fun _ h => h
      refine ((Conn.Costs.lift (iter_edge he)).bind (u' := e.elems.count v) (d' := 0) (L' := [e]) ?_).weaken (by omega) (by omega)
        (by simp) fun _ h => h
      rintro _ rfl
      exact (h3.bind fun _ _ => (costs_addStr_ne (atom_text_ne hV hv ha he) 0 ts hc hE).bind fun _ _ =>
        costs_writePerms hV he hU hc hE).weaken (by omega) (by omega) (by simp) fun _ h => h
    have := h1.up
    have := h1.down
    refine (h2 g1 (by omega) (by omega)).mono ?_
    rintro _ g2 ⟨h3, _⟩
    exact ⟨(h1.trans h3).weaken (by omega) (by omega) (by simp), trivial⟩

theorem costs_removeRaw (hV : Vocab V) (hne : ∃ db, BudI V U v kn db) (hv : WfVal v) (ha : v.isAtom = true) {e : Val F}
    (he : EdgeOver V e) (hD : D e) (hc : CurOk c) :
    (cRemoveRaw e).Costs V U v kn D E c c 0 (e.elems.count v) [] fun _ => True := by
  intro g hu hd
  unfold cRemoveRaw
  refine Conn.Keeps.bind (c1 := c) ((books_exists hV hne he hc g).mono ?_)
  intro b g1 h1
  cases b with
  | false => exact Conn.Keeps.pure ⟨h1.weaken (by omega) (by omega) (by simp), trivial⟩
  | true =>
    rw [if_pos rfl]
    have h2 : (do
        let verts ← cLift e.iter
        cEach (fun v => do let _ ← cDecDegree (edge2str v)) verts
        cPerms verts (cRemovePerm (F := F))
        cRemoveStr (edge2str e) : Conn Unit).Costs V U v kn D E c c 0 (e.elems.count v) [] fun _ => True := by
      have h3 : (cEach (fun v => do let _ ← cDecDegree (edge2str v)) e.elems : Conn Unit).Costs V U v kn D E c c 0
          (e.elems.count v) [] fun _ => True := by
        have := Conn.Costs.each (f := fun v => do let _ ← cDecDegree (edge2str v)) (xs := e.elems) (c := c) (V := V) (U := U) (v := v)
          (kn := kn) (D := D) (E := E) (fun _ => 0) (fun x => if v = x then 1 else 0) (fun _ => [])
          fun x hx => costs_dec hv (edge_wf hV he x hx) hc
        rw [count_sum] at this
        exact this.weaken (by rw [zero_sum]; exact Nat.le_refl _) (Nat.le_refl _) (by simp) fun _ h => h
      have h4 : (cPerms e.elems (cRemovePerm (F := F))).Costs V U v kn D E c c 0 0 [] fun _ => True := by
        have := Conn.Costs.each (c := c) (V := V) (U := U) (v := v) (kn := kn) (D := D) (E := E) (fun _ => 0) (fun _ => 0)
          (fun _ => []) (f := fun nperm => do
            let permS ← cLift (permStr e.elems nperm)
            cRemovePerm (F := F) permS) (xs := List.range (factorial e.elems.length)) fun n hn => by
          have hn := List.mem_range.1 hn
          refine (Conn.Costs.lift (permStr_eq he.elems_ne hn)).bind (u' := 0) (d' := 0) (L' := []) ?_
          rintro _ rfl
          exact costs_removePerm hV he hD hn hc
        exact this.weaken (by rw [zero_sum]; exact Nat.le_refl _) (by rw [zero_sum]; exact Nat.le_refl _) (by simp) fun _ h => h
      refine ((Conn.Costs.lift (iter_edge he)).bind (u' := 0) (d' := e.elems.count v) (L' := []) ?_).weaken (by omega) (by omega)
        (by simp) fun _ h => h
      rintro _ rfl
      exact (h3.bind fun _ _ => h4.bind fun _ _ => costs_removeStr (atom_text_ne hV hv ha he) hc).weaken (by omega) (by omega)
        (by simp) fun _ h => h
    have := h1.up
    have := h1.down
    refine (h2 g1 (by omega) (by omega)).mono ?_
    rintro _ g2 ⟨h3, _⟩
    exact ⟨(h1.trans h3).weaken (by omega) (by omega) (by simp), trivial⟩

/-! ### calls -/

theorem occurrences_sum (v : Val F) (es : List (Val F)) : (es.map fun e => e.elems.count v).sum = occurrences v es := rfl

theorem costs_add (hV : Vocab V) (hne : ∃ db, BudI V U v kn db) (hv : WfVal v) (ha : v.isAtom = true) {e : Val F}
    (he : EdgeOver V e) (hU : e ∈ U) (ts : Int) (hc : CurOk c) (hE : E .integrityError) :
    (cMyAdd k e ts).Costs V U v kn D E c c (occurrences v [e]) 0 [e] fun _ => True := by
  unfold cMyAdd
  obtain ⟨h, h1, h2⟩ := head0_edge he
  refine ((Conn.Costs.lift h1).bind (u' := e.elems.count v) (d' := 0) (L' := [e]) ?_).weaken (by simp [occurrences]) (by omega) (by simp)
    fun _ h => h
  rintro _ rfl
  rw [h2]
  exact costs_addRaw hV hne hv ha he hU ts hc hE

theorem costs_addMany (hV : Vocab V) (hne : ∃ db, BudI V U v kn db) (hv : WfVal v) (ha : v.isAtom = true) {b : Bool}
    {es : List (Val F)} (hes : es ≠ []) (he : ∀ x ∈ es, EdgeOver V x) (hU : ∀ x ∈ es, x ∈ U) (ts : Int) (hE : E .integrityError) :
    (cMyAdd k (.seq b es) ts).Costs V U v kn D E none none (occurrences v es) 0 es fun _ => True := by
  unfold cMyAdd
  obtain ⟨h, h1, h2⟩ := head0_coll (b := b) hes he
  refine ((Conn.Costs.lift h1).bind (u' := occurrences v es) (d' := 0) (L' := es) ?_).weaken (by omega) (by omega) (by simp)
    fun _ h => h
  rintro _ rfl
  rw [h2]
  rw [if_pos rfl]
  have hb : (cOpen false).Costs V U v kn D E none (some true) 0 0 [] fun _ => True :=
    .free fun g => keeps_begin.mono fun _ _ h => ⟨h.symm, trivial⟩
  have hend : (cClose false true).Costs V U v kn D E (some true) none 0 0 [] fun _ => True :=
    .free fun g => keeps_end.mono fun _ _ h => ⟨h.symm, trivial⟩
  have hloop := Conn.Costs.each (f := fun e => cMyAddRaw k e ts) (xs := es) (c := some true) (V := V) (U := U) (v := v) (kn := kn) (D := D)
    (E := E) (fun e => e.elems.count v) (fun _ => 0) (fun e => [e])
    fun x hx => costs_addRaw hV hne hv ha (he x hx) (hU x hx) ts (by simp [CurOk]) hE
  rw [occurrences_sum] at hloop
  refine (hb.bind (u' := occurrences v es) (d' := 0) (L' := es) fun _ _ => ?_).weaken (by omega) (by omega) (by simp) fun _ h => h
  refine ((Conn.Costs.lift (r := (Val.seq b es).iter) (a := es) rfl).bind (u' := occurrences v es) (d' := 0) (L' := es) ?_).weaken
    (by omega) (by omega) (by simp) fun _ h => h
  rintro _ rfl
  exact (hloop.bind fun _ _ => hend).weaken (by omega) (by rw [zero_sum]; exact Nat.le_refl _) (by simp) fun _ h => h

theorem costs_addBelief {src e arg : Val F} (ts : Int) (hb : beliefEdges src e = .ok arg) {u : Nat} {L : List (Val F)}
    {c c' : Option Bool} (h : (cMyAdd k arg ts).Costs V U v kn D E c c' u 0 L fun _ => True) :
    (cMyAddBelief k src e ts).Costs V U v kn D E c c' u 0 L fun _ => True := by
  unfold cMyAddBelief
  refine ((Conn.Costs.lift hb).bind (u' := u) (d' := 0) (L' := L) ?_).weaken (by omega) (by omega) (by simp) fun _ h => h
  rintro _ rfl
  exact h

theorem costs_remove (hV : Vocab V) (hne : ∃ db, BudI V U v kn db) (hv : WfVal v) (ha : v.isAtom = true) {e : Val F}
    (he : EdgeOver V e) (hD : D e) (hc : CurOk c) :
    (cRemove e).Costs V U v kn D E c c 0 (occurrences v [e]) [] fun _ => True := by
  unfold cRemove
  obtain ⟨h, h1, h2⟩ := head0_edge he
  refine ((Conn.Costs.lift h1).bind (u' := 0) (d' := e.elems.count v) (L' := []) ?_).weaken (by omega) (by simp [occurrences]) (by simp)
    fun _ h => h
  rintro _ rfl
  rw [h2]
  exact costs_removeRaw hV hne hv ha he hD hc

theorem costs_removeMany (hV : Vocab V) (hne : ∃ db, BudI V U v kn db) (hv : WfVal v) (ha : v.isAtom = true) {b : Bool}
    {es : List (Val F)} (hes : es ≠ []) (he : ∀ x ∈ es, EdgeOver V x) (hD : ∀ x ∈ es, D x) (hc : CurOk c) :
    (cRemove (.seq b es)).Costs V U v kn D E c c 0 (occurrences v es) [] fun _ => True := by
  unfold cRemove
  obtain ⟨h, h1, h2⟩ := head0_coll (b := b) hes he
  refine ((Conn.Costs.lift h1).bind (u' := 0) (d' := occurrences v es) (L' := []) ?_).weaken (by omega) (by omega) (by simp)
    fun _ h => h
  rintro _ rfl
  rw [h2, if_pos rfl]
  have hloop := Conn.Costs.each (f := cRemoveRaw) (xs := es) (c := c) (V := V) (U := U) (v := v) (kn := kn) (D := D)
    (E := E) (fun _ => 0) (fun e => e.elems.count v) (fun _ => [])
    fun x hx => costs_removeRaw hV hne hv ha (he x hx) (hD x hx) hc
  rw [occurrences_sum] at hloop
  refine ((Conn.Costs.lift (r := (Val.seq b es).iter) (a := es) rfl).bind (u' := 0) (d' := occurrences v es) (L' := []) ?_).weaken
    (by omega) (by omega) (by simp) fun _ h => h
  rintro _ rfl
  exact hloop.weaken (by rw [zero_sum]; exact Nat.le_refl _) (Nat.le_refl _) (by simp) fun _ h => h

/-- A call of its own, or one that works inside a batch. -/
theorem costs_act (hV : Vocab V) (hne : ∃ db, BudI V U v kn db) (hv : WfVal v) (ha : v.isAtom = true) {a : PAct F} (ho : a.op.Over V)
    (hU : ∀ x ∈ a.adds, x ∈ U) (hD : ∀ x, EdgeOver V x → a.Removes x → D x) (hE : a.adds ≠ [] → E .integrityError)
    (hc : c = none ∨ (CurOk c ∧ a.Single)) :
    (a.myConn k).Costs V U v kn D E c c (occurrences v a.adds) (occurrences v (a.drops U)) a.adds fun _ => True := by
  have hcok : CurOk c := by
    rcases hc with rfl | h
    · simp [CurOk]
    · exact h.1
  cases a with
  | add e ts =>
    exact costs_add hV hne hv ha ho (hU e (by simp [PAct.adds])) ts hcok (hE (by simp [PAct.adds]))
  | addMany es ts =>
    have hcn := hc.resolve_right (fun h => h.2)
    subst hcn
    exact costs_addMany hV hne hv ha ho.1 ho.2 hU ts (hE ho.1)
  | addBelief src e ts =>
    have hcn := hc.resolve_right (fun h => h.2)
    subst hcn
    exact costs_addBelief ts (beliefEdges_single (BeliefOver.edge ho))
      (costs_addMany (es := [e, support e src]) hV hne hv ha (by simp) (by simpa using ⟨BeliefOver.edge ho, support_over ho⟩) hU ts
        (hE (by simp [PAct.adds])))
  | addBeliefs src es ts =>
    have hcn := hc.resolve_right (fun h => h.2)
    subst hcn
    have hne' : es.flatMap (fun e => [e, support e src]) ≠ [] := by
      cases es with
      | nil => exact absurd rfl ho.1
      | cons e es => simp
    exact costs_addBelief ts (beliefEdges_many (V := V) ho.1 fun e he => (ho.2 e he).edge)
      (costs_addMany hV hne hv ha hne' (belief_pairs ho.2) hU ts (hE hne'))
  | remove e => exact costs_remove hV hne hv ha ho (hD e ho rfl) hcok
  | removeMany es => exact costs_removeMany hV hne hv ha ho.1 ho.2 (fun x hx => hD x (ho.2 x hx) hx) hcok
  | removeByPattern ps =>
    show (cRemoveByPattern (.tup ps)).Costs V U v kn D E c c 0 _ [] fun _ => True
    unfold cRemoveByPattern
    refine ((costs_pattern hV hne ho hcok).bind (u' := 0) (d' := occurrences v ((PAct.removeByPattern ps).drops U)) (L' := []) ?_).weaken
      (by omega) (by omega) (by simp) fun _ h => h
    rintro res ⟨h1, h2⟩
    have hle : occurrences v res ≤ occurrences v ((PAct.removeByPattern ps).drops U) :=
      occurrences_le h1 fun x hx => List.mem_filter.2 ⟨(h2 x hx).2.2, by simpa using (h2 x hx).2.1⟩
    have hloop := Conn.Costs.each (f := cRemove) (xs := res) (c := c) (V := V) (U := U) (v := v) (kn := kn) (D := D)
      (E := E) (fun _ => 0) (fun e => occurrences v [e]) (fun _ => [])
      fun x hx => costs_remove hV hne hv ha (h2 x hx).1 (hD x (h2 x hx).1 (h2 x hx).2.1) hcok
    have hsum : (res.map fun e => occurrences v [e]).sum = occurrences v res := by
      rw [← occurrences_sum]
      simp [occurrences]
    rw [hsum] at hloop
    exact hloop.weaken (by rw [zero_sum]; exact Nat.le_refl _) hle (by simp) fun _ h => h
  | removeBelief src e =>
    have ho : BeliefOver V src e := ho
    have hocc : occurrences v ((PAct.removeBelief src e).drops U) = occurrences v [support e src] + (0 + occurrences v [e]) := by
      simp [PAct.drops, occurrences]
    show (cRemoveBelief src e).Costs V U v kn D E c c 0 _ [] fun _ => True
    rw [hocc]
    unfold cRemoveBelief
    have h1 := costs_remove (E := E) hV hne hv ha (support_over ho) (hD _ (support_over ho) (.inr rfl)) hcok
    have h2 := costs_remove (E := E) hV hne hv ha ho.edge (hD _ ho.edge (.inl rfl)) hcok
    exact h1.bind fun _ _ => (costs_sources hV hne ho.srcConst ho.fact hcok).bind fun _ _ =>
      Conn.Costs.ite (fun _ => h2) fun _ => (Conn.Costs.pure trivial).weaken (by omega) (by omega) (by simp) fun _ h => h

theorem costs_call (hV : Vocab V) (hne : ∃ db, BudI V U v kn db) (hv : WfVal v) (ha : v.isAtom = true) {p : PCall F} (ho : p.Over V)
    (hU : ∀ a ∈ p.acts, ∀ x ∈ a.adds, x ∈ U) (hD : ∀ a ∈ p.acts, ∀ x, EdgeOver V x → a.Removes x → D x)
    (hE : ∀ a ∈ p.acts, a.adds ≠ [] → E .integrityError) :
    (p.myConn k).Costs V U v kn D E none none (occurrences v (p.acts.flatMap PAct.adds)) (occurrences v (p.acts.flatMap (PAct.drops U)))
      (p.acts.flatMap PAct.adds) fun _ => True := by
  cases p with
  | one a =>
    have := costs_act (k := k) hV hne hv ha (a := a) ho (hU a (by simp [PCall.acts])) (hD a (by simp [PCall.acts])) (hE a (by simp [PCall.acts]))
      (.inl rfl)
    show (a.myConn k).Costs V U v kn D E none none _ _ _ fun _ => True
    simpa [PCall.acts] using this
  | batch as =>
    show (cBatch (as.map (PAct.myConn k))).Costs V U v kn D E none none _ _ _ fun _ => True
    unfold cBatch
    have hb : (cOpen false).Costs V U v kn D E none (some true) 0 0 [] fun _ => True :=
      .free fun g => keeps_begin.mono fun _ _ h => ⟨h.symm, trivial⟩
    have hend : (cClose false true).Costs V U v kn D E (some true) none 0 0 [] fun _ => True :=
      .free fun g => keeps_end.mono fun _ _ h => ⟨h.symm, trivial⟩
    have hloop : (cEach (fun f => f) (as.map (PAct.myConn k))).Costs V U v kn D E (some true) (some true)
        (occurrences v (as.flatMap PAct.adds)) (occurrences v (as.flatMap (PAct.drops U))) (as.flatMap PAct.adds) fun _ => True := by
      have hacts : ∀ a ∈ as, (a.myConn k).Costs V U v kn D E (some true) (some true) (occurrences v a.adds)
          (occurrences v (a.drops U)) a.adds fun _ => True := fun a ha' =>
        costs_act hV hne hv ha (ho a ha').1 (hU a ha') (hD a ha') (hE a ha') (.inr ⟨by simp [CurOk], (ho a ha').2⟩)
      clear hU hD hE ho
      induction as with
      | nil => exact .pure trivial
      | cons a as ih =>
        rw [List.flatMap_cons, List.flatMap_cons, occurrences_append, occurrences_append]
        exact (hacts a (by simp)).bind fun _ _ => ih fun b hb => hacts b (by simp [hb])
    exact (hb.bind fun _ _ => hloop.bind fun _ _ => hend).weaken (by simp [PCall.acts]) (by simp [PCall.acts]) (by simp [PCall.acts])
      fun _ h => h

theorem costs_client (hV : Vocab V) (hne : ∃ db, BudI V U v kn db) (hv : WfVal v) (ha : v.isAtom = true) {p : List (PCall F)}
    (ho : ∀ c ∈ p, c.Over V) (hU : ∀ a ∈ p.flatMap PCall.acts, ∀ x ∈ a.adds, x ∈ U) (hD : ∀ a ∈ p.flatMap PCall.acts, ∀ x, EdgeOver V x → a.Removes x → D x)
    (hE : ∀ a ∈ p.flatMap PCall.acts, a.adds ≠ [] → E .integrityError) :
    (cEach (PCall.myConn k) p).Costs V U v kn D E none none (occurrences v ((p.flatMap PCall.acts).flatMap PAct.adds))
      (occurrences v ((p.flatMap PCall.acts).flatMap (PAct.drops U))) ((p.flatMap PCall.acts).flatMap PAct.adds) fun _ => True := by
  induction p with
  | nil => exact .pure trivial
  | cons c p ih =>
    rw [List.flatMap_cons] at hU hD hE ⊢
    rw [List.flatMap_append, List.flatMap_append, occurrences_append, occurrences_append]
    exact (costs_call hV hne hv ha (ho c (by simp)) (fun a h => hU a (by simp [h])) (fun a h => hD a (by simp [h]))
      (fun a h => hE a (by simp [h]))).bind fun _ _ => ih (fun c hc => ho c (by simp [hc])) (fun a h => hU a (by simp [h]))
      (fun a h => hD a (by simp [h])) (fun a h => hE a (by simp [h]))

end GB
