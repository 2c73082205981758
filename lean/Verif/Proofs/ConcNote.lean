import Verif.Proofs.ConcBudget
import Verif.Spec.Races

/-! What a process knows about the rows of one edge, while others add and remove edges. -/

set_option linter.unusedSectionVars false
set_option linter.unusedVariables false

namespace GB

theorem Proc.Acts.sweep {α γ : Type} {I : γ → DB → Prop} {R : γ → DB → DB → γ → Prop} {f : α → Proc Unit} {xs : List α} {g : γ}
    (P : γ → γ → Prop) (Did : α → γ → Prop) (hr : ∀ g, P g g) (ht : ∀ a b c, P a b → P b c → P a c)
    (hm : ∀ x a b, Did x a → P a b → Did x b)
    (h : ∀ x ∈ xs, ∀ g, (f x).Acts I R g fun _ g' => P g g' ∧ Did x g') :
    (Proc.each f xs).Acts I R g fun _ g' => P g g' ∧ ∀ x ∈ xs, Did x g' := by
  induction xs generalizing g with
  | nil => exact ⟨(), rfl, hr g, by simp⟩
  | cons x xs ih =>
    refine Proc.Acts.bind ((h x (by simp) g).mono ?_)
    rintro _ g1 ⟨h1, h2⟩
    refine (ih fun y hy => h y (by simp [hy])).mono ?_
    rintro _ g2 ⟨h3, h4⟩
    refine ⟨ht _ _ _ h1 h3, fun y hy => ?_⟩
    rcases List.mem_cons.1 hy with rfl | hy
    · exact hm _ _ _ h2 h3
    · exact h4 y hy

/-- As `Sys.Reach.books`, with what each process does and what it returns with depending on which process it is. -/
theorem Sys.Reach.notes {γ : Type} {I : γ → DB → Prop} {R : Nat → γ → DB → DB → γ → Prop} {Q : Nat → γ → Prop}
    {Inv : DB → List γ → Prop} {σ τ : Sys}
    (h : σ.Reach τ) {gs : List γ} (hl : gs.length = σ.procs.length) (h0 : Inv σ.db gs)
    (hp : ∀ (i : Nat) (p : Proc Unit) (g : γ), σ.procs[i]? = some p → gs[i]? = some g → p.Acts I (R i) g fun _ => Q i)
    (hI : ∀ db (gs : List γ) (i : Nat) (g : γ), Inv db gs → gs[i]? = some g → I g db)
    (hR : ∀ db db' (gs : List γ) (i : Nat) (g g' : γ), Inv db gs → gs[i]? = some g → R i g db db' g' → Inv db' (gs.set i g')) :
    ∃ gs' : List γ, gs'.length = τ.procs.length ∧ Inv τ.db gs' ∧
      ∀ (i : Nat) (p : Proc Unit) (g : γ), τ.procs[i]? = some p → gs'[i]? = some g → p.Acts I (R i) g fun _ => Q i := by
  induction h with
  | refl => exact ⟨gs, hl, h0, hp⟩
  | step _ hst ih =>
    obtain ⟨gs', hl', h1, h2⟩ := ih
    cases hst with
    | @tx db procs i u n hi =>
      have hil : i < procs.length := (List.getElem?_eq_some_iff.1 hi).1
      have hgi := List.getElem?_eq_getElem (show i < gs'.length by rw [hl']; exact hil)
      obtain ⟨g', h3, h4⟩ := h2 i _ _ hi hgi db (hI db gs' i _ h1 hgi)
      refine ⟨gs'.set i g', by simpa using hl', hR _ _ _ _ _ _ h1 hgi h3, ?_⟩
      intro j p g hj hg
      rcases getElem?_set_cases hj with ⟨rfl, rfl, _⟩ | ⟨hne, hj⟩
      · rcases getElem?_set_cases hg with ⟨_, rfl, _⟩ | ⟨hne, _⟩
        · exact h4
        · exact absurd rfl hne
      · rcases getElem?_set_cases hg with ⟨h, _, _⟩ | ⟨_, hg⟩
        · exact absurd h hne
        · exact h2 j p g hj hg

variable {F : Type} [PyFloat F] [DecidableEq F] {V : Val F → Prop}

/-- The rows of the edge that the process saw or wrote; those that it saw missing or deleted; whether it set out to write
rows of the edge, and to delete rows of it. -/
structure Note where
  seen : Nat → Prop
  gone : Nat → Prop
  own : Prop
  cut : Prop

/-- A step of a process that may add the edge if `A`, and may remove it if `C`. -/
structure NoteR (V : Val F → Prop) (x : Val F) (A C : Prop) (g : Note) (a b : DB) (g' : Note) : Prop where
  rows : RowsOk V b.perms
  seen : ∀ n, g'.seen n → g.seen n ∨ HasRow b.perms x n
  gone : ∀ n, g'.gone n → g.gone n ∨ ¬ HasRow b.perms x n
  own : g.own → g'.own
  cut : g.cut → g'.cut
  wrote : ∀ n, HasRow b.perms x n → HasRow a.perms x n ∨ g'.own
  erased : ∀ n, HasRow a.perms x n → HasRow b.perms x n ∨ g'.cut
  may : g'.own → g.own ∨ A
  mayCut : g'.cut → g.cut ∨ C

/-- What the process learnt between two moments. -/
structure Learnt (x : Val F) (g g' : Note) : Prop where
  seen : ∀ n, g.seen n → g'.seen n
  gone : ∀ n, g.gone n → g'.gone n
  own : g'.own → g.own ∨ ∀ n, n < factorial x.elems.length → g'.seen n
  cut : g'.cut → g.cut ∨ ∀ n, n < factorial x.elems.length → g'.gone n

/-- The process knows that the edge exists. -/
def Note.Has (x : Val F) (g : Note) : Prop := ∃ n, g.seen n ∧ patStart x.elems <+: rowOf x.elems n
/-- The process knows that the edge does not exist. -/
def Note.Hasnt (x : Val F) (g : Note) : Prop :=
  ∀ n, n < factorial x.elems.length → patStart x.elems <+: rowOf x.elems n → g.gone n
/-- The process knows that a row of the edge is missing. -/
def Note.Lacks (x : Val F) (g : Note) : Prop := ∃ n, n < factorial x.elems.length ∧ g.gone n

theorem Learnt.refl (x : Val F) (g : Note) : Learnt x g g := ⟨fun _ h => h, fun _ h => h, .inl, .inl⟩

theorem Learnt.trans {x : Val F} {a b c : Note} (h : Learnt x a b) (k : Learnt x b c) : Learnt x a c :=
  ⟨fun n h' => k.seen n (h.seen n h'), fun n h' => k.gone n (h.gone n h'),
    fun h' => (k.own h').elim (fun h' => (h.own h').imp id fun h' n hn => k.seen n (h' n hn)) .inr,
    fun h' => (k.cut h').elim (fun h' => (h.cut h').imp id fun h' n hn => k.gone n (h' n hn)) .inr⟩

theorem Note.Has.later {x : Val F} {g g' : Note} (h : g.Has x) (k : Learnt x g g') : g'.Has x :=
  let ⟨n, h1, h2⟩ := h; ⟨n, k.seen n h1, h2⟩
theorem Note.Hasnt.later {x : Val F} {g g' : Note} (h : g.Hasnt x) (k : Learnt x g g') : g'.Hasnt x :=
  fun n h1 h2 => k.gone n (h n h1 h2)
theorem Note.Lacks.later {x : Val F} {g g' : Note} (h : g.Lacks x) (k : Learnt x g g') : g'.Lacks x :=
  let ⟨n, h1, h2⟩ := h; ⟨n, h1, k.gone n h2⟩

theorem Note.Hasnt.lacks (hV : Vocab V) {x : Val F} (hx : EdgeOver V x) {g : Note} (h : g.Hasnt x) : g.Lacks x := by
  obtain ⟨n, hn, hn2⟩ := pattern_has_row hV hx.pattern hx ((Matches.self_iff (fun p hp => V_ne_none hV (hx.mem p hp))).2 rfl)
  exact ⟨n, hn, h n hn hn2⟩

theorem has_all (hV : Vocab V) {x : Val F} (hx : EdgeOver V x) {g : Note} (h : ∀ n, n < factorial x.elems.length → g.seen n) :
    g.Has x := by
  obtain ⟨n, hn, hn2⟩ := pattern_has_row hV hx.pattern hx ((Matches.self_iff (fun p hp => V_ne_none hV (hx.mem p hp))).2 rfl)
  exact ⟨n, h n hn, hn2⟩

abbrev Learns (V : Val F → Prop) (x : Val F) (A C : Prop) {α : Type} (p : Proc α) (g : Note) (Q : α → Note → Prop) : Prop :=
  p.Acts (fun _ db => RowsOk V db.perms) (NoteR V x A C) g Q

variable {x : Val F} {A C : Prop}

theorem note_idle {g : Note} {a b : DB} (hR : RowsOk V b.perms) (h : ∀ n, HasRow b.perms x n ↔ HasRow a.perms x n) :
    NoteR V x A C g a b g :=
  ⟨hR, fun _ h => .inl h, fun _ h => .inl h, id, id, fun n h' => .inl ((h n).1 h'), fun n h' => .inl ((h n).2 h'), .inl, .inl⟩

theorem note_same {g : Note} {a b : DB} (hR : RowsOk V a.perms) (h : b.perms = a.perms) : NoteR V x A C g a b g :=
  note_idle (by rw [h]; exact hR) fun n => by rw [h]

/-- A step that learns something about rows and changes none. -/
theorem note_look {g g' : Note} {a : DB} (hR : RowsOk V a.perms) (h1 : ∀ n, g'.seen n → g.seen n ∨ HasRow a.perms x n)
    (h2 : ∀ n, g'.gone n → g.gone n ∨ ¬ HasRow a.perms x n) (h3 : g'.own = g.own) (h4 : g'.cut = g.cut) :
    NoteR V x A C g a a g' :=
  ⟨hR, h1, h2, by rw [h3]; exact id, by rw [h4]; exact id, fun _ h => .inl h, fun _ h => .inl h, by rw [h3]; exact .inl,
    by rw [h4]; exact .inl⟩

/-- Asking whether the edge exists, the process learns that it does or that it does not. -/
theorem learns_exists (hV : Vocab V) (hx : EdgeOver V x) (g : Note) :
    Learns V x A C (Proc.atom (existsM x)) g fun b g' => Learnt x g g' ∧ (b = true → g'.Has x) ∧ (b = false → g'.Hasnt x) := by
  refine Proc.Acts.atom fun db hI => ?_
  obtain ⟨b, h1, h2, h3⟩ := here_exists hV hI hx
  cases b with
  | true =>
    obtain ⟨n, h4, h5⟩ := h3.1 rfl
    refine ⟨true, db, ⟨fun m => g.seen m ∨ m = n, g.gone, g.own, g.cut⟩, h1, h2,
      note_look hI ?_ (fun _ h => .inl h) rfl rfl, ⟨fun _ h => .inl h, fun _ h => h, .inl, .inl⟩, fun _ => ⟨n, .inr rfl, h5⟩,
      fun h => by cases h⟩
    rintro m (h | rfl)
    · exact .inl h
    · exact .inr h4
  | false =>
    have h3 : ¬ Visible x db := fun h => by cases h3.2 h
    refine ⟨false, db, ⟨g.seen, fun m => g.gone m ∨ (patStart x.elems <+: rowOf x.elems m), g.own, g.cut⟩, h1, h2,
      note_look hI (fun _ h => .inl h) ?_ rfl rfl, ⟨fun _ h => h, fun _ h => .inl h, .inl, .inl⟩, (fun h => by cases h),
      fun _ n _ h => .inr h⟩
    rintro m (h | h)
    · exact .inl h
    · exact .inr fun h' => h3 ⟨m, h', h⟩

theorem learns_ask (hV : Vocab V) {e : Val F} (he : EdgeOver V e) (g : Note) :
    Learns V x A C (Proc.atom (existsM e)) g fun _ g' => g' = g := by
  refine Proc.Acts.atom fun db hI => ?_
  obtain ⟨b, h1, h2, h3⟩ := here_exists hV hI he
  exact ⟨b, db, g, h1, h2, note_same hI rfl, rfl⟩

theorem learns_addVert (ts : Int) (y : Val F) (g : Note) : Learns V x A C (addVertP ts y) g fun _ g' => g' = g := by
  refine Proc.Acts.bind (Proc.Acts.atom fun db hI => ⟨_, _, g, (here_inc db _).1, (here_inc db _).2, note_same hI rfl, ?_⟩)
  split
  · exact Proc.Acts.atom fun db hI => ⟨(), _, g, (here_addStr db _ _ _).1, (here_addStr db _ _ _).2,
      note_same hI (upsert_perms _ _ _ _), rfl⟩
  · exact ⟨(), rfl, rfl⟩

theorem learns_verts (ts : Int) (ys : List (Val F)) (g : Note) :
    Learns V x A C (Proc.each (addVertP ts) ys) g fun _ g' => g' = g :=
  Proc.Acts.loop (fun g' => g' = g) rfl fun y _ g' h => by subst h; exact learns_addVert ts y g'

/-- Writing the rows of the edge: in the end the process has seen them all. -/
theorem learns_write (hV : Vocab V) (hx : EdgeOver V x) (hA : A) (g : Note) :
    Learns V x A C (permsP x.elems (writeEdgePermutation (F := F))) g fun _ g' =>
      Learnt x g g' ∧ ∀ n, n < factorial x.elems.length → g'.seen n := by
  refine (Proc.Acts.sweep (fun a b : Note => (∀ n, a.seen n → b.seen n) ∧ (∀ n, a.gone n → b.gone n) ∧ b.cut = a.cut)
    (fun n g => g.seen n) (fun g => ⟨fun _ h => h, fun _ h => h, rfl⟩)
    (fun a b c h k => ⟨fun n h' => k.1 n (h.1 n h'), fun n h' => k.2.1 n (h.2.1 n h'), k.2.2.trans h.2.2⟩)
    (fun n a b h k => k.1 n h) ?_).mono ?_
  · intro n hn g
    rw [List.mem_range] at hn
    rw [permStr_eq hx.elems_ne hn]
    refine Proc.Acts.bind ⟨_, rfl, Proc.Acts.atom fun db hI => ?_⟩
    refine ⟨(), _, ⟨fun m => g.seen m ∨ m = n, g.gone, True, g.cut⟩, (here_write (F := F) db _).1, (here_write (F := F) db _).2, ?_,
      ⟨fun _ h => .inl h, fun _ h => h, rfl⟩, .inr rfl⟩
    have hu := fun m => hasRow_upsert hV hx hx hn db m
    refine ⟨rowsOk_upsert hx hn hI, ?_, fun _ h => .inl h, fun _ => trivial, id, fun _ _ => .inr trivial,
      fun m h => .inl ((hu m).2 (.inl h)), fun _ => .inr hA, .inl⟩
    rintro m (h | rfl)
    · exact .inl h
    · exact .inr ((hu m).2 (.inr ⟨rfl, rfl⟩))
  · rintro _ g' ⟨⟨h1, h2, h3⟩, h4⟩
    have h4 : ∀ n, n < factorial x.elems.length → g'.seen n := fun n hn => h4 n (List.mem_range.2 hn)
    exact ⟨⟨h1, h2, fun _ => .inr h4, fun h => .inl (by rw [h3] at h; exact h)⟩, h4⟩

theorem learns_write_ne (hV : Vocab V) (hx : EdgeOver V x) {e : Val F} (he : EdgeOver V e) (hne : e ≠ x) (g : Note) :
    Learns V x A C (permsP e.elems (writeEdgePermutation (F := F))) g fun _ g' => g' = g := by
  refine Proc.Acts.loop (fun g' => g' = g) rfl fun n hn g' h => ?_
  subst h
  rw [List.mem_range] at hn
  rw [permStr_eq he.elems_ne hn]
  refine Proc.Acts.bind ⟨_, rfl, Proc.Acts.atom fun db hI => ?_⟩
  refine ⟨(), _, g', (here_write (F := F) db _).1, (here_write (F := F) db _).2, note_idle (rowsOk_upsert he hn hI) fun m => ?_, rfl⟩
  rw [hasRow_upsert hV he hx hn db m]
  exact ⟨fun h => h.elim id fun h => absurd h.1.symm hne, .inl⟩

/-- Deleting the rows of the edge: in the end the process has seen all of them go. -/
theorem learns_delete (hV : Vocab V) (hx : EdgeOver V x) (hC : C) (g : Note) :
    Learns V x A C (permsP x.elems (removeEdgePermutation (F := F))) g fun _ g' =>
      Learnt x g g' ∧ ∀ n, n < factorial x.elems.length → g'.gone n := by
  refine (Proc.Acts.sweep (fun a b : Note => (∀ n, a.seen n → b.seen n) ∧ (∀ n, a.gone n → b.gone n) ∧ b.own = a.own)
    (fun n g => g.gone n) (fun g => ⟨fun _ h => h, fun _ h => h, rfl⟩)
    (fun a b c h k => ⟨fun n h' => k.1 n (h.1 n h'), fun n h' => k.2.1 n (h.2.1 n h'), k.2.2.trans h.2.2⟩)
    (fun n a b h k => k.2.1 n h) ?_).mono ?_
  · intro n hn g
    rw [List.mem_range] at hn
    rw [permStr_eq hx.elems_ne hn]
    refine Proc.Acts.bind ⟨_, rfl, Proc.Acts.atom fun db hI => ?_⟩
    refine ⟨(), _, ⟨g.seen, fun m => g.gone m ∨ m = n, g.own, True⟩, (here_delete (F := F) db _).1, (here_delete (F := F) db _).2, ?_,
      ⟨fun _ h => h, fun _ h => .inl h, rfl⟩, .inr rfl⟩
    have hu := fun m => hasRow_delete hV hx hx hn db m
    refine ⟨rowsOk_delete hI, fun _ h => .inl h, ?_, id, fun _ => trivial, fun m h => .inl ((hu m).1 h).1,
      fun m h => .inr trivial, .inl, fun _ => .inr hC⟩
    rintro m (h | rfl)
    · exact .inl h
    · exact .inr fun h => ((hu m).1 h).2 ⟨rfl, rfl⟩
  · rintro _ g' ⟨⟨h1, h2, h3⟩, h4⟩
    have h4 : ∀ n, n < factorial x.elems.length → g'.gone n := fun n hn => h4 n (List.mem_range.2 hn)
    exact ⟨⟨h1, h2, fun h => .inl (by rw [h3] at h; exact h), fun _ => .inr h4⟩, h4⟩

theorem learns_delete_ne (hV : Vocab V) (hx : EdgeOver V x) {e : Val F} (he : EdgeOver V e) (hne : e ≠ x) (g : Note) :
    Learns V x A C (permsP e.elems (removeEdgePermutation (F := F))) g fun _ g' => g' = g := by
  refine Proc.Acts.loop (fun g' => g' = g) rfl fun n hn g' h => ?_
  subst h
  rw [List.mem_range] at hn
  rw [permStr_eq he.elems_ne hn]
  refine Proc.Acts.bind ⟨_, rfl, Proc.Acts.atom fun db hI => ?_⟩
  refine ⟨(), _, g', (here_delete (F := F) db _).1, (here_delete (F := F) db _).2, note_idle (rowsOk_delete hI) fun m => ?_, rfl⟩
  rw [hasRow_delete hV he hx hn db m]
  exact ⟨fun h => h.1, fun h => ⟨h, fun h => hne h.1.symm⟩⟩

theorem learns_add (hV : Vocab V) (hx : EdgeOver V x) {e : Val F} (he : EdgeOver V e) (hA : x = e → A) (ts : Int) (g : Note) :
    Learns V x A C (addP e ts) g fun _ g' => Learnt x g g' ∧ (x = e → g'.Has x) := by
  by_cases hne : x = e
  · subst hne
    refine Proc.Acts.bind ((learns_exists hV he g).mono ?_)
    rintro b g1 ⟨h1, h2, h3⟩
    split
    · rw [iter_edge he]
      refine Proc.Acts.bind ⟨_, rfl, ?_⟩
      refine Proc.Acts.bind ((learns_verts ts _ g1).mono ?_)
      rintro _ _ rfl
      refine Proc.Acts.bind (Proc.Acts.atom fun db hI => ⟨(), _, _, (here_addStr db _ _ _).1, (here_addStr db _ _ _).2,
        note_same hI (upsert_perms _ _ _ _), ?_⟩)
      refine (learns_write hV he (hA rfl) _).mono ?_
      rintro _ g2 ⟨h4, h5⟩
      exact ⟨h1.trans h4, fun _ => has_all hV hx h5⟩
    · exact ⟨(), rfl, h1, fun _ => h2 (by simp_all)⟩
  · refine Proc.Acts.bind ((learns_ask hV he g).mono ?_)
    rintro b _ rfl
    split
    · rw [iter_edge he]
      refine Proc.Acts.bind ⟨_, rfl, ?_⟩
      refine Proc.Acts.bind ((learns_verts ts _ _).mono ?_)
      rintro _ _ rfl
      refine Proc.Acts.bind (Proc.Acts.atom fun db hI => ⟨(), _, _, (here_addStr db _ _ _).1, (here_addStr db _ _ _).2,
        note_same hI (upsert_perms _ _ _ _), ?_⟩)
      refine (learns_write_ne hV hx he (fun h => hne h.symm) _).mono ?_
      rintro _ _ rfl
      exact ⟨Learnt.refl _ _, fun h => absurd h hne⟩
    · exact ⟨(), rfl, Learnt.refl _ _, fun h => absurd h hne⟩

theorem learns_dec (y : Val F) (g : Note) :
    Learns V x A C ((Proc.atom (decDegree (edge2str y))).bind fun _ => .ret (.ok ())) g fun _ g' => g' = g :=
  Proc.Acts.bind (Proc.Acts.atom fun db hI => ⟨_, _, g, (here_dec db _).1, (here_dec db _).2, note_same hI rfl, (), rfl, rfl⟩)

theorem learns_remove (hV : Vocab V) (hx : EdgeOver V x) {e : Val F} (he : EdgeOver V e) (hC : x = e → C) (g : Note) :
    Learns V x A C (removeP e) g fun _ g' => Learnt x g g' ∧ (x = e → g'.Hasnt x) := by
  by_cases hne : x = e
  · subst hne
    refine Proc.Acts.bind ((learns_exists hV he g).mono ?_)
    rintro b g1 ⟨h1, h2, h3⟩
    split
    · rw [iter_edge he]
      refine Proc.Acts.bind ⟨_, rfl, ?_⟩
      refine Proc.Acts.bind ((Proc.Acts.loop (fun g' => g' = g1) rfl fun y _ g' h => by subst h; exact learns_dec y g').mono ?_)
      rintro _ _ rfl
      refine Proc.Acts.bind ((learns_delete hV he (hC rfl) _).mono ?_)
      rintro _ g2 ⟨h4, h5⟩
      exact Proc.Acts.atom fun db hI => ⟨(), _, g2, (here_removeStr db _).1, (here_removeStr db _).2, note_same hI rfl,
        h1.trans h4, fun _ n hn _ => h5 n hn⟩
    · exact ⟨(), rfl, h1, fun _ => h3 (by simp_all)⟩
  · refine Proc.Acts.bind ((learns_ask hV he g).mono ?_)
    rintro b g1 rfl
    split
    · rw [iter_edge he]
      refine Proc.Acts.bind ⟨_, rfl, ?_⟩
      refine Proc.Acts.bind ((Proc.Acts.loop (fun g' => g' = g1) rfl fun y _ g' h => by subst h; exact learns_dec y g').mono ?_)
      rintro _ _ rfl
      refine Proc.Acts.bind ((learns_delete_ne hV hx he (fun h => hne h.symm) _).mono ?_)
      rintro _ g2 rfl
      exact Proc.Acts.atom fun db hI => ⟨(), _, g2, (here_removeStr db _).1, (here_removeStr db _).2, note_same hI rfl,
        Learnt.refl _ _, fun h => absurd h hne⟩
    · exact ⟨(), rfl, Learnt.refl _ _, fun h => absurd h hne⟩

theorem learns_removes (hV : Vocab V) (hx : EdgeOver V x) {es : List (Val F)} (hes : ∀ e ∈ es, EdgeOver V e) (hC : x ∈ es → C)
    (g : Note) : Learns V x A C (Proc.each removeP es) g fun _ g' => Learnt x g g' ∧ (x ∈ es → g'.Hasnt x) := by
  refine (Proc.Acts.sweep (Learnt x) (fun e g => x = e → g.Hasnt x) (Learnt.refl x) (fun _ _ _ h k => h.trans k)
    (fun e a b h k he => (h he).later k) fun e he g => learns_remove hV hx (hes e he) (fun h => hC (by rw [h]; exact he)) g).mono ?_
  rintro _ g' ⟨h1, h2⟩
  exact ⟨h1, fun h => h2 x h rfl⟩

/-- What a bulk addition does to the rows of one edge. -/
theorem chain_rows (hV : Vocab V) (hx : EdgeOver V x) {es : List (Val F)} (hes : ∀ e ∈ es, EdgeOver V e) {a b : DB}
    (h : Chain RawEff es a b) :
    (∀ n, HasRow a.perms x n → HasRow b.perms x n) ∧ (x ∈ es → Visible x b) ∧
      ((∀ n, HasRow b.perms x n → HasRow a.perms x n) ∨ (x ∈ es ∧ ∀ n, n < factorial x.elems.length → HasRow b.perms x n)) := by
  induction es generalizing a with
  | nil =>
    cases h
    exact ⟨fun _ h => h, by simp, .inl fun _ h => h⟩
  | cons e es ih =>
    obtain ⟨c, h1, h2⟩ := h
    have he := hes e (by simp)
    obtain ⟨k1, k2, k3⟩ := ih (fun y hy => hes y (by simp [hy])) h2
    have hvis : Visible x c → Visible x b := fun ⟨n, j1, j2⟩ => ⟨n, k1 n j1, j2⟩
    rcases h1 with ⟨hv, rfl⟩ | ⟨_, heff⟩
    · refine ⟨k1, fun h => ?_, k3.imp id fun h => ⟨by simp [h.1], h.2⟩⟩
      rcases List.mem_cons.1 h with rfl | h
      · exact hvis hv
      · exact k2 h
    · have hr := fun n => heff.hasRow hV he hx n
      by_cases hxe : x = e
      · have hall : ∀ n, n < factorial x.elems.length → HasRow b.perms x n := fun n hn => k1 n ((hr n).2 (.inr ⟨hxe, hxe ▸ hn⟩))
        exact ⟨fun n h => k1 n ((hr n).2 (.inl h)), fun _ => seen_all hV hx hall, .inr ⟨by simp [hxe], hall⟩⟩
      · refine ⟨fun n h => k1 n ((hr n).2 (.inl h)), fun h => k2 ((List.mem_cons.1 h).resolve_left hxe), ?_⟩
        rcases k3 with k3 | k3
        · exact .inl fun n h => ((hr n).1 (k3 n h)).resolve_right fun h => hxe h.1
        · exact .inr ⟨by simp [k3.1], k3.2⟩

theorem learns_addMany (hV : Vocab V) (hx : EdgeOver V x) (ts : Int) {es : List (Val F)} (hes : ∀ e ∈ es, EdgeOver V e)
    (hA : x ∈ es → A) (g : Note) :
    Learns V x A C (addManyP ts es) g fun _ g' => Learnt x g g' ∧ (x ∈ es → g'.Has x) := by
  induction es generalizing g with
  | nil => exact ⟨(), rfl, Learnt.refl _ _, by simp⟩
  | cons e es ih =>
    have he := hes e (by simp)
    have hes' : ∀ x ∈ es, EdgeOver V x := fun x hx => hes x (by simp [hx])
    have hask : Learns V x A C (Proc.atom (existsM e)) g fun b g' => Learnt x g g' ∧ (x = e → b = true → g'.Has x) := by
      by_cases hxe : x = e
      · subst hxe
        exact (learns_exists hV he g).mono fun b g' ⟨h1, h2, _⟩ => ⟨h1, fun _ => h2⟩
      · refine (learns_ask hV he g).mono ?_
        rintro b _ rfl
        exact ⟨Learnt.refl _ _, fun h => absurd h hxe⟩
    refine Proc.Acts.bind (hask.mono ?_)
    rintro b g1 ⟨h1, h2⟩
    split
    · refine Proc.Acts.atom fun db hI => ?_
      obtain ⟨s', db1, db2, e1, d1, _, _, r1, r2, a1, c1⟩ := bulk_run hV he hes' ts db hI
      have hch : Chain RawEff es db1 db2 := c1
      obtain ⟨k1, k2, k3⟩ := chain_rows hV hx hes' hch
      have hr := fun n => a1.hasRow hV he hx n
      have hup : ∀ n, HasRow db.perms x n → HasRow db2.perms x n := fun n h => k1 n ((hr n).2 (.inl h))
      by_cases hall : x ∈ e :: es ∧ ∀ n, n < factorial x.elems.length → HasRow db2.perms x n
      · refine ⟨(), db2, ⟨fun n => g1.seen n ∨ n < factorial x.elems.length, g1.gone, True, g1.cut⟩, by rw [e1], by rw [e1]; exact d1,
          ⟨r2, fun n h => h.imp id (hall.2 n), fun _ h => .inl h, fun _ => trivial, id, fun _ _ => .inr trivial,
            fun n h => .inl (hup n h), fun _ => .inr (hA hall.1), .inl⟩,
          h1.trans ⟨fun _ h => .inl h, fun _ h => h, fun _ => .inr fun _ h => .inr h, .inl⟩,
          fun _ => has_all hV hx fun _ h => .inr h⟩
      · have hxe : x ≠ e := by
          rintro rfl
          exact hall ⟨by simp, fun n hn => k1 n ((hr n).2 (.inr ⟨rfl, hn⟩))⟩
        have hdown : ∀ n, HasRow db2.perms x n → HasRow db.perms x n := fun n h =>
          ((hr n).1 ((k3.resolve_right fun h => hall ⟨by simp [h.1], h.2⟩) n h)).resolve_right fun h => hxe h.1
        by_cases hm : x ∈ es
        · obtain ⟨n, j1, j2⟩ := k2 hm
          refine ⟨(), db2, ⟨fun m => g1.seen m ∨ m = n, g1.gone, g1.own, g1.cut⟩, by rw [e1], by rw [e1]; exact d1,
            ⟨r2, ?_, fun _ h => .inl h, id, id, fun n h => .inl (hdown n h), fun n h => .inl (hup n h), .inl, .inl⟩,
            h1.trans ⟨fun _ h => .inl h, fun _ h => h, .inl, .inl⟩, fun _ => ⟨n, .inr rfl, j2⟩⟩
          rintro m (h | rfl)
          · exact .inl h
          · exact .inr j1
        · exact ⟨(), db2, g1, by rw [e1], by rw [e1]; exact d1, note_idle r2 fun n => ⟨hdown n, hup n⟩, h1,
            fun h => absurd ((List.mem_cons.1 h).resolve_left hxe) hm⟩
    · rename_i hb
      refine (ih hes' (fun h => hA (by simp [h])) g1).mono ?_
      rintro _ g2 ⟨h3, h4⟩
      refine ⟨h1.trans h3, fun h => ?_⟩
      rcases List.mem_cons.1 h with rfl | h
      · exact (h2 rfl (by simpa using hb)).later h3
      · exact h4 h

/-- One call. -/
theorem learns_act (hV : Vocab V) (hx : EdgeOver V x) {a : PAct F} (ho : a.op.Over V) (hA : x ∈ a.adds → A) (hC : a.Removes x → C)
    (g : Note) :
    Learns V x A C a.proc g fun _ g' => Learnt x g g' ∧ (x ∈ a.adds → g'.Has x) ∧ (a.Takes x → g'.Hasnt x) ∧
      (a.Clears x → g'.Lacks x) := by
  cases a with
  | add e ts =>
    show Learns V x A C (addAnyP e ts) g _
    rw [addAny_edge ho]
    refine (learns_add hV hx ho (fun h => hA (by simp [PAct.adds, h])) ts g).mono ?_
    rintro _ g' ⟨h1, h2⟩
    exact ⟨h1, fun h => h2 (by simpa [PAct.adds] using h), False.elim, False.elim⟩
  | addMany es ts =>
    show Learns V x A C (addAnyP (.seq true es) ts) g _
    rw [addAny_many ho.1 ho.2]
    refine (learns_addMany hV hx ts ho.2 hA g).mono ?_
    rintro _ g' ⟨h1, h2⟩
    exact ⟨h1, h2, False.elim, False.elim⟩
  | addBelief src e ts =>
    rw [proc_addBelief ho]
    refine (learns_addMany hV hx ts (by simpa [PAct.adds] using ⟨BeliefOver.edge ho, support_over ho⟩) hA g).mono ?_
    rintro _ g' ⟨h1, h2⟩
    exact ⟨h1, h2, False.elim, False.elim⟩
  | addBeliefs src es ts =>
    rw [proc_addBeliefs ho.1 ho.2]
    refine (learns_addMany hV hx ts (belief_pairs ho.2) hA g).mono ?_
    rintro _ g' ⟨h1, h2⟩
    exact ⟨h1, h2, False.elim, False.elim⟩
  | remove e =>
    show Learns V x A C (removeAnyP e) g _
    rw [removeAny_edge ho]
    refine (learns_remove hV hx ho hC g).mono ?_
    rintro _ g' ⟨h1, h2⟩
    exact ⟨h1, by simp [PAct.adds], h2, fun h => (h2 h).lacks hV hx⟩
  | removeMany es =>
    show Learns V x A C (removeAnyP (.seq true es)) g _
    rw [removeAny_many ho.1 ho.2]
    refine (learns_removes hV hx ho.2 hC g).mono ?_
    rintro _ g' ⟨h1, h2⟩
    exact ⟨h1, by simp [PAct.adds], h2, fun h => (h2 h).lacks hV hx⟩
  | removeByPattern ps =>
    have ho : PatternOver V ps := ho
    show Learns V x A C ((Proc.atom (hgPattern2edges (.tup ps))).bind fun edges => Proc.each removeAnyP edges) g _
    refine Proc.Acts.bind (Proc.Acts.atom fun db hI => ?_)
    obtain ⟨res, r1, r2, r3, r4⟩ := here_pattern hV ho hI
    have hres : ∀ x ∈ res, EdgeOver V x := fun x hx => ((r4 x).1 hx).1
    by_cases hm : x ∈ res
    · refine ⟨res, db, g, r1, r2, note_same hI rfl, ?_⟩
      rw [each_removeAny hres]
      refine (learns_removes hV hx hres (fun _ => hC ((r4 x).1 hm).2.1) g).mono ?_
      rintro _ g' ⟨h1, h2⟩
      exact ⟨h1, by simp [PAct.adds], False.elim, fun _ => (h2 hm).lacks hV hx⟩
    · refine ⟨res, db, ⟨g.seen, fun n => g.gone n ∨ ¬ HasRow db.perms x n, g.own, g.cut⟩, r1, r2,
        note_look hI (fun _ h => .inl h) (fun _ h => h) rfl rfl, ?_⟩
      rw [each_removeAny hres]
      refine (learns_removes hV hx hres (fun h => absurd h hm) _).mono ?_
      rintro _ g' ⟨h1, h2⟩
      have h0 : Learnt x g ⟨g.seen, fun n => g.gone n ∨ ¬ HasRow db.perms x n, g.own, g.cut⟩ :=
        ⟨fun _ h => h, fun _ h => .inl h, .inl, .inl⟩
      refine ⟨h0.trans h1, by simp [PAct.adds], False.elim, fun h => ?_⟩
      have h : Matches ps x.elems := h
      obtain ⟨n, hn, hn2⟩ := pattern_has_row hV ho hx h
      exact ⟨n, hn, h1.gone n (.inr fun hr => hm ((r4 x).2 ⟨hx, h, n, hr, hn2⟩))⟩
  | removeBelief src e =>
    have ho : BeliefOver V src e := ho
    rw [proc_removeBelief ho]
    refine Proc.Acts.bind ((learns_remove hV hx (support_over ho) (fun h => hC (.inr h)) g).mono ?_)
    rintro _ g1 ⟨h1, h2⟩
    refine Proc.Acts.bind (Proc.Acts.atom fun db hI => ?_)
    obtain ⟨res, r1, r2, _⟩ := here_sources hV ho.srcConst ho.fact hI
    refine ⟨res, db, g1, r1, r2, note_same hI rfl, ?_⟩
    split
    · refine (learns_remove hV hx ho.edge (fun h => hC (.inl h)) g1).mono ?_
      rintro _ g2 ⟨h3, h4⟩
      exact ⟨h1.trans h3, by simp [PAct.adds], fun h => (h2 h).later h3, fun h => ((h2 h).later h3).lacks hV hx⟩
    · exact ⟨(), rfl, h1, by simp [PAct.adds], h2, fun h => (h2 h).lacks hV hx⟩

/-- A whole program. -/
theorem learns_program (hV : Vocab V) (hx : EdgeOver V x) {prog : Program F} (ho : ∀ a ∈ prog, a.op.Over V)
    (hA : ∀ a ∈ prog, x ∈ a.adds → A) (hC : ∀ a ∈ prog, a.Removes x → C) (g : Note) :
    Learns V x A C (programP prog) g fun _ g' => Learnt x g g' ∧ ∀ a ∈ prog, (x ∈ a.adds → g'.Has x) ∧ (a.Takes x → g'.Hasnt x) ∧
      (a.Clears x → g'.Lacks x) :=
  Proc.Acts.sweep (Learnt x) (fun (a : PAct F) g => (x ∈ a.adds → g.Has x) ∧ (a.Takes x → g.Hasnt x) ∧ (a.Clears x → g.Lacks x))
    (Learnt.refl x) (fun _ _ _ h k => h.trans k)
    (fun a b c h k => ⟨fun j => (h.1 j).later k, fun j => (h.2.1 j).later k, fun j => (h.2.2 j).later k⟩)
    fun a ha g => learns_act hV hx (ho a ha) (hA a ha) (hC a ha) g

/-! ### all processes together -/

/-- What holds of the edge at every moment. -/
structure Traced (V : Val F → Prop) (x : Val F) (progs : List (Program F)) (db0 : DB) (τ : Sys) : Prop where
  rows : RowsOk V τ.db.perms
  asked : ∀ n, HasRow τ.db.perms x n → HasRow db0.perms x n ∨ ∃ p ∈ progs, x ∈ p.flatMap PAct.adds
  kept : ∀ n, HasRow db0.perms x n → HasRow τ.db.perms x n ∨ ∃ p ∈ progs, p.Removes x
  added : ∀ (i : Nat) (p : Program F), progs[i]? = some p → τ.procs[i]? = some (.ret (.ok ())) → x ∈ p.flatMap PAct.adds →
    (∃ p ∈ progs, p.Removes x) ∨ Visible x τ.db
  full : (∀ (i : Nat) (p : Program F), progs[i]? = some p → x ∈ p.flatMap PAct.adds → τ.procs[i]? = some (.ret (.ok ()))) →
    ∀ n, HasRow τ.db.perms x n → HasRow db0.perms x n ∨ (∃ p ∈ progs, p.Removes x) ∨
      ∀ m, m < factorial x.elems.length → HasRow τ.db.perms x m
  removed : ∀ (i : Nat) (p : Program F), progs[i]? = some p → τ.procs[i]? = some (.ret (.ok ())) → ∀ a ∈ p, a.Takes x →
    (∃ p ∈ progs, x ∈ p.flatMap PAct.adds) ∨ ¬ Visible x τ.db
  lacks : ∀ (i : Nat) (p : Program F), progs[i]? = some p → τ.procs[i]? = some (.ret (.ok ())) → ∀ a ∈ p, a.Clears x →
    (∃ p ∈ progs, x ∈ p.flatMap PAct.adds) ∨ ∃ n, n < factorial x.elems.length ∧ ¬ HasRow τ.db.perms x n
  empty : (∀ (i : Nat) (p : Program F), progs[i]? = some p → p.Removes x → τ.procs[i]? = some (.ret (.ok ()))) →
    ∀ n, HasRow db0.perms x n → HasRow τ.db.perms x n ∨ (∃ p ∈ progs, x ∈ p.flatMap PAct.adds) ∨
      ∀ m, ¬ HasRow τ.db.perms x m

/-- What the notes of all processes say about the rows. -/
def NoteInv (V : Val F → Prop) (x : Val F) (progs : List (Program F)) (db d : DB) (gs : List Note) : Prop :=
  RowsOk V d.perms ∧
    (∀ (i : Nat) (g : Note), gs[i]? = some g → (g.own → ∃ p, progs[i]? = some p ∧ x ∈ p.flatMap PAct.adds) ∧
      (g.cut → ∃ p, progs[i]? = some p ∧ p.Removes x)) ∧
    (∀ g ∈ gs, ∀ n, (g.seen n → HasRow d.perms x n ∨ ∃ p ∈ progs, p.Removes x) ∧
      (g.gone n → ¬ HasRow d.perms x n ∨ ∃ p ∈ progs, x ∈ p.flatMap PAct.adds)) ∧
    (∀ n, HasRow d.perms x n → HasRow db.perms x n ∨ ∃ g ∈ gs, g.own) ∧
    (∀ n, HasRow db.perms x n → HasRow d.perms x n ∨ ∃ g ∈ gs, g.cut)

/-- What the note of a process says that did all its calls. -/
def NoteQ (x : Val F) (progs : List (Program F)) (i : Nat) (g : Note) : Prop :=
  (g.own → ∀ n, n < factorial x.elems.length → g.seen n) ∧ (g.cut → ∀ n, n < factorial x.elems.length → g.gone n) ∧
    ∀ p, progs[i]? = some p → ∀ a ∈ p, (x ∈ a.adds → g.Has x) ∧ (a.Takes x → g.Hasnt x) ∧ (a.Clears x → g.Lacks x)

/-- The first note. -/
def Note.blank : Note := ⟨fun _ => False, fun _ => False, False, False⟩

theorem noteInv_start {db : DB} (hR : RowsOk V db.perms) (progs : List (Program F)) :
    NoteInv V x progs db db (progs.map fun _ => Note.blank) := by
  refine ⟨hR, ?_, ?_, fun _ h => .inl h, fun _ h => .inl h⟩
  · intro i g hg
    obtain ⟨_, _, rfl⟩ := List.mem_map.1 (List.mem_of_getElem? hg)
    exact ⟨False.elim, False.elim⟩
  · intro g hg n
    obtain ⟨_, _, rfl⟩ := List.mem_map.1 hg
    exact ⟨False.elim, False.elim⟩

theorem noteQ_of {progs : List (Program F)} {i : Nat} {prog : Program F} (h1 : progs[i]? = some prog) {g' : Note}
    (h2 : Learnt x Note.blank g') (h3 : ∀ a ∈ prog, (x ∈ a.adds → g'.Has x) ∧ (a.Takes x → g'.Hasnt x) ∧ (a.Clears x → g'.Lacks x)) :
    NoteQ x progs i g' := by
  refine ⟨fun h => (h2.own h).resolve_left id, fun h => (h2.cut h).resolve_left id, fun p hp => ?_⟩
  rw [h1] at hp
  cases hp
  exact h3

theorem noteInv_step {progs : List (Program F)} {db : DB} (d d' : DB) (gs : List Note) (i : Nat) (g g' : Note)
    (hi : NoteInv V x progs db d gs) (hg : gs[i]? = some g)
    (hr : NoteR V x (∃ p, progs[i]? = some p ∧ x ∈ p.flatMap PAct.adds) (∃ p, progs[i]? = some p ∧ p.Removes x) g d d' g') :
    NoteInv V x progs db d' (gs.set i g') := by
  obtain ⟨j1, j2, j3, j4, j5⟩ := hi
  have hil : i < gs.length := (List.getElem?_eq_some_iff.1 hg).1
  have hgm := List.mem_of_getElem? hg
  have hg' : g' ∈ gs.set i g' := List.mem_set hil _
  have hmem : ∀ x ∈ gs, x = g ∨ x ∈ gs.set i g' := by
    intro x hx
    obtain ⟨j, hj, rfl⟩ := List.getElem_of_mem hx
    by_cases hji : i = j
    · subst hji
      left
      rw [List.getElem?_eq_getElem hj] at hg
      exact Option.some.inj hg
    · right
      rw [List.mem_iff_getElem]
      exact ⟨j, by simpa using hj, by rw [List.getElem_set_ne hji]⟩
  have hA : g'.own → ∃ p, progs[i]? = some p ∧ x ∈ p.flatMap PAct.adds := fun h => (hr.may h).elim (j2 i g hg).1 id
  have hC : g'.cut → ∃ p, progs[i]? = some p ∧ p.Removes x := fun h => (hr.mayCut h).elim (j2 i g hg).2 id
  have hA' : g'.own → ∃ p ∈ progs, x ∈ p.flatMap PAct.adds := fun h =>
    let ⟨p, h1, h2⟩ := hA h; ⟨p, List.mem_of_getElem? h1, h2⟩
  have hC' : g'.cut → ∃ p ∈ progs, p.Removes x := fun h => let ⟨p, h1, h2⟩ := hC h; ⟨p, List.mem_of_getElem? h1, h2⟩
  have hup : ∀ n, HasRow d.perms x n → HasRow d'.perms x n ∨ ∃ p ∈ progs, p.Removes x := fun n h => (hr.erased n h).imp id hC'
  have hdown : ∀ n, ¬ HasRow d.perms x n → ¬ HasRow d'.perms x n ∨ ∃ p ∈ progs, x ∈ p.flatMap PAct.adds := by
    intro n h
    by_cases h' : HasRow d'.perms x n
    · exact .inr (hA' ((hr.wrote n h').resolve_left h))
    · exact .inl h'
  refine ⟨hr.rows, ?_, ?_, ?_, ?_⟩
  · intro j k hk
    rcases getElem?_set_cases hk with ⟨rfl, rfl, _⟩ | ⟨_, hk⟩
    · exact ⟨hA, hC⟩
    · exact j2 j k hk
  · have hold : ∀ k ∈ gs, ∀ n, (k.seen n → HasRow d'.perms x n ∨ ∃ p ∈ progs, p.Removes x) ∧
        (k.gone n → ¬ HasRow d'.perms x n ∨ ∃ p ∈ progs, x ∈ p.flatMap PAct.adds) := fun k hk n =>
      ⟨fun h => ((j3 k hk n).1 h).elim (hup n) .inr, fun h => ((j3 k hk n).2 h).elim (hdown n) .inr⟩
    intro k hk n
    rcases List.mem_or_eq_of_mem_set hk with hk | rfl
    · exact hold k hk n
    · exact ⟨fun h => (hr.seen n h).elim (hold g hgm n).1 .inl, fun h => (hr.gone n h).elim (hold g hgm n).2 .inl⟩
  · intro n h
    rcases hr.wrote n h with h | h
    · rcases j4 n h with h | ⟨k, hk, ho⟩
      · exact .inl h
      · rcases hmem k hk with rfl | hk
        · exact .inr ⟨g', hg', hr.own ho⟩
        · exact .inr ⟨k, hk, ho⟩
    · exact .inr ⟨g', hg', h⟩
  · intro n h
    rcases j5 n h with h | ⟨k, hk, ho⟩
    · exact (hr.erased n h).imp id fun h => ⟨g', hg', h⟩
    · rcases hmem k hk with rfl | hk
      · exact .inr ⟨g', hg', hr.cut ho⟩
      · exact .inr ⟨k, hk, ho⟩

theorem traced_of {progs : List (Program F)} {db : DB} {τ : Sys} {gs : List Note} (hlen : gs.length = τ.procs.length)
    (hinv : NoteInv V x progs db τ.db gs)
    (hk : ∀ (i : Nat) (g : Note), τ.procs[i]? = some (.ret (.ok ())) → gs[i]? = some g → NoteQ x progs i g) :
    Traced V x progs db τ := by
  obtain ⟨j1, j2, j3, j4, j5⟩ := hinv
  have hback : ∀ (i : Nat), τ.procs[i]? = some (.ret (.ok ())) → ∃ g ∈ gs,
      (g.own → ∀ n, n < factorial x.elems.length → g.seen n) ∧ (g.cut → ∀ n, n < factorial x.elems.length → g.gone n) ∧
      ∀ p, progs[i]? = some p → ∀ a ∈ p, (x ∈ a.adds → g.Has x) ∧ (a.Takes x → g.Hasnt x) ∧ (a.Clears x → g.Lacks x) := by
    intro i hr
    have hlt : i < gs.length := by rw [hlen]; exact (List.getElem?_eq_some_iff.1 hr).1
    have hQ := hk i gs[i] hr (List.getElem?_eq_getElem hlt)
    exact ⟨gs[i], List.getElem_mem hlt, hQ⟩
  refine ⟨j1, fun n h => ?_, fun n h => ?_, ?_, ?_, ?_, ?_, ?_⟩
  · refine (j4 n h).imp id ?_
    rintro ⟨g, hg, ho⟩
    obtain ⟨i, hi⟩ := List.getElem?_of_mem hg
    obtain ⟨p, h1, h2⟩ := (j2 i g hi).1 ho
    exact ⟨p, List.mem_of_getElem? h1, h2⟩
  · refine (j5 n h).imp id ?_
    rintro ⟨g, hg, ho⟩
    obtain ⟨i, hi⟩ := List.getElem?_of_mem hg
    obtain ⟨p, h1, h2⟩ := (j2 i g hi).2 ho
    exact ⟨p, List.mem_of_getElem? h1, h2⟩
  · intro i p hi hr hm
    obtain ⟨g, hg, _, _, hQ⟩ := hback i hr
    obtain ⟨a, ha, hm⟩ := List.mem_flatMap.1 hm
    obtain ⟨n, q1, q2⟩ := (hQ p hi a ha).1 hm
    exact ((j3 g hg n).1 q1).elim (fun h => .inr ⟨n, h, q2⟩) .inl
  · intro hall n h
    rcases j4 n h with h | ⟨g, hg, ho⟩
    · exact .inl h
    · right
      obtain ⟨i, hi⟩ := List.getElem?_of_mem hg
      obtain ⟨p, h1, h2⟩ := (j2 i g hi).1 ho
      have hr := hall i p h1 h2
      obtain ⟨hQ, _⟩ := hk i g hr hi
      by_cases hD : ∃ p ∈ progs, p.Removes x
      · exact .inl hD
      · exact .inr fun m hm => ((j3 g hg m).1 (hQ ho m hm)).resolve_right hD
  · intro i p hi hr a ha hT
    obtain ⟨g, hg, _, _, hQ⟩ := hback i hr
    by_cases hN : ∃ p ∈ progs, x ∈ p.flatMap PAct.adds
    · exact .inl hN
    · right
      rintro ⟨n, q1, q2⟩
      exact ((j3 g hg n).2 ((hQ p hi a ha).2.1 hT n q1.1 q2)).resolve_right hN q1
  · intro i p hi hr a ha hT
    obtain ⟨g, hg, _, _, hQ⟩ := hback i hr
    obtain ⟨n, q1, q2⟩ := (hQ p hi a ha).2.2 hT
    exact ((j3 g hg n).2 q2).elim (fun h => .inr ⟨n, q1, h⟩) .inl
  · intro hall n h
    rcases j5 n h with h | ⟨g, hg, ho⟩
    · exact .inl h
    · right
      obtain ⟨i, hi⟩ := List.getElem?_of_mem hg
      obtain ⟨p, h1, h2⟩ := (j2 i g hi).2 ho
      have hr := hall i p h1 h2
      obtain ⟨_, hQ, _⟩ := hk i g hr hi
      by_cases hN : ∃ p ∈ progs, x ∈ p.flatMap PAct.adds
      · exact .inl hN
      · exact .inr fun m hm => ((j3 g hg m).2 (hQ ho m hm.1)).resolve_right hN hm

theorem traced (hV : Vocab V) (hx : EdgeOver V x) {db : DB} (hR : RowsOk V db.perms) {progs : List (Program F)}
    (ho : ∀ p ∈ progs, ∀ a ∈ p, a.op.Over V) {τ : Sys} (h : (Sys.start db progs).Reach τ) : Traced V x progs db τ := by
  obtain ⟨gs, hlen, hinv, hk⟩ := h.notes (I := fun (_ : Note) db => RowsOk V db.perms)
    (R := fun i => NoteR V x (∃ p, progs[i]? = some p ∧ x ∈ p.flatMap PAct.adds) (∃ p, progs[i]? = some p ∧ p.Removes x))
    (Q := NoteQ x progs) (Inv := NoteInv V x progs db) (gs := progs.map fun _ => Note.blank) (by simp [Sys.start])
    (noteInv_start hR progs)
    (by
      intro i p g hi hg
      obtain ⟨prog, h1, rfl⟩ := start_proc hi
      rw [List.getElem?_map, h1] at hg
      cases hg
      refine (learns_program hV hx (ho prog (List.mem_of_getElem? h1)) (fun a ha h => ⟨prog, h1, List.mem_flatMap.2 ⟨a, ha, h⟩⟩)
        (fun a ha h => ⟨prog, h1, a, ha, h⟩) _).mono ?_
      rintro _ g' ⟨h2, h3⟩
      exact noteQ_of h1 h2 h3)
    (fun d gs i g hi _ => hi.1) noteInv_step
  refine traced_of hlen hinv fun i g hi hg => ?_
  obtain ⟨_, _, hQ⟩ := hk i _ g hi hg
  exact hQ

end GB
