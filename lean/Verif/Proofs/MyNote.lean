import Verif.Proofs.MyLedger
import Verif.Proofs.ConcNote

/-! What a client of a MySQL database knows about the rows of one edge, while others add and remove edges. -/

set_option linter.unusedSectionVars false
set_option linter.unusedVariables false

namespace GB

/-- As `Sys.Reach.kept`, with what each client does depending on which client it is. -/
theorem Sys.Reach.keptBy {γ : Type} {I : DB → Prop} {R : Nat → γ → DB → DB → γ → Prop} {Inv : DB → List γ → Prop}
    {E : Nat → PyErr → Prop} {Q : Nat → γ → Prop} {σ τ : Sys}
    (h : σ.Reach τ) {gs : List γ} (hl : gs.length = σ.procs.length) (h0 : Inv σ.db gs)
    (hp : ∀ (i : Nat) (p : Proc Unit) (g : γ), σ.procs[i]? = some p → gs[i]? = some g → p.Keeps I (R i) (E i) g fun _ => Q i)
    (hI : ∀ db (gs : List γ), Inv db gs → I db)
    (hR : ∀ db db' (gs : List γ) (i : Nat) (g g' : γ), Inv db gs → gs[i]? = some g → R i g db db' g' → Inv db' (gs.set i g')) :
    ∃ gs' : List γ, gs'.length = τ.procs.length ∧ Inv τ.db gs' ∧
      ∀ (i : Nat) (p : Proc Unit) (g : γ), τ.procs[i]? = some p → gs'[i]? = some g → p.Keeps I (R i) (E i) g fun _ => Q i := by
  induction h with
  | refl => exact ⟨gs, hl, h0, hp⟩
  | step _ hst ih =>
    obtain ⟨gs', hl', h1, h2⟩ := ih
    cases hst with
    | @tx db procs i u n hi =>
      have hil : i < procs.length := (List.getElem?_eq_some_iff.1 hi).1
      have hgi := List.getElem?_eq_getElem (show i < gs'.length by rw [hl']; exact hil)
      obtain ⟨g', h3, h4⟩ := h2 i _ _ hi hgi db (hI db gs' h1)
      refine ⟨gs'.set i g', by simpa using hl', hR _ _ _ _ _ _ h1 hgi h3, ?_⟩
      intro j p g hj hg
      rcases getElem?_set_cases hj with ⟨rfl, rfl, _⟩ | ⟨hne, hj⟩
      · rcases getElem?_set_cases hg with ⟨_, rfl, _⟩ | ⟨hne, _⟩
        · exact h4
        · exact absurd rfl hne
      · rcases getElem?_set_cases hg with ⟨h, _, _⟩ | ⟨_, hg⟩
        · exact absurd h hne
        · exact h2 j p g hj hg

/-- A method that asks once, and returns with what it found, which is not the same for all contents. -/
theorem Asks.keeps_read {α γ : Type} {I : DB → Prop} {R : γ → DB → DB → γ → Prop} {E : PyErr → Prop} {x : Conn α} (h : Asks x)
    {c : Option Bool} (hc : CurOk c) {g : γ} {Q : α → γ → Prop} {d d' : DB}
    (hd : (x.run (reopen d false)).1 ≠ (x.run (reopen d' false)).1)
    (he : ∀ db, I db → ∃ a g', (x.run (reopen db false)).1 = .ok a ∧ R g db db g' ∧ Q a g') :
    x.Keeps I R E c c g Q := by
  have hrun : ∀ db, x.run (reopen db false) = (x none).exec (reopen db false) := fun _ => rfl
  rcases h with ⟨r, h⟩ | ⟨f, h⟩
  · refine absurd ?_ hd
    rw [hrun, hrun, h none (by simp)]
    rfl
  · unfold Conn.Keeps
    rw [h c hc]
    intro db hI
    obtain ⟨a, g', h1, h2, h3⟩ := he db hI
    rw [hrun, h none (by simp)] at h1
    have h1 : f db = .ok a := h1
    refine ⟨g', h2, ?_⟩
    simp only [h1]
    exact ⟨rfl, h3⟩

variable {F : Type} [PyFloat F] [DecidableEq F] {V : Val F → Prop} {x : Val F} {A C : Prop} {k : Nat} {c : Option Bool}

/-- The method, whatever it raises, makes such steps. -/
abbrev Conn.Notes {α : Type} (V : Val F → Prop) (x : Val F) (A C : Prop) (p : Conn α) (c c' : Option Bool) (g : Note)
    (Q : α → Note → Prop) : Prop :=
  p.Keeps (fun db => RowsOk V db.perms) (NoteR V x A C) (fun _ => True) c c' g Q

theorem note_refl (g : Note) (db : DB) (hI : RowsOk V db.perms) : NoteR V x A C g db db g := note_same hI rfl

/-- A loop, after which each turn has done its part. -/
theorem Conn.Keeps.sweep {α γ : Type} {I : DB → Prop} {R : γ → DB → DB → γ → Prop} {E : PyErr → Prop} {f : α → Conn Unit} {xs : List α}
    {c : Option Bool} {g : γ} (P : γ → γ → Prop) (Did : α → γ → Prop) (hr : ∀ g, P g g) (ht : ∀ a b c, P a b → P b c → P a c)
    (hm : ∀ x a b, Did x a → P a b → Did x b)
    (h : ∀ x ∈ xs, ∀ g, (f x).Keeps I R E c c g fun _ g' => P g g' ∧ Did x g') :
    (cEach f xs).Keeps I R E c c g fun _ g' => P g g' ∧ ∀ x ∈ xs, Did x g' := by
  induction xs generalizing g with
  | nil => exact Conn.Keeps.pure ⟨hr g, by simp⟩
  | cons x xs ih =>
    refine Conn.Keeps.bind (c1 := c) ((h x (by simp) g).mono ?_)
    rintro _ g1 ⟨h1, h2⟩
    refine (ih fun y hy => h y (by simp [hy])).mono ?_
    rintro _ g2 ⟨h3, h4⟩
    refine ⟨ht _ _ _ h1 h3, fun y hy => ?_⟩
    rcases List.mem_cons.1 hy with rfl | hy
    · exact hm _ _ _ h2 h3
    · exact h4 y hy

/-- A loop that leaves the note alone. -/
theorem Conn.Keeps.idle {α γ : Type} {I : DB → Prop} {R : γ → DB → DB → γ → Prop} {E : PyErr → Prop} {f : α → Conn Unit} {xs : List α}
    {c : Option Bool} {g : γ} (h : ∀ x ∈ xs, (f x).Keeps I R E c c g fun _ g' => g' = g) :
    (cEach f xs).Keeps I R E c c g fun _ g' => g' = g := by
  induction xs with
  | nil => exact Conn.Keeps.pure rfl
  | cons x xs ih =>
    refine Conn.Keeps.bind (c1 := c) ((h x (by simp)).mono ?_)
    rintro _ _ rfl
    exact ih fun y hy => h y (by simp [hy])

/-! ### queries -/

/-- Contents with the rows of one edge. -/
def rowsFor (x : Val F) : DB := ⟨[], (List.range (factorial x.elems.length)).map (rowOf x.elems)⟩

theorem rowsFor_ok (hx : EdgeOver V x) : RowsOk V (rowsFor x).perms := by
  intro r hr
  obtain ⟨n, hn, rfl⟩ := List.mem_map.1 hr
  exact ⟨x, n, hx, List.mem_range.1 hn, rfl⟩

theorem rowsFor_has {n : Nat} (hn : n < factorial x.elems.length) : HasRow (rowsFor x).perms x n :=
  ⟨hn, List.mem_map.2 ⟨n, List.mem_range.2 hn, rfl⟩⟩

theorem exists_differs (hV : Vocab V) (hx : EdgeOver V x) :
    ((cExists x).run (reopen (rowsFor x) false)).1 ≠ ((cExists x).run (reopen ⟨[], []⟩ false)).1 := by
  obtain ⟨b, h1, _, h2⟩ := here_exists hV (rowsFor_ok hx) hx
  obtain ⟨b', h1', _, h2'⟩ := here_exists hV (db := ⟨[], []⟩) (fun r hr => by simp at hr) hx
  rw [run_exists, h1, h1', h2.2 (seen_all hV hx fun n hn => rowsFor_has hn)]
  cases b' with
  | true => exact absurd (h2'.1 rfl) not_visible
  | false => simp

/-- Asking whether the edge exists, the client learns that it does or that it does not. -/
theorem notes_exists (hV : Vocab V) (hx : EdgeOver V x) (hc : CurOk c) (g : Note) :
    (cExists x).Notes V x A C c c g fun b g' => Learnt x g g' ∧ (b = true → g'.Has x) ∧ (b = false → g'.Hasnt x) := by
  refine (asks_exists x).keeps_read hc (exists_differs hV hx) fun db hI => ?_
  obtain ⟨b, h1, h2, h3⟩ := here_exists hV hI hx
  rw [run_exists]
  cases b with
  | true =>
    obtain ⟨n, h4, h5⟩ := h3.1 rfl
    refine ⟨true, ⟨fun m => g.seen m ∨ m = n, g.gone, g.own, g.cut⟩, h1,
      note_look hI ?_ (fun _ h => .inl h) rfl rfl, ⟨fun _ h => .inl h, fun _ h => h, .inl, .inl⟩, fun _ => ⟨n, .inr rfl, h5⟩,
      fun h => by cases h⟩
    rintro m (h | rfl)
    · exact .inl h
    · exact .inr h4
  | false =>
    have h3 : ¬ Visible x db := fun h => by cases h3.2 h
    refine ⟨false, ⟨g.seen, fun m => g.gone m ∨ (patStart x.elems <+: rowOf x.elems m), g.own, g.cut⟩, h1,
      note_look hI (fun _ h => .inl h) ?_ rfl rfl, ⟨fun _ h => h, fun _ h => .inl h, .inl, .inl⟩, (fun h => by cases h),
      fun _ n _ h => .inr h⟩
    rintro m (h | h)
    · exact .inl h
    · exact .inr fun h' => h3 ⟨m, h', h⟩

theorem notes_ask (hV : Vocab V) {e : Val F} (he : EdgeOver V e) (hc : CurOk c) (g : Note) :
    (cExists e).Notes V x A C c c g fun _ g' => g' = g := by
  refine (asks_exists e).keeps_read hc (exists_differs hV he) fun db hI => ?_
  obtain ⟨b, h1, h2, h3⟩ := here_exists hV hI he
  exact ⟨b, g, by rw [run_exists]; exact h1, note_refl g db hI, rfl⟩

theorem notes_sources (hV : Vocab V) {e : Val F} (hs : V (.str (lit "src/1"))) (he : V e) (hc : CurOk c) (g : Note) :
    (cSources e).Notes V x A C c c g fun _ g' => g' = g := by
  refine (asks_sources _).keeps hc ?_ ?_
  · obtain ⟨res, h1, _⟩ := here_sources hV hs he (db := ⟨[], []⟩) (fun r hr => by simp at hr)
    exact ⟨⟨[], []⟩, res, (fun r hr => by simp at hr), by rw [run_sources]; exact h1, rfl⟩
  · intro db hI
    obtain ⟨res, h1, _⟩ := here_sources hV hs he hI
    exact ⟨res, g, by rw [run_sources]; exact h1, note_refl g db hI, rfl⟩

/-- Asking for the edges of a pattern, the client learns, if the edge matches and is not among them, that a row is missing. -/
theorem notes_pattern (hV : Vocab V) (hx : EdgeOver V x) {ps : List (Val F)} (hp : PatternOver V ps) (hc : CurOk c) (g : Note) :
    (cPattern2edges (.tup ps)).Notes V x A C c c g fun res g' => (∀ y ∈ res, EdgeOver V y ∧ Matches ps y.elems) ∧ Learnt x g g' ∧
      (Matches ps x.elems → x ∉ res → g'.Lacks x) := by
  refine (asks_pattern _).keeps hc ?_ ?_
  · obtain ⟨res, h1, _, _, h4⟩ := here_pattern hV hp (rowsFor_ok hx)
    refine ⟨rowsFor x, res, rowsFor_ok hx, by rw [run_pattern]; exact h1, fun y hy => ⟨((h4 y).1 hy).1, ((h4 y).1 hy).2.1⟩,
      Learnt.refl _ _, fun hm hn => absurd ?_ hn⟩
    obtain ⟨n, hn, hn2⟩ := pattern_has_row hV hp hx hm
    exact (h4 x).2 ⟨hx, hm, n, rowsFor_has hn, hn2⟩
  · intro db hI
    obtain ⟨res, h1, _, _, h4⟩ := here_pattern hV hp hI
    refine ⟨res, ⟨g.seen, fun n => g.gone n ∨ ¬ HasRow db.perms x n, g.own, g.cut⟩, by rw [run_pattern]; exact h1,
      note_look hI (fun _ h => .inl h) (fun _ h => h) rfl rfl, fun y hy => ⟨((h4 y).1 hy).1, ((h4 y).1 hy).2.1⟩,
      ⟨fun _ h => h, fun _ h => .inl h, .inl, .inl⟩, fun hm hn => ?_⟩
    obtain ⟨n, hn1, hn2⟩ := pattern_has_row hV hp hx hm
    exact ⟨n, hn1, .inr fun hr => hn ((h4 x).2 ⟨hx, hm, n, hr, hn2⟩)⟩

/-! ### single statements -/

theorem notes_addStr (t : Str) (deg ts : Int) (hc : CurOk c) (g : Note) :
    (cMyAddStr k t deg ts).Notes V x A C c c g fun _ g' => g' = g := by
  unfold cMyAddStr cMyUpdateOrInsertVertex
  refine Conn.Keeps.bind (keeps_open.mono ?_)
  rintro cu _ rfl
  refine Conn.Keeps.bind (Q := fun _ g' => g' = g) (c1 := c) ?_
  refine (keepsWrite (Q := fun _ g' => g = g') hc fun db hI => .inl ⟨(db.myUpdateVertex t deg ts).1, (db.myUpdateVertex t deg ts).2, g, rfl,
    note_same hI rfl, rfl⟩).mono ?_
  rintro rc _ rfl
  refine Conn.Keeps.ite (fun _ => Conn.Keeps.bind ((keepsWrite (Q := fun _ g' => g = g') hc fun db hI => ?_).mono ?_))
    fun _ => keeps_close.mono fun _ _ h => h.symm
  · cases hq : db.myInsertVertex k t deg ts with
    | none => exact .inr ⟨rfl, trivial⟩
    | some p =>
      obtain ⟨a, db'⟩ := p
      obtain ⟨rfl, _⟩ := myInsert_some hq
      exact .inl ⟨(), _, g, rfl, note_same hI rfl, rfl⟩
  · rintro _ _ rfl
    exact keeps_close.mono fun _ _ h => h.symm

theorem notes_addVert (ts : Int) (y : Val F) (hc : CurOk c) (g : Note) :
    (cMyAddVert k ts y).Notes V x A C c c g fun _ g' => g' = g := by
  unfold cMyAddVert
  refine Conn.Keeps.bind (c1 := c) (Conn.Keeps.mono (Q := fun _ g' => g = g') ?_ ?_)
  · unfold cIncDegree
    refine Conn.Keeps.bind (keeps_open.mono ?_)
    rintro cu _ rfl
    refine Conn.Keeps.bind (c1 := c) ((keepsWrite (Q := fun _ g' => g = g') hc fun db hI => .inl
      ⟨(db.bumpDegree 1 (edge2str y)).1, (db.bumpDegree 1 (edge2str y)).2, g, rfl, note_same hI rfl, rfl⟩).mono ?_)
    rintro _ _ rfl
    refine Conn.Keeps.bind (c1 := c) (keeps_close.mono ?_)
    rintro _ _ rfl
    exact Conn.Keeps.pure rfl
  · rintro b _ rfl
    exact Conn.Keeps.ite (fun _ => notes_addStr _ 1 ts hc g) fun _ => Conn.Keeps.pure rfl

theorem notes_dec (y : Val F) (hc : CurOk c) (g : Note) :
    (do let _ ← cDecDegree (edge2str y) : Conn Unit).Notes V x A C c c g fun _ g' => g' = g := by
  refine Conn.Keeps.bind (Q := fun _ g' => g' = g) (c1 := c) ?_
  unfold cDecDegree
  refine Conn.Keeps.bind (keeps_open.mono ?_)
  rintro cu _ rfl
  refine Conn.Keeps.bind (c1 := c) ((keepsWrite (Q := fun _ g' => g = g') hc fun db hI => .inl
    ⟨(db.bumpDegree (-1) (edge2str y)).1, (db.bumpDegree (-1) (edge2str y)).2, g, rfl, note_same hI rfl, rfl⟩).mono ?_)
  rintro _ _ rfl
  refine Conn.Keeps.bind (c1 := c) (keeps_close.mono ?_)
  rintro _ _ rfl
  exact Conn.Keeps.pure (Conn.Keeps.pure rfl)

theorem notes_removeStr (t : Str) (hc : CurOk c) (g : Note) : (cRemoveStr t).Notes V x A C c c g fun _ g' => g' = g := by
  unfold cRemoveStr
  refine Conn.Keeps.bind (c1 := c) (keeps_open.mono ?_)
  rintro cu _ rfl
  refine Conn.Keeps.bind (c1 := c) ((keepsWrite (Q := fun _ g' => g = g') hc fun db hI => .inl
    ⟨(), db.deleteVertex t, g, rfl, note_same hI rfl, rfl⟩).mono ?_)
  rintro _ _ rfl
  exact keeps_close.mono fun _ _ h => h.symm

/-- One row: what the insertion does, if it is possible. -/
theorem notes_writePerm {e : Val F} {n : Nat} (hc : CurOk c) {g g1 : Note}
    (h : ∀ db, RowsOk V db.perms → NoteR V x A C g db ⟨db.vertices, db.perms ++ [rowOf e.elems n]⟩ g1) :
    (cMyWritePerm (F := F) k (rowOf e.elems n)).Notes V x A C c c g fun _ g' => g' = g1 := by
  unfold cMyWritePerm cMyUpdateOrInsertPerm
  refine Conn.Keeps.bind (keeps_open.mono ?_)
  rintro cu _ rfl
  refine Conn.Keeps.bind (c1 := c) ((keepsWrite (Q := fun rc g' => rc = 0 ∧ g = g') hc fun db hI => .inl
    ⟨0, db, g, rfl, note_refl g db hI, rfl, rfl⟩).mono ?_)
  rintro rc _ ⟨rfl, rfl⟩
  rw [if_pos rfl]
  refine Conn.Keeps.bind (c1 := c) ((keepsWrite (Q := fun _ g' => g1 = g') hc fun db hI => ?_).mono ?_)
  · show _ ∨ db.myInsertPerm k (rowOf e.elems n) = none ∧ _
    cases hq : db.myInsertPerm k (rowOf e.elems n) with
    | none => exact .inr ⟨rfl, trivial⟩
    | some p =>
      obtain ⟨a, db'⟩ := p
      have := myInsertPerm_some hq
      subst this
      exact .inl ⟨(), ⟨db.vertices, db.perms ++ [rowOf e.elems n]⟩, g1, hq, h db hI, rfl⟩
  · rintro _ _ rfl
    exact keeps_close.mono fun _ _ h => h.symm

/-- Writing the rows of the edge: in the end the client has written them all. -/
theorem notes_write (hV : Vocab V) (hx : EdgeOver V x) (hA : A) (hc : CurOk c) (g : Note) :
    (cPerms x.elems (cMyWritePerm (F := F) k)).Notes V x A C c c g fun _ g' =>
      Learnt x g g' ∧ ∀ n, n < factorial x.elems.length → g'.seen n := by
  refine (Conn.Keeps.sweep (fun a b : Note => (∀ n, a.seen n → b.seen n) ∧ (∀ n, a.gone n → b.gone n) ∧ b.cut = a.cut)
    (fun n g => g.seen n) (fun g => ⟨fun _ h => h, fun _ h => h, rfl⟩)
    (fun a b c h k => ⟨fun n h' => k.1 n (h.1 n h'), fun n h' => k.2.1 n (h.2.1 n h'), k.2.2.trans h.2.2⟩)
    (fun n a b h k => k.1 n h) ?_).mono ?_
  · intro n hn g
    rw [List.mem_range] at hn
    refine Conn.Keeps.bind (c1 := c) (Conn.Keeps.lift (permStr_eq hx.elems_ne hn) ?_)
    refine (notes_writePerm (g1 := ⟨fun m => g.seen m ∨ m = n, g.gone, True, g.cut⟩) hc fun db hI => ?_).mono ?_
    · refine ⟨rowsOk_snoc hI hx hn, ?_, fun _ h => .inl h, fun _ => trivial, id, fun _ _ => .inr trivial,
        fun m h => .inl ⟨h.1, List.mem_append.2 (.inl h.2)⟩, fun _ => .inr hA, .inl⟩
      rintro m (h | rfl)
      · exact .inl h
      · exact .inr ⟨hn, List.mem_append.2 (.inr (by simp))⟩
    · rintro _ _ rfl
      exact ⟨⟨fun _ h => .inl h, fun _ h => h, rfl⟩, .inr rfl⟩
  · rintro _ g' ⟨⟨h1, h2, h3⟩, h4⟩
    have h4 : ∀ n, n < factorial x.elems.length → g'.seen n := fun n hn => h4 n (List.mem_range.2 hn)
    exact ⟨⟨h1, h2, fun _ => .inr h4, fun h => .inl (by rw [h3] at h; exact h)⟩, h4⟩

theorem notes_write_ne (hV : Vocab V) (hx : EdgeOver V x) {e : Val F} (he : EdgeOver V e) (hne : x ≠ e) (hc : CurOk c) (g : Note) :
    (cPerms e.elems (cMyWritePerm (F := F) k)).Notes V x A C c c g fun _ g' => g' = g := by
  refine Conn.Keeps.idle fun n hn => ?_
  rw [List.mem_range] at hn
  refine Conn.Keeps.bind (c1 := c) (Conn.Keeps.lift (permStr_eq he.elems_ne hn) ?_)
  exact notes_writePerm hc fun db hI => note_idle (rowsOk_snoc hI he hn) fun m =>
    ⟨fun h => (hasRow_snoc hV he hx hn h).resolve_right hne, fun h => ⟨h.1, List.mem_append.2 (.inl h.2)⟩⟩

theorem notes_removePerm {e : Val F} {n : Nat} (hc : CurOk c) {g g1 : Note}
    (h : ∀ db, RowsOk V db.perms → NoteR V x A C g db (db.deletePerm (rowOf e.elems n)) g1) :
    (cRemovePerm (F := F) (rowOf e.elems n)).Notes V x A C c c g fun _ g' => g' = g1 := by
  unfold cRemovePerm
  refine Conn.Keeps.bind (c1 := c) ((keepsWrite (Q := fun _ g' => g1 = g') hc fun db hI => .inl
    ⟨(), db.deletePerm (rowOf e.elems n), g1, rfl, h db hI, rfl⟩).mono ?_)
  rintro _ _ rfl
  exact keeps_commit.mono fun _ _ h => h.symm

/-- Deleting the rows of the edge: in the end the client has seen all of them go. -/
theorem notes_delete (hV : Vocab V) (hx : EdgeOver V x) (hC : C) (hc : CurOk c) (g : Note) :
    (cPerms x.elems (cRemovePerm (F := F))).Notes V x A C c c g fun _ g' =>
      Learnt x g g' ∧ ∀ n, n < factorial x.elems.length → g'.gone n := by
  refine (Conn.Keeps.sweep (fun a b : Note => (∀ n, a.seen n → b.seen n) ∧ (∀ n, a.gone n → b.gone n) ∧ b.own = a.own)
    (fun n g => g.gone n) (fun g => ⟨fun _ h => h, fun _ h => h, rfl⟩)
    (fun a b c h k => ⟨fun n h' => k.1 n (h.1 n h'), fun n h' => k.2.1 n (h.2.1 n h'), k.2.2.trans h.2.2⟩)
    (fun n a b h k => k.2.1 n h) ?_).mono ?_
  · intro n hn g
    rw [List.mem_range] at hn
    refine Conn.Keeps.bind (c1 := c) (Conn.Keeps.lift (permStr_eq hx.elems_ne hn) ?_)
    refine (notes_removePerm (g1 := ⟨g.seen, fun m => g.gone m ∨ m = n, g.own, True⟩) hc fun db hI => ?_).mono ?_
    · have hu := fun m => hasRow_delete hV hx hx hn db m
      refine ⟨rowsOk_delete hI, fun _ h => .inl h, ?_, id, fun _ => trivial, fun m h => .inl ((hu m).1 h).1,
        fun m h => .inr trivial, .inl, fun _ => .inr hC⟩
      rintro m (h | rfl)
      · exact .inl h
      · exact .inr fun h => ((hu m).1 h).2 ⟨rfl, rfl⟩
    · rintro _ _ rfl
      exact ⟨⟨fun _ h => h, fun _ h => .inl h, rfl⟩, .inr rfl⟩
  · rintro _ g' ⟨⟨h1, h2, h3⟩, h4⟩
    have h4 : ∀ n, n < factorial x.elems.length → g'.gone n := fun n hn => h4 n (List.mem_range.2 hn)
    exact ⟨⟨h1, h2, fun h => .inl (by rw [h3] at h; exact h), fun _ => .inr h4⟩, h4⟩

theorem notes_delete_ne (hV : Vocab V) (hx : EdgeOver V x) {e : Val F} (he : EdgeOver V e) (hne : x ≠ e) (hc : CurOk c) (g : Note) :
    (cPerms e.elems (cRemovePerm (F := F))).Notes V x A C c c g fun _ g' => g' = g := by
  refine Conn.Keeps.idle fun n hn => ?_
  rw [List.mem_range] at hn
  refine Conn.Keeps.bind (c1 := c) (Conn.Keeps.lift (permStr_eq he.elems_ne hn) ?_)
  refine notes_removePerm hc fun db hI => note_idle (rowsOk_delete hI) fun m => ?_
  rw [hasRow_delete hV he hx hn db m]
  exact ⟨fun h => h.1, fun h => ⟨h, fun h => hne h.1⟩⟩

/-! ### calls -/

theorem notes_addRaw (hV : Vocab V) (hx : EdgeOver V x) {e : Val F} (he : EdgeOver V e) (hA : x = e → A) (ts : Int) (hc : CurOk c)
    (g : Note) : (cMyAddRaw k e ts).Notes V x A C c c g fun _ g' => Learnt x g g' ∧ (x = e → g'.Has x) := by
  unfold cMyAddRaw
  have hnew : ∀ g1 : Note, (cMyAddNew k e ts).Notes V x A C c c g1 fun _ g' => Learnt x g1 g' ∧ (x = e → g'.Has x) := by
    intro g1
    unfold cMyAddNew
    refine Conn.Keeps.bind (c1 := c) (Conn.Keeps.lift (iter_edge he) ?_)
    refine Conn.Keeps.bind (c1 := c) ((Conn.Keeps.idle fun y _ => notes_addVert ts y hc g1).mono ?_)
    rintro _ _ rfl
    refine Conn.Keeps.bind (c1 := c) ((notes_addStr _ 0 ts hc _).mono ?_)
    rintro _ _ rfl
    by_cases hne : x = e
    · subst hne
      refine (notes_write hV hx (hA rfl) hc _).mono ?_
      rintro _ g2 ⟨h4, h5⟩
      exact ⟨h4, fun _ => has_all hV hx h5⟩
    · refine (notes_write_ne hV hx he hne hc _).mono ?_
      rintro _ _ rfl
      exact ⟨Learnt.refl _ _, fun h => absurd h hne⟩
  by_cases hne : x = e
  · subst hne
    refine Conn.Keeps.bind (c1 := c) ((notes_exists hV hx hc g).mono ?_)
    rintro b g1 ⟨h1, h2, h3⟩
    refine Conn.Keeps.ite (fun _ => (hnew g1).mono ?_) fun hb => Conn.Keeps.pure ⟨h1, fun _ => h2 (by simp_all)⟩
    rintro _ g2 ⟨h4, h5⟩
    exact ⟨h1.trans h4, h5⟩
  · refine Conn.Keeps.bind (c1 := c) ((notes_ask hV he hc g).mono ?_)
    rintro b _ rfl
    exact Conn.Keeps.ite (fun _ => hnew _) fun _ => Conn.Keeps.pure ⟨Learnt.refl _ _, fun h => absurd h hne⟩

theorem notes_removeRaw (hV : Vocab V) (hx : EdgeOver V x) {e : Val F} (he : EdgeOver V e) (hC : x = e → C) (hc : CurOk c)
    (g : Note) : (cRemoveRaw e).Notes V x A C c c g fun _ g' => Learnt x g g' ∧ (x = e → g'.Hasnt x) := by
  unfold cRemoveRaw
  have hrest : ∀ g1 : Note, (do
        let verts ← cLift e.iter
        cEach (fun v => do let _ ← cDecDegree (edge2str v)) verts
        cPerms verts (cRemovePerm (F := F))
        cRemoveStr (edge2str e) : Conn Unit).Notes V x A C c c g1 fun _ g' => Learnt x g1 g' ∧ (x = e → g'.Hasnt x) := by
    intro g1
    refine Conn.Keeps.bind (c1 := c) (Conn.Keeps.lift (iter_edge he) ?_)
    refine Conn.Keeps.bind (c1 := c) ((Conn.Keeps.idle fun y _ => notes_dec y hc g1).mono ?_)
    rintro _ _ rfl
    by_cases hne : x = e
    · subst hne
      refine Conn.Keeps.bind (c1 := c) ((notes_delete hV hx (hC rfl) hc _).mono ?_)
      rintro _ g2 ⟨h4, h5⟩
      refine (notes_removeStr _ hc g2).mono ?_
      rintro _ _ rfl
      exact ⟨h4, fun _ n hn _ => h5 n hn⟩
    · refine Conn.Keeps.bind (c1 := c) ((notes_delete_ne hV hx he hne hc _).mono ?_)
      rintro _ _ rfl
      refine (notes_removeStr _ hc _).mono ?_
      rintro _ _ rfl
      exact ⟨Learnt.refl _ _, fun h => absurd h hne⟩
  by_cases hne : x = e
  · subst hne
    refine Conn.Keeps.bind (c1 := c) ((notes_exists hV hx hc g).mono ?_)
    rintro b g1 ⟨h1, h2, h3⟩
    refine Conn.Keeps.ite (fun _ => (hrest g1).mono ?_) fun hb => Conn.Keeps.pure ⟨h1, fun _ => h3 (by simp_all)⟩
    rintro _ g2 ⟨h4, h5⟩
    exact ⟨h1.trans h4, h5⟩
  · refine Conn.Keeps.bind (c1 := c) ((notes_ask hV he hc g).mono ?_)
    rintro b _ rfl
    exact Conn.Keeps.ite (fun _ => hrest _) fun _ => Conn.Keeps.pure ⟨Learnt.refl _ _, fun h => absurd h hne⟩

theorem notes_add (hV : Vocab V) (hx : EdgeOver V x) {e : Val F} (he : EdgeOver V e) (hA : x = e → A) (ts : Int) (hc : CurOk c)
    (g : Note) : (cMyAdd k e ts).Notes V x A C c c g fun _ g' => Learnt x g g' ∧ (x = e → g'.Has x) := by
  unfold cMyAdd
  obtain ⟨h, h1, h2⟩ := head0_edge he
  refine Conn.Keeps.bind (c1 := c) (Conn.Keeps.lift h1 ?_)
  rw [h2]
  exact notes_addRaw hV hx he hA ts hc g

theorem notes_addMany (hV : Vocab V) (hx : EdgeOver V x) {b : Bool} {es : List (Val F)} (hne : es ≠ []) (he : ∀ e ∈ es, EdgeOver V e)
    (hA : x ∈ es → A) (ts : Int) (g : Note) :
    (cMyAdd k (.seq b es) ts).Notes V x A C none none g fun _ g' => Learnt x g g' ∧ (x ∈ es → g'.Has x) := by
  unfold cMyAdd
  obtain ⟨h, h1, h2⟩ := head0_coll (b := b) hne he
  refine Conn.Keeps.bind (c1 := none) (Conn.Keeps.lift h1 ?_)
  rw [h2, if_pos rfl]
  refine Conn.Keeps.bind (c1 := some true) (keeps_begin.mono ?_)
  rintro _ _ rfl
  refine Conn.Keeps.bind (c1 := some true) (Conn.Keeps.lift (r := (Val.seq b es).iter) (a := es) rfl ?_)
  refine Conn.Keeps.bind (c1 := some true) ((Conn.Keeps.sweep (Learnt x) (fun e g => x = e → g.Has x) (Learnt.refl x)
    (fun _ _ _ h k => h.trans k) (fun e a b h k he => (h he).later k)
    fun e hm g => notes_addRaw hV hx (he e hm) (fun h => hA (by rw [h]; exact hm)) ts (by simp [CurOk]) g).mono ?_)
  rintro _ g1 ⟨h3, h4⟩
  refine keeps_end.mono ?_
  rintro _ _ rfl
  exact ⟨h3, fun h => h4 x h rfl⟩

theorem notes_addBelief {src e arg : Val F} (ts : Int) (hb : beliefEdges src e = .ok arg) {c c' : Option Bool} {g : Note}
    {Q : Unit → Note → Prop} (h : (cMyAdd k arg ts).Notes V x A C c c' g Q) : (cMyAddBelief k src e ts).Notes V x A C c c' g Q := by
  unfold cMyAddBelief
  exact Conn.Keeps.bind (c1 := c) (Conn.Keeps.lift hb h)

theorem notes_remove (hV : Vocab V) (hx : EdgeOver V x) {e : Val F} (he : EdgeOver V e) (hC : x = e → C) (hc : CurOk c)
    (g : Note) : (cRemove e).Notes V x A C c c g fun _ g' => Learnt x g g' ∧ (x = e → g'.Hasnt x) := by
  unfold cRemove
  obtain ⟨h, h1, h2⟩ := head0_edge he
  refine Conn.Keeps.bind (c1 := c) (Conn.Keeps.lift h1 ?_)
  rw [h2]
  exact notes_removeRaw hV hx he hC hc g

theorem notes_removeMany (hV : Vocab V) (hx : EdgeOver V x) {b : Bool} {es : List (Val F)} (hne : es ≠ []) (he : ∀ e ∈ es, EdgeOver V e)
    (hC : x ∈ es → C) (hc : CurOk c) (g : Note) :
    (cRemove (.seq b es)).Notes V x A C c c g fun _ g' => Learnt x g g' ∧ (x ∈ es → g'.Hasnt x) := by
  unfold cRemove
  obtain ⟨h, h1, h2⟩ := head0_coll (b := b) hne he
  refine Conn.Keeps.bind (c1 := c) (Conn.Keeps.lift h1 ?_)
  rw [h2, if_pos rfl]
  refine Conn.Keeps.bind (c1 := c) (Conn.Keeps.lift (r := (Val.seq b es).iter) (a := es) rfl ?_)
  refine (Conn.Keeps.sweep (Learnt x) (fun e g => x = e → g.Hasnt x) (Learnt.refl x)
    (fun _ _ _ h k => h.trans k) (fun e a b h k he => (h he).later k)
    fun e hm g => notes_removeRaw hV hx (he e hm) (fun h => hC (by rw [h]; exact hm)) hc g).mono ?_
  rintro _ g1 ⟨h3, h4⟩
  exact ⟨h3, fun h => h4 x h rfl⟩

/-- What a call leaves in the note. -/
def NoteAct (x : Val F) (a : PAct F) (g : Note) : Prop :=
  (x ∈ a.adds → g.Has x) ∧ (a.Takes x → g.Hasnt x) ∧ (a.Clears x → g.Lacks x)

theorem NoteAct.later {a : PAct F} {g g' : Note} (h : NoteAct x a g) (k : Learnt x g g') : NoteAct x a g' :=
  ⟨fun j => (h.1 j).later k, fun j => (h.2.1 j).later k, fun j => (h.2.2 j).later k⟩

/-- A call of its own, or one that works inside a batch. -/
theorem notes_act (hV : Vocab V) (hx : EdgeOver V x) {a : PAct F} (ho : a.op.Over V) (hA : x ∈ a.adds → A) (hC : a.Removes x → C)
    (hc : c = none ∨ (CurOk c ∧ a.Single)) (g : Note) :
    (a.myConn k).Notes V x A C c c g fun _ g' => Learnt x g g' ∧ NoteAct x a g' := by
  have hcok : CurOk c := by
    rcases hc with rfl | h
    · simp [CurOk]
    · exact h.1
  cases a with
  | add e ts =>
    refine (notes_add hV hx ho (fun h => hA (by simp [PAct.adds, h])) ts hcok g).mono ?_
    rintro _ g' ⟨h1, h2⟩
    exact ⟨h1, fun h => h2 (by simpa [PAct.adds] using h), False.elim, False.elim⟩
  | addMany es ts =>
    have hcn := hc.resolve_right (fun h => h.2)
    subst hcn
    refine (notes_addMany hV hx ho.1 ho.2 hA ts g).mono ?_
    rintro _ g' ⟨h1, h2⟩
    exact ⟨h1, h2, False.elim, False.elim⟩
  | addBelief src e ts =>
    have hcn := hc.resolve_right (fun h => h.2)
    subst hcn
    refine (notes_addBelief ts (beliefEdges_single (BeliefOver.edge ho)) (notes_addMany (es := [e, support e src]) hV hx (by simp)
      (by simpa using ⟨BeliefOver.edge ho, support_over ho⟩) hA ts g)).mono ?_
    rintro _ g' ⟨h1, h2⟩
    exact ⟨h1, h2, False.elim, False.elim⟩
  | addBeliefs src es ts =>
    have hcn := hc.resolve_right (fun h => h.2)
    subst hcn
    have hne' : es.flatMap (fun e => [e, support e src]) ≠ [] := by
      cases es with
      | nil => exact absurd rfl ho.1
      | cons e es => simp
    refine (notes_addBelief ts (beliefEdges_many (V := V) ho.1 fun e he => (ho.2 e he).edge)
      (notes_addMany hV hx hne' (belief_pairs ho.2) hA ts g)).mono ?_
    rintro _ g' ⟨h1, h2⟩
    exact ⟨h1, h2, False.elim, False.elim⟩
  | remove e =>
    refine (notes_remove hV hx ho hC hcok g).mono ?_
    rintro _ g' ⟨h1, h2⟩
    exact ⟨h1, by simp [PAct.adds], h2, fun h => (h2 h).lacks hV hx⟩
  | removeMany es =>
    refine (notes_removeMany hV hx ho.1 ho.2 hC hcok g).mono ?_
    rintro _ g' ⟨h1, h2⟩
    exact ⟨h1, by simp [PAct.adds], h2, fun h => (h2 h).lacks hV hx⟩
  | removeByPattern ps =>
    have ho : PatternOver V ps := ho
    show (cRemoveByPattern (.tup ps)).Notes V x A C c c g _
    unfold cRemoveByPattern
    refine Conn.Keeps.bind (c1 := c) ((notes_pattern hV hx ho hcok g).mono ?_)
    rintro res g1 ⟨h1, h2, h3⟩
    refine (Conn.Keeps.sweep (Learnt x) (fun e g => x = e → g.Hasnt x) (Learnt.refl x)
      (fun _ _ _ h k => h.trans k) (fun e a b h k he => (h he).later k)
      fun e hm g => notes_remove hV hx (h1 e hm).1 (fun h => hC (by rw [h]; exact (h1 e hm).2)) hcok g).mono ?_
    rintro _ g2 ⟨h4, h5⟩
    refine ⟨h2.trans h4, by simp [PAct.adds], False.elim, fun hm => ?_⟩
    by_cases hr : x ∈ res
    · exact (h5 x hr rfl).lacks hV hx
    · exact (h3 hm hr).later h4
  | removeBelief src e =>
    have ho : BeliefOver V src e := ho
    show (cRemoveBelief src e).Notes V x A C c c g _
    unfold cRemoveBelief
    refine Conn.Keeps.bind (c1 := c) ((notes_remove hV hx (support_over ho) (fun h => hC (.inr h)) hcok g).mono ?_)
    rintro _ g1 ⟨h1, h2⟩
    refine Conn.Keeps.bind (c1 := c) ((notes_sources hV ho.srcConst ho.fact hcok g1).mono ?_)
    rintro res _ rfl
    refine Conn.Keeps.ite (fun _ => (notes_remove hV hx ho.edge (fun h => hC (.inl h)) hcok _).mono ?_) fun _ => Conn.Keeps.pure
      ⟨h1, by simp [PAct.adds], h2, fun h => (h2 h).lacks hV hx⟩
    rintro _ g2 ⟨h3, h4⟩
    exact ⟨h1.trans h3, by simp [PAct.adds], fun h => (h2 h).later h3, fun h => ((h2 h).later h3).lacks hV hx⟩

theorem notes_call (hV : Vocab V) (hx : EdgeOver V x) {p : PCall F} (ho : p.Over V) (hA : ∀ a ∈ p.acts, x ∈ a.adds → A)
    (hC : ∀ a ∈ p.acts, a.Removes x → C) (g : Note) :
    (p.myConn k).Notes V x A C none none g fun _ g' => Learnt x g g' ∧ ∀ a ∈ p.acts, NoteAct x a g' := by
  cases p with
  | one a =>
    refine (notes_act (k := k) hV hx (a := a) ho (hA a (by simp [PCall.acts])) (hC a (by simp [PCall.acts])) (.inl rfl) g).mono ?_
    rintro _ g' ⟨h1, h2⟩
    refine ⟨h1, fun b hb => ?_⟩
    simp only [PCall.acts, List.mem_singleton] at hb
    subst hb
    exact h2
  | batch as =>
    show (cBatch (as.map (PAct.myConn k))).Notes V x A C none none g _
    unfold cBatch
    refine Conn.Keeps.bind (c1 := some true) (keeps_begin.mono ?_)
    rintro _ _ rfl
    have hmap : cEach (fun f => f) (as.map (PAct.myConn k)) = cEach (PAct.myConn k) as := by
      clear ho hA hC
      induction as with
      | nil => rfl
      | cons a as ih => exact congrArg (fun y => (PAct.myConn k a) >>= fun _ => y) ih
    rw [hmap]
    refine Conn.Keeps.bind (c1 := some true) ((Conn.Keeps.sweep (Learnt x) (NoteAct x) (Learnt.refl x)
      (fun _ _ _ h k => h.trans k) (fun e a b h k => h.later k)
      fun a ha g => notes_act hV hx (ho a ha).1 (hA a ha) (hC a ha) (.inr ⟨by simp [CurOk], (ho a ha).2⟩) g).mono ?_)
    rintro _ g1 ⟨h1, h2⟩
    refine keeps_end.mono ?_
    rintro _ _ rfl
    exact ⟨h1, h2⟩

theorem notes_client (hV : Vocab V) (hx : EdgeOver V x) {p : List (PCall F)} (ho : ∀ c ∈ p, c.Over V)
    (hA : ∀ a ∈ p.flatMap PCall.acts, x ∈ a.adds → A) (hC : ∀ a ∈ p.flatMap PCall.acts, a.Removes x → C) (g : Note) :
    (cEach (PCall.myConn k) p).Notes V x A C none none g fun _ g' => Learnt x g g' ∧ ∀ a ∈ p.flatMap PCall.acts, NoteAct x a g' := by
  refine (Conn.Keeps.sweep (Learnt x) (fun (c : PCall F) g => ∀ a ∈ c.acts, NoteAct x a g) (Learnt.refl x)
    (fun _ _ _ h k => h.trans k) (fun e a b h k c hc => (h c hc).later k)
    fun c hc g => notes_call hV hx (ho c hc) (fun a ha => hA a (List.mem_flatMap.2 ⟨c, hc, ha⟩))
      (fun a ha => hC a (List.mem_flatMap.2 ⟨c, hc, ha⟩)) g).mono ?_
  rintro _ g1 ⟨h1, h2⟩
  refine ⟨h1, fun a ha => ?_⟩
  obtain ⟨c, hc, ha⟩ := List.mem_flatMap.1 ha
  exact h2 c hc a ha

end GB
