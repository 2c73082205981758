import Verif.Proofs.MyRuns
import Verif.Proofs.MyNote

/-! Clients of a MySQL database that add the same edge: at most one of them writes its rows. -/

set_option linter.unusedSectionVars false
set_option linter.unusedVariables false

namespace GB

variable {F : Type} [PyFloat F] [DecidableEq F] {V : Val F → Prop} {x : Val F} {A : Prop} {k : Nat} {c : Option Bool}

/-- The rows are those of edges, and fit the key. -/
def FitRows (V : Val F → Prop) (k : Nat) (ps : List Str) : Prop := RowsOk V ps ∧ ∀ r ∈ ps, r.length ≤ k

/-- The book: how many rows of the edge the client wrote.  If any, these are all there are. -/
def WholeI (V : Val F → Prop) (k : Nat) (x : Val F) (m : Nat) (db : DB) : Prop :=
  FitRows V k db.perms ∧ (0 < m → ∀ n, HasRow db.perms x n ↔ n < m)

/-- A step: the rows of the edge stay the same, or the client writes the next one, which was not there. -/
def WholeR (V : Val F → Prop) (k : Nat) (x : Val F) (A : Prop) (m : Nat) (db db' : DB) (m' : Nat) : Prop :=
  FitRows V k db'.perms ∧ ((m' = m ∧ ∀ n, HasRow db'.perms x n ↔ HasRow db.perms x n) ∨
    (m' = m + 1 ∧ m < factorial x.elems.length ∧ A ∧ ¬ HasRow db.perms x m ∧
      ∀ n, HasRow db'.perms x n ↔ HasRow db.perms x n ∨ n = m))

/-- The client wrote no row, or all of them. -/
def AtRest (x : Val F) (m : Nat) : Prop := m = 0 ∨ m = factorial x.elems.length

abbrev Conn.Wholes {α : Type} (V : Val F → Prop) (k : Nat) (x : Val F) (A : Prop) (p : Conn α) (c c' : Option Bool) (g : Nat)
    (Q : α → Nat → Prop) : Prop :=
  p.Runs (WholeI V k x) (WholeR V k x A) (AtRest x) c c' g Q

theorem whole_same {m : Nat} {db db' : DB} (h : WholeI V k x m db) (he : db'.perms = db.perms) : WholeR V k x A m db db' m := by
  refine ⟨by rw [he]; exact h.1, .inl ⟨rfl, by rw [he]; simp⟩⟩

theorem whole_refl (m : Nat) (db : DB) (h : WholeI V k x m db) : WholeR V k x A m db db m := whole_same h rfl

/-! ### queries -/

theorem whole_exists (hV : Vocab V) (hx : EdgeOver V x) (hc : CurOk c) {g : Nat} (hg : AtRest x g) :
    (cExists x).Wholes V k x A c c g fun b g' => g' = g ∧ (b = false → g = 0) := by
  refine (asks_exists x).runs_read hc (exists_differs hV hx) fun db hI => ?_
  obtain ⟨b, h1, h2, h3⟩ := here_exists hV hI.1.1 hx
  refine ⟨b, g, by rw [run_exists]; exact h1, whole_refl g db hI, rfl, fun hb => ?_⟩
  rcases hg with rfl | rfl
  · rfl
  · have := h3.2 (seen_all hV hx fun n hn => (hI.2 (factorial_pos _) n).2 hn)
    rw [hb] at this
    cases this

theorem whole_ask (hV : Vocab V) {e : Val F} (he : EdgeOver V e) (hc : CurOk c) (g : Nat) :
    (cExists e).Wholes V k x A c c g fun _ g' => g' = g := by
  refine (asks_exists e).runs_read hc (exists_differs hV he) fun db hI => ?_
  obtain ⟨b, h1, h2, h3⟩ := here_exists hV hI.1.1 he
  exact ⟨b, g, by rw [run_exists]; exact h1, whole_refl g db hI, rfl⟩

theorem whole_sources (hV : Vocab V) {e : Val F} (hs : V (.str (lit "src/1"))) (he : V e) (hc : CurOk c) (g : Nat) :
    (cSources e).Wholes V k x A c c g fun _ g' => g' = g := by
  refine (asks_sources _).runs hc ?_ ?_
  · obtain ⟨res, h1, _⟩ := here_sources hV hs he (db := ⟨[], []⟩) (fun r hr => by simp at hr)
    exact ⟨⟨[], []⟩, res, by rw [run_sources]; exact h1, rfl⟩
  · intro db hI
    obtain ⟨res, h1, _⟩ := here_sources hV hs he hI.1.1
    exact ⟨res, g, by rw [run_sources]; exact h1, whole_refl g db hI, rfl⟩

theorem whole_pattern (hV : Vocab V) {ps : List (Val F)} (hp : PatternOver V ps) (hc : CurOk c) (g : Nat) :
    (cPattern2edges (.tup ps)).Wholes V k x A c c g fun res g' => (∀ y ∈ res, EdgeOver V y ∧ Matches ps y.elems) ∧ g' = g := by
  refine (asks_pattern _).runs hc ?_ ?_
  · obtain ⟨res, h1, _, _, h4⟩ := here_pattern hV hp (db := ⟨[], []⟩) (fun r hr => by simp at hr)
    exact ⟨⟨[], []⟩, res, by rw [run_pattern]; exact h1, fun y hy => ⟨((h4 y).1 hy).1, ((h4 y).1 hy).2.1⟩, rfl⟩
  · intro db hI
    obtain ⟨res, h1, _, _, h4⟩ := here_pattern hV hp hI.1.1
    exact ⟨res, g, by rw [run_pattern]; exact h1, whole_refl g db hI, fun y hy => ⟨((h4 y).1 hy).1, ((h4 y).1 hy).2.1⟩, rfl⟩

/-! ### single statements -/

theorem whole_addStr (t : Str) (deg ts : Int) (hc : CurOk c) {g : Nat} (hg : AtRest x g) :
    (cMyAddStr k t deg ts).Wholes V k x A c c g fun _ g' => g' = g := by
  unfold cMyAddStr cMyUpdateOrInsertVertex
  refine Conn.Runs.bind (runs_open.mono ?_)
  rintro cu _ rfl
  refine Conn.Runs.bind (Q := fun _ g' => g' = g) (c1 := c) ?_
  refine (runsWrite (Q := fun _ g' => g = g') hc fun db hI => .inl ⟨(db.myUpdateVertex t deg ts).1, (db.myUpdateVertex t deg ts).2, g, rfl,
    whole_same hI rfl, rfl⟩).mono ?_
  rintro rc _ rfl
  refine Conn.Runs.ite (fun _ => Conn.Runs.bind ((runsWrite (Q := fun _ g' => g = g') hc fun db hI => ?_).mono ?_))
    fun _ => runs_close.mono fun _ _ h => h.symm
  · cases hq : db.myInsertVertex k t deg ts with
    | none => exact .inr ⟨rfl, hg⟩
    | some p =>
      obtain ⟨a, db'⟩ := p
      obtain ⟨rfl, _⟩ := myInsert_some hq
      exact .inl ⟨(), _, g, rfl, whole_same hI rfl, rfl⟩
  · rintro _ _ rfl
    exact runs_close.mono fun _ _ h => h.symm

theorem whole_addVert (ts : Int) (y : Val F) (hc : CurOk c) {g : Nat} (hg : AtRest x g) :
    (cMyAddVert k ts y).Wholes V k x A c c g fun _ g' => g' = g := by
  unfold cMyAddVert
  refine Conn.Runs.bind (c1 := c) (Conn.Runs.mono (Q := fun _ g' => g = g') ?_ ?_)
  · unfold cIncDegree
    refine Conn.Runs.bind (runs_open.mono ?_)
    rintro cu _ rfl
    refine Conn.Runs.bind (c1 := c) ((runsWrite (Q := fun _ g' => g = g') hc fun db hI => .inl
      ⟨(db.bumpDegree 1 (edge2str y)).1, (db.bumpDegree 1 (edge2str y)).2, g, rfl, whole_same hI rfl, rfl⟩).mono ?_)
    rintro _ _ rfl
    refine Conn.Runs.bind (c1 := c) (runs_close.mono ?_)
    rintro _ _ rfl
    exact Conn.Runs.pure rfl
  · rintro b _ rfl
    exact Conn.Runs.ite (fun _ => whole_addStr _ 1 ts hc hg) fun _ => Conn.Runs.pure rfl

theorem whole_dec (y : Val F) (hc : CurOk c) (g : Nat) :
    (do let _ ← cDecDegree (edge2str y) : Conn Unit).Wholes V k x A c c g fun _ g' => g' = g := by
  refine Conn.Runs.bind (Q := fun _ g' => g' = g) (c1 := c) ?_
  unfold cDecDegree
  refine Conn.Runs.bind (runs_open.mono ?_)
  rintro cu _ rfl
  refine Conn.Runs.bind (c1 := c) ((runsWrite (Q := fun _ g' => g = g') hc fun db hI => .inl
    ⟨(db.bumpDegree (-1) (edge2str y)).1, (db.bumpDegree (-1) (edge2str y)).2, g, rfl, whole_same hI rfl, rfl⟩).mono ?_)
  rintro _ _ rfl
  refine Conn.Runs.bind (c1 := c) (runs_close.mono ?_)
  rintro _ _ rfl
  exact Conn.Runs.pure (Conn.Runs.pure rfl)

theorem whole_removeStr (t : Str) (hc : CurOk c) (g : Nat) : (cRemoveStr t).Wholes V k x A c c g fun _ g' => g' = g := by
  unfold cRemoveStr
  refine Conn.Runs.bind (c1 := c) (runs_open.mono ?_)
  rintro cu _ rfl
  refine Conn.Runs.bind (c1 := c) ((runsWrite (Q := fun _ g' => g = g') hc fun db hI => .inl
    ⟨(), db.deleteVertex t, g, rfl, whole_same hI rfl, rfl⟩).mono ?_)
  rintro _ _ rfl
  exact runs_close.mono fun _ _ h => h.symm

/-- One row: what the insertion does, if it is possible, and what the book is, if it is not. -/
theorem whole_writePerm {t : Str} (hc : CurOk c) {g g1 : Nat}
    (h : ∀ db, WholeI V k x g db → db.myInsertPerm k t ≠ none → WholeR V k x A g db ⟨db.vertices, db.perms ++ [t]⟩ g1)
    (h' : ∀ db, WholeI V k x g db → db.myInsertPerm k t = none → AtRest x g) :
    (cMyWritePerm (F := F) k t).Wholes V k x A c c g fun _ g' => g' = g1 := by
  unfold cMyWritePerm cMyUpdateOrInsertPerm
  refine Conn.Runs.bind (runs_open.mono ?_)
  rintro cu _ rfl
  refine Conn.Runs.bind (c1 := c) ((runsWrite (Q := fun rc g' => rc = 0 ∧ g = g') hc fun db hI => .inl
    ⟨0, db, g, rfl, whole_refl g db hI, rfl, rfl⟩).mono ?_)
  rintro rc _ ⟨rfl, rfl⟩
  rw [if_pos rfl]
  refine Conn.Runs.bind (c1 := c) ((runsWrite (Q := fun _ g' => g1 = g') hc fun db hI => ?_).mono ?_)
  · show _ ∨ db.myInsertPerm k t = none ∧ _
    cases hq : db.myInsertPerm k t with
    | none => exact .inr ⟨rfl, h' db hI hq⟩
    | some p =>
      obtain ⟨a, db'⟩ := p
      have := myInsertPerm_some hq
      subst this
      exact .inl ⟨(), ⟨db.vertices, db.perms ++ [t]⟩, g1, hq, h db hI (by rw [hq]; simp), rfl⟩
  · rintro _ _ rfl
    exact runs_close.mono fun _ _ h => h.symm

theorem fitRows_snoc {ps : List Str} (h : FitRows V k ps) {e : Val F} (he : EdgeOver V e) (hf : KeyFits k e) {n : Nat}
    (hn : n < factorial e.elems.length) : FitRows V k (ps ++ [rowOf e.elems n]) := by
  refine ⟨rowsOk_snoc h.1 he hn, fun r hr => ?_⟩
  rcases List.mem_append.1 hr with hr | hr
  · exact h.2 r hr
  · rw [List.mem_singleton.1 hr]
    exact hf.rows he _ (mem_rowsOf.2 ⟨n, hn, rfl⟩)

/-- With rows that fit the key, a row can be written unless it is there. -/
theorem myInsertPerm_fits {db : DB} {t : Str} (h : ∀ r ∈ db.perms, r.length ≤ k) (ht : t.length ≤ k) :
    db.myInsertPerm k t = none ↔ t ∈ db.perms := by
  unfold DB.myInsertPerm
  constructor
  · intro hq
    split at hq
    · rename_i ha
      obtain ⟨r, hr, h1⟩ := List.any_eq_true.1 ha
      have h1 := of_decide_eq_true h1
      rw [List.take_of_length_le (h r hr), List.take_of_length_le ht] at h1
      rw [← h1]
      exact hr
    · cases hq
  · intro hm
    rw [if_pos (List.any_eq_true.2 ⟨t, hm, by simp⟩)]

/-- The turn of the loop that writes row `n` of the edge. -/
theorem whole_turn (hV : Vocab V) (hx : EdgeOver V x) (hf : KeyFits k x) (hA : A) (hc : CurOk c) {n : Nat}
    (hn : n < factorial x.elems.length) :
    (do let s ← cLift (permStr x.elems n); cMyWritePerm (F := F) k s : Conn Unit).Wholes V k x A c c n fun _ g' => g' = n + 1 := by
  have hlen := hf.rows hx _ (mem_rowsOf.2 ⟨n, hn, rfl⟩)
  refine Conn.Runs.bind (c1 := c) (Conn.Runs.lift (permStr_eq hx.elems_ne hn) ?_)
  refine whole_writePerm hc (fun db hI hq => ?_) fun db hI hq => ?_
  · have hnot : rowOf x.elems n ∉ db.perms := fun h => hq ((myInsertPerm_fits hI.1.2 hlen).2 h)
    refine ⟨fitRows_snoc hI.1 hx hf hn, .inr ⟨rfl, hn, hA, fun h => hnot h.2, fun m => ⟨fun h => ?_, ?_⟩⟩⟩
    · obtain ⟨h1, h2⟩ := h
      rcases List.mem_append.1 h2 with h2 | h2
      · exact .inl ⟨h1, h2⟩
      · exact .inr (rowOf_inj (edge_wf hV hx) (edge_wf hV hx) h1 hn (List.mem_singleton.1 h2)).2
    · rintro (h | rfl)
      · exact ⟨h.1, List.mem_append.2 (.inl h.2)⟩
      · exact ⟨hn, List.mem_append.2 (.inr (by simp))⟩
  · have hm := (myInsertPerm_fits hI.1.2 hlen).1 hq
    rcases Nat.eq_zero_or_pos n with rfl | h0
    · exact .inl rfl
    · exact absurd ((hI.2 h0 n).1 ⟨hn, hm⟩) (by omega)

theorem whole_turns (hV : Vocab V) (hx : EdgeOver V x) (hf : KeyFits k x) (hA : A) (hc : CurOk c) (l n : Nat)
    (hn : n + l ≤ factorial x.elems.length) :
    (cEach (fun i => do let s ← cLift (permStr x.elems i); cMyWritePerm (F := F) k s) (List.range' n l)).Wholes V k x A c c n
      fun _ g' => g' = n + l := by
  induction l generalizing n with
  | zero => exact Conn.Runs.pure rfl
  | succ l ih =>
    refine Conn.Runs.bind (c1 := c) ((whole_turn hV hx hf hA hc (by omega)).mono ?_)
    rintro _ _ rfl
    refine (ih (n + 1) (by omega)).mono ?_
    rintro _ _ rfl
    omega

/-- Writing the rows of the edge: a client that begins ends. -/
theorem whole_write (hV : Vocab V) (hx : EdgeOver V x) (hf : KeyFits k x) (hA : A) (hc : CurOk c) :
    (cPerms x.elems (cMyWritePerm (F := F) k)).Wholes V k x A c c 0 fun _ => AtRest x := by
  unfold cPerms
  rw [List.range_eq_range']
  refine (whole_turns hV hx hf hA hc _ 0 (by omega)).mono ?_
  rintro _ _ rfl
  exact .inr (by omega)

theorem whole_write_ne (hV : Vocab V) (hx : EdgeOver V x) {e : Val F} (he : EdgeOver V e) (hf : KeyFits k e) (hne : x ≠ e) (hc : CurOk c)
    {g : Nat} (hg : AtRest x g) :
    (cPerms e.elems (cMyWritePerm (F := F) k)).Wholes V k x A c c g fun _ => AtRest x := by
  refine Conn.Runs.each hg fun n hn g hg => ?_
  rw [List.mem_range] at hn
  refine Conn.Runs.bind (c1 := c) (Conn.Runs.lift (permStr_eq he.elems_ne hn) ?_)
  refine (whole_writePerm (g1 := g) hc (fun db hI _ => ⟨fitRows_snoc hI.1 he hf hn, .inl ⟨rfl, fun m =>
    ⟨fun h => (hasRow_snoc hV he hx hn h).resolve_right hne, fun h => ⟨h.1, List.mem_append.2 (.inl h.2)⟩⟩⟩⟩) fun _ _ _ => hg).mono ?_
  rintro _ _ rfl
  exact hg

theorem whole_delete_ne (hV : Vocab V) (hx : EdgeOver V x) {e : Val F} (he : EdgeOver V e) (hne : x ≠ e) (hc : CurOk c)
    {g : Nat} (hg : AtRest x g) : (cPerms e.elems (cRemovePerm (F := F))).Wholes V k x A c c g fun _ => AtRest x := by
  refine Conn.Runs.each hg fun n hn g hg => ?_
  rw [List.mem_range] at hn
  refine Conn.Runs.bind (c1 := c) (Conn.Runs.lift (permStr_eq he.elems_ne hn) ?_)
  unfold cRemovePerm
  have hd : ∀ (db : DB) m, HasRow (db.deletePerm (rowOf e.elems n)).perms x m ↔ HasRow db.perms x m := fun db m => by
    rw [hasRow_delete hV he hx hn db m]
    exact ⟨fun h => h.1, fun h => ⟨h, fun h => hne h.1⟩⟩
  refine Conn.Runs.bind (c1 := c) ((runsWrite (Q := fun _ g' => g = g') hc fun db hI => .inl
    ⟨(), db.deletePerm (rowOf e.elems n), g, rfl, ⟨⟨rowsOk_delete hI.1.1, fun r hr => hI.1.2 r (List.mem_filter.1 hr).1⟩,
      .inl ⟨rfl, hd db⟩⟩, rfl⟩).mono ?_)
  · rintro _ _ rfl
    exact runs_commit.mono fun _ _ h => h ▸ hg

/-! ### calls -/

theorem whole_addNew (hV : Vocab V) (hx : EdgeOver V x) {e : Val F} (he : EdgeOver V e) (hf : KeyFits k e) (hA : x = e → A) (ts : Int)
    (hc : CurOk c) {g : Nat} (hg : AtRest x g) (h0 : x = e → g = 0) : (cMyAddNew k e ts).Wholes V k x A c c g fun _ => AtRest x := by
  unfold cMyAddNew
  refine Conn.Runs.bind (c1 := c) (Conn.Runs.lift (iter_edge he) ?_)
  refine Conn.Runs.bind (c1 := c) ((Conn.Runs.each (P := fun g' => g' = g) rfl fun y _ g1 hg1 => ?_).mono ?_)
  · subst hg1
    exact whole_addVert ts y hc hg
  rintro _ _ rfl
  refine Conn.Runs.bind (c1 := c) ((whole_addStr _ 0 ts hc hg).mono ?_)
  rintro _ _ rfl
  by_cases hne : x = e
  · subst hne
    have := h0 rfl
    subst this
    exact whole_write hV hx hf (hA rfl) hc
  · exact whole_write_ne hV hx he hf hne hc hg

theorem whole_addRaw (hV : Vocab V) (hx : EdgeOver V x) {e : Val F} (he : EdgeOver V e) (hf : KeyFits k e) (hA : x = e → A) (ts : Int)
    (hc : CurOk c) {g : Nat} (hg : AtRest x g) : (cMyAddRaw k e ts).Wholes V k x A c c g fun _ => AtRest x := by
  unfold cMyAddRaw
  by_cases hne : x = e
  · subst hne
    refine Conn.Runs.bind (c1 := c) ((whole_exists hV hx hc hg).mono ?_)
    rintro b _ ⟨rfl, h2⟩
    exact Conn.Runs.ite (fun hb => whole_addNew hV hx hx hf hA ts hc hg fun _ => h2 (by simpa using hb)) fun _ => Conn.Runs.pure hg
  · refine Conn.Runs.bind (c1 := c) ((whole_ask hV he hc g).mono ?_)
    rintro b _ rfl
    exact Conn.Runs.ite (fun _ => whole_addNew hV hx he hf hA ts hc hg fun h => absurd h hne) fun _ => Conn.Runs.pure hg

theorem whole_removeRaw (hV : Vocab V) (hx : EdgeOver V x) {e : Val F} (he : EdgeOver V e) (hne : x ≠ e) (hc : CurOk c)
    {g : Nat} (hg : AtRest x g) : (cRemoveRaw e).Wholes V k x A c c g fun _ => AtRest x := by
  unfold cRemoveRaw
  refine Conn.Runs.bind (c1 := c) ((whole_ask hV he hc g).mono ?_)
  rintro b _ rfl
  refine Conn.Runs.ite (fun _ => ?_) fun _ => Conn.Runs.pure hg
  refine Conn.Runs.bind (c1 := c) (Conn.Runs.lift (iter_edge he) ?_)
  refine Conn.Runs.bind (c1 := c) ((Conn.Runs.each (P := AtRest x) hg fun y _ g1 hg1 => (whole_dec y hc g1).mono ?_).mono ?_)
  · rintro _ _ rfl
    exact hg1
  intro _ g1 hg1
  refine Conn.Runs.bind (c1 := c) ((whole_delete_ne hV hx he hne hc hg1).mono ?_)
  intro _ g2 hg2
  refine (whole_removeStr _ hc g2).mono ?_
  rintro _ _ rfl
  exact hg2

theorem whole_add (hV : Vocab V) (hx : EdgeOver V x) {e : Val F} (he : EdgeOver V e) (hf : KeyFits k e) (hA : x = e → A) (ts : Int)
    (hc : CurOk c) {g : Nat} (hg : AtRest x g) : (cMyAdd k e ts).Wholes V k x A c c g fun _ => AtRest x := by
  unfold cMyAdd
  obtain ⟨h, h1, h2⟩ := head0_edge he
  refine Conn.Runs.bind (c1 := c) (Conn.Runs.lift h1 ?_)
  rw [h2]
  exact whole_addRaw hV hx he hf hA ts hc hg

theorem whole_addMany (hV : Vocab V) (hx : EdgeOver V x) {b : Bool} {es : List (Val F)} (hne : es ≠ []) (he : ∀ e ∈ es, EdgeOver V e)
    (hf : ∀ e ∈ es, KeyFits k e) (hA : x ∈ es → A) (ts : Int) {g : Nat} (hg : AtRest x g) :
    (cMyAdd k (.seq b es) ts).Wholes V k x A none none g fun _ => AtRest x := by
  unfold cMyAdd
  obtain ⟨h, h1, h2⟩ := head0_coll (b := b) hne he
  refine Conn.Runs.bind (c1 := none) (Conn.Runs.lift h1 ?_)
  rw [h2, if_pos rfl]
  refine Conn.Runs.bind (c1 := some true) (runs_begin.mono ?_)
  rintro _ _ rfl
  refine Conn.Runs.bind (c1 := some true) (Conn.Runs.lift (r := (Val.seq b es).iter) (a := es) rfl ?_)
  refine Conn.Runs.bind (c1 := some true) ((Conn.Runs.each hg fun e hm g hg => whole_addRaw hV hx (he e hm) (hf e hm)
    (fun h => hA (by rw [h]; exact hm)) ts (by simp [CurOk]) hg).mono ?_)
  intro _ g1 hg1
  refine runs_end.mono ?_
  rintro _ _ rfl
  exact hg1

theorem whole_addBelief {src e arg : Val F} (ts : Int) (hb : beliefEdges src e = .ok arg) {c c' : Option Bool} {g : Nat}
    {Q : Unit → Nat → Prop} (h : (cMyAdd k arg ts).Wholes V k x A c c' g Q) : (cMyAddBelief k src e ts).Wholes V k x A c c' g Q := by
  unfold cMyAddBelief
  exact Conn.Runs.bind (c1 := c) (Conn.Runs.lift hb h)

theorem whole_remove (hV : Vocab V) (hx : EdgeOver V x) {e : Val F} (he : EdgeOver V e) (hne : x ≠ e) (hc : CurOk c)
    {g : Nat} (hg : AtRest x g) : (cRemove e).Wholes V k x A c c g fun _ => AtRest x := by
  unfold cRemove
  obtain ⟨h, h1, h2⟩ := head0_edge he
  refine Conn.Runs.bind (c1 := c) (Conn.Runs.lift h1 ?_)
  rw [h2]
  exact whole_removeRaw hV hx he hne hc hg

theorem whole_act (hV : Vocab V) (hx : EdgeOver V x) {a : PAct F} (ho : a.op.Over V) (hf : ∀ e ∈ a.adds, KeyFits k e)
    (hA : x ∈ a.adds → A) (hC : ¬ a.Removes x) (hc : c = none ∨ (CurOk c ∧ a.Single)) {g : Nat} (hg : AtRest x g) :
    (a.myConn k).Wholes V k x A c c g fun _ => AtRest x := by
  have hcok : CurOk c := by
    rcases hc with rfl | h
    · simp [CurOk]
    · exact h.1
  cases a with
  | add e ts => exact whole_add hV hx ho (hf e (by simp [PAct.adds])) (fun h => hA (by simp [PAct.adds, h])) ts hcok hg
  | addMany es ts =>
    have hcn := hc.resolve_right (fun h => h.2)
    subst hcn
    exact whole_addMany hV hx ho.1 ho.2 hf hA ts hg
  | addBelief src e ts =>
    have hcn := hc.resolve_right (fun h => h.2)
    subst hcn
    exact whole_addBelief ts (beliefEdges_single (BeliefOver.edge ho)) (whole_addMany (es := [e, support e src]) hV hx (by simp)
      (by simpa using ⟨BeliefOver.edge ho, support_over ho⟩) hf hA ts hg)
  | addBeliefs src es ts =>
    have hcn := hc.resolve_right (fun h => h.2)
    subst hcn
    have hne' : es.flatMap (fun e => [e, support e src]) ≠ [] := by
      cases es with
      | nil => exact absurd rfl ho.1
      | cons e es => simp
    exact whole_addBelief ts (beliefEdges_many (V := V) ho.1 fun e he => (ho.2 e he).edge)
      (whole_addMany hV hx hne' (belief_pairs ho.2) hf hA ts hg)
  | remove e => exact whole_remove hV hx ho (fun h => hC h) hcok hg
  | removeMany es =>
    show (cRemove (.seq _ es)).Wholes V k x A c c g _
    unfold cRemove
    obtain ⟨h, h1, h2⟩ := head0_coll (b := false) ho.1 ho.2
    refine Conn.Runs.bind (c1 := c) (Conn.Runs.lift h1 ?_)
    rw [h2, if_pos rfl]
    refine Conn.Runs.bind (c1 := c) (Conn.Runs.lift (r := (Val.seq _ es).iter) (a := es) rfl ?_)
    exact Conn.Runs.each hg fun e hm g hg => whole_removeRaw hV hx (ho.2 e hm) (fun h => hC (by rw [h]; exact hm)) hcok hg
  | removeByPattern ps =>
    have ho : PatternOver V ps := ho
    show (cRemoveByPattern (.tup ps)).Wholes V k x A c c g _
    unfold cRemoveByPattern
    refine Conn.Runs.bind (c1 := c) ((whole_pattern hV ho hcok g).mono ?_)
    rintro res _ ⟨h1, rfl⟩
    exact Conn.Runs.each hg fun e hm g hg => whole_remove hV hx (h1 e hm).1 (fun h => hC (by rw [h]; exact (h1 e hm).2)) hcok hg
  | removeBelief src e =>
    have ho : BeliefOver V src e := ho
    show (cRemoveBelief src e).Wholes V k x A c c g _
    unfold cRemoveBelief
    refine Conn.Runs.bind (c1 := c) ((whole_remove hV hx (support_over ho) (fun h => hC (.inr h)) hcok hg).mono ?_)
    intro _ g1 hg1
    refine Conn.Runs.bind (c1 := c) ((whole_sources hV ho.srcConst ho.fact hcok g1).mono ?_)
    rintro res _ rfl
    exact Conn.Runs.ite (fun _ => whole_remove hV hx ho.edge (fun h => hC (.inl h)) hcok hg1) fun _ => Conn.Runs.pure hg1

theorem whole_call (hV : Vocab V) (hx : EdgeOver V x) {p : PCall F} (ho : p.Over V) (hf : ∀ a ∈ p.acts, ∀ e ∈ a.adds, KeyFits k e)
    (hA : ∀ a ∈ p.acts, x ∈ a.adds → A) (hC : ∀ a ∈ p.acts, ¬ a.Removes x) {g : Nat} (hg : AtRest x g) :
    (p.myConn k).Wholes V k x A none none g fun _ => AtRest x := by
  cases p with
  | one a =>
    exact whole_act (k := k) hV hx (a := a) ho (hf a (by simp [PCall.acts])) (hA a (by simp [PCall.acts]))
      (hC a (by simp [PCall.acts])) (.inl rfl) hg
  | batch as =>
    show (cBatch (as.map (PAct.myConn k))).Wholes V k x A none none g _
    unfold cBatch
    refine Conn.Runs.bind (c1 := some true) (runs_begin.mono ?_)
    rintro _ _ rfl
    have hmap : cEach (fun f => f) (as.map (PAct.myConn k)) = cEach (PAct.myConn k) as := by
      clear ho hA hC hf
      induction as with
      | nil => rfl
      | cons a as ih => exact congrArg (fun y => (PAct.myConn k a) >>= fun _ => y) ih
    rw [hmap]
    refine Conn.Runs.bind (c1 := some true) ((Conn.Runs.each hg fun a ha g hg => whole_act hV hx (ho a ha).1 (hf a ha) (hA a ha)
      (hC a ha) (.inr ⟨by simp [CurOk], (ho a ha).2⟩) hg).mono ?_)
    intro _ g1 hg1
    refine runs_end.mono ?_
    rintro _ _ rfl
    exact hg1

theorem whole_client (hV : Vocab V) (hx : EdgeOver V x) {p : List (PCall F)} (ho : ∀ c ∈ p, c.Over V)
    (hf : ∀ a ∈ p.flatMap PCall.acts, ∀ e ∈ a.adds, KeyFits k e)
    (hA : ∀ a ∈ p.flatMap PCall.acts, x ∈ a.adds → A) (hC : ∀ a ∈ p.flatMap PCall.acts, ¬ a.Removes x) {g : Nat} (hg : AtRest x g) :
    (cEach (PCall.myConn k) p).Wholes V k x A none none g fun _ => AtRest x :=
  Conn.Runs.each hg fun c hc g hg => whole_call hV hx (ho c hc) (fun a ha => hf a (List.mem_flatMap.2 ⟨c, hc, ha⟩))
    (fun a ha => hA a (List.mem_flatMap.2 ⟨c, hc, ha⟩)) (fun a ha => hC a (List.mem_flatMap.2 ⟨c, hc, ha⟩)) hg

end GB
