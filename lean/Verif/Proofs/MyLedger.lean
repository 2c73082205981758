import Verif.Proofs.MyBudget

/-! Clients of a MySQL database that only add, however they race: what they have counted. -/

set_option linter.unusedSectionVars false
set_option linter.unusedVariables false

namespace GB

variable {F : Type} [PyFloat F] [DecidableEq F] {V : Val F → Prop} {v : Val F} {kn : Bool} {E : PyErr → Prop} {k : Nat}

/-- What a client has counted for the edge it is adding, the edges that it counted before, and whether it ever counted. -/
structure Tab (F : Type) where
  paid : Nat
  own : List (Val F)
  pos : Bool

def TabI (V : Val F → Prop) (v : Val F) (kn : Bool) (db : DB) : Prop :=
  RowsOk V db.perms ∧ 0 ≤ degRow v db ∧ (kn = true → KnownRow v db)

def TabR (V : Val F → Prop) (v : Val F) (kn : Bool) (g : Tab F) (a b : DB) (g' : Tab F) : Prop :=
  TabI V v kn b ∧ (1 ≤ degRow v a → 1 ≤ degRow v b) ∧
    (kn = true → degRow v a + ((g'.paid + occurrences v g'.own : Nat) : Int) ≤
      degRow v b + ((g.paid + occurrences v g.own : Nat) : Int)) ∧
    (∀ x ∈ g.own, x ∈ g'.own) ∧ (∀ x n, EdgeOver V x → HasRow b.perms x n → HasRow a.perms x n ∨ x ∈ g'.own) ∧
    (g'.pos = true → g.pos = true ∨ 1 ≤ degRow v b) ∧ ∀ x ∈ g'.own, x ∈ g.own ∨ (v ∈ x.elems → g.pos = true)

/-- A step that changes neither the row of the symbol nor the index; the book may be written anew. -/
theorem tab_move {g g' : Tab F} {a b : DB} (hI : TabI V v kn a) (hp : b.perms = a.perms)
    (hs : b.selectVertex (edge2str v) = a.selectVertex (edge2str v))
    (h1 : g'.paid + occurrences v g'.own ≤ g.paid + occurrences v g.own) (h2 : ∀ x ∈ g.own, x ∈ g'.own)
    (h3 : g'.pos = true → g.pos = true) (h4 : ∀ x ∈ g'.own, x ∈ g.own ∨ (v ∈ x.elems → g.pos = true)) :
    TabR V v kn g a b g' := by
  have hd : degRow v b = degRow v a := by unfold degRow; rw [hs]
  refine ⟨⟨by rw [hp]; exact hI.1, by rw [hd]; exact hI.2.1, fun h => ?_⟩, by rw [hd]; exact id, fun _ => by rw [hd]; omega, h2,
    fun x n _ hr => by rw [hp] at hr; exact .inl hr, fun h => .inl (h3 h), h4⟩
  obtain ⟨r, hr⟩ := hI.2.2 h
  exact ⟨r, by rw [hs]; exact hr⟩

theorem tab_same {g : Tab F} {a b : DB} (hI : TabI V v kn a) (hp : b.perms = a.perms)
    (hs : b.selectVertex (edge2str v) = a.selectVertex (edge2str v)) : TabR V v kn g a b g :=
  tab_move hI hp hs (Nat.le_refl _) (fun _ h => h) id fun _ h => .inl h

theorem tab_refl (g : Tab F) (db : DB) (hI : TabI V v kn db) : TabR V v kn g db db g := tab_same hI rfl rfl

/-- A step that counts. -/
theorem tab_count {g : Tab F} {a b : DB} (hI : TabI V v kn a) (hp : b.perms = a.perms) (hk : kn = true → KnownRow v b)
    (hd : 1 ≤ degRow v b) (hd2 : kn = true → degRow v a + 1 ≤ degRow v b) :
    TabR V v kn g a b ⟨g.paid + 1, g.own, true⟩ :=
  ⟨⟨by rw [hp]; exact hI.1, by omega, hk⟩, fun _ => hd, fun h => by have := hd2 h; dsimp only; omega, fun _ h => h,
    fun x n _ hr => by rw [hp] at hr; exact .inl hr, fun _ => .inr hd, fun _ h => .inl h⟩

abbrev Conn.Tabs {α : Type} (V : Val F → Prop) (v : Val F) (kn : Bool) (E : PyErr → Prop) (x : Conn α) (c c' : Option Bool)
    (g : Tab F) (Q : α → Tab F → Prop) : Prop := x.Keeps (TabI V v kn) (TabR V v kn) E c c' g Q

variable {c : Option Bool}

theorem tabs_exists (hV : Vocab V) (hne : ∃ db, TabI V v kn db) {e : Val F} (he : EdgeOver V e) (hc : CurOk c) (g : Tab F) :
    (cExists e).Tabs V v kn E c c g fun _ g' => g = g' := by
  refine (asks_exists e).keeps hc ?_ ?_
  · obtain ⟨db, hI⟩ := hne
    obtain ⟨b, h1, _, h2⟩ := here_exists hV hI.1 he
    exact ⟨db, b, hI, by rw [run_exists]; exact h1, rfl⟩
  · intro db hI
    obtain ⟨b, h1, _, h2⟩ := here_exists hV hI.1 he
    exact ⟨b, g, by rw [run_exists]; exact h1, tab_refl g db hI, rfl⟩

/-- A row of somebody else; the book may be written anew. -/
theorem tabs_addStr_ne {t : Str} (ht : edge2str v ≠ t) (deg ts : Int) (hc : CurOk c) (hE : E .integrityError) {g g1 : Tab F}
    (h1 : g1.paid + occurrences v g1.own ≤ g.paid + occurrences v g.own) (h2 : ∀ x ∈ g.own, x ∈ g1.own)
    (h3 : g1.pos = true → g.pos = true) (h4 : ∀ x ∈ g1.own, x ∈ g.own ∨ (v ∈ x.elems → g.pos = true)) :
    (cMyAddStr k t deg ts).Tabs V v kn E c c g fun _ g' => g1 = g' := by
  unfold cMyAddStr cMyUpdateOrInsertVertex
  refine Conn.Keeps.bind (keeps_open.mono ?_)
  rintro cu _ rfl
  refine Conn.Keeps.bind (Q := fun _ g' => g1 = g') (c1 := c) ?_
  refine (keepsWrite (Q := fun _ g' => g1 = g') hc fun db hI => .inl ⟨(db.myUpdateVertex t deg ts).1, (db.myUpdateVertex t deg ts).2, g1, rfl,
    tab_move hI rfl (select_myUpdate_ne ht deg ts) h1 h2 h3 h4, rfl⟩).mono ?_
  rintro rc _ rfl
  refine Conn.Keeps.ite (fun _ => Conn.Keeps.bind ((keepsWrite (Q := fun _ g' => g1 = g') hc fun db hI => ?_).mono ?_)) fun _ => keeps_close
  · cases hq : db.myInsertVertex k t deg ts with
    | none => exact .inr ⟨rfl, hE⟩
    | some p =>
      obtain ⟨a, db'⟩ := p
      obtain ⟨rfl, _⟩ := myInsert_some hq
      refine .inl ⟨(), _, g1, rfl, tab_same hI rfl ?_, rfl⟩
      rw [select_snoc, if_neg fun h => ht h.symm, List.append_nil]
  · rintro _ _ rfl
    exact keeps_close

/-- A new row of the symbol itself, which is not known to be there. -/
theorem tabs_addStr_eq (hk : kn = false) (ts : Int) (hc : CurOk c) (hE : E .integrityError) (g : Tab F) :
    (cMyAddStr k (edge2str v) 1 ts).Tabs V v kn E c c g fun _ g' => g' = ⟨g.paid + 1, g.own, true⟩ := by
  subst hk
  unfold cMyAddStr cMyUpdateOrInsertVertex
  refine Conn.Keeps.bind (keeps_open.mono ?_)
  rintro cu _ rfl
  refine Conn.Keeps.bind (Q := fun _ (g' : Tab F) => g' = ⟨g.paid + 1, g.own, true⟩) (c1 := c) ?_
  refine (keepsWrite (Q := fun rc g' => if rc = 0 then g' = g else g' = ⟨g.paid + 1, g.own, true⟩) hc fun db hI => .inl ?_).mono ?_
  · by_cases h0 : (db.myUpdateVertex (edge2str v) 1 ts).1 = 0
    · refine ⟨(db.myUpdateVertex (edge2str v) 1 ts).1, (db.myUpdateVertex (edge2str v) 1 ts).2, g, rfl, ?_, by rw [if_pos h0]⟩
      rw [myUpdate_none h0]
      exact tab_refl g db hI
    · exact ⟨(db.myUpdateVertex (edge2str v) 1 ts).1, (db.myUpdateVertex (edge2str v) 1 ts).2, ⟨g.paid + 1, g.own, true⟩, rfl,
        tab_count hI rfl (by simp) (by rw [degRow_myUpdate v db 1 ts h0]; omega) (by simp), by rw [if_neg h0]⟩
  · intro rc g1 h1
    refine Conn.Keeps.ite (fun h0 => ?_) fun h0 => ?_
    · rw [if_pos h0] at h1
      subst h1
      refine Conn.Keeps.bind ((keepsWrite (Q := fun _ g' => ⟨g1.paid + 1, g1.own, true⟩ = g') hc fun db hI => ?_).mono ?_)
      · cases hq : db.myInsertVertex k (edge2str v) 1 ts with
        | none => exact .inr ⟨rfl, hE⟩
        | some p =>
          obtain ⟨a, db'⟩ := p
          obtain ⟨rfl, hn⟩ := myInsert_some hq
          have hd1 : degRow v (DB.mk (db.vertices ++ [⟨edge2str v, 1, ts⟩]) db.perms) = 1 := by
            unfold degRow
            rw [select_snoc, hn, if_pos rfl]
            rfl
          exact .inl ⟨(), _, _, rfl, tab_count hI rfl (by simp) (by rw [hd1]; omega) (by simp), rfl⟩
      · rintro _ _ rfl
        exact keeps_close.mono fun _ _ h => h.symm
    · rw [if_neg h0] at h1
      subst h1
      exact keeps_close.mono fun _ _ h => h.symm

theorem tabs_addVert {x : Val F} (hv : WfVal v) (hx : WfVal x) (ts : Int) (hc : CurOk c) (hE : E .integrityError) (g : Tab F) :
    (cMyAddVert k ts x).Tabs V v kn E c c g fun _ g' => g'.paid = g.paid + (if v = x then 1 else 0) ∧ g'.own = g.own ∧
      (g.pos = true ∨ v = x → g'.pos = true) := by
  have hinj : edge2str v = edge2str x ↔ v = x := ⟨edge2str_inj hv hx, fun h => by rw [h]⟩
  unfold cMyAddVert
  by_cases hvx : v = x
  · subst hvx
    rw [if_pos rfl]
    refine Conn.Keeps.mono (Q := fun _ g' => g' = ⟨g.paid + 1, g.own, true⟩) ?_ (by rintro _ _ rfl; exact ⟨rfl, rfl, fun _ => rfl⟩)
    refine Conn.Keeps.bind (Q := fun _ (g' : Tab F) => g' = ⟨g.paid + 1, g.own, true⟩) (c1 := c) ?_
    refine Conn.Keeps.mono (Q := fun b g' => if b then g' = ⟨g.paid + 1, g.own, true⟩ else g' = g ∧ kn = false) ?_ ?_
    · unfold cIncDegree
      refine Conn.Keeps.bind (keeps_open.mono ?_)
      rintro cu _ rfl
      refine Conn.Keeps.bind (c1 := c) ((keepsWrite
        (Q := fun rc g' => if decide (rc > 0) then g' = ⟨g.paid + 1, g.own, true⟩ else g' = g ∧ kn = false)
        hc fun db hI => .inl ?_).mono ?_)
      · obtain ⟨k1, k2⟩ := degRow_bump_eq v db 1
        cases hk : decide ((db.bumpDegree 1 (edge2str v)).1 > 0) with
        | true =>
          refine ⟨(db.bumpDegree 1 (edge2str v)).1, (db.bumpDegree 1 (edge2str v)).2, ⟨g.paid + 1, g.own, true⟩, rfl,
            tab_count hI rfl (fun h => (degRow_bump (hI.2.2 h) 1 _).1) ?_ ?_, by rw [hk]; rfl⟩
          · rw [k1 hk]; have := hI.2.1; omega
          · rw [k1 hk]; exact fun _ => Int.le_refl _
        | false =>
          have hkf : kn = false := by
            cases kn with
            | false => rfl
            | true => rw [known_bump (hI.2.2 rfl)] at hk; cases hk
          subst hkf
          refine ⟨(db.bumpDegree 1 (edge2str v)).1, (db.bumpDegree 1 (edge2str v)).2, g, rfl, ?_, by rw [hk]; exact ⟨rfl, rfl⟩⟩
          have hd := (k2 hk).1
          exact ⟨⟨hI.1, by rw [hd]; exact hI.2.1, fun h => by cases h⟩, by rw [hd]; exact id, (fun h => by cases h), fun _ h => h,
            fun _ _ _ h => .inl h, fun h => .inl h, fun _ h => .inl h⟩
      · intro rc g1 h1
        refine Conn.Keeps.bind (c1 := c) (keeps_close.mono ?_)
        rintro _ _ rfl
        exact Conn.Keeps.pure h1
    · intro b g1 h1
      cases b with
      | true =>
        simp only [if_true] at h1
        subst h1
        exact Conn.Keeps.pure rfl
      | false =>
        simp only [Bool.false_eq_true, if_false] at h1
        obtain ⟨rfl, hk⟩ := h1
        exact tabs_addStr_eq hk ts hc hE g1
  · have hne : edge2str v ≠ edge2str x := fun h => hvx (hinj.1 h)
    rw [if_neg hvx]
    refine Conn.Keeps.mono (Q := fun _ g' => g = g') ?_ (by rintro _ _ rfl; exact ⟨by simp, rfl, fun h => h.resolve_right hvx⟩)
    refine Conn.Keeps.bind (c1 := c) (Conn.Keeps.mono (Q := fun _ g' => g = g') ?_ ?_)
    · unfold cIncDegree
      refine Conn.Keeps.bind (keeps_open.mono ?_)
      rintro cu _ rfl
      refine Conn.Keeps.bind (c1 := c) ((keepsWrite (Q := fun _ g' => g = g') hc fun db hI => .inl
        ⟨(db.bumpDegree 1 (edge2str x)).1, (db.bumpDegree 1 (edge2str x)).2, g, rfl,
          tab_same hI rfl (select_bump_ne hne 1), rfl⟩).mono ?_)
      rintro _ _ rfl
      refine Conn.Keeps.bind (c1 := c) (keeps_close.mono ?_)
      rintro _ _ rfl
      exact Conn.Keeps.pure rfl
    · rintro b _ rfl
      exact Conn.Keeps.ite (fun _ => tabs_addStr_ne hne 1 ts hc hE (Nat.le_refl _) (fun _ h => h) id fun _ h => .inl h)
        fun _ => Conn.Keeps.pure rfl

theorem tabs_verts (hv : WfVal v) (ts : Int) {xs : List (Val F)} (hx : ∀ x ∈ xs, WfVal x) (hc : CurOk c) (hE : E .integrityError)
    (g : Tab F) : (cEach (cMyAddVert k ts) xs).Tabs V v kn E c c g fun _ g' => g'.paid = g.paid + xs.count v ∧ g'.own = g.own ∧
      (g.pos = true ∨ v ∈ xs → g'.pos = true) := by
  induction xs generalizing g with
  | nil => exact Conn.Keeps.pure ⟨rfl, rfl, fun h => h.resolve_right (by simp)⟩
  | cons x xs ih =>
    refine Conn.Keeps.bind (c1 := c) ((tabs_addVert hv (hx x (by simp)) ts hc hE g).mono ?_)
    rintro _ g1 ⟨h1, h2, h3⟩
    refine (ih (fun y hy => hx y (by simp [hy])) g1).mono ?_
    rintro _ g2 ⟨h4, h5, h6⟩
    refine ⟨?_, h5.trans h2, ?_⟩
    · rw [h4, h1, List.count_cons]
      by_cases hvx : v = x
      · subst hvx; simp; omega
      · have : (x == v) = false := by simpa using fun e => hvx e.symm
        simp [hvx, this]
    · rintro (h | h)
      · exact h6 (.inl (h3 (.inl h)))
      · rcases List.mem_cons.1 h with h | h
        · exact h6 (.inl (h3 (.inr h)))
        · exact h6 (.inr h)

theorem tabs_writePerm (hV : Vocab V) {e : Val F} (he : EdgeOver V e) {n : Nat} (hn : n < factorial e.elems.length)
    (hc : CurOk c) (hE : E .integrityError) {g : Tab F} (hg : e ∈ g.own) :
    (cMyWritePerm (F := F) k (rowOf e.elems n)).Tabs V v kn E c c g fun _ g' => g = g' := by
  unfold cMyWritePerm cMyUpdateOrInsertPerm
  refine Conn.Keeps.bind (keeps_open.mono ?_)
  rintro cu _ rfl
  refine Conn.Keeps.bind (c1 := c) ((keepsWrite (Q := fun rc g' => rc = 0 ∧ g = g') hc fun db hI => .inl
    ⟨0, db, g, rfl, tab_refl g db hI, rfl, rfl⟩).mono ?_)
  rintro rc _ ⟨rfl, rfl⟩
  rw [if_pos rfl]
  refine Conn.Keeps.bind (c1 := c) ((keepsWrite (Q := fun _ g' => g = g') hc fun db hI => ?_).mono ?_)
  · show _ ∨ db.myInsertPerm k (rowOf e.elems n) = none ∧ _
    cases hq : db.myInsertPerm k (rowOf e.elems n) with
    | none => exact .inr ⟨rfl, hE⟩
    | some p =>
      obtain ⟨a, db'⟩ := p
      have := myInsertPerm_some hq
      subst this
      exact .inl ⟨(), ⟨db.vertices, db.perms ++ [rowOf e.elems n]⟩, g, hq, ⟨⟨rowsOk_snoc hI.1 he hn, hI.2⟩, id,
        fun _ => Int.le_refl _, fun _ h => h, fun x m hx h => (hasRow_snoc hV he hx hn h).imp id fun (h : x = e) => by rw [h]; exact hg,
        fun h => .inl h, fun _ h => .inl h⟩, rfl⟩
  · rintro _ _ rfl
    exact keeps_close

theorem tabs_perms (hV : Vocab V) {e : Val F} (he : EdgeOver V e) (hc : CurOk c) (hE : E .integrityError) {g : Tab F} (hg : e ∈ g.own)
    (ns : List Nat) (hns : ∀ n ∈ ns, n < factorial e.elems.length) :
    (cEach (fun nperm => do
      let permS ← cLift (permStr e.elems nperm)
      cMyWritePerm (F := F) k permS) ns).Tabs V v kn E c c g fun _ g' => g = g' := by
  induction ns with
  | nil => exact Conn.Keeps.pure rfl
  | cons n ns ih =>
    have hn := hns n (by simp)
    refine Conn.Keeps.bind (c1 := c) (Conn.Keeps.bind (c1 := c) (Conn.Keeps.lift (permStr_eq he.elems_ne hn)
      ((tabs_writePerm hV he hn hc hE hg).mono ?_)))
    rintro _ _ rfl
    exact ih fun m hm => hns m (by simp [hm])

/-! ### calls -/

/-- The method keeps the book, from any page on. -/
def Conn.Tidy {α : Type} (V : Val F → Prop) (v : Val F) (kn : Bool) (E : PyErr → Prop) (x : Conn α) (c c' : Option Bool) : Prop :=
  ∀ g : Tab F, x.Tabs V v kn E c c' g fun _ _ => True

theorem Conn.Tidy.bind {α β : Type} {x : Conn α} {f : α → Conn β} {c c1 c2 : Option Bool} (hx : x.Tidy V v kn E c c1)
    (hf : ∀ a, (f a).Tidy V v kn E c1 c2) : (x >>= f).Tidy V v kn E c c2 := fun g =>
  Conn.Keeps.bind ((hx g).mono fun a g' _ => hf a g')

theorem Conn.Tidy.bindLift {α β : Type} {r : Except PyErr α} {a : α} (hr : r = .ok a) {f : α → Conn β} {c c2 : Option Bool}
    (hf : (f a).Tidy V v kn E c c2) : (cLift r >>= f).Tidy V v kn E c c2 := fun g =>
  Conn.Keeps.bind (c1 := c) (Conn.Keeps.lift hr (hf g))

theorem Conn.Tidy.each {α : Type} {f : α → Conn Unit} {xs : List α} {c : Option Bool} (h : ∀ x ∈ xs, (f x).Tidy V v kn E c c) :
    (cEach f xs).Tidy V v kn E c c := by
  induction xs with
  | nil => exact fun g => Conn.Keeps.pure trivial
  | cons x xs ih => exact (h x (by simp)).bind fun _ => ih fun y hy => h y (by simp [hy])

theorem tidy_addRaw (hV : Vocab V) (hne : ∃ db, TabI V v kn db) (hv : WfVal v) (ha : v.isAtom = true) {e : Val F}
    (he : EdgeOver V e) (ts : Int) (hc : CurOk c) (hE : E .integrityError) : (cMyAddRaw k e ts).Tidy V v kn E c c := by
  intro g
  unfold cMyAddRaw
  refine Conn.Keeps.bind (c1 := c) ((tabs_exists hV hne he hc g).mono ?_)
  rintro b _ rfl
  cases b with
  | true => exact Conn.Keeps.pure trivial
  | false =>
    show (cMyAddNew k e ts).Tabs V v kn E c c g _
    unfold cMyAddNew
    refine Conn.Keeps.bind (c1 := c) (Conn.Keeps.lift (iter_edge he) ?_)
    refine Conn.Keeps.bind (c1 := c) ((tabs_verts hv ts (edge_wf hV he) hc hE g).mono ?_)
    rintro _ g1 ⟨h1, h2, h3⟩
    refine Conn.Keeps.bind (c1 := c) ((tabs_addStr_ne (g := g1) (g1 := ⟨g.paid, e :: g1.own, g1.pos⟩) (atom_text_ne hV hv ha he) 0 ts hc hE
      ?_ (fun _ h => by simp [h]) id ?_).mono ?_)
    · rw [h1, occurrences_cons]
      dsimp only
      omega
    · intro x hx
      rcases List.mem_cons.1 hx with rfl | hx
      · exact .inr fun hm => h3 (.inr hm)
      · exact .inl hx
    · rintro _ _ rfl
      exact (tabs_perms hV he hc hE (by simp) _ fun n hn => List.mem_range.1 hn).mono fun _ _ _ => trivial

theorem tidy_addMany (hV : Vocab V) (hne : ∃ db, TabI V v kn db) (hv : WfVal v) (ha : v.isAtom = true) {b : Bool}
    {es : List (Val F)} (hes : es ≠ []) (he : ∀ x ∈ es, EdgeOver V x) (ts : Int) (hE : E .integrityError) :
    (cMyAdd k (.seq b es) ts).Tidy V v kn E none none := by
  unfold cMyAdd
  obtain ⟨h, h1, h2⟩ := head0_coll (b := b) hes he
  refine .bindLift h1 ?_
  rw [h2, if_pos rfl]
  refine Conn.Tidy.bind (c1 := some true) (fun g => keeps_begin.mono fun _ _ _ => trivial) fun _ => ?_
  refine Conn.Tidy.bindLift (r := (Val.seq b es).iter) (a := es) rfl ?_
  exact Conn.Tidy.bind (c1 := some true) (.each fun x hx => tidy_addRaw hV hne hv ha (he x hx) ts (by simp [CurOk]) hE) fun _ g =>
    keeps_end.mono fun _ _ _ => trivial

theorem tidy_act (hV : Vocab V) (hne : ∃ db, TabI V v kn db) (hv : WfVal v) (ha : v.isAtom = true) {a : PAct F} (ho : a.op.Over V)
    (hno : ∀ x, ¬ a.Removes x) (hE : E .integrityError) (hc : c = none ∨ (CurOk c ∧ a.Single)) :
    (a.myConn k).Tidy V v kn E c c := by
  have hcok : CurOk c := by
    rcases hc with rfl | h
    · simp [CurOk]
    · exact h.1
  have hnone : ¬ a.Single → c = none := fun h => hc.resolve_right fun h' => h h'.2
  cases a with
  | add e ts =>
    show (cMyAdd k e ts).Tidy V v kn E c c
    unfold cMyAdd
    obtain ⟨h, h1, h2⟩ := head0_edge (V := V) (e := e) ho
    refine .bindLift h1 ?_
    rw [h2]
    exact tidy_addRaw hV hne hv ha ho ts hcok hE
  | addMany es ts =>
    cases hnone id
    exact tidy_addMany hV hne hv ha ho.1 ho.2 ts hE
  | addBelief src e ts =>
    cases hnone id
    have ho : BeliefOver V src e := ho
    show (cMyAddBelief k src e ts).Tidy V v kn E none none
    unfold cMyAddBelief
    refine .bindLift (beliefEdges_single ho.edge) ?_
    exact tidy_addMany hV hne hv ha (by simp) (by simpa using ⟨ho.edge, support_over ho⟩) ts hE
  | addBeliefs src es ts =>
    cases hnone id
    have hne' : es.flatMap (fun e => [e, support e src]) ≠ [] := by
      cases es with
      | nil => exact absurd rfl ho.1
      | cons e es => simp
    show (cMyAddBelief k src (.seq true es) ts).Tidy V v kn E none none
    unfold cMyAddBelief
    refine .bindLift (beliefEdges_many (V := V) ho.1 fun e he => (ho.2 e he).edge) ?_
    exact tidy_addMany hV hne hv ha hne' (belief_pairs ho.2) ts hE
  | remove e => exact absurd rfl (hno e)
  | removeMany es =>
    cases es with
    | nil => exact absurd rfl ho.1
    | cons e es => exact absurd (by simp [PAct.Removes]) (hno e)
  | removeByPattern ps =>
    refine absurd ?_ (hno (.tup ps))
    show Matches ps ps
    clear hno ho hnone hc
    induction ps with
    | nil => trivial
    | cons p ps ih => exact ⟨.inr rfl, ih⟩
  | removeBelief src e => exact absurd (.inl rfl) (hno e)

theorem tidy_client (hV : Vocab V) (hne : ∃ db, TabI V v kn db) (hv : WfVal v) (ha : v.isAtom = true) {p : List (PCall F)}
    (ho : ∀ c ∈ p, c.Over V) (hno : ∀ a ∈ p.flatMap PCall.acts, ∀ x, ¬ a.Removes x) (hE : E .integrityError) :
    (cEach (PCall.myConn k) p).Tidy V v kn E none none := by
  refine .each fun q hq => ?_
  have ho := ho q hq
  have hno : ∀ a ∈ q.acts, ∀ x, ¬ a.Removes x := fun a ha => hno a (List.mem_flatMap.2 ⟨q, hq, ha⟩)
  cases q with
  | one a => exact tidy_act (a := a) hV hne hv ha ho (hno a (by simp [PCall.acts])) hE (.inl rfl)
  | batch as =>
    show (cBatch (as.map (PAct.myConn k))).Tidy V v kn E none none
    unfold cBatch
    refine Conn.Tidy.bind (c1 := some true) (fun g => keeps_begin.mono fun _ _ _ => trivial) fun _ => ?_
    refine Conn.Tidy.bind (c1 := some true) (.each fun f hf => ?_) fun _ g => keeps_end.mono fun _ _ _ => trivial
    obtain ⟨a, ha', rfl⟩ := List.mem_map.1 hf
    exact tidy_act hV hne hv ha (ho a ha').1 (hno a ha') hE (.inr ⟨by simp [CurOk], (ho a ha').2⟩)

end GB
