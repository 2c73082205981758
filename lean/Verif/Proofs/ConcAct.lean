import Verif.Proofs.ConcStep

/-! What the calls of a process may do, and what they achieve on edges no other process touches. -/

set_option linter.unusedSectionVars false

namespace GB

variable {F : Type} [PyFloat F] [DecidableEq F] {V : Val F → Prop}

/-- The invariant of the contents: rows of edges over the vocabulary, and the watched symbol (if any) has
its row. -/
def CInv (V : Val F → Prop) (W : Option (Val F)) (db : DB) : Prop :=
  RowsOk V db.perms ∧ ∀ v, W = some v → KnownRow v db

/-- Rows of edges not in `T` stay, rows of edges not in `R` are not removed. -/
def Only (V T R : Val F → Prop) (db db' : DB) : Prop :=
  ∀ x, EdgeOver V x → (¬ T x → ∀ n, HasRow db'.perms x n ↔ HasRow db.perms x n) ∧
    (¬ R x → ∀ n, HasRow db.perms x n → HasRow db'.perms x n)

theorem Only.of_perms {T R : Val F → Prop} {db db' : DB} (h : db'.perms = db.perms) : Only V T R db db' := by
  intro x _
  rw [h]
  exact ⟨fun _ _ => Iff.rfl, fun _ _ h => h⟩

theorem Only.trans {T R : Val F → Prop} {a b c : DB} (h1 : Only V T R a b) (h2 : Only V T R b c) : Only V T R a c := by
  intro x hx
  refine ⟨fun ht n => ((h2 x hx).1 ht n).trans ((h1 x hx).1 ht n), fun hr n h => (h2 x hx).2 hr n ((h1 x hx).2 hr n h)⟩

variable {W : Option (Val F)} {T R : Val F → Prop}

/-- The watched symbol is one. -/
def WOk (W : Option (Val F)) : Prop := ∀ v, W = some v → WfVal v ∧ v.isAtom = true

theorem Proc.Safe.done {α : Type} {I : DB → Prop} {G : DB → DB → Prop} (a : α) : (Proc.ret (.ok a)).Safe I G := ⟨a, rfl⟩

theorem safe_exists (hV : Vocab V) {e : Val F} (he : EdgeOver V e) :
    (Proc.atom (existsM e)).Safe (CInv V W) (Only V T R) := by
  refine Proc.Safe.atom fun db hI => ?_
  obtain ⟨b, h1, h2, _⟩ := here_exists hV hI.1 he
  exact ⟨b, db, h1, h2, hI, Only.of_perms rfl⟩

theorem safe_inc (t : Str) : (Proc.atom (incDegree t)).Safe (CInv V W) (Only V T R) := by
  refine Proc.Safe.atom fun db hI => ⟨_, _, (here_inc db t).1, (here_inc db t).2, ?_, Only.of_perms rfl⟩
  exact ⟨hI.1, fun v hv => (degRow_bump (hI.2 v hv) 1 t).1⟩

theorem safe_dec (t : Str) : (Proc.atom (decDegree t)).Safe (CInv V W) (Only V T R) := by
  refine Proc.Safe.atom fun db hI => ⟨_, _, (here_dec db t).1, (here_dec db t).2, ?_, Only.of_perms rfl⟩
  exact ⟨hI.1, fun v hv => (degRow_bump (hI.2 v hv) (-1) t).1⟩

theorem upsert_perms (db : DB) (t : Str) (d ts : Int) : (db.upsertVertex t d ts).perms = db.perms := by
  unfold DB.upsertVertex; split <;> rfl

theorem upsertPerm_vertices (db : DB) (t : Str) : (db.upsertPerm t).vertices = db.vertices := by
  unfold DB.upsertPerm; split <;> rfl

theorem safe_addStr (t : Str) (d ts : Int) : (Proc.atom (addStr t d ts)).Safe (CInv V W) (Only V T R) := by
  refine Proc.Safe.atom fun db hI => ⟨_, _, (here_addStr db t d ts).1, (here_addStr db t d ts).2, ?_,
    Only.of_perms (upsert_perms db t d ts)⟩
  refine ⟨?_, fun v hv => (degRow_upsert (hI.2 v hv) d ts).1⟩
  rw [upsert_perms]; exact hI.1

theorem safe_removeStr (hV : Vocab V) (hW : WOk W) {e : Val F} (he : EdgeOver V e) :
    (Proc.atom (removeStr (edge2str e))).Safe (CInv V W) (Only V T R) := by
  refine Proc.Safe.atom fun db hI => ⟨_, _, (here_removeStr db _).1, (here_removeStr db _).2, ?_, Only.of_perms rfl⟩
  exact ⟨hI.1, fun v hv => (degRow_delete (hI.2 v hv) (atom_text_ne hV (hW v hv).1 (hW v hv).2 he)).1⟩

theorem known_of_vertices {v : Val F} {db db' : DB} (h : db'.vertices = db.vertices) :
    (KnownRow v db' ↔ KnownRow v db) ∧ degRow v db' = degRow v db := by
  unfold KnownRow degRow DB.selectVertex
  rw [h]
  exact ⟨Iff.rfl, rfl⟩

theorem safe_write (hV : Vocab V) {e : Val F} (he : EdgeOver V e) {n : Nat} (hn : n < factorial e.elems.length)
    (ht : T e) : (Proc.atom (writeEdgePermutation (F := F) (rowOf e.elems n))).Safe (CInv V W) (Only V T R) := by
  refine Proc.Safe.atom fun db hI => ⟨_, _, (here_write (F := F) db _).1, (here_write (F := F) db _).2, ?_, ?_⟩
  · exact ⟨rowsOk_upsert he hn hI.1, fun v hv => (known_of_vertices (upsertPerm_vertices _ _)).1.2 (hI.2 v hv)⟩
  · intro x hx
    refine ⟨fun hx' k => ?_, fun _ k h => ?_⟩
    · rw [hasRow_upsert hV he hx hn]
      refine ⟨fun h => h.resolve_right ?_, .inl⟩
      rintro ⟨rfl, _⟩
      exact hx' ht
    · rw [hasRow_upsert hV he hx hn]
      exact .inl h

theorem safe_delete (hV : Vocab V) {e : Val F} (he : EdgeOver V e) {n : Nat} (hn : n < factorial e.elems.length)
    (ht : T e) (hr : R e) :
    (Proc.atom (removeEdgePermutation (F := F) (rowOf e.elems n))).Safe (CInv V W) (Only V T R) := by
  refine Proc.Safe.atom fun db hI => ⟨_, _, (here_delete (F := F) db _).1, (here_delete (F := F) db _).2, ?_, ?_⟩
  · exact ⟨rowsOk_delete hI.1, hI.2⟩
  · intro x hx
    refine ⟨fun hx' k => ?_, fun hx' k h => ?_⟩
    · rw [hasRow_delete hV he hx hn]
      refine ⟨fun h => h.1, fun h => ⟨h, ?_⟩⟩
      rintro ⟨rfl, _⟩
      exact hx' ht
    · rw [hasRow_delete hV he hx hn]
      refine ⟨h, ?_⟩
      rintro ⟨rfl, _⟩
      exact hx' hr

theorem safe_perms {e : Val F} (he : EdgeOver V e) {f : Str → M Unit} {I : DB → Prop} {G : DB → DB → Prop}
    (h : ∀ n, n < factorial e.elems.length → (Proc.atom (f (rowOf e.elems n))).Safe I G) :
    (permsP e.elems f).Safe I G := by
  refine Proc.Safe.each fun n hn => ?_
  rw [List.mem_range] at hn
  rw [permStr_eq he.elems_ne hn]
  exact h n hn

theorem safe_addVert (ts : Int) (x : Val F) : (addVertP ts x).Safe (CInv V W) (Only V T R) := by
  refine (safe_inc _).bind fun b => ?_
  split
  · exact safe_addStr _ _ _
  · exact ⟨(), rfl⟩

theorem safe_add (hV : Vocab V) {e : Val F} (he : EdgeOver V e) (ts : Int) (ht : T e) :
    (addP e ts).Safe (CInv V W) (Only V T R) := by
  refine (safe_exists hV he).bind fun b => ?_
  split
  · rw [iter_edge he]
    exact (Proc.Safe.each fun x _ => safe_addVert ts x).bind fun _ => (safe_addStr _ _ _).bind fun _ =>
      safe_perms he fun n hn => safe_write hV he hn ht
  · exact ⟨(), rfl⟩

theorem safe_remove (hV : Vocab V) (hW : WOk W) {e : Val F} (he : EdgeOver V e) (ht : T e) (hr : R e) :
    (removeP e).Safe (CInv V W) (Only V T R) := by
  refine (safe_exists hV he).bind fun b => ?_
  split
  · rw [iter_edge he]
    exact (Proc.Safe.each fun x _ => (safe_dec _).bind fun _ => Proc.Safe.done ()).bind fun _ =>
      (safe_perms he fun n hn => safe_delete hV he hn ht hr).bind fun _ => safe_removeStr hV hW he
  · exact ⟨(), rfl⟩

theorem Only.addEff (hV : Vocab V) {e : Val F} (he : EdgeOver V e) (ht : T e) {db db' : DB} (h : AddEff e db db') :
    Only V T R db db' := by
  intro x hx
  refine ⟨fun hx' k => ?_, fun _ k h' => ?_⟩
  · rw [h.hasRow hV he hx]
    refine ⟨fun h => h.resolve_right ?_, .inl⟩
    rintro ⟨rfl, _⟩
    exact hx' ht
  · rw [h.hasRow hV he hx]
    exact .inl h'

theorem AddEff.known (hW : WOk W) {e : Val F} {db db' : DB} (h : AddEff e db db') (hk : ∀ v, W = some v → KnownRow v db) :
    ∀ v, W = some v → KnownRow v db' :=
  fun v hv => (h.2.1 v (hW v hv).1 (hW v hv).2 (hk v hv)).1

theorem RawEff.only (hV : Vocab V) {e : Val F} (he : EdgeOver V e) (ht : T e) {db db' : DB} (h : RawEff e db db') :
    Only V T R db db' := by
  rcases h with ⟨_, rfl⟩ | ⟨_, h⟩
  · exact Only.of_perms rfl
  · exact Only.addEff hV he ht h

theorem RawEff.known (hW : WOk W) {e : Val F} {db db' : DB} (h : RawEff e db db') (hk : ∀ v, W = some v → KnownRow v db) :
    ∀ v, W = some v → KnownRow v db' := by
  rcases h with ⟨_, rfl⟩ | ⟨_, h⟩
  · exact hk
  · exact h.known hW hk

theorem chain_only (hV : Vocab V) (hW : WOk W) {es : List (Val F)} (hes : ∀ x ∈ es, EdgeOver V x) (ht : ∀ x ∈ es, T x)
    {db db' : DB} (h : Chain RawEff es db db') :
    Only V T R db db' ∧ ((∀ v, W = some v → KnownRow v db) → ∀ v, W = some v → KnownRow v db') := by
  induction es generalizing db with
  | nil => cases h; exact ⟨Only.of_perms rfl, fun h => h⟩
  | cons e es ih =>
    obtain ⟨b, h1, h2⟩ := h
    obtain ⟨i1, i2⟩ := ih (fun x hx => hes x (by simp [hx])) (fun x hx => ht x (by simp [hx])) h2
    exact ⟨(h1.only hV (hes e (by simp)) (ht e (by simp))).trans i1, fun hk => i2 (h1.known hW hk)⟩

theorem safe_addMany (hV : Vocab V) (hW : WOk W) (ts : Int) {es : List (Val F)} (hes : ∀ x ∈ es, EdgeOver V x)
    (ht : ∀ x ∈ es, T x) : (addManyP ts es).Safe (CInv V W) (Only V T R) := by
  induction es with
  | nil => exact ⟨(), rfl⟩
  | cons e es ih =>
    have he := hes e (by simp)
    have hes' : ∀ x ∈ es, EdgeOver V x := fun x hx => hes x (by simp [hx])
    refine (safe_exists hV he).bind fun b => ?_
    split
    · refine Proc.Safe.atom fun db hI => ?_
      obtain ⟨s', db1, db2, e1, d1, _, _, r1, r2, a1, c1⟩ := bulk_run hV he hes' ts db hI.1
      obtain ⟨o1, o2⟩ := chain_only (T := T) (R := R) hV hW hes' (fun x hx => ht x (by simp [hx])) c1
      exact ⟨(), db2, by rw [e1], by rw [e1]; exact d1, ⟨r2, o2 (a1.known hW hI.2)⟩,
        (Only.addEff hV he (ht e (by simp)) a1).trans o1⟩
    · exact ih hes' (fun x hx => ht x (by simp [hx]))

/-! ### the calls as processes -/

theorem addAny_edge {e : Val F} (he : EdgeOver V e) (ts : Int) : addAnyP e ts = addP e ts := by
  obtain ⟨h, hh, hs⟩ := head0_edge he
  unfold addAnyP
  rw [hh]
  simp only [Proc.bind, hs, Bool.false_eq_true, if_false]

theorem removeAny_edge {e : Val F} (he : EdgeOver V e) : removeAnyP e = removeP e := by
  obtain ⟨h, hh, hs⟩ := head0_edge he
  unfold removeAnyP
  rw [hh]
  simp only [Proc.bind, hs, Bool.false_eq_true, if_false]

theorem addAny_many {b : Bool} {es : List (Val F)} (hne : es ≠ []) (hes : ∀ e ∈ es, EdgeOver V e) (ts : Int) :
    addAnyP (.seq b es) ts = addManyP ts es := by
  obtain ⟨h, hh, hs⟩ := head0_coll (b := b) hne hes
  unfold addAnyP
  rw [hh]
  simp only [Proc.bind, hs, if_true]
  rfl

theorem removeAny_many {b : Bool} {es : List (Val F)} (hne : es ≠ []) (hes : ∀ e ∈ es, EdgeOver V e) :
    removeAnyP (.seq b es) = Proc.each removeP es := by
  obtain ⟨h, hh, hs⟩ := head0_coll (b := b) hne hes
  unfold removeAnyP
  rw [hh]
  simp only [Proc.bind, hs, if_true]
  rfl

theorem belief_pairs {src : Val F} {es : List (Val F)} (h : ∀ e ∈ es, BeliefOver V src e) :
    ∀ x ∈ es.flatMap (fun e => [e, support e src]), EdgeOver V x := by
  intro x hx
  obtain ⟨e, he, hx⟩ := List.mem_flatMap.1 hx
  simp only [List.mem_cons, List.not_mem_nil, or_false] at hx
  rcases hx with rfl | rfl
  · exact (h x he).edge
  · exact support_over (h e he)

theorem mem_pairs {src x : Val F} {es : List (Val F)} :
    x ∈ es.flatMap (fun e => [e, support e src]) ↔ ∃ e ∈ es, x = e ∨ x = support e src := by
  simp [List.mem_flatMap]

theorem proc_addBelief {src e : Val F} (h : BeliefOver V src e) (ts : Int) :
    (PAct.addBelief src e ts).proc = addManyP ts [e, support e src] := by
  show addBeliefP src e ts = _
  unfold addBeliefP
  rw [beliefEdges_single h.edge]
  refine addAny_many (V := V) (by simp) ?_ ts
  intro x hx
  simp only [List.mem_cons, List.not_mem_nil, or_false] at hx
  rcases hx with rfl | rfl
  · exact h.edge
  · exact support_over h

theorem proc_addBeliefs {src : Val F} {es : List (Val F)} (hne : es ≠ []) (h : ∀ e ∈ es, BeliefOver V src e) (ts : Int) :
    (PAct.addBeliefs src es ts).proc = addManyP ts (es.flatMap fun e => [e, support e src]) := by
  show addBeliefP src (.seq true es) ts = _
  unfold addBeliefP
  rw [beliefEdges_many (V := V) hne fun e he => (h e he).edge]
  refine addAny_many (V := V) ?_ (belief_pairs h) ts
  cases es with
  | nil => exact absurd rfl hne
  | cons e es => simp

theorem proc_removeBelief {src e : Val F} (h : BeliefOver V src e) :
    (PAct.removeBelief src e).proc = (removeP (support e src)).bind fun _ => (Proc.atom (hgSources e)).bind fun srcs =>
      if srcs.length = 0 then removeP e else .ret (.ok ()) := by
  show removeBeliefP src e = _
  unfold removeBeliefP Proc.seq
  rw [show (Val.tup [.str constSource, e, src] : Val F) = support e src from rfl, removeAny_edge (support_over h),
    removeAny_edge h.edge]

theorem here_sources (hV : Vocab V) {e : Val F} (hc : V (.str (lit "src/1"))) (he : V e) {db : DB} (hR : RowsOk V db.perms) :
    ∃ res, ((hgSources e) (reopen db false)).1 = .ok res ∧ ((hgSources e) (reopen db false)).2.disk = db ∧
      ∀ x, x ∈ res ↔ EdgeOver V (support e x) ∧ ∃ n, HasRow db.perms (support e x) n ∧
        patStart [.str (lit "src/1"), e, .none] <+: rowOf (support e x).elems n := by
  obtain ⟨res, h1, _, h2⟩ := sources_rows hV hc he (s := reopen db false) (by simp [St.usable, reopen]) hR
  exact ⟨res, by rw [h1], by rw [h1]; rfl, h2⟩

theorem here_pattern (hV : Vocab V) {ps : List (Val F)} (hp : PatternOver V ps) {db : DB} (hR : RowsOk V db.perms) :
    ∃ res, ((hgPattern2edges (.tup ps)) (reopen db false)).1 = .ok res ∧
      ((hgPattern2edges (.tup ps)) (reopen db false)).2.disk = db ∧ res.Nodup ∧
      ∀ x, x ∈ res ↔ EdgeOver V x ∧ Matches ps x.elems ∧ ∃ n, HasRow db.perms x n ∧ patStart ps <+: rowOf x.elems n := by
  obtain ⟨res, h1, h2, h3⟩ := pattern_rows hV (b := false) hp (s := reopen db false) (by simp [St.usable, reopen]) hR
  have h1 : hgPattern2edges (.tup ps) (reopen db false) = (.ok res, reopen db false) := h1
  exact ⟨res, by rw [h1], by rw [h1]; rfl, h2, h3⟩

/-- Going on after a step, with what the step returned. -/
theorem Proc.Safe.then {α β : Type} {I : DB → Prop} {G : DB → DB → Prop} {m : M α} {f : α → Proc β}
    (h : ∀ db, I db → ∃ a db', (m (reopen db false)).1 = .ok a ∧ (m (reopen db false)).2.disk = db' ∧ I db' ∧ G db db' ∧
      (f a).Safe I G) : ((Proc.atom m).bind f).Safe I G := by
  intro db hI
  obtain ⟨a, db', h1, h2, h3, h4, h5⟩ := h db hI
  simp only [h2]
  refine ⟨h3, h4, ?_⟩
  show (Proc.bind (.ret (m (reopen db false)).1) f).Safe I G
  rw [h1]
  exact h5

/-- Edges are removed one by one, as many as a query found. -/
theorem safe_byPattern (hV : Vocab V) {I : DB → Prop} (hI : ∀ db, I db → RowsOk V db.perms) {G : DB → DB → Prop}
    (hG : ∀ db, G db db) {ps : List (Val F)} (hp : PatternOver V ps)
    (h : ∀ x, EdgeOver V x → Matches ps x.elems → (removeP x).Safe I G) :
    (PAct.removeByPattern ps).proc.Safe I G := by
  refine Proc.Safe.then fun db hdb => ?_
  obtain ⟨res, h1, h2, _, h4⟩ := here_pattern hV hp (hI db hdb)
  refine ⟨res, db, h1, h2, hdb, hG db, Proc.Safe.each fun x hx => ?_⟩
  obtain ⟨k1, k2, _⟩ := (h4 x).1 hx
  rw [removeAny_edge k1]
  exact h x k1 k2

theorem safe_belief (hV : Vocab V) {I : DB → Prop} (hI : ∀ db, I db → RowsOk V db.perms) {G : DB → DB → Prop}
    (hG : ∀ db, G db db) {src e : Val F} (hb : BeliefOver V src e) (h : ∀ x, x = e ∨ x = support e src → (removeP x).Safe I G) :
    (PAct.removeBelief src e).proc.Safe I G := by
  rw [proc_removeBelief hb]
  refine (h _ (.inr rfl)).bind fun _ => Proc.Safe.then fun db hdb => ?_
  obtain ⟨res, h1, h2, _⟩ := here_sources hV hb.srcConst hb.fact (hI db hdb)
  refine ⟨res, db, h1, h2, hdb, hG db, ?_⟩
  split
  · exact h _ (.inl rfl)
  · exact ⟨(), rfl⟩

theorem safe_act (hV : Vocab V) (hW : WOk W) {a : PAct F} (ha : a.op.Over V) (ht : ∀ x, a.Touches x → T x)
    (hr : ∀ x, a.Removes x → R x) : a.proc.Safe (CInv V W) (Only V T R) := by
  cases a with
  | add e ts =>
    show (addAnyP e ts).Safe _ _
    rw [addAny_edge ha]; exact safe_add hV ha ts (ht e rfl)
  | addMany es ts =>
    show (addAnyP (.seq true es) ts).Safe _ _
    rw [addAny_many ha.1 ha.2]; exact safe_addMany hV hW ts ha.2 ht
  | remove e =>
    show (removeAnyP e).Safe _ _
    rw [removeAny_edge ha]; exact safe_remove hV hW ha (ht e rfl) (hr e rfl)
  | removeMany es =>
    show (removeAnyP (.seq true es)).Safe _ _
    rw [removeAny_many ha.1 ha.2]
    exact Proc.Safe.each fun x hx => safe_remove hV hW (ha.2 x hx) (ht x hx) (hr x hx)
  | removeByPattern ps =>
    exact safe_byPattern hV (fun _ h => h.1) (fun _ => Only.of_perms rfl) ha fun x hx hm =>
      safe_remove hV hW hx (ht x hm) (hr x hm)
  | addBelief src e ts =>
    rw [proc_addBelief ha]
    exact safe_addMany hV hW ts (by simpa using ⟨ha.edge, support_over ha⟩) fun x hx => ht x (by simpa [PAct.Touches] using hx)
  | addBeliefs src es ts =>
    rw [proc_addBeliefs ha.1 ha.2]
    exact safe_addMany hV hW ts (belief_pairs ha.2) fun x hx => ht x (mem_pairs.1 hx)
  | removeBelief src e =>
    refine safe_belief hV (fun _ h => h.1) (fun _ => Only.of_perms rfl) ha fun x hx => ?_
    have hx' : EdgeOver V x := by
      rcases hx with rfl | rfl
      · exact ha.edge
      · exact support_over ha
    exact safe_remove hV hW hx' (ht x hx) (hr x hx)

theorem safe_program (hV : Vocab V) (hW : WOk W) {prog : List (PAct F)} (ha : ∀ a ∈ prog, a.op.Over V) :
    (programP prog).Safe (CInv V W) (Only V (fun x => Program.Touches prog x) (fun x => Program.Removes prog x)) :=
  Proc.Safe.each fun a h => safe_act hV hW (ha a h) (fun _ hx => ⟨a, h, hx⟩) (fun _ hx => ⟨a, h, hx⟩)

/-! ### edges of one process only -/

/-- The rows of the edges in `O`. -/
def ownRows (O : Val F → Prop) (db : DB) : Val F → Nat → Prop := fun e n => O e ∧ HasRow db.perms e n

/-- All rows of the edges in `O` that are present, none of the others. -/
def fullRows (O P : Val F → Prop) : Val F → Nat → Prop := fun e n => O e ∧ P e ∧ n < factorial e.elems.length

/-- The degree of the watched symbol. -/
def watched (W : Option (Val F)) (db : DB) : Int :=
  match W with
  | none => 0
  | some v => degRow v db

/-- How often the watched symbol occurs in `e`. -/
def occW (W : Option (Val F)) (e : Val F) : Int :=
  match W with
  | none => 0
  | some v => (e.elems.count v : Nat)

theorem watched_same {db db' : DB} (h : ∀ v, W = some v → degRow v db' = degRow v db) : watched W db' = watched W db := by
  unfold watched
  split
  · rfl
  · exact h _ rfl

variable {O P : Val F → Prop}

theorem ownRows_perms {db db' : DB} (h : db'.perms = db.perms) : ownRows O db' = ownRows O db := by
  unfold ownRows; rw [h]

theorem only_own {a b : DB} (hO : ∀ x, O x → EdgeOver V x ∧ ¬ T x) (h : Only V T R a b) : ownRows O b = ownRows O a := by
  funext e n
  unfold ownRows
  refine propext (and_congr_right fun ho => ?_)
  exact (h e (hO e ho).1).1 (hO e ho).2 n

abbrev Owns (V : Val F → Prop) (W : Option (Val F)) (O : Val F → Prop) (p : Proc Unit) (S : Val F → Nat → Prop) (c : Int)
    (Q : Unit → (Val F → Nat → Prop) → Int → Prop) : Prop :=
  p.Track (CInv V W) (ownRows O) (watched W) S c Q

theorem own_addVert (hW : WOk W) {x : Val F} (hx : WfVal x) (ts : Int) (S : Val F → Nat → Prop) (c : Int) :
    Owns V W O (addVertP ts x) S c fun _ S' c' => S' = S ∧ c' = c + if W = some x then 1 else 0 := by
  have hinj : ∀ v : Val F, WfVal v → (edge2str v = edge2str x ↔ v = x) :=
    fun v hv => ⟨edge2str_inj hv hx, fun h => by rw [h]⟩
  refine Proc.Track.bind (Proc.Track.atom fun db hI hS => ⟨_, _, (here_inc db _).1, (here_inc db _).2, ?_, ?_⟩)
  · exact ⟨hI.1, fun v hv => (degRow_bump (hI.2 v hv) 1 _).1⟩
  · have hS' : ownRows O (db.bumpDegree 1 (edge2str x)).2 = S :=
      (ownRows_perms (db := db) (db' := (db.bumpDegree 1 (edge2str x)).2) rfl).trans hS
    have hc : watched W (db.bumpDegree 1 (edge2str x)).2 - watched W db = if W = some x then 1 else 0 := by
      cases hw : W with
      | none => simp [watched]
      | some v =>
        simp only [watched, (degRow_bump (hI.2 v hw) 1 (edge2str x)).2, hinj v (hW v hw).1, Option.some.injEq]
        split <;> omega
    rw [hS', hc]
    split
    · rename_i hk
      have hne : W ≠ some x := by
        intro hw
        rw [known_bump (hI.2 x hw)] at hk
        simp at hk
      refine Proc.Track.atom fun db hI hS => ⟨_, _, (here_addStr db _ _ _).1, (here_addStr db _ _ _).2, ?_, ?_, ?_⟩
      · refine ⟨?_, fun v hv => (degRow_upsert (hI.2 v hv) _ _).1⟩
        rw [upsert_perms]; exact hI.1
      · rw [ownRows_perms (upsert_perms _ _ _ _)]; exact hS
      · rw [watched_same (db := db)]
        · omega
        · intro v hv
          refine (degRow_upsert (hI.2 v hv) _ _).2 ?_
          rw [Ne, hinj v (hW v hv).1]
          rintro rfl
          exact hne hv
    · exact ⟨(), rfl, rfl, rfl⟩

theorem own_decVert (hW : WOk W) {x : Val F} (hx : WfVal x) (S : Val F → Nat → Prop) (c : Int) :
    Owns V W O ((Proc.atom (decDegree (edge2str x))).bind fun _ => .ret (.ok ())) S c
      fun _ S' c' => S' = S ∧ c' = c + if W = some x then -1 else 0 := by
  have hinj : ∀ v : Val F, WfVal v → (edge2str v = edge2str x ↔ v = x) :=
    fun v hv => ⟨edge2str_inj hv hx, fun h => by rw [h]⟩
  refine Proc.Track.bind (Proc.Track.atom fun db hI hS => ⟨_, _, (here_dec db _).1, (here_dec db _).2, ?_, ?_⟩)
  · exact ⟨hI.1, fun v hv => (degRow_bump (hI.2 v hv) (-1) _).1⟩
  · have hS' : ownRows O (db.bumpDegree (-1) (edge2str x)).2 = S :=
      (ownRows_perms (db := db) (db' := (db.bumpDegree (-1) (edge2str x)).2) rfl).trans hS
    have hc : watched W (db.bumpDegree (-1) (edge2str x)).2 - watched W db = if W = some x then -1 else 0 := by
      cases hw : W with
      | none => simp [watched]
      | some v =>
        simp only [watched, (degRow_bump (hI.2 v hw) (-1) (edge2str x)).2, hinj v (hW v hw).1, Option.some.injEq]
        split <;> omega
    rw [hS', hc]
    exact ⟨(), rfl, rfl, rfl⟩

theorem foldl_const {α β : Type} (xs : List α) (S : β) : xs.foldl (fun S _ => S) S = S := by
  induction xs with
  | nil => rfl
  | cons x xs ih => exact ih

theorem sum_zero {α : Type} (l : List α) : (l.map fun _ => (0 : Int)).sum = 0 := by
  induction l with
  | nil => rfl
  | cons a l ih => rw [List.map_cons, List.sum_cons, ih]; rfl

theorem sum_occ (W : Option (Val F)) (xs : List (Val F)) (k : Int) :
    (xs.map fun x => if W = some x then k else 0).sum = match W with | none => 0 | some v => k * (xs.count v : Nat) := by
  cases W with
  | none => simpa using sum_zero xs
  | some v =>
    induction xs with
    | nil => simp
    | cons x xs ih =>
      rw [List.map_cons, List.sum_cons, ih]
      simp only [List.count_cons]
      by_cases h : v = x
      · subst h; simp [Int.mul_add]; omega
      · have : (x == v) = false := by simpa using fun h' => h h'.symm
        simp [h, this]

theorem own_write (hV : Vocab V) {e : Val F} (he : EdgeOver V e) (ho : O e) (hO : ∀ x, O x → EdgeOver V x) {n : Nat}
    (hn : n < factorial e.elems.length) (S : Val F → Nat → Prop) (c : Int) :
    Owns V W O (Proc.atom (writeEdgePermutation (F := F) (rowOf e.elems n))) S c
      fun _ S' c' => S' = (fun x k => S x k ∨ (x = e ∧ k = n)) ∧ c' = c + 0 := by
  refine Proc.Track.atom fun db hI hS => ⟨_, _, (here_write (F := F) db _).1, (here_write (F := F) db _).2, ?_, ?_, ?_⟩
  · exact ⟨rowsOk_upsert he hn hI.1, fun v hv => (known_of_vertices (upsertPerm_vertices _ _)).1.2 (hI.2 v hv)⟩
  · rw [← hS]
    funext x k
    unfold ownRows
    apply propext
    constructor
    · rintro ⟨h1, h2⟩
      rw [hasRow_upsert hV he (hO x h1) hn] at h2
      exact h2.imp (fun h => ⟨h1, h⟩) id
    · rintro (⟨h1, h2⟩ | ⟨rfl, rfl⟩)
      · exact ⟨h1, (hasRow_upsert hV he (hO x h1) hn _ _).2 (.inl h2)⟩
      · exact ⟨ho, (hasRow_upsert hV he he hn _ _).2 (.inr ⟨rfl, rfl⟩)⟩
  · rw [watched_same (db := db) fun v _ => (known_of_vertices (upsertPerm_vertices _ _)).2]
    omega

theorem own_delete (hV : Vocab V) {e : Val F} (he : EdgeOver V e) (hO : ∀ x, O x → EdgeOver V x) {n : Nat}
    (hn : n < factorial e.elems.length) (S : Val F → Nat → Prop) (c : Int) :
    Owns V W O (Proc.atom (removeEdgePermutation (F := F) (rowOf e.elems n))) S c
      fun _ S' c' => S' = (fun x k => S x k ∧ ¬ (x = e ∧ k = n)) ∧ c' = c + 0 := by
  refine Proc.Track.atom fun db hI hS => ⟨_, _, (here_delete (F := F) db _).1, (here_delete (F := F) db _).2, ?_, ?_, ?_⟩
  · exact ⟨rowsOk_delete hI.1, hI.2⟩
  · rw [← hS]
    funext x k
    unfold ownRows
    apply propext
    constructor
    · rintro ⟨h1, h2⟩
      rw [hasRow_delete hV he (hO x h1) hn] at h2
      exact ⟨⟨h1, h2.1⟩, h2.2⟩
    · rintro ⟨⟨h1, h2⟩, h3⟩
      exact ⟨h1, (hasRow_delete hV he (hO x h1) hn _ _).2 ⟨h2, h3⟩⟩
  · rw [watched_same (db := db) (db' := db.deletePerm (rowOf e.elems n)) fun v _ => rfl]
    omega

theorem own_perms {e : Val F} (he : EdgeOver V e) {f : Str → M Unit} (g : (Val F → Nat → Prop) → Nat → Val F → Nat → Prop)
    (S : Val F → Nat → Prop) (c : Int)
    (h : ∀ n, n < factorial e.elems.length → ∀ S c, Owns V W O (Proc.atom (f (rowOf e.elems n))) S c
      fun _ S' c' => S' = g S n ∧ c' = c + 0) :
    Owns V W O (permsP e.elems f) S c fun _ S' c' =>
      S' = (List.range (factorial e.elems.length)).foldl g S ∧ c' = c := by
  refine (Proc.Track.each g (fun _ => 0) fun n hn S c => ?_).mono ?_
  · rw [List.mem_range] at hn
    rw [permStr_eq he.elems_ne hn]
    exact h n hn S c
  · rintro _ S' c' ⟨h1, h2⟩
    refine ⟨h1, ?_⟩
    rw [h2]
    rw [sum_zero]; omega

theorem foldl_write (e : Val F) (ns : List Nat) (S : Val F → Nat → Prop) :
    ns.foldl (fun S n x k => S x k ∨ (x = e ∧ k = n)) S = fun x k => S x k ∨ (x = e ∧ k ∈ ns) := by
  induction ns generalizing S with
  | nil => funext x k; simp
  | cons n ns ih =>
    rw [List.foldl_cons, ih]
    funext x k
    apply propext
    simp only [List.mem_cons]
    constructor
    · rintro ((h | ⟨h, h'⟩) | ⟨h, h'⟩)
      · exact .inl h
      · exact .inr ⟨h, .inl h'⟩
      · exact .inr ⟨h, .inr h'⟩
    · rintro (h | ⟨h, h' | h'⟩)
      · exact .inl (.inl h)
      · exact .inl (.inr ⟨h, h'⟩)
      · exact .inr ⟨h, h'⟩

theorem foldl_delete (e : Val F) (ns : List Nat) (S : Val F → Nat → Prop) :
    ns.foldl (fun S n x k => S x k ∧ ¬ (x = e ∧ k = n)) S = fun x k => S x k ∧ ¬ (x = e ∧ k ∈ ns) := by
  induction ns generalizing S with
  | nil => funext x k; simp
  | cons n ns ih =>
    rw [List.foldl_cons, ih]
    funext x k
    apply propext
    simp only [List.mem_cons]
    constructor
    · rintro ⟨⟨h1, h2⟩, h3⟩
      refine ⟨h1, ?_⟩
      rintro ⟨h, h' | h'⟩
      · exact h2 ⟨h, h'⟩
      · exact h3 ⟨h, h'⟩
    · rintro ⟨h1, h2⟩
      exact ⟨⟨h1, fun h => h2 ⟨h.1, .inl h.2⟩⟩, fun h => h2 ⟨h.1, .inr h.2⟩⟩

open Classical in
/-- What `exists` answers on an edge of the process's own. -/
theorem own_exists (hV : Vocab V) {e : Val F} (he : EdgeOver V e) (ho : O e) (c : Int) :
    (Proc.atom (existsM e)).Track (CInv V W) (ownRows O) (watched W) (fullRows O P) c
      fun b S' c' => (b = true ↔ P e) ∧ S' = fullRows O P ∧ c' = c := by
  refine Proc.Track.atom fun db hI hS => ?_
  obtain ⟨b, h1, h2, h3⟩ := here_exists hV hI.1 he
  refine ⟨b, db, h1, h2, hI, ?_, hS, by omega⟩
  have hrow : ∀ n, HasRow db.perms e n ↔ P e ∧ n < factorial e.elems.length := by
    intro n
    have := congrFun (congrFun hS e) n
    simp only [ownRows, fullRows, eq_iff_iff] at this
    constructor
    · intro h; exact (this.1 ⟨ho, h⟩).2
    · intro h; exact (this.2 ⟨ho, h⟩).2
  rw [h3]
  constructor
  · rintro ⟨n, hn, _⟩; exact ((hrow n).1 hn).1
  · intro hp; exact seen_all hV he fun n hn => (hrow n).2 ⟨hp, hn⟩

open Classical in
theorem own_add (hV : Vocab V) (hW : WOk W) (hO : ∀ x, O x → EdgeOver V x) {e : Val F} (ho : O e) (ts c : Int) :
    Owns V W O (addP e ts) (fullRows O P) c fun _ S' c' =>
      S' = fullRows O (fun x => P x ∨ x = e) ∧ c' = c + if P e then 0 else occW W e := by
  have he := hO e ho
  refine Proc.Track.bind ((own_exists hV he ho c).mono ?_)
  rintro b S' c' ⟨hb, rfl, rfl⟩
  cases b with
  | true =>
    have hp : P e := hb.1 rfl
    refine ⟨(), rfl, ?_, by rw [if_pos hp]; omega⟩
    congr 1
    funext x
    apply propext
    constructor
    · exact .inl
    · rintro (h | rfl)
      · exact h
      · exact hp
  | false =>
    have hp : ¬ P e := fun h => by simpa using hb.2 h
    simp only [Bool.not_false, if_true, iter_edge he]
    refine Proc.Track.bind ⟨_, rfl, ?_⟩
    refine Proc.Track.bind ((Proc.Track.each (fun S _ => S) (fun x => if W = some x then 1 else 0)
      fun x hx S c => own_addVert hW (edge_wf hV he x hx) ts S c).mono ?_)
    rintro _ S' c' ⟨rfl, rfl⟩
    rw [foldl_const]
    refine Proc.Track.bind (Proc.Track.atom fun db hI hS =>
      ⟨_, _, (here_addStr db _ _ _).1, (here_addStr db _ _ _).2, ?_, ?_⟩)
    · refine ⟨?_, fun v hv => (degRow_upsert (hI.2 v hv) _ _).1⟩
      rw [upsert_perms]; exact hI.1
    · rw [ownRows_perms (upsert_perms _ _ _ _), hS, watched_same (db := db) fun v hv =>
        (degRow_upsert (hI.2 v hv) _ _).2 (atom_text_ne hV (hW v hv).1 (hW v hv).2 he)]
      refine (own_perms he _ _ _ fun n hn S c => own_write hV he ho hO hn S c).mono ?_
      rintro _ S' c' ⟨rfl, rfl⟩
      rw [foldl_write, sum_occ, if_neg hp]
      refine ⟨?_, ?_⟩
      · funext x k
        unfold fullRows
        apply propext
        rw [List.mem_range]
        constructor
        · rintro (⟨h1, h2, h3⟩ | ⟨rfl, h3⟩)
          · exact ⟨h1, .inl h2, h3⟩
          · exact ⟨ho, .inr rfl, h3⟩
        · rintro ⟨h1, h2 | rfl, h3⟩
          · exact .inl ⟨h1, h2, h3⟩
          · exact .inr ⟨rfl, h3⟩
      · unfold occW
        cases W <;> simp

open Classical in
theorem own_remove (hV : Vocab V) (hW : WOk W) (hO : ∀ x, O x → EdgeOver V x) {e : Val F} (ho : O e) (c : Int) :
    Owns V W O (removeP e) (fullRows O P) c fun _ S' c' =>
      S' = fullRows O (fun x => P x ∧ x ≠ e) ∧ c' = c - if P e then occW W e else 0 := by
  have he := hO e ho
  refine Proc.Track.bind ((own_exists hV he ho c).mono ?_)
  rintro b S' c' ⟨hb, rfl, rfl⟩
  cases b with
  | false =>
    have hp : ¬ P e := fun h => by simpa using hb.2 h
    refine ⟨(), rfl, ?_, by rw [if_neg hp]; omega⟩
    congr 1
    funext x
    apply propext
    constructor
    · intro h
      refine ⟨h, ?_⟩
      rintro rfl
      exact hp h
    · exact fun h => h.1
  | true =>
    have hp : P e := hb.1 rfl
    simp only [if_true, iter_edge he]
    refine Proc.Track.bind ⟨_, rfl, ?_⟩
    refine Proc.Track.bind ((Proc.Track.each (fun S _ => S) (fun x => if W = some x then -1 else 0)
      fun x hx S c => own_decVert hW (edge_wf hV he x hx) S c).mono ?_)
    rintro _ S' c' ⟨rfl, rfl⟩
    rw [foldl_const]
    refine Proc.Track.bind ((own_perms he _ _ _ fun n hn S c => own_delete hV he hO hn S c).mono ?_)
    rintro _ S' c' ⟨rfl, rfl⟩
    rw [foldl_delete, sum_occ, if_pos hp]
    refine Proc.Track.atom fun db hI hS =>
      ⟨_, _, (here_removeStr db _).1, (here_removeStr db _).2, ?_, ?_, ?_⟩
    · exact ⟨hI.1, fun v hv => (degRow_delete (hI.2 v hv) (atom_text_ne hV (hW v hv).1 (hW v hv).2 he)).1⟩
    · refine ((ownRows_perms (db := db) (db' := db.deleteVertex (edge2str e)) rfl).trans hS).trans ?_
      funext x k
      unfold fullRows
      apply propext
      rw [List.mem_range]
      constructor
      · rintro ⟨⟨h1, h2, h3⟩, h4⟩
        refine ⟨h1, ⟨h2, ?_⟩, h3⟩
        rintro rfl
        exact h4 ⟨rfl, h3⟩
      · rintro ⟨h1, ⟨h2, h3⟩, h4⟩
        exact ⟨⟨h1, h2, h4⟩, fun h => h3 h.1⟩
    · rw [watched_same (db := db) fun v hv =>
        (degRow_delete (hI.2 v hv) (atom_text_ne hV (hW v hv).1 (hW v hv).2 he)).2]
      unfold occW
      cases W <;> simp <;> omega

/-- Presence after the call, from presence before it. -/
def PAct.after (a : PAct F) (P : Val F → Prop) : Val F → Prop :=
  match a with
  | .add e _ => fun x => P x ∨ x = e
  | .addMany es _ => fun x => P x ∨ x ∈ es
  | .remove e => fun x => P x ∧ x ≠ e
  | .removeMany es => fun x => P x ∧ x ∉ es
  | .removeByPattern ps => fun x => P x ∧ ¬ Matches ps x.elems
  | .addBelief src e _ => fun x => P x ∨ x ∈ [e, support e src]
  | .addBeliefs src es _ => fun x => P x ∨ x ∈ es.flatMap fun e => [e, support e src]
  | .removeBelief src e => fun x => (P x ∧ x ≠ support e src) ∧
      ¬ (x = e ∧ ¬ ∃ src', P (support e src') ∧ support e src' ≠ support e src)

open Classical in
/-- What adding these edges adds to the degree of the watched symbol. -/
noncomputable def gainMany (W : Option (Val F)) (P : Val F → Prop) : List (Val F) → Int
  | [] => 0
  | e :: es => (if P e then 0 else occW W e) + gainMany W (fun x => P x ∨ x = e) es

open Classical in
/-- What removing these edges takes from the degree of the watched symbol. -/
noncomputable def lossMany (W : Option (Val F)) (P : Val F → Prop) : List (Val F) → Int
  | [] => 0
  | e :: es => (if P e then occW W e else 0) + lossMany W (fun x => P x ∧ x ≠ e) es

open Classical in
/-- What removing the edges satisfying `P` takes from the degree of the watched symbol. -/
noncomputable def lossWhere (W : Option (Val F)) (P : Val F → Prop) : Int :=
  if h : ∃ r : List (Val F), r.Nodup ∧ ∀ x, x ∈ r ↔ P x then ((Classical.choose h).map (occW W)).sum else 0

theorem sum_perm {l l' : List Int} (h : l.Perm l') : l.sum = l'.sum := by
  induction h with
  | nil => rfl
  | cons x _ ih => simp [ih]
  | swap x y l => simp only [List.sum_cons]; omega
  | trans _ _ h1 h2 => exact h1.trans h2

theorem lossWhere_eq (W : Option (Val F)) {P : Val F → Prop} {r : List (Val F)} (hn : r.Nodup) (hr : ∀ x, x ∈ r ↔ P x) :
    lossWhere W P = (r.map (occW W)).sum := by
  unfold lossWhere
  have h : ∃ r : List (Val F), r.Nodup ∧ ∀ x, x ∈ r ↔ P x := ⟨r, hn, hr⟩
  rw [dif_pos h]
  obtain ⟨k1, k2⟩ := Classical.choose_spec h
  refine sum_perm (List.Perm.map _ ?_)
  exact (List.perm_ext_iff_of_nodup k1 hn).2 fun x => by rw [k2, hr]

theorem lossMany_all (W : Option (Val F)) {P : Val F → Prop} {r : List (Val F)} (hn : r.Nodup) (hr : ∀ x ∈ r, P x) :
    lossMany W P r = (r.map (occW W)).sum := by
  induction r generalizing P with
  | nil => rfl
  | cons e r ih =>
    have hn' := List.nodup_cons.1 hn
    rw [lossMany, if_pos (hr e (by simp)), ih hn'.2]
    · simp
    · intro x hx
      refine ⟨hr x (by simp [hx]), ?_⟩
      rintro rfl
      exact hn'.1 hx

open Classical in
/-- What the call adds to the degree of the watched symbol. -/
noncomputable def PAct.gain (a : PAct F) (W : Option (Val F)) (P : Val F → Prop) : Int :=
  match a with
  | .add e _ => gainMany W P [e]
  | .addMany es _ => gainMany W P es
  | .remove e => - lossMany W P [e]
  | .removeMany es => - lossMany W P es
  | .removeByPattern ps => - lossWhere W fun x => P x ∧ Matches ps x.elems
  | .addBelief src e _ => gainMany W P [e, support e src]
  | .addBeliefs src es _ => gainMany W P (es.flatMap fun e => [e, support e src])
  | .removeBelief src e => - lossMany W P [support e src] -
      if ∃ src', P (support e src') ∧ support e src' ≠ support e src then 0
      else lossMany W (fun x => P x ∧ x ≠ support e src) [e]

theorem fullRows_congr {P P' : Val F → Prop} (h : ∀ x, O x → (P x ↔ P' x)) : fullRows O P = fullRows O P' := by
  funext x k
  unfold fullRows
  exact propext (and_congr_right fun ho => and_congr_left fun _ => h x ho)

theorem seen_own (hV : Vocab V) (hO : ∀ x, O x → EdgeOver V x) {e : Val F} (ho : O e) {db : DB}
    (hS : ownRows O db = fullRows O P) : Visible e db ↔ P e := by
  have hrow : ∀ n, HasRow db.perms e n ↔ P e ∧ n < factorial e.elems.length := by
    intro n
    have := congrFun (congrFun hS e) n
    simp only [ownRows, fullRows, eq_iff_iff] at this
    constructor
    · intro h; exact (this.1 ⟨ho, h⟩).2
    · intro h; exact (this.2 ⟨ho, h⟩).2
  constructor
  · rintro ⟨n, hn, _⟩; exact ((hrow n).1 hn).1
  · intro hp; exact seen_all hV (hO e ho) fun n hn => (hrow n).2 ⟨hp, hn⟩

theorem addEff_own (hV : Vocab V) (hO : ∀ x, O x → EdgeOver V x) {e : Val F} (he : EdgeOver V e) {db db' : DB}
    (h : AddEff e db db') (hS : ownRows O db = fullRows O P) : ownRows O db' = fullRows O (fun x => P x ∨ x = e) := by
  funext x k
  have h0 := congrFun (congrFun hS x) k
  simp only [ownRows, fullRows, eq_iff_iff] at h0 ⊢
  constructor
  · rintro ⟨h1, h2⟩
    rw [h.hasRow hV he (hO x h1)] at h2
    rcases h2 with h2 | ⟨rfl, h3⟩
    · obtain ⟨_, h3, h4⟩ := h0.1 ⟨h1, h2⟩
      exact ⟨h1, .inl h3, h4⟩
    · exact ⟨h1, .inr rfl, h3⟩
  · rintro ⟨h1, h2, h3⟩
    refine ⟨h1, (h.hasRow hV he (hO x h1) k).2 ?_⟩
    rcases h2 with h2 | rfl
    · exact .inl (h0.2 ⟨h1, h2, h3⟩).2
    · exact .inr ⟨rfl, h3⟩

theorem addEff_watched (hW : WOk W) {e : Val F} {db db' : DB} (h : AddEff e db db')
    (hk : ∀ v, W = some v → KnownRow v db) : watched W db' = watched W db + occW W e := by
  cases hw : W with
  | none => simp [watched, occW]
  | some v => exact (h.2.1 v (hW v hw).1 (hW v hw).2 (hk v hw)).2

open Classical in
theorem chain_own (hV : Vocab V) (hW : WOk W) (hO : ∀ x, O x → EdgeOver V x) {es : List (Val F)}
    (hes : ∀ x ∈ es, EdgeOver V x) {db db' : DB} (h : Chain RawEff es db db') (hS : ownRows O db = fullRows O P)
    (hk : ∀ v, W = some v → KnownRow v db) :
    ownRows O db' = fullRows O (fun x => P x ∨ x ∈ es) ∧
      ((∀ x ∈ es, O x) → watched W db' = watched W db + gainMany W P es) := by
  induction es generalizing db P with
  | nil =>
    cases h
    refine ⟨by rw [hS]; congr 1; funext x; simp, fun _ => by simp [gainMany]⟩
  | cons e es ih =>
    obtain ⟨b, h1, h2⟩ := h
    have he := hes e (by simp)
    have hb : ownRows O b = fullRows O (fun x => P x ∨ x = e) ∧
        (O e → watched W b = watched W db + if P e then 0 else occW W e) := by
      rcases h1 with ⟨hseen, rfl⟩ | ⟨hseen, heff⟩
      · refine ⟨hS.trans (fullRows_congr fun x ho => ⟨.inl, ?_⟩), fun ho => ?_⟩
        · rintro (h | rfl)
          · exact h
          · exact (seen_own hV hO ho hS).1 hseen
        · rw [if_pos ((seen_own hV hO ho hS).1 hseen)]; omega
      · refine ⟨addEff_own hV hO he heff hS, fun ho => ?_⟩
        rw [addEff_watched hW heff hk, if_neg fun hp => hseen ((seen_own hV hO ho hS).2 hp)]
    obtain ⟨i1, i2⟩ := ih (fun x hx => hes x (by simp [hx])) h2 hb.1 (h1.known hW hk)
    refine ⟨i1.trans (fullRows_congr fun x _ => by simp [or_assoc]), fun ho => ?_⟩
    rw [i2 fun x hx => ho x (by simp [hx]), hb.2 (ho e (by simp)), gainMany]
    omega

open Classical in
theorem own_addMany (hV : Vocab V) (hW : WOk W) (hO : ∀ x, O x → EdgeOver V x) (ts : Int) {es : List (Val F)}
    (hes : ∀ x ∈ es, EdgeOver V x) (c : Int) :
    Owns V W O (addManyP ts es) (fullRows O P) c fun _ S' c' =>
      S' = fullRows O (fun x => P x ∨ x ∈ es) ∧ ((∀ x ∈ es, O x) → c' = c + gainMany W P es) := by
  induction es generalizing P c with
  | nil => exact ⟨(), rfl, by congr 1; funext x; simp, fun _ => by simp [gainMany]⟩
  | cons e es ih =>
    have he := hes e (by simp)
    have hes' : ∀ x ∈ es, EdgeOver V x := fun x hx => hes x (by simp [hx])
    have hex : (Proc.atom (existsM e)).Track (CInv V W) (ownRows O) (watched W) (fullRows O P) c
        fun b S' c' => (O e → (b = true ↔ P e)) ∧ S' = fullRows O P ∧ c' = c := by
      refine Proc.Track.atom fun db hI hS => ?_
      obtain ⟨b, h1, h2, h3⟩ := here_exists hV hI.1 he
      refine ⟨b, db, h1, h2, hI, fun ho => ?_, hS, by omega⟩
      rw [h3, seen_own hV hO ho hS]
    refine Proc.Track.bind (hex.mono ?_)
    rintro b S' c' ⟨hb, rfl, rfl⟩
    cases b with
    | true =>
      have hP : fullRows O P = fullRows O (fun x => P x ∨ x = e) := fullRows_congr fun x ho => ⟨.inl, by
        rintro (h | rfl)
        · exact h
        · exact (hb ho).1 rfl⟩
      simp only [Bool.not_true, Bool.false_eq_true, if_false]
      rw [hP]
      refine (ih hes' c').mono ?_
      rintro _ S' c'' ⟨rfl, h2⟩
      refine ⟨fullRows_congr fun x _ => by simp [or_assoc], fun ho => ?_⟩
      rw [h2 fun x hx => ho x (by simp [hx]), gainMany, if_pos ((hb (ho e (by simp))).1 rfl)]
      omega
    | false =>
      simp only [Bool.not_false, if_true]
      refine Proc.Track.atom fun db hI hS => ?_
      obtain ⟨s', db1, db2, e1, d1, _, _, r1, r2, a1, c1⟩ := bulk_run hV he hes' ts db hI.1
      obtain ⟨o1, o2⟩ := chain_own hV hW hO hes' c1 (addEff_own hV hO he a1 hS) (a1.known hW hI.2)
      have hk2 := (chain_only (T := fun _ => True) (R := fun _ => True) hV hW hes' (fun _ _ => trivial) c1).2
        (a1.known hW hI.2)
      refine ⟨(), db2, by rw [e1], by rw [e1]; exact d1, ⟨r2, hk2⟩, ?_, fun ho => ?_⟩
      · exact o1.trans (fullRows_congr fun x _ => by simp [or_assoc])
      · have hoe := ho e (by simp)
        rw [o2 fun x hx => ho x (by simp [hx]), addEff_watched hW a1 hI.2, gainMany,
          if_neg fun hp => by simpa using (hb hoe).2 hp]
        omega

theorem own_addAny (hV : Vocab V) (hW : WOk W) (hO : ∀ x, O x → EdgeOver V x) {e : Val F} (he : EdgeOver V e) (ts c : Int) :
    Owns V W O (addP e ts) (fullRows O P) c fun _ S' c' =>
      S' = fullRows O (fun x => P x ∨ x = e) ∧ (O e → c' = c + gainMany W P [e]) := by
  by_cases ho : O e
  · refine (own_add hV hW hO ho ts c).mono ?_
    rintro _ S' c' ⟨rfl, rfl⟩
    exact ⟨rfl, fun _ => by simp [gainMany]⟩
  · refine (Proc.Safe.track (G := Only V (fun x => x = e) (fun _ => True)) (fun a b h => only_own (fun x hx => ⟨hO x hx, ?_⟩) h)
      (safe_add hV he ts rfl)).mono ?_
    · rintro rfl; exact ho hx
    · rintro _ S' c' rfl
      refine ⟨fullRows_congr fun x hx => ⟨.inl, ?_⟩, fun h => absurd h ho⟩
      rintro (h | rfl)
      · exact h
      · exact absurd hx ho

theorem own_removeAny (hV : Vocab V) (hW : WOk W) (hO : ∀ x, O x → EdgeOver V x) {e : Val F} (he : EdgeOver V e) (c : Int) :
    Owns V W O (removeP e) (fullRows O P) c fun _ S' c' =>
      S' = fullRows O (fun x => P x ∧ x ≠ e) ∧ (O e → c' = c - lossMany W P [e]) := by
  by_cases ho : O e
  · refine (own_remove hV hW hO ho c).mono ?_
    rintro _ S' c' ⟨rfl, rfl⟩
    exact ⟨rfl, fun _ => by simp [lossMany]⟩
  · refine (Proc.Safe.track (G := Only V (fun x => x = e) (fun _ => True)) (fun a b h => only_own (fun x hx => ⟨hO x hx, ?_⟩) h)
      (safe_remove hV hW he rfl trivial)).mono ?_
    · rintro rfl; exact ho hx
    · rintro _ S' c' rfl
      refine ⟨fullRows_congr fun x hx => ⟨fun h => ⟨h, ?_⟩, fun h => h.1⟩, fun h => absurd h ho⟩
      rintro rfl
      exact ho hx

theorem own_removes (hV : Vocab V) (hW : WOk W) (hO : ∀ x, O x → EdgeOver V x) {es : List (Val F)}
    (hes : ∀ x ∈ es, EdgeOver V x) (c : Int) :
    Owns V W O (Proc.each removeP es) (fullRows O P) c fun _ S' c' =>
      S' = fullRows O (fun x => P x ∧ x ∉ es) ∧ ((∀ x ∈ es, O x) → c' = c - lossMany W P es) := by
  induction es generalizing P c with
  | nil => exact ⟨(), rfl, by congr 1; funext x; simp, fun _ => by simp [lossMany]⟩
  | cons e es ih =>
    refine Proc.Track.bind ((own_removeAny hV hW hO (hes e (by simp)) c).mono ?_)
    rintro _ S' c' ⟨rfl, h1⟩
    refine (ih (fun x hx => hes x (by simp [hx])) c').mono ?_
    rintro _ S' c'' ⟨rfl, h2⟩
    refine ⟨fullRows_congr fun x _ => by simp [and_assoc], fun ho => ?_⟩
    have h1 := h1 (ho e (by simp))
    rw [h2 fun x hx => ho x (by simp [hx]), h1]
    simp only [lossMany]
    omega

/-- Whether an edge of the process's own is found by a query. -/
theorem own_found (hV : Vocab V) {ps : List (Val F)} (hp : PatternOver V ps) {x : Val F} (hx : EdgeOver V x) (ho : O x)
    (hm : Matches ps x.elems) {db : DB} (hS : ownRows O db = fullRows O P) :
    (∃ n, HasRow db.perms x n ∧ patStart ps <+: rowOf x.elems n) ↔ P x := by
  have hrow : ∀ n, HasRow db.perms x n ↔ P x ∧ n < factorial x.elems.length := by
    intro n
    have := congrFun (congrFun hS x) n
    simp only [ownRows, fullRows, eq_iff_iff] at this
    constructor
    · intro h; exact (this.1 ⟨ho, h⟩).2
    · intro h; exact (this.2 ⟨ho, h⟩).2
  constructor
  · rintro ⟨n, hn, _⟩; exact ((hrow n).1 hn).1
  · intro h
    obtain ⟨n, h1, h2⟩ := pattern_has_row hV hp hx hm
    exact ⟨n, (hrow n).2 ⟨h, h1⟩, h2⟩

theorem after_over {a : PAct F} (ha : a.op.Over V) (hP : ∀ x, P x → EdgeOver V x) {x : Val F} (h : a.after P x) :
    EdgeOver V x := by
  cases a with
  | add e ts => exact h.elim (hP x) (by rintro rfl; exact ha)
  | addMany es ts => exact h.elim (hP x) (ha.2 x)
  | remove e => exact hP x h.1
  | removeMany es => exact hP x h.1
  | removeByPattern ps => exact hP x h.1
  | addBelief src e ts =>
    refine h.elim (hP x) fun h => ?_
    simp only [List.mem_cons, List.not_mem_nil, or_false] at h
    rcases h with rfl | rfl
    · exact BeliefOver.edge ha
    · exact support_over ha
  | addBeliefs src es ts => exact h.elim (hP x) (belief_pairs ha.2 x)
  | removeBelief src e => exact hP x h.1.1

theorem own_act (hV : Vocab V) (hW : WOk W) (hO : ∀ x, O x → EdgeOver V x) {a : PAct F} (ha : a.op.Over V)
    (hP : ∀ x, P x → EdgeOver V x) (hs : ∀ x, EdgeOver V x → a.Sees x → O x) (c : Int) :
    Owns V W O a.proc (fullRows O P) c fun _ S' c' =>
      S' = fullRows O (a.after P) ∧ ((∀ x, EdgeOver V x → a.Touches x → O x) → c' = c + a.gain W P) := by
  cases a with
  | add e ts =>
    show Owns V W O (addAnyP e ts) _ _ _
    rw [addAny_edge ha]
    refine (own_addAny hV hW hO ha ts c).mono ?_
    rintro _ S' c' ⟨rfl, h⟩
    exact ⟨rfl, fun ho => h (ho e ha rfl)⟩
  | addMany es ts =>
    show Owns V W O (addAnyP (.seq true es) ts) _ _ _
    rw [addAny_many ha.1 ha.2]
    refine (own_addMany hV hW hO ts ha.2 c).mono ?_
    rintro _ S' c' ⟨rfl, h⟩
    exact ⟨rfl, fun ho => h fun x hx => ho x (ha.2 x hx) hx⟩
  | remove e =>
    show Owns V W O (removeAnyP e) _ _ _
    rw [removeAny_edge ha]
    refine (own_removeAny hV hW hO ha c).mono ?_
    rintro _ S' c' ⟨rfl, h⟩
    refine ⟨rfl, fun ho => ?_⟩
    rw [h (ho e ha rfl)]
    simp only [PAct.gain]; omega
  | removeMany es =>
    show Owns V W O (removeAnyP (.seq true es)) _ _ _
    rw [removeAny_many ha.1 ha.2]
    refine (own_removes hV hW hO ha.2 c).mono ?_
    rintro _ S' c' ⟨rfl, h⟩
    refine ⟨rfl, fun ho => ?_⟩
    rw [h fun x hx => ho x (ha.2 x hx) hx]
    simp only [PAct.gain]; omega
  | addBelief src e ts =>
    rw [proc_addBelief ha]
    have hes : ∀ x ∈ [e, support e src], EdgeOver V x := by simpa using ⟨BeliefOver.edge ha, support_over ha⟩
    refine (own_addMany hV hW hO ts hes c).mono ?_
    rintro _ S' c' ⟨rfl, h⟩
    exact ⟨rfl, fun ho => h fun x hx => ho x (hes x hx) (by simpa [PAct.Touches] using hx)⟩
  | addBeliefs src es ts =>
    rw [proc_addBeliefs ha.1 ha.2]
    refine (own_addMany hV hW hO ts (belief_pairs ha.2) c).mono ?_
    rintro _ S' c' ⟨rfl, h⟩
    exact ⟨rfl, fun ho => h fun x hx => ho x (belief_pairs ha.2 x hx) (mem_pairs.1 hx)⟩
  | removeByPattern ps =>
    have ha : PatternOver V ps := ha
    show Owns V W O ((Proc.atom (hgPattern2edges (.tup ps))).bind fun edges => Proc.each removeAnyP edges) _ _ _
    refine Proc.Track.bind (Proc.Track.atom fun db hI hS => ?_)
    obtain ⟨res, h1, h2, h3, h4⟩ := here_pattern hV ha hI.1
    have hmem : ∀ x, x ∈ res ↔ P x ∧ Matches ps x.elems := by
      intro x
      rw [h4]
      constructor
      · rintro ⟨k1, k2, k3⟩
        exact ⟨(own_found hV ha k1 (hs x k1 k2) k2 hS).1 k3, k2⟩
      · rintro ⟨k1, k2⟩
        exact ⟨hP x k1, k2, (own_found hV ha (hP x k1) (hs x (hP x k1) k2) k2 hS).2 k1⟩
    have heq : Proc.each removeAnyP res = Proc.each removeP res := by
      have : ∀ l : List (Val F), (∀ x ∈ l, EdgeOver V x) → Proc.each removeAnyP l = Proc.each removeP l := by
        intro l
        induction l with
        | nil => intro _; rfl
        | cons x l ih =>
          intro hl
          show (removeAnyP x).seq _ = (removeP x).seq _
          rw [removeAny_edge (hl x (by simp)), ih fun y hy => hl y (by simp [hy])]
      exact this res fun x hx => ((h4 x).1 hx).1
    refine ⟨res, db, h1, h2, hI, ?_⟩
    rw [heq, hS]
    refine (own_removes hV hW hO (fun x hx => ((h4 x).1 hx).1) _).mono ?_
    rintro _ S' c' ⟨rfl, h⟩
    refine ⟨fullRows_congr fun x _ => ?_, fun _ => ?_⟩
    · show P x ∧ x ∉ res ↔ P x ∧ ¬ Matches ps x.elems
      rw [hmem]
      exact ⟨fun h => ⟨h.1, fun hm => h.2 ⟨h.1, hm⟩⟩, fun h => ⟨h.1, fun h' => h.2 h'.2⟩⟩
    · rw [h fun x hx => hs x ((h4 x).1 hx).1 ((h4 x).1 hx).2.1, lossMany_all W h3 fun x hx => ((hmem x).1 hx).1]
      simp only [PAct.gain]
      rw [lossWhere_eq W h3 hmem]
      omega
  | removeBelief src e =>
    have ha : BeliefOver V src e := ha
    rw [proc_removeBelief ha]
    have hsup := support_over ha
    refine Proc.Track.bind ((own_removeAny hV hW hO hsup c).mono ?_)
    rintro _ S' c' ⟨rfl, h1⟩
    refine Proc.Track.bind (Proc.Track.atom fun db hI hS => ?_)
    obtain ⟨res, k1, k2, k3⟩ := here_sources hV ha.srcConst ha.fact hI.1
    have hpat : PatternOver V [.str (lit "src/1"), e, .none] := by
      refine ⟨?_, [], .str (lit "src/1"), [e, .none], rfl, by simp, rfl⟩
      intro p hp
      simp only [List.mem_cons, List.not_mem_nil, or_false] at hp
      rcases hp with rfl | rfl | rfl
      · exact .inr ha.srcConst
      · exact .inr ha.fact
      · exact .inl rfl
    have hne : e ≠ .none := by
      obtain ⟨h, t, rfl, _⟩ := ha.edge
      simp [Val.tup]
    have hmem : ∀ x, x ∈ res ↔ P (support e x) ∧ support e x ≠ support e src := by
      intro x
      rw [k3]
      have hm : Matches [.str (lit "src/1"), e, .none] (support e x).elems := (matches_support hne).2 ⟨x, rfl⟩
      constructor
      · rintro ⟨j1, j2⟩
        exact (own_found hV hpat j1 (hs _ j1 ⟨x, rfl⟩) hm hS).1 j2
      · intro j
        have j1 := hP _ j.1
        exact ⟨j1, (own_found hV hpat j1 (hs _ j1 ⟨x, rfl⟩) hm hS).2 j⟩
    have hlen : res.length = 0 ↔ ¬ ∃ src', P (support e src') ∧ support e src' ≠ support e src := by
      constructor
      · rintro hl ⟨x, hx⟩
        have := (hmem x).2 hx
        rw [List.length_eq_zero_iff.1 hl] at this
        simp at this
      · intro hn
        cases res with
        | nil => rfl
        | cons x res => exact absurd ⟨x, (hmem x).1 (by simp)⟩ hn
    refine ⟨res, db, k1, k2, hI, ?_⟩
    rw [hS]
    by_cases hl : res.length = 0
    · rw [if_pos hl]
      have hn := hlen.1 hl
      refine (own_removeAny hV hW hO ha.edge _).mono ?_
      rintro _ S' c'' ⟨rfl, h2⟩
      refine ⟨fullRows_congr fun x _ => ?_, fun ho => ?_⟩
      · show (P x ∧ x ≠ support e src) ∧ x ≠ e ↔ _
        exact and_congr_right fun _ => ⟨fun h h' => h h'.1, fun h h' => h ⟨h', hn⟩⟩
      · rw [h2 (ho e ha.edge (.inl rfl)), h1 (ho _ hsup (.inr rfl))]
        simp only [PAct.gain]
        rw [if_neg hn]
        omega
    · rw [if_neg hl]
      have hn : ∃ src', P (support e src') ∧ support e src' ≠ support e src :=
        Classical.byContradiction fun h => hl (hlen.2 h)
      refine ⟨(), rfl, fullRows_congr fun x _ => ?_, fun ho => ?_⟩
      · exact ⟨fun h => ⟨h, fun h' => h'.2 hn⟩, fun h => h.1⟩
      · rw [h1 (ho _ hsup (.inr rfl))]
        simp only [PAct.gain]
        rw [if_pos hn]
        omega

/-- Presence after a program. -/
def afterAll (prog : List (PAct F)) (P : Val F → Prop) : Val F → Prop := prog.foldl (fun P a => a.after P) P

/-- What a program adds to the degree of the watched symbol. -/
noncomputable def gainAll (W : Option (Val F)) (P : Val F → Prop) : List (PAct F) → Int
  | [] => 0
  | a :: prog => a.gain W P + gainAll W (a.after P) prog

theorem own_program (hV : Vocab V) (hW : WOk W) (hO : ∀ x, O x → EdgeOver V x) {prog : List (PAct F)}
    (ha : ∀ a ∈ prog, a.op.Over V) (hP : ∀ x, P x → EdgeOver V x)
    (hs : ∀ x, EdgeOver V x → Program.Sees prog x → O x) (c : Int) :
    Owns V W O (programP prog) (fullRows O P) c fun _ S' c' =>
      S' = fullRows O (afterAll prog P) ∧
        ((∀ x, EdgeOver V x → Program.Touches prog x → O x) → c' = c + gainAll W P prog) := by
  induction prog generalizing P c with
  | nil => exact ⟨(), rfl, rfl, fun _ => by simp [gainAll]⟩
  | cons a prog ih =>
    refine Proc.Track.bind ((own_act hV hW hO (ha a (by simp)) hP (fun x hx h => hs x hx ⟨a, by simp, h⟩) c).mono ?_)
    rintro _ S' c' ⟨rfl, h1⟩
    refine (ih (fun b hb => ha b (by simp [hb])) (fun x hx => after_over (ha a (by simp)) hP hx)
      (fun x hx ⟨b, hb, h⟩ => hs x hx ⟨b, by simp [hb], h⟩) c').mono ?_
    rintro _ S' c'' ⟨rfl, h2⟩
    refine ⟨rfl, fun ho => ?_⟩
    rw [h2 fun x hx ⟨b, hb, h⟩ => ho x hx ⟨b, by simp [hb], h⟩, h1 fun x hx h => ho x hx ⟨a, by simp, h⟩, gainAll]
    omega

end GB
