import Verif.Spec.Lazy
import Verif.Proofs.View
import Verif.Proofs.ConcAlone

/-
The generator of `f_all` against the lazy sequence of Spec/Lazy.lean.
-/

namespace GB

variable {F : Type} [PyFloat F] [DecidableEq F]

/-! ### The reading methods, cursor by cursor, are the methods -/

/-- Same result, same connection. -/
def Agrees {α : Type} (x : L α) (y : M α) : Prop := ∀ l, (x l).1 = (y l.st).1 ∧ (x l).2.st = (y l.st).2

theorem lbind_ok {α β : Type} (x : L α) (f : α → L β) (l : Live) {a : α} {l' : Live} (h : x l = (.ok a, l')) :
    (x >>= f) l = f a l' := by
  show (match x l with
    | (.ok a, l') => f a l'
    | (.error e, l') => (.error e, l')) = _
  rw [h]

theorem lbind_err {α β : Type} (x : L α) (f : α → L β) (l : Live) {e : PyErr} {l' : Live} (h : x l = (.error e, l')) :
    (x >>= f) l = (.error e, l') := by
  show (match x l with
    | (.ok a, l') => f a l'
    | (.error e, l') => (.error e, l')) = _
  rw [h]

theorem Agrees.pure {α : Type} (a : α) : Agrees (Pure.pure a : L α) (Pure.pure a : M α) := fun _ => ⟨rfl, rfl⟩

theorem Agrees.lift {α : Type} (x : Except PyErr α) : Agrees (lLift x) (liftE x) := fun _ => ⟨rfl, rfl⟩

theorem Agrees.on {α : Type} (x : M α) : Agrees (lOn x) x := fun _ => ⟨rfl, rfl⟩

theorem Agrees.bind {α β : Type} {x : L α} {y : M α} {f : α → L β} {g : α → M β} (h : Agrees x y)
    (hf : ∀ a, Agrees (f a) (g a)) : Agrees (x >>= f) (y >>= g) := by
  intro l
  obtain ⟨h1, h2⟩ := h l
  cases hx : x l with
  | mk r l' =>
    cases hy : y l.st with
    | mk r' s' =>
      rw [hx, hy] at h1 h2
      simp only at h1 h2
      subst h1 h2
      cases r with
      | ok a => rw [lbind_ok _ _ _ hx, bind_run _ _ _ hy]; exact hf a l'
      | error e => rw [lbind_err _ _ _ hx, bind_err _ _ _ hy]; exact ⟨rfl, rfl⟩

theorem consume_fst {α : Type} (body : Fetched → Except PyErr α) (rows : List Fetched) :
    (consume body rows).1 = mapE body rows := by
  induction rows with
  | nil => rfl
  | cons r rows ih =>
    unfold consume mapE
    cases body r with
    | error e => rfl
    | ok a =>
      simp only
      cases hc : consume body rows with
      | mk x rest =>
        rw [hc] at ih
        simp only at ih
        rw [← ih]
        cases x <;> rfl

/-- A query and the loop over its rows. -/
theorem Agrees.loop {α β γ : Type} (c : Cursor) {q : DB → List Fetched} {q' : DB → γ} {body : Fetched → Except PyErr α}
    {g : γ → Except PyErr β} {k : List α → L β} {k' : M β}
    (hk : ∀ (l : Live), ¬ (c = .shared ∧ l.st.cur = some false) →
      ∀ l' : Live, l'.st = l.st →
        (match mapE body (q l.st.work) with
          | .ok as => (k as l').1 = (k' l.st).1 ∧ (k as l').2.st = (k' l.st).2
          | .error e => (.error e, l.st) = k' l.st)) :
    ∀ l : Live, ¬ (c = .shared ∧ l.st.cur = some false) →
      (((lSelect c q >>= fun own => lLoop c own body >>= k) : L β) l).1 = (k' l.st).1 ∧
      (((lSelect c q >>= fun own => lLoop c own body >>= k) : L β) l).2.st = (k' l.st).2 := by
  intro l hc
  cases c with
  | own =>
    have h1 : lSelect .own q l = (.ok (q l.st.work), l) := by unfold lSelect; simp
    rw [lbind_ok _ _ _ h1]
    have h2 : lLoop .own (q l.st.work) body l = (mapE body (q l.st.work), l) := by
      unfold lLoop; rw [← consume_fst]
    have h3 := hk l hc l rfl
    cases hm : mapE body (q l.st.work) with
    | ok as =>
      rw [hm] at h2 h3
      rw [lbind_ok _ _ _ h2]; exact h3
    | error e =>
      rw [hm] at h2 h3
      rw [lbind_err _ _ _ h2, ← h3]; exact ⟨rfl, rfl⟩
  | shared =>
    have hcur : l.st.cur ≠ some false := fun h => hc ⟨rfl, h⟩
    have h1 : lSelect .shared q l = (.ok [], { l with unread := q l.st.work }) := by unfold lSelect; simp [hcur]
    rw [lbind_ok _ _ _ h1]
    have h2 : lLoop .shared [] body { l with unread := q l.st.work } =
        (mapE body (q l.st.work), { l with unread := (consume body (q l.st.work)).2 }) := by
      unfold lLoop; simp [hcur, ← consume_fst]
    cases hm : mapE body (q l.st.work) with
    | ok as =>
      have h3 := hk l hc { l with unread := (consume body (q l.st.work)).2 } rfl
      rw [hm] at h2 h3
      rw [lbind_ok _ _ _ h2]; exact h3
    | error e =>
      have h3 := hk l hc l rfl
      rw [hm] at h2 h3
      rw [lbind_err _ _ _ h2, ← h3]; exact ⟨rfl, rfl⟩

/-- The same for a query whose loop is `liftE` of a computation on all rows. -/
theorem agree_query {α β γ δ : Type} (c : Cursor) (sel : DB → List γ) (row : γ → Fetched) (body : Fetched → Except PyErr α)
    (h : List γ → Except PyErr δ) (post : List α → δ)
    (hh : ∀ xs, h xs = (mapE (fun x => body (row x)) xs).map post) {k : List α → L β} {k' : δ → M β}
    (hk : ∀ as, Agrees (k as) (k' (post as))) :
    Agrees (lSelect c (fun db => (sel db).map row) >>= fun own => lLoop c own body >>= k)
      (execRead c sel >>= fun rows => liftE (h rows) >>= k') := by
  have hmap : ∀ xs : List γ, mapE body (xs.map row) = mapE (fun x => body (row x)) xs := by
    intro xs
    induction xs with
    | nil => rfl
    | cons x xs ih => unfold mapE; rw [List.map_cons]; unfold mapE at ih ⊢; simp only [ih]
  intro l
  by_cases hc : c = .shared ∧ l.st.cur = some false
  · have h1 : lSelect c (fun db => (sel db).map row) l = (.error .programmingError, l) := by
      unfold lSelect; rw [if_pos hc]
    have h2 : execRead c sel l.st = (.error .programmingError, l.st) := by unfold execRead; rw [if_pos hc]
    rw [lbind_err _ _ _ h1, bind_err _ _ _ h2]
    exact ⟨rfl, rfl⟩
  · have h2 : execRead c sel l.st = (.ok (sel l.st.work), l.st) := by unfold execRead; rw [if_neg hc]
    refine Agrees.loop c (q := fun db => (sel db).map row) (q' := sel) (g := fun _ => .error .typeError)
      (k' := execRead c sel >>= fun rows => liftE (h rows) >>= k') ?_ l hc
    intro l hc l' hl'
    have h2 : execRead c sel l.st = (.ok (sel l.st.work), l.st) := by unfold execRead; rw [if_neg hc]
    rw [bind_run _ _ _ h2]
    simp only [hmap]
    cases hm : mapE (fun x => body (row x)) (sel l.st.work) with
    | ok as =>
      have h3 : liftE (h (sel l.st.work)) l.st = (.ok (post as), l.st) := by
        unfold liftE; rw [hh, hm]; rfl
      rw [bind_run _ _ _ h3]
      have := hk as l'
      rw [hl'] at this
      exact this
    | error e =>
      have h3 : liftE (h (sel l.st.work)) l.st = (.error e, l.st) := by
        unfold liftE; rw [hh, hm]; rfl
      rw [bind_err _ _ _ h3]

theorem cur2edges_map (xs : List Str) :
    (cur2edges xs : Except PyErr (List (Val F))) = (mapE (fun x => rowEdge (.text x)) xs).map pySet := by
  unfold cur2edges
  show Except.bind (mapE decodeRow xs) _ = _
  have : (fun x => rowEdge (F := F) (.text x)) = decodeRow := by funext x; rfl
  rw [this]
  cases mapE (decodeRow (F := F)) xs <;> rfl

theorem agree_pattern (p : Val F) : Agrees (lPattern2edges p) (pattern2edges p) :=
  (Agrees.lift _).bind fun _ => (Agrees.lift _).bind fun _ => (Agrees.on _).bind fun c =>
    agree_query c _ .text rowEdge cur2edges pySet cur2edges_map fun _ =>
      (Agrees.on _).bind fun _ => (Agrees.lift _).bind fun _ => Agrees.pure _

theorem agree_str2perms (c : Str) : Agrees (lStr2perms c) (str2perms (F := F) c) :=
  (Agrees.lift _).bind fun _ => (Agrees.on _).bind fun c =>
    agree_query c _ .text rowEdge cur2edges pySet cur2edges_map fun _ =>
      (Agrees.on _).bind fun _ => Agrees.pure _

theorem agree_exists (v : Val F) : Agrees (lExists v) (existsM v) := (agree_pattern v).bind fun _ => Agrees.pure _

theorem agree_star (c : Val F) : Agrees (lStar c) (sqlStar c) := by
  unfold lStar sqlStar
  split
  · exact agree_str2perms _
  · exact agree_str2perms _

theorem agree_symbols (r : Str) : Agrees (lSymbolsWithRoot r) (symbolsWithRoot r) :=
  (Agrees.lift _).bind fun _ => (Agrees.on _).bind fun c =>
    agree_query c _ .text _ (mapE rowFirstToken) id
      (fun xs => by
        have : (fun x => (do rowFirstToken (← (Fetched.text x).textE) : Except PyErr Str)) = rowFirstToken := by
          funext x; rfl
        rw [this]
        cases mapE rowFirstToken xs <;> rfl) fun _ =>
      (Agrees.on _).bind fun _ => Agrees.pure _

theorem agree_sources (e : Val F) : Agrees (lSources e) (hgSources e) :=
  (agree_pattern _).bind fun _ => (Agrees.lift _).bind fun _ => Agrees.pure _

theorem agree_vertices : Agrees (lVertices (F := F)) (hgFAll fun (v : Val F) (d : Int) => (v, d)) :=
  (Agrees.on _).bind fun c =>
    agree_query c (fun db => db.vertices) (fun r : VRow => .pair r.id r.degree) rowVertex
      (mapE fun row => (str2edge row.id >>= fun v => Except.ok (v, row.degree))) id
      (fun xs => by
        have : (fun x : VRow => rowVertex (F := F) (Fetched.pair x.id x.degree)) =
            fun row => (str2edge row.id >>= fun v => Except.ok (v, row.degree)) := by
          funext x
          rfl
        rw [this]
        cases mapE (fun row : VRow => ((str2edge row.id : Except PyErr (Val F)) >>= fun v => Except.ok (v, row.degree))) xs <;>
          rfl) fun _ =>
      (Agrees.on _).bind fun _ => Agrees.pure _

theorem agree_look (sel : VRow → Int) (dflt : Int) (v : Val F) {m : M Int}
    (hm : m = (openCursor true >>= fun cur => (execRead cur fun db => db.selectVertex (edge2str v)) >>= fun rows =>
      match rows with
      | row :: _ => (do closeDirect cur; pure (sel row))
      | [] => (do closeCursor true false; pure dflt))) : Agrees (lLook sel dflt v) m := by
  subst hm
  refine (Agrees.on _).bind fun c => ?_
  intro l
  by_cases hc : c = .shared ∧ l.st.cur = some false
  · have h1 : lSelect c (fun db => (db.selectVertex (edge2str v)).map fun r => .num (sel r)) l =
        (.error .programmingError, l) := by unfold lSelect; rw [if_pos hc]
    have h2 : execRead c (fun db => db.selectVertex (edge2str v)) l.st = (.error .programmingError, l.st) := by
      unfold execRead; rw [if_pos hc]
    rw [lbind_err _ _ _ h1, bind_err _ _ _ h2]
    exact ⟨rfl, rfl⟩
  · have h2 : execRead c (fun db => db.selectVertex (edge2str v)) l.st =
        (.ok (l.st.work.selectVertex (edge2str v)), l.st) := by unfold execRead; rw [if_neg hc]
    rw [bind_run _ _ _ h2]
    cases c with
    | own =>
      have h1 : lSelect .own (fun db => (db.selectVertex (edge2str v)).map fun r => .num (sel r)) l =
          (.ok ((l.st.work.selectVertex (edge2str v)).map fun r => .num (sel r)), l) := by unfold lSelect; simp
      rw [lbind_ok _ _ _ h1]
      cases l.st.work.selectVertex (edge2str v) with
      | nil => exact ((Agrees.on _).bind fun _ => Agrees.pure _) l
      | cons r rows => exact ((Agrees.on (closeDirect .own)).bind fun _ => Agrees.pure (sel r)) l
    | shared =>
      have hcur : l.st.cur ≠ some false := fun h => hc ⟨rfl, h⟩
      have h1 : lSelect .shared (fun db => (db.selectVertex (edge2str v)).map fun r => .num (sel r)) l =
          (.ok [], { l with unread := (l.st.work.selectVertex (edge2str v)).map fun r => .num (sel r) }) := by
        unfold lSelect; simp [hcur]
      rw [lbind_ok _ _ _ h1]
      have h3 : lFetch .shared [] { l with unread := (l.st.work.selectVertex (edge2str v)).map fun r => .num (sel r) } =
          (.ok (((l.st.work.selectVertex (edge2str v)).map fun r => Fetched.num (sel r)).head?, []),
            { l with unread := ((l.st.work.selectVertex (edge2str v)).map fun r => Fetched.num (sel r)).tail }) := by
        unfold lFetch; simp [hcur]
      rw [lbind_ok _ _ _ h3]
      cases l.st.work.selectVertex (edge2str v) with
      | nil => exact ((Agrees.on _).bind fun _ => Agrees.pure _) { l with unread := [] }
      | cons r rows =>
        exact ((Agrees.on (closeDirect .shared)).bind fun _ => Agrees.pure (sel r))
          { l with unread := rows.map fun r => Fetched.num (sel r) }

theorem agree_degree (v : Val F) : Agrees (lLook VRow.degree 0 v) (hgDegree v) := agree_look _ _ _ rfl

theorem agree_timestamp (v : Val F) : Agrees (lLook VRow.timestamp (-1) v) (hgTimestamp v) := agree_look _ _ _ rfl

theorem agree_call (c : RCall F) : Agrees c.live c.run := by
  cases c with
  | «exists» e => exact (agree_exists e).bind fun _ => Agrees.pure _
  | pattern p => exact (agree_pattern p).bind fun _ => Agrees.pure _
  | star c => exact (agree_star c).bind fun _ => Agrees.pure _
  | symbolsWithRoot r => exact (agree_symbols r).bind fun _ => Agrees.pure _
  | sources e => exact (agree_sources e).bind fun _ => Agrees.pure _
  | degree v => exact (agree_degree v).bind fun _ => Agrees.pure _
  | timestamp v => exact (agree_timestamp v).bind fun _ => Agrees.pure _
  | vertices => exact agree_vertices.bind fun _ => Agrees.pure _

theorem agree_prog {β : Type} (p : RProg F β) : Agrees p.live p.run := by
  induction p with
  | ret b => exact fun _ => ⟨rfl, rfl⟩
  | raise e => exact fun _ => ⟨rfl, rfl⟩
  | call c k ih =>
    intro l
    unfold RProg.live RProg.run
    obtain ⟨h1, h2⟩ := agree_call c l
    have := ih (c.live l).1 (c.live l).2
    rw [h1, h2] at this
    rw [h1]
    exact this

/-! ### Reading leaves the tables and the disk alone -/

/-- Nothing but the shared cursor changes. -/
def Soft {α : Type} (m : M α) : Prop := ∀ s, ({ (m s).2 with cur := none } : St) = { s with cur := none } ∧
  (s.cur = none → (m s).2.cur = none)

theorem Soft.of_readOnly {α : Type} {m : M α} (h : ReadOnly m) : Soft m := fun s => by rw [h s]; exact ⟨rfl, id⟩

theorem Soft.bind {α β : Type} {m : M α} {f : α → M β} (h : Soft m) (hf : ∀ a, Soft (f a)) : Soft (m >>= f) := by
  intro s
  have h1 := h s
  cases hr : m s with
  | mk r t =>
    rw [hr] at h1
    cases r with
    | ok a =>
      rw [bind_run _ _ _ hr]
      exact ⟨(hf a t).1.trans h1.1, fun hc => (hf a t).2 (h1.2 hc)⟩
    | error e => rw [bind_err _ _ _ hr]; exact h1

theorem Soft.pure {α : Type} (a : α) : Soft (Pure.pure a : M α) := Soft.of_readOnly (ReadOnly.pure a)

theorem Soft.closeDirect (c : Cursor) : Soft (closeDirect c) := by
  intro s
  cases c with
  | own => exact ⟨rfl, id⟩
  | shared =>
    refine ⟨rfl, fun h => ?_⟩
    show s.cur.map _ = none
    rw [h]; rfl

theorem readOnly_str2perms (c : Str) : ReadOnly (str2perms (F := F) c) :=
  (ReadOnly.liftE _).bind fun _ => ReadOnly.openLocal.bind fun _ =>
    (ReadOnly.execRead _ _).bind fun _ => (ReadOnly.liftE _).bind fun _ => ReadOnly.closeLocal.bind fun _ =>
      ReadOnly.pure _

theorem soft_call (c : RCall F) : Soft c.run := by
  have hdone : ∀ {α : Type} {m : M α} (g : α → Ans F), Soft m → Soft (m >>= fun r => Pure.pure (g r)) :=
    fun g h => h.bind fun _ => Soft.pure _
  have hlook : ∀ (sel : VRow → Int) (dflt : Int) (v : Val F),
      Soft ((openCursor true >>= fun cur => (execRead cur fun db => db.selectVertex (edge2str v)) >>= fun rows =>
      match rows with
      | row :: _ => (do closeDirect cur; pure (sel row))
      | [] => (do closeCursor true false; pure dflt)) : M Int) := by
    intro sel dflt v
    refine (Soft.of_readOnly ReadOnly.openLocal).bind fun c => (Soft.of_readOnly (ReadOnly.execRead _ _)).bind fun rows => ?_
    cases rows with
    | nil => exact (Soft.of_readOnly ReadOnly.closeLocal).bind fun _ => Soft.pure _
    | cons r rows => exact (Soft.closeDirect c).bind fun _ => Soft.pure _
  cases c with
  | «exists» e => exact hdone _ (Soft.of_readOnly (readOnly_exists e))
  | pattern p => exact hdone _ (Soft.of_readOnly (readOnly_pattern p))
  | star c =>
    refine hdone _ (Soft.of_readOnly ?_)
    unfold hgStar sqlStar
    split
    · exact readOnly_str2perms _
    · exact readOnly_str2perms _
  | symbolsWithRoot r =>
    exact hdone _ (Soft.of_readOnly ((ReadOnly.liftE _).bind fun _ => ReadOnly.openLocal.bind fun _ =>
      (ReadOnly.execRead _ _).bind fun _ => (ReadOnly.liftE _).bind fun _ => ReadOnly.closeLocal.bind fun _ =>
      ReadOnly.pure _))
  | sources e => exact hdone _ (Soft.of_readOnly (readOnly_sources e))
  | degree v => exact hdone _ (hlook VRow.degree 0 v)
  | timestamp v => exact hdone _ (hlook VRow.timestamp (-1) v)
  | vertices =>
    exact hdone _ (Soft.of_readOnly (ReadOnly.openLocal.bind fun _ =>
      (ReadOnly.execRead _ _).bind fun _ => (ReadOnly.liftE _).bind fun _ => ReadOnly.closeLocal.bind fun _ =>
      ReadOnly.pure _))

theorem soft_prog {β : Type} (p : RProg F β) : Soft p.run := by
  induction p with
  | ret b => exact fun s => ⟨rfl, id⟩
  | raise e => exact fun s => ⟨rfl, id⟩
  | call c k ih =>
    intro s
    unfold RProg.run
    exact ⟨(ih _ _).1.trans (soft_call c s).1, fun hc => (ih _ _).2 ((soft_call c s).2 hc)⟩

/-! ### The simulation -/

variable {V : Val F → Prop}

/-- The state a program reads: some well-formed graph, whatever the shared cursor. -/
def Sound (V : Val F → Prop) (s : St) : Prop := ∃ S, Shows V { s with cur := none } S

theorem Sound.soft {α : Type} {m : M α} {s : St} (h : Sound V s) (hm : Soft m) : Sound V (m s).2 := by
  obtain ⟨S, hS⟩ := h
  exact ⟨S, by rw [(hm s).1]; exact hS⟩

/-- The rows of the table are the texts of the vertices. -/
theorem rows_vertices {s : St} (h : Sound V s) (hc : s.cur = none) :
    mapE rowVertex s.work.vertexRows = .ok (verticesNow (F := F) s) := by
  obtain ⟨S, hS⟩ := h
  obtain ⟨A, hA, hR, hw⟩ := hS.ex
  have hw' : s.work = A.conc := hw
  have h1 := fAll_run hA.wf (fun (v : Val F) (d : Int) => (v, d)) (St.usable_of_none hc) hw'
  have h2 : verticesNow (F := F) s = A.verts.map fun r => (r.v, r.deg) := by
    unfold verticesNow hgFAll; rw [h1]
  rw [h2, hw']
  unfold DB.vertexRows
  show mapE rowVertex ((A.verts.map VEnt.row).map _) = _
  rw [List.map_map, mapE_map]
  apply mapE_ok
  intro r hr
  show rowVertex (F := F) (Fetched.pair r.row.id r.row.degree) = _
  unfold rowVertex
  show (do let v ← (str2edge r.row.id : Except PyErr (Val F)); Except.ok (v, r.row.degree)) = _
  simp only [VEnt.row, str2edge_edge2str (hA.wf r hr)]
  rfl

/-- A generator does what the sequence does. -/
def Mimics {β : Type} : Gen F β → Seq F β → Prop
  | .new f, .fresh g => f = g
  | .own f rows, .going g left => f = g ∧ mapE rowVertex rows = .ok left
  | .done, .over => True
  | _, _ => False

theorem mapE_cons_ok {α γ : Type} {f : α → Except PyErr γ} {x : α} {xs : List α} {ys : List γ}
    (h : mapE f (x :: xs) = .ok ys) : ∃ y ys', f x = .ok y ∧ mapE f xs = .ok ys' ∧ ys = y :: ys' := by
  unfold mapE at h
  cases hx : f x with
  | error e => rw [hx] at h; cases h
  | ok y =>
    rw [hx] at h
    cases hr : mapE f xs with
    | error e =>
      simp only [hr] at h
      cases h
    | ok ys' =>
      simp only [hr] at h
      cases h
      exact ⟨y, ys', rfl, rfl, rfl⟩

theorem genTurn_take {β : Type} (f : Val F → Int → RProg F β) {rows : List Fetched} {left : List (Val F × Int)}
    (h : mapE rowVertex rows = .ok left) (l : Live) :
    (genTurn f rows.head? (.own f rows.tail) l).1 = (Seq.take f left l.st).1 ∧
    Mimics (genTurn f rows.head? (.own f rows.tail) l).2.1 (Seq.take f left l.st).2.1 ∧
    (genTurn f rows.head? (.own f rows.tail) l).2.2.st = (Seq.take f left l.st).2.2 := by
  cases rows with
  | nil =>
    cases h
    unfold genTurn
    simp only [List.head?_nil]
    have : lOn (closeCursor true false) l = (.ok (), l) := by unfold lOn; rw [closeCursor_local]
    rw [this]
    exact ⟨rfl, trivial, rfl⟩
  | cons r rows =>
    obtain ⟨vd, left', h1, h2, rfl⟩ := mapE_cons_ok h
    unfold genTurn Seq.take
    simp only [List.head?_cons, h1, List.tail_cons]
    obtain ⟨a1, a2⟩ := agree_prog (f vd.1 vd.2) l
    cases hx : (f vd.1 vd.2).live l with
    | mk x l' =>
      cases hy : (f vd.1 vd.2).run l.st with
      | mk y s' =>
        rw [hx, hy] at a1 a2
        simp only at a1 a2
        subst a1 a2
        cases x with
        | ok b => exact ⟨rfl, ⟨rfl, h2⟩, rfl⟩
        | error e => exact ⟨rfl, trivial, rfl⟩

theorem genNext_next {β : Type} {g : Gen F β} {q : Seq F β} (h : Mimics g q) (l : Live) (hs : Sound V l.st)
    (hfresh : (∃ f, q = .fresh f) → l.st.cur = none) :
    (genNext g l).1 = (q.next l.st).1 ∧ Mimics (genNext g l).2.1 (q.next l.st).2.1 ∧
      (genNext g l).2.2.st = (q.next l.st).2.2 := by
  cases g with
  | new f =>
    cases q with
    | fresh g =>
      cases (show f = g from h)
      have hc := hfresh ⟨f, rfl⟩
      have h1 : lOn (openCursor true) l = (.ok .own, l) := by
        unfold lOn; rw [openCursor_local]; unfold St.lcur; rw [hc]
      have h2 : lSelect .own DB.vertexRows l = (.ok l.st.work.vertexRows, l) := by unfold lSelect; simp
      have h3 : lFetch .own l.st.work.vertexRows l = (.ok (l.st.work.vertexRows.head?, l.st.work.vertexRows.tail), l) := rfl
      unfold genNext
      simp only [h1, h2, h3]
      exact genTurn_take f (rows_vertices hs hc) l
    | going => cases h
    | over => cases h
  | own f rows =>
    cases q with
    | going g left =>
      obtain ⟨rfl, h2⟩ := h
      exact genTurn_take f h2 l
    | fresh => cases h
    | over => cases h
  | shared f n => cases q <;> cases h
  | done =>
    cases q with
    | over => exact ⟨rfl, trivial, rfl⟩
    | fresh => cases h
    | going => cases h

theorem soft_take {β : Type} (f : Val F → Int → RProg F β) (left : List (Val F × Int)) (s : St) :
    ({ (Seq.take f left s).2.2 with cur := none } : St) = { s with cur := none } ∧
      (s.cur = none → (Seq.take f left s).2.2.cur = none) := by
  cases left with
  | nil => exact ⟨rfl, id⟩
  | cons vd left =>
    have := soft_prog (f vd.1 vd.2) s
    unfold Seq.take
    simp only
    cases hy : (f vd.1 vd.2).run s with
    | mk y s' =>
      rw [hy] at this
      cases y <;> exact this

theorem soft_next {β : Type} (q : Seq F β) (s : St) :
    ({ (q.next s).2.2 with cur := none } : St) = { s with cur := none } ∧
      (s.cur = none → (q.next s).2.2.cur = none) := by
  cases q with
  | fresh f => exact soft_take f _ s
  | going f left => exact soft_take f left s
  | over => exact ⟨rfl, id⟩

/-- Generators against sequences, one by one. -/
def AllMimic {β : Type} (gs : List (Gen F β)) (qs : List (Seq F β)) : Prop :=
  gs.length = qs.length ∧ ∀ (i : Nat) (g : Gen F β) (q : Seq F β), gs[i]? = some g → qs[i]? = some q → Mimics g q

theorem AllMimic.push {β : Type} {gs : List (Gen F β)} {qs : List (Seq F β)} (h : AllMimic gs qs) {g : Gen F β}
    {q : Seq F β} (hg : Mimics g q) : AllMimic (gs ++ [g]) (qs ++ [q]) := by
  refine ⟨by simp [h.1], fun i g' q' h1 h2 => ?_⟩
  by_cases hi : i < gs.length
  · rw [List.getElem?_append_left hi] at h1
    rw [List.getElem?_append_left (h.1 ▸ hi)] at h2
    exact h.2 i g' q' h1 h2
  · have hi' : gs.length ≤ i := Nat.le_of_not_lt hi
    rw [List.getElem?_append_right hi'] at h1
    rw [List.getElem?_append_right (h.1 ▸ hi'), ← h.1] at h2
    cases hk : i - gs.length with
    | zero =>
      rw [hk] at h1 h2
      simp at h1 h2
      subst h1 h2
      exact hg
    | succ n => rw [hk] at h1; simp at h1

theorem AllMimic.set {β : Type} {gs : List (Gen F β)} {qs : List (Seq F β)} (h : AllMimic gs qs) {g : Gen F β}
    {q : Seq F β} (hg : Mimics g q) (i : Nat) : AllMimic (gs.set i g) (qs.set i q) := by
  refine ⟨by simp [h.1], fun j g' q' h1 h2 => ?_⟩
  rw [List.getElem?_set] at h1 h2
  by_cases hij : i = j
  · subst hij
    rw [if_pos rfl] at h1 h2
    split at h1
    · rename_i hlt
      rw [if_pos (h.1 ▸ hlt)] at h2
      cases h1; cases h2
      exact hg
    · cases h1
  · rw [if_neg hij] at h1 h2
    exact h.2 j g' q' h1 h2

theorem Mimics.disturb {β : Type} {g : Gen F β} {q : Seq F β} (h : Mimics g q) (hq : q.underway = false)
    (rest : List Fetched) : g.disturb rest = g := by
  cases g with
  | own f rows =>
    cases q with
    | going => cases hq
    | fresh => cases h
    | over => cases h
  | _ => rfl

theorem AllMimic.disturb {β : Type} {gs : List (Gen F β)} {qs : List (Seq F β)} (h : AllMimic gs qs)
    (hq : ∀ q ∈ qs, q.underway = false) (rest : Nat → List Fetched) :
    (gs.mapIdx fun i g => g.disturb (rest i)) = gs := by
  apply List.ext_getElem?
  intro i
  rw [List.getElem?_mapIdx]
  cases hg : gs[i]? with
  | none => rfl
  | some g =>
    have hi : i < qs.length := by
      rw [← h.1]
      exact (List.getElem?_eq_some_iff.1 hg).1
    have hm := h.2 i g qs[i] hg (List.getElem?_eq_getElem hi)
    show some (g.disturb (rest i)) = some g
    rw [hm.disturb (hq _ (List.getElem_mem hi))]

/-- One step. -/
theorem act_step (hV : Vocab V) {β : Type} {p : Prg F β} {s : St} {qs : List (Seq F β)} (hst : p.live.st = s)
    (hs : Sound V s) (hm : AllMimic p.gens qs) (a : Act F β) (hf : a.Fair s qs) (ho : ∀ o, a.op? = some o → o.Over V) :
    (a.run p).1 = (a.spec s qs).1 ∧ (a.run p).2.live.st = (a.spec s qs).2.1 ∧
      AllMimic (a.run p).2.gens (a.spec s qs).2.2 ∧ Sound V (a.spec s qs).2.1 := by
  subst hst
  cases a with
  | make f => exact ⟨rfl, rfl, hm.push rfl, hs⟩
  | next i =>
    unfold Act.run Act.spec
    simp only
    cases hg : p.gens[i]? with
    | none =>
      have : qs[i]? = none := by
        rw [List.getElem?_eq_none_iff] at hg ⊢
        rw [← hm.1]; exact hg
      rw [this]
      exact ⟨rfl, rfl, hm, hs⟩
    | some g =>
      have hi : i < qs.length := by
        rw [← hm.1]
        exact (List.getElem?_eq_some_iff.1 hg).1
      have hq : qs[i]? = some qs[i] := List.getElem?_eq_getElem hi
      have hmi := hm.2 i g qs[i] hg hq
      obtain ⟨h1, h2, h3⟩ := genNext_next hmi p.live hs (fun ⟨f, hf'⟩ => hf ⟨f, by rw [hq, hf']⟩)
      rw [hq]
      simp only
      refine ⟨by rw [h1], h3, hm.set h2 i, ?_⟩
      obtain ⟨S, hS⟩ := hs
      exact ⟨S, by rw [(soft_next qs[i] p.live.st).1]; exact hS⟩
  | call c =>
    obtain ⟨h1, h2⟩ := agree_call c p.live
    unfold Act.run Act.spec
    simp only
    exact ⟨by rw [h1], h2, hm, hs.soft (soft_call c)⟩
  | enter =>
    unfold Act.run Act.spec
    simp only
    have he : openCursor false p.live.st = (.ok .shared, (openCursor false p.live.st).2) := by
      unfold openCursor
      cases p.live.st.cur <;> rfl
    rw [he]
    refine ⟨rfl, rfl, hm, ?_⟩
    obtain ⟨S, hS⟩ := hs
    refine ⟨S, ?_⟩
    have : ({ (openCursor false p.live.st).2 with cur := none } : St) = { p.live.st with cur := none } := by
      unfold openCursor
      cases p.live.st.cur <;> rfl
    rw [this]; exact hS
  | leave =>
    unfold Act.run Act.spec
    simp only
    refine ⟨trivial, trivial, hm, ?_⟩
    obtain ⟨S, hS⟩ := hs
    refine ⟨S, hS.ex.elim fun A hA => ⟨A, hA.1, hA.2.1, ?_⟩, rfl, ?_⟩
    · show (closeCursor false true p.live.st).2.work = _
      unfold closeCursor St.commit
      simp only
      cases p.live.st.cur <;> exact hA.2.2
    · show (closeCursor false true p.live.st).2.disk = (closeCursor false true p.live.st).2.work
      unfold closeCursor St.commit
      simp only
      cases p.live.st.cur <;> rfl
  | op o rest =>
    obtain ⟨hc, hq⟩ := hf
    obtain ⟨S, hS⟩ := hs
    have hself : ({ p.live.st with cur := none } : St) = p.live.st := by
      have := hc
      cases hp : p.live.st with
      | mk w d cs cu au => rw [hp] at this; cases this; rfl
    rw [hself] at hS
    obtain ⟨s', e, hS'⟩ := hS.ops hV (ops := [o]) (fun op hop => by
      rcases List.mem_singleton.1 hop with rfl
      exact ho op rfl)
    have e' : o.run p.live.st = (.ok (), s') := by
      cases hr : o.run p.live.st with
      | mk r t =>
        cases r with
        | ok u =>
          have : runOps [o] p.live.st = (.ok (), t) := by
            unfold runOps forEach
            rw [bind_run _ _ _ hr]; rfl
          rw [this] at e
          cases e; rfl
        | error x =>
          have : runOps [o] p.live.st = (.error x, t) := by
            unfold runOps forEach
            rw [bind_err _ _ _ hr]
          rw [this] at e
          cases e
    unfold Act.run Act.spec
    simp only [e']
    refine ⟨trivial, trivial, ?_, ⟨_, by
      have h2 : ({ s' with cur := none } : St) = s' := by
        have := hS'.idle
        cases s' with
        | mk w d cs cu au => cases this; rfl
      rw [h2]; exact hS'⟩⟩
    cases ha : p.live.st.autocommit with
    | true => simp only [if_true]; exact hm
    | false =>
      simp only [Bool.false_eq_true, if_false]
      rw [hm.disturb (hq ha)]
      exact hm

/-- Every program. -/
theorem acts_spec (hV : Vocab V) {β : Type} (as : List (Act F β)) {p : Prg F β} {s : St} {qs : List (Seq F β)}
    (hst : p.live.st = s) (hs : Sound V s) (hm : AllMimic p.gens qs) (hf : FairActs as s qs)
    (ho : ∀ a ∈ as, ∀ o, a.op? = some o → o.Over V) :
    (runActs as p).1 = (specActs as s qs).1 ∧ (runActs as p).2.live.st = (specActs as s qs).2.1 := by
  induction as generalizing p s qs with
  | nil => exact ⟨rfl, hst⟩
  | cons a as ih =>
    obtain ⟨h1, h2, h3, h4⟩ := act_step hV hst hs hm a hf.1 (ho a (by simp))
    obtain ⟨h5, h6⟩ := ih h2 h4 h3 hf.2 (fun b hb => ho b (by simp [hb]))
    unfold runActs specActs
    simp only
    exact ⟨by rw [h1, h5], h6⟩

/-! ### Reading only -/

theorem St.eq_of_soft {s t : St} (h : ({ t with cur := none } : St) = { s with cur := none }) (hs : s.cur = none)
    (ht : t.cur = none) : t = s := by
  cases s; cases t
  simp only at hs ht
  subst hs ht
  exact h

theorem spec_reads {β : Type} (a : Act F β) (ha : a.reads = true) {s : St} (hc : s.cur = none) (qs : List (Seq F β)) :
    (a.spec s qs).2.1 = s := by
  cases a with
  | make f => rfl
  | next i =>
    unfold Act.spec
    simp only
    cases qs[i]? with
    | none => rfl
    | some q => exact St.eq_of_soft (soft_next q s).1 hc ((soft_next q s).2 hc)
  | call c => exact St.eq_of_soft (soft_call c s).1 hc ((soft_call c s).2 hc)
  | enter => cases ha
  | leave => cases ha
  | op => cases ha

theorem fair_reads {β : Type} (as : List (Act F β)) (ha : ∀ a ∈ as, a.reads = true) {s : St} (hc : s.cur = none)
    (qs : List (Seq F β)) : FairActs as s qs := by
  induction as generalizing qs with
  | nil => trivial
  | cons a as ih =>
    refine ⟨?_, ?_⟩
    · cases a with
      | next i => exact fun _ => hc
      | op => have := ha _ (List.mem_cons_self ..); cases this
      | _ => trivial
    · rw [spec_reads a (ha a (by simp)) hc]
      exact ih (fun b hb => ha b (by simp [hb])) _

theorem spec_state {β : Type} (as : List (Act F β)) (ha : ∀ a ∈ as, a.reads = true) {s : St} (hc : s.cur = none)
    (qs : List (Seq F β)) : (specActs as s qs).2.1 = s := by
  induction as generalizing qs with
  | nil => rfl
  | cons a as ih =>
    unfold specActs
    simp only
    rw [spec_reads a (ha a (by simp)) hc]
    exact ih (fun b hb => ha b (by simp [hb])) _

section
variable {β : Type}

theorem gots_spec {s : St} (hc : s.cur = none) {f : Val F → Int → RProg F β} {b : Val F × Int → β} {i : Nat}
    {vs : List (Val F × Int)} (hvs : verticesNow s = vs)
    (hb : ∀ vd ∈ vs, ((f vd.1 vd.2).run s).1 = .ok (b vd)) (as : List (Act F β)) (ha : ∀ a ∈ as, a.reads = true)
    (k : Nat) (qs : List (Seq F β)) (hi : i < qs.length)
    (hq : (k = 0 ∧ qs[i]? = some (.fresh f)) ∨ qs[i]? = some (.going f (vs.drop k)) ∨
      (vs.length ≤ k ∧ qs[i]? = some .over)) :
    gots i as (specActs as s qs).1 = (List.range (asks i as)).map fun j => valueAt b vs (k + j) := by
  have htake : ∀ k, Seq.take f (vs.drop k) s =
      (.ok ((vs[k]?).map b), if k < vs.length then .going f (vs.drop (k + 1)) else .over, s) := by
    intro k
    by_cases hk : k < vs.length
    · rw [List.drop_eq_getElem_cons hk, List.getElem?_eq_getElem hk]
      have h1 := hb vs[k] (List.getElem_mem hk)
      have h2 := soft_prog (f vs[k].1 vs[k].2) s
      unfold Seq.take
      simp only
      cases hr : (f vs[k].1 vs[k].2).run s with
      | mk r t =>
        rw [hr] at h1 h2
        simp only at h1
        subst h1
        have : t = s := St.eq_of_soft h2.1 hc (h2.2 hc)
        subst this
        simp [hk]
    · have hk' : vs.length ≤ k := Nat.le_of_not_lt hk
      rw [List.drop_eq_nil_of_le hk', List.getElem?_eq_none hk']
      simp [Seq.take, hk]
  induction as generalizing k qs with
  | nil => rfl
  | cons a as ih =>
    have ha' := fun c hc => ha c (List.mem_cons_of_mem _ hc)
    have hstate := spec_reads a (ha a (by simp)) hc qs
    -- steps that leave the sequence alone
    have keep : ∀ (qs' : List (Seq F β)), (a.spec s qs).2.2 = qs' → qs'[i]? = qs[i]? → i < qs'.length →
        (∀ o os, gots i (a :: as) (o :: os) = gots i as os) → asks i (a :: as) = asks i as →
        gots i (a :: as) (specActs (a :: as) s qs).1 =
          (List.range (asks i (a :: as))).map fun j => valueAt b vs (k + j) := by
      intro qs' h1 h2 h3 h4 h5
      unfold specActs
      simp only
      rw [h4, hstate, h1, h5]
      exact ih ha' k qs' h3 (by rw [h2]; exact hq)
    cases a with
    | make g =>
      refine keep (qs ++ [.fresh g]) rfl ?_ (by simp; omega) (fun _ _ => rfl) rfl
      rw [List.getElem?_append_left hi]
    | call c => exact keep qs rfl rfl hi (fun _ _ => rfl) rfl
    | enter => have := ha _ (List.mem_cons_self ..); cases this
    | leave => have := ha _ (List.mem_cons_self ..); cases this
    | op => have := ha _ (List.mem_cons_self ..); cases this
    | next j =>
      by_cases hj : j = i
      · subst hj
        have hnext : ∃ q, qs[j]? = some q ∧ q.next s = (.ok ((vs[k]?).map b),
            if k < vs.length then .going f (vs.drop (k + 1)) else .over, s) := by
          rcases hq with ⟨rfl, h⟩ | h | ⟨hk, h⟩
          · refine ⟨_, h, ?_⟩
            show Seq.take f (verticesNow s) s = _
            rw [hvs]
            exact htake 0
          · exact ⟨_, h, htake k⟩
          · refine ⟨_, h, ?_⟩
            rw [List.getElem?_eq_none hk]
            simp [Seq.next, Nat.not_lt.2 hk]
        obtain ⟨q, h1, h2⟩ := hnext
        have h3 : (Act.next (F := F) (β := β) j).spec s qs = (.got (.ok ((vs[k]?).map b)), s,
            qs.set j (if k < vs.length then .going f (vs.drop (k + 1)) else .over)) := by
          unfold Act.spec
          simp only [h1, h2]
        unfold specActs
        simp only
        rw [h3]
        simp only [gots, if_true]
        have hn := ih ha' (k + 1) (qs.set j (if k < vs.length then .going f (vs.drop (k + 1)) else .over))
          (by simpa using hi) (by
            rw [List.getElem?_set_self (by simpa using hi)]
            by_cases hk : k < vs.length
            · simp [hk]
            · right; right
              exact ⟨by omega, by simp [hk]⟩)
        rw [hn, show asks j (Act.next (F := F) (β := β) j :: as) = asks j as + 1 by simp [asks], List.range_succ_eq_map, List.map_cons, List.map_map]
        congr 1
        apply List.map_congr_left
        intro m _
        show valueAt b vs (k + 1 + m) = valueAt b vs (k + (m + 1))
        congr 1; omega
      · have hg : ∀ o os, gots i (Act.next (F := F) (β := β) j :: as) (o :: os) = gots i as os := by
          intro o os
          simp [gots, hj]
        refine keep _ rfl ?_ ?_ hg (by simp [asks, hj])
        · unfold Act.spec
          simp only
          cases qs[j]? with
          | none => rfl
          | some q => exact List.getElem?_set_ne hj
        · unfold Act.spec
          simp only
          cases qs[j]? with
          | none => exact hi
          | some q => simpa using hi

theorem specActs_append (as bs : List (Act F β)) (s : St) (qs : List (Seq F β)) :
    specActs (as ++ bs) s qs = ((specActs as s qs).1 ++ (specActs bs (specActs as s qs).2.1 (specActs as s qs).2.2).1,
      (specActs bs (specActs as s qs).2.1 (specActs as s qs).2.2).2) := by
  induction as generalizing s qs with
  | nil => rfl
  | cons a as ih =>
    have := ih (a.spec s qs).2.1 (a.spec s qs).2.2
    show ((a.spec s qs).1 :: (specActs (as ++ bs) (a.spec s qs).2.1 (a.spec s qs).2.2).1,
      (specActs (as ++ bs) (a.spec s qs).2.1 (a.spec s qs).2.2).2) = _
    rw [this]
    rfl

theorem specActs_length (as : List (Act F β)) (s : St) (qs : List (Seq F β)) : (specActs as s qs).1.length = as.length := by
  induction as generalizing s qs with
  | nil => rfl
  | cons a as ih => unfold specActs; simp [ih]

theorem gots_append (i : Nat) (as bs : List (Act F β)) (os ps : List (Out F β)) (h : os.length = as.length) :
    gots i (as ++ bs) (os ++ ps) = gots i as os ++ gots i bs ps := by
  induction as generalizing os with
  | nil =>
    have : os = [] := by simpa using h
    subst this
    cases bs <;> cases ps <;> rfl
  | cons a as ih =>
    cases os with
    | nil => simp at h
    | cons o os =>
      have := ih os (by simpa using h)
      cases a with
      | next j =>
        simp only [List.cons_append, gots]
        split
        · rw [this]; rfl
        · exact this
      | _ => exact this

theorem asks_append (i : Nat) (as bs : List (Act F β)) : asks i (as ++ bs) = asks i as + asks i bs := by
  induction as with
  | nil => simp [asks]
  | cons a as ih =>
    cases a with
    | next j =>
      simp only [List.cons_append, asks]
      split <;> omega
    | _ => exact ih

theorem gots_none (i : Nat) (as : List (Act F β)) (h : asks i as = 0) (os : List (Out F β)) : gots i as os = [] := by
  induction as generalizing os with
  | nil => cases os <;> rfl
  | cons a as ih =>
    cases os with
    | nil => cases a <;> rfl
    | cons o os =>
      cases a with
      | next j =>
        unfold asks at h
        unfold gots
        split at h
        · cases h
        · rename_i hj
          rw [if_neg hj]; exact ih h os
      | _ => exact ih h os

theorem specActs_makes (as : List (Act F β)) (s : St) (qs : List (Seq F β)) :
    (specActs as s qs).2.2.length = qs.length + makes as := by
  induction as generalizing s qs with
  | nil => rfl
  | cons a as ih =>
    unfold specActs
    simp only
    rw [ih]
    cases a with
    | make f => simp [Act.spec, makes]; omega
    | next i =>
      show _ = qs.length + makes as
      unfold Act.spec
      simp only
      cases qs[i]? <;> simp
    | _ => rfl

/-! ### The shared cursor -/

theorem lselect_shared {l : Live} (hc : l.st.cur = some true) (q : DB → List Fetched) :
    lSelect .shared q l = (.ok [], { l with unread := q l.st.work }) := by
  unfold lSelect; simp [hc]

theorem consume_ok {α : Type} (body : Fetched → Except PyErr α) (rows : List Fetched) {as : List α}
    (h : (consume body rows).1 = .ok as) : (consume body rows).2 = [] := by
  induction rows generalizing as with
  | nil => rfl
  | cons r rows ih =>
    unfold consume at h ⊢
    cases hb : body r with
    | error e => rw [hb] at h; cases h
    | ok a =>
      rw [hb] at h
      simp only at h ⊢
      cases hc : consume body rows with
      | mk x rest =>
        rw [hc] at h ih
        cases x with
        | error e => cases h
        | ok as' => exact ih rfl

/-- A call that returned from inside a batch left no row unread, and the cursor open. -/
def Drains {α : Type} (x : L α) : Prop := ∀ (l : Live) (a : α), l.st.cur = some true → (x l).1 = .ok a →
  (x l).2.unread = [] ∧ (x l).2.epoch = l.epoch ∧ (x l).2.st = l.st

/-- Steps that do not touch the rows. -/
def Still {α : Type} (x : L α) : Prop := ∀ (l : Live) (a : α), l.st.cur = some true → (x l).1 = .ok a → (x l).2 = l

theorem Still.lift {α : Type} (x : Except PyErr α) : Still (lLift x) := fun _ _ _ _ => rfl
theorem Still.pure {α : Type} (a : α) : Still (Pure.pure a : L α) := fun _ _ _ _ => rfl
theorem Still.close : Still (lOn (closeCursor true false)) := fun l _ _ _ => by
  unfold lOn; rw [closeCursor_local]

theorem Still.drains {α γ : Type} {x : L α} {f : α → L γ} (h : Still x) (hf : ∀ a, Drains (f a)) : Drains (x >>= f) := by
  intro l b hc hr
  cases hx : x l with
  | mk r l' =>
    cases r with
    | error e => rw [lbind_err _ _ _ hx] at hr; cases hr
    | ok a =>
      have h1 := h l a hc (by rw [hx])
      rw [hx] at h1
      simp only at h1
      subst h1
      rw [lbind_ok _ _ _ hx] at hr ⊢
      exact hf a _ b hc hr

theorem Drains.still {α γ : Type} {x : L α} {f : α → L γ} (h : Drains x) (hf : ∀ a, Still (f a)) : Drains (x >>= f) := by
  intro l b hc hr
  cases hx : x l with
  | mk r l' =>
    cases r with
    | error e => rw [lbind_err _ _ _ hx] at hr; cases hr
    | ok a =>
      have h1 := h l a hc (by rw [hx])
      rw [hx] at h1
      rw [lbind_ok _ _ _ hx] at hr ⊢
      have := hf a l' b (by rw [h1.2.2]; exact hc) hr
      rw [this]
      exact h1

theorem lopen_shared {l : Live} (hc : l.st.cur = some true) : lOn (openCursor true) l = (.ok .shared, l) := by
  unfold lOn; rw [openCursor_local]; unfold St.lcur; rw [hc]

theorem drains_query {α γ : Type} (q : DB → List Fetched) (body : Fetched → Except PyErr α) {k : List α → L γ}
    (hk : ∀ as, Still (k as)) :
    Drains (lOn (openCursor true) >>= fun cur => lSelect cur q >>= fun own => lLoop cur own body >>= k) := by
  intro l b hc hr
  rw [lbind_ok _ _ _ (lopen_shared hc)] at hr ⊢
  rw [lbind_ok _ _ _ (lselect_shared hc q)] at hr ⊢
  have h2 : lLoop .shared [] body { l with unread := q l.st.work } =
      ((consume body (q l.st.work)).1, { l with unread := (consume body (q l.st.work)).2 }) := by
    unfold lLoop; simp [hc]
  cases hcs : (consume body (q l.st.work)).1 with
  | error e =>
    rw [hcs] at h2
    rw [lbind_err _ _ _ h2] at hr
    cases hr
  | ok as =>
    rw [hcs, consume_ok _ _ hcs] at h2
    rw [lbind_ok _ _ _ h2] at hr ⊢
    have := hk as { l with unread := [] } b hc hr
    rw [this]
    exact ⟨rfl, rfl, rfl⟩

theorem Still.bind {α γ : Type} {x : L α} {f : α → L γ} (h : Still x) (hf : ∀ a, Still (f a)) : Still (x >>= f) := by
  intro l b hc hr
  cases hx : x l with
  | mk r l' =>
    cases r with
    | error e => rw [lbind_err _ _ _ hx] at hr; cases hr
    | ok a =>
      have h1 := h l a hc (by rw [hx])
      rw [hx] at h1
      simp only at h1
      subst h1
      rw [lbind_ok _ _ _ hx] at hr ⊢
      exact hf a _ b hc hr

theorem drains_pattern (p : Val F) : Drains (lPattern2edges p) :=
  (Still.lift _).drains fun _ => (Still.lift _).drains fun _ => drains_query _ _ fun _ =>
    Still.close.bind fun _ => (Still.lift _).bind fun _ => Still.pure _

theorem drains_str2perms (c : Str) : Drains (lStr2perms (F := F) c) :=
  (Still.lift _).drains fun _ => drains_query _ _ fun _ => Still.close.bind fun _ => Still.pure _

/-- `degree` or `timestamp`. -/
def RCall.looks : RCall F → Bool
  | .degree _ => true
  | .timestamp _ => true
  | _ => false

theorem drains_call (c : RCall F) (hc : c.looks = false) : Drains c.live := by
  cases c with
  | «exists» e => exact ((drains_pattern e).still fun _ => Still.pure _).still fun _ => Still.pure _
  | pattern p => exact (drains_pattern p).still fun _ => Still.pure _
  | star c =>
    refine Drains.still ?_ fun _ => Still.pure _
    unfold lStar
    split
    · exact drains_str2perms _
    · exact drains_str2perms _
  | symbolsWithRoot r =>
    exact ((Still.lift _).drains fun _ => drains_query _ _ fun _ => Still.close.bind fun _ => Still.pure _).still
      fun _ => Still.pure _
  | sources e =>
    exact ((drains_pattern _).still fun _ => (Still.lift _).bind fun _ => Still.pure _).still fun _ => Still.pure _
  | degree v => cases hc
  | timestamp v => cases hc
  | vertices =>
    exact (drains_query _ _ fun _ => Still.close.bind fun _ => Still.pure _).still fun _ => Still.pure _

/-- The first `next` inside a batch. -/
theorem genNext_shared {f : Val F → Int → RProg F β} {b : Val F × Int → β} (hf : ∀ v d, f v d = .ret (b (v, d)))
    {l : Live} (hc : l.st.cur = some true) {vd : Val F × Int} {r : Fetched} {rows : List Fetched}
    (hrows : l.st.work.vertexRows = r :: rows) (hv : rowVertex r = .ok vd) :
    genNext (.new f) l = (.ok (some (b vd)), .shared f l.epoch, { l with unread := rows }) := by
  have h3 : lFetch .shared [] { l with unread := l.st.work.vertexRows } =
      (.ok (some r, []), { l with unread := rows }) := by
    unfold lFetch; simp [hc, hrows]
  unfold genNext
  simp only [lopen_shared hc, lselect_shared hc, h3]
  unfold genTurn
  simp only [hv, hf, RProg.live]

theorem genNext_new {f : Val F → Int → RProg F β} {l : Live} (hc : l.st.cur = some true) :
    genNext (.new f) l = genNext (.shared f l.epoch) { l with unread := l.st.work.vertexRows } := by
  have hlost : ({ l with unread := l.st.work.vertexRows } : Live).lost l.epoch = false := by
    unfold Live.lost; simp [hc]
  have h3 : lFetch .shared [] { l with unread := l.st.work.vertexRows } =
      (.ok (l.st.work.vertexRows.head?, []), { l with unread := l.st.work.vertexRows.tail }) := by
    unfold lFetch; simp [hc]
  unfold genNext
  simp only [lopen_shared hc, lselect_shared hc, h3, hlost, Bool.false_eq_true, if_false]

/-- A sequence on the shared cursor, consumed with nothing between. -/
theorem shared_takes {f : Val F → Int → RProg F β} {b : Val F × Int → β} (hf : ∀ v d, f v d = .ret (b (v, d)))
    (n : Nat) {rows : List Fetched} {left : List (Val F × Int)} {t : St} (ht : t.cur = some true)
    (hrl : mapE rowVertex rows = .ok left) :
    (runActs (List.replicate n (.next 0)) (⟨⟨t, rows, 0⟩, [.shared f 0]⟩ : Prg F β)).1 =
      (List.range n).map (valueAt b left) := by
  have over : ∀ (n : Nat) (l : Live), (runActs (List.replicate n (.next 0)) (⟨l, [.done]⟩ : Prg F β)).1 =
      (List.range n).map (valueAt b []) := by
    intro n
    induction n with
    | zero => intro l; rfl
    | succ n ih =>
      intro l
      rw [List.replicate_succ, List.range_succ_eq_map, List.map_cons, List.map_map]
      show valueAt b [] 0 :: (runActs (List.replicate n (.next 0)) (⟨l, [.done]⟩ : Prg F β)).1 = _
      rw [ih]
      rfl
  induction n generalizing rows left t with
  | zero => rfl
  | succ n ih =>
    rw [List.replicate_succ, List.range_succ_eq_map, List.map_cons, List.map_map]
    have hlost : (⟨t, rows, 0⟩ : Live).lost 0 = false := by unfold Live.lost; simp [ht]
    have hfe : lFetch .shared [] (⟨t, rows, 0⟩ : Live) = (.ok (rows.head?, []), ⟨t, rows.tail, 0⟩) := by
      unfold lFetch; simp [ht]
    cases rows with
    | nil =>
      cases hrl
      have hg : genNext (.shared f 0) (⟨t, [], 0⟩ : Live) = (.ok none, .done, ⟨t, [], 0⟩) := by
        unfold genNext
        simp only [hlost, Bool.false_eq_true, if_false, hfe, List.head?_nil]
        unfold genTurn
        have : lOn (closeCursor true false) (⟨t, [], 0⟩ : Live) = (.ok (), ⟨t, [], 0⟩) := by
          unfold lOn; rw [closeCursor_local]
        simp only [List.tail_nil, this]
      have hstep : Act.run (⟨⟨t, [], 0⟩, [.shared f 0]⟩ : Prg F β) (.next 0) = (valueAt b [] 0, ⟨⟨t, [], 0⟩, [.done]⟩) := by
        unfold Act.run
        simp only [List.getElem?_cons_zero, hg]
        rfl
      unfold runActs
      simp only [hstep]
      rw [over]
      rfl
    | cons r rows =>
      obtain ⟨vd, left', h1, h2, rfl⟩ := mapE_cons_ok hrl
      have hg : genNext (.shared f 0) (⟨t, r :: rows, 0⟩ : Live) = (.ok (some (b vd)), .shared f 0, ⟨t, rows, 0⟩) := by
        unfold genNext
        simp only [hlost, Bool.false_eq_true, if_false, hfe, List.head?_cons, List.tail_cons]
        unfold genTurn
        simp only [h1, hf, RProg.live]
      have hstep : Act.run (⟨⟨t, r :: rows, 0⟩, [.shared f 0]⟩ : Prg F β) (.next 0) =
          (.got (.ok (some (b vd))), ⟨⟨t, rows, 0⟩, [.shared f 0]⟩) := by
        unfold Act.run
        simp only [List.getElem?_cons_zero, hg]
        rfl
      unfold runActs
      simp only [hstep]
      rw [ih ht h2]
      rfl
end

end GB
