import Verif.Proofs.MyQuery
import Verif.Spec.MyShare

/-! The calls of a client, within its part of the database. -/

set_option linter.unusedSectionVars false

namespace GB

variable {F : Type} [PyFloat F] [DecidableEq F] {V : Val F → Prop} {k : Nat} {X : Field F}

/-- The method stays within the part of the client. -/
abbrev Conn.In {α : Type} (V : Val F → Prop) (k : Nat) (X : Field F) (x : Conn α) : Prop :=
  x.Loc (Alike V k X) (MyMoves V k X) fun _ => True

theorem Conn.Loc.any {α : Type} {A : DB → DB → Prop} {H : DB → DB → DB → DB → Prop} {x : Conn α} {post : α → Prop}
    (hx : x.Loc A H post) : x.Loc A H fun _ => True := hx.mono fun _ _ => trivial

theorem works_self {x : Val F} (hu : X.used x) : X.Works (edge2str x) := ⟨x, hu, .inl rfl⟩

theorem works_elem {x : Val F} (hu : X.used x) {v : Val F} (hv : v ∈ x.elems) : X.Works (edge2str v) := ⟨x, hu, .inr ⟨v, hv, rfl⟩⟩

theorem in_inc {t : Str} (ht : X.verts t ∨ X.known t) (hw : X.Works t) :
    (cIncDegree t).Loc (Alike V k X) (MyMoves V k X) fun b => X.known t → b = true := by
  unfold cIncDegree
  refine (loc_open true).bind fun cu _ => (loc_bump 1 ht hw).bind fun c hc => (loc_close true true).bind fun _ _ =>
    Conn.Loc.pure fun hk => ?_
  simpa using hc hk

theorem in_dec {t : Str} (ht : X.verts t ∨ X.known t) (hw : X.Works t) : (cDecDegree t).In V k X := by
  unfold cDecDegree
  exact (loc_open true).bind fun cu _ => (loc_bump (-1) ht hw).bind fun c hc => (loc_close true true).bind fun _ _ =>
    Conn.Loc.pure trivial

theorem in_addStr {t : Str} (deg ts : Int) (ht : X.verts t) (hw : X.Works t) (hl : t.length ≤ k) :
    (cMyAddStr k t deg ts).In V k X := by
  unfold cMyAddStr cMyUpdateOrInsertVertex
  exact (loc_open true).bind fun cu _ => (loc_update deg ts ht hw).bind fun c _ =>
    Conn.Loc.ite (fun _ => (loc_insert deg ts ht hw hl).bind fun _ _ => loc_close true true)
      (fun _ => loc_close true true)

theorem in_writePerm (hV : Vocab V) (hX : X.Ok V k) {x : Val F} (hu : X.used x) {n : Nat}
    (hn : n < factorial x.elems.length) (hl : (rowOf x.elems n).length ≤ k) :
    (cMyWritePerm (F := F) k (rowOf x.elems n)).In V k X := by
  unfold cMyWritePerm cMyUpdateOrInsertPerm
  refine (loc_open true).bind fun cu _ => ?_
  refine Conn.Loc.bind (post := fun _ => True) (loc_write fun db d h => .inl ⟨0, db, d, rfl, rfl, h, MyMoves.refl h, trivial⟩) ?_
  intro c _
  exact Conn.Loc.ite (fun _ => (loc_insertPerm hV hX hu hn hl).bind fun _ _ => loc_close true true)
    (fun _ => loc_close true true)

theorem in_removePerm (hX : X.Ok V k) {x : Val F} (hu : X.used x) {n : Nat}
    (hn : n < factorial x.elems.length) : (cRemovePerm (F := F) (rowOf x.elems n)).In V k X := by
  unfold cRemovePerm
  exact (loc_deletePerm hX hu hn).bind fun _ _ => loc_commit

theorem in_removeStr {t : Str} (hk : ¬ X.known t) (hw : X.Works t) : (cRemoveStr t).In V k X := by
  unfold cRemoveStr
  exact (loc_open true).bind fun cu _ => (loc_deleteVertex hk hw).bind fun _ _ => loc_close true true

theorem in_perms {x : Val F} (hx : EdgeOver V x) {f : Str → Conn Unit}
    (h : ∀ n, n < factorial x.elems.length → (f (rowOf x.elems n)).In V k X) : (cPerms x.elems f).In V k X := by
  refine Conn.Loc.each fun n hn => ?_
  rw [List.mem_range] at hn
  refine Conn.Loc.bind (post := fun t => t = rowOf x.elems n) (Conn.Loc.lift fun a ha => ?_) ?_
  · rw [permStr_eq hx.elems_ne hn] at ha
    cases ha; rfl
  · rintro _ rfl
    exact h n hn

theorem in_addVert {ts : Int} {v : Val F} (ht : X.verts (edge2str v) ∨ X.known (edge2str v)) (hw : X.Works (edge2str v))
    (hl : (edge2str v).length ≤ k) : (cMyAddVert k ts v).In V k X := by
  unfold cMyAddVert
  refine (in_inc ht hw).bind fun b hb => Conn.Loc.ite (fun h => ?_) fun _ => Conn.Loc.pure trivial
  refine in_addStr 1 ts (ht.resolve_right fun hk => ?_) hw hl
  rw [hb hk] at h
  cases h

theorem in_addRaw (hV : Vocab V) (hX : X.Ok V k) {x : Val F} (hu : X.used x) (hf : KeyFits k x) (ts : Int) :
    (cMyAddRaw k x ts).In V k X := by
  have hx := hX.edge x hu
  unfold cMyAddRaw
  refine (loc_exists hV hX hx (hX.own x hu)).bind fun b _ => Conn.Loc.ite (fun _ => ?_) fun _ => Conn.Loc.pure trivial
  unfold cMyAddNew
  refine Conn.Loc.bind (post := fun vs => vs = x.elems) (Conn.Loc.lift fun a ha => ?_) ?_
  · rw [iter_edge hx] at ha
    cases ha; rfl
  · rintro _ rfl
    refine (Conn.Loc.each fun v hv => in_addVert (hX.elems x hu v hv) (works_elem hu hv) (hf.elem hx v hv)).bind fun _ _ =>
      (in_addStr 0 ts (hX.self x hu) (works_self hu) hf.text).bind fun _ _ =>
      in_perms hx fun n hn => in_writePerm hV hX hu hn (hf.rows hx _ (mem_rowsOf.2 ⟨n, hn, rfl⟩))

theorem in_removeRaw (hV : Vocab V) (hX : X.Ok V k) {x : Val F} (hx : EdgeOver V x) (ho : X.own x) (hm : X.mine x) :
    (cRemoveRaw x).In V k X := by
  unfold cRemoveRaw
  refine (loc_exists hV hX hx ho).bind fun b hb => Conn.Loc.ite (fun h => ?_) fun _ => Conn.Loc.pure trivial
  have hu := hb h hm
  refine Conn.Loc.bind (post := fun vs => vs = x.elems) (Conn.Loc.lift fun a ha => ?_) ?_
  · rw [iter_edge hx] at ha
    cases ha; rfl
  · rintro _ rfl
    refine (Conn.Loc.each fun v hv => (in_dec (hX.elems x hu v hv) (works_elem hu hv)).bind fun _ _ =>
      Conn.Loc.pure trivial).bind fun _ _ => (in_perms hx fun n hn => in_removePerm hX hu hn).bind fun _ _ =>
      in_removeStr (hX.keep x hu) (works_self hu)

theorem in_add (hV : Vocab V) (hX : X.Ok V k) {x : Val F} (hu : X.used x) (hf : KeyFits k x) (ts : Int) :
    (cMyAdd k x ts).In V k X := by
  unfold cMyAdd
  refine Conn.Loc.bind (post := fun h => h.isSeq = false) (Conn.Loc.lift fun a ha => ?_) fun h hh => ?_
  · obtain ⟨h, h1, h2⟩ := head0_edge (hX.edge x hu)
    rw [h1] at ha
    cases ha; exact h2
  · rw [hh]
    exact in_addRaw hV hX hu hf ts

theorem in_addMany (hV : Vocab V) (hX : X.Ok V k) {b : Bool} {es : List (Val F)} (hne : es ≠ []) (hu : ∀ x ∈ es, X.used x)
    (hf : ∀ x ∈ es, KeyFits k x) (ts : Int) : (cMyAdd k (.seq b es) ts).In V k X := by
  unfold cMyAdd
  refine Conn.Loc.bind (post := fun h => h.isSeq = true) (Conn.Loc.lift fun a ha => ?_) fun h hh => ?_
  · obtain ⟨h, h1, h2⟩ := head0_coll (b := b) hne fun x hx => hX.edge x (hu x hx)
    rw [h1] at ha
    cases ha; exact h2
  · rw [hh]
    refine (loc_open false).bind fun _ _ => ?_
    refine Conn.Loc.bind (post := fun vs => vs = es) (Conn.Loc.lift fun a ha => ?_) ?_
    · cases ha; rfl
    · rintro _ rfl
      exact (Conn.Loc.each fun x hx => in_addRaw hV hX (hu x hx) (hf x hx) ts).bind fun _ _ => loc_close false true

theorem in_remove (hV : Vocab V) (hX : X.Ok V k) {x : Val F} (hx : EdgeOver V x) (ho : X.own x) (hm : X.mine x) :
    (cRemove x).In V k X := by
  unfold cRemove
  refine Conn.Loc.bind (post := fun h => h.isSeq = false) (Conn.Loc.lift fun a ha => ?_) fun h hh => ?_
  · obtain ⟨h, h1, h2⟩ := head0_edge hx
    rw [h1] at ha
    cases ha; exact h2
  · rw [hh]
    exact in_removeRaw hV hX hx ho hm

theorem in_removeMany (hV : Vocab V) (hX : X.Ok V k) {b : Bool} {es : List (Val F)} (hne : es ≠ [])
    (hx : ∀ x ∈ es, EdgeOver V x) (ho : ∀ x ∈ es, X.own x) (hm : ∀ x ∈ es, X.mine x) : (cRemove (.seq b es)).In V k X := by
  unfold cRemove
  refine Conn.Loc.bind (post := fun h => h.isSeq = true) (Conn.Loc.lift fun a ha => ?_) fun h hh => ?_
  · obtain ⟨h, h1, h2⟩ := head0_coll (b := b) hne hx
    rw [h1] at ha
    cases ha; exact h2
  · rw [hh]
    refine Conn.Loc.bind (post := fun vs => vs = es) (Conn.Loc.lift fun a ha => ?_) ?_
    · cases ha; rfl
    · rintro _ rfl
      exact Conn.Loc.each fun x hxe => in_removeRaw hV hX (hx x hxe) (ho x hxe) (hm x hxe)

theorem in_addBelief (hV : Vocab V) (hX : X.Ok V k) {src e arg : Val F} (ts : Int) (hb : beliefEdges src e = .ok arg)
    (h : (cMyAdd k arg ts).In V k X) : (cMyAddBelief k src e ts).In V k X := by
  unfold cMyAddBelief
  refine Conn.Loc.bind (post := fun a => a = arg) (Conn.Loc.lift fun a ha => ?_) ?_
  · rw [hb] at ha
    cases ha; rfl
  · rintro _ rfl
    exact h

theorem in_act (hV : Vocab V) (hX : X.Ok V k) {a : PAct F} (ha : a.op.Over V)
    (hadd : ∀ x, a.Adds x → X.used x ∧ KeyFits k x) (ht : ∀ x, EdgeOver V x → a.Touches x → X.own x ∧ X.mine x)
    (hs : ∀ x, EdgeOver V x → a.Sees x → X.own x) : (a.myConn k).In V k X := by
  cases a with
  | add e ts => exact in_add hV hX (hadd e rfl).1 (hadd e rfl).2 ts
  | addMany es ts => exact in_addMany hV hX ha.1 (fun x hx => (hadd x hx).1) (fun x hx => (hadd x hx).2) ts
  | remove e => exact in_remove hV hX ha (ht e ha rfl).1 (ht e ha rfl).2
  | removeMany es =>
    exact in_removeMany hV hX ha.1 ha.2 (fun x hx => (ht x (ha.2 x hx) hx).1) (fun x hx => (ht x (ha.2 x hx) hx).2)
  | removeByPattern ps =>
    show (cRemoveByPattern (.tup ps)).In V k X
    unfold cRemoveByPattern
    refine (loc_pattern hV hX ha fun x hx hm => (ht x hx hm).1).bind fun res hres => Conn.Loc.each fun x hx => ?_
    obtain ⟨h1, h2, _⟩ := hres x hx
    exact in_remove hV hX h1 (ht x h1 h2).1 (ht x h1 h2).2
  | addBelief src e ts =>
    have h1 : ∀ x ∈ [e, support e src], (PAct.addBelief src e ts).Adds x := by
      intro x hx
      simpa [PAct.Adds] using hx
    exact in_addBelief hV hX ts (beliefEdges_single ha.edge)
      (in_addMany hV hX (by simp) (fun x hx => (hadd x (h1 x hx)).1) (fun x hx => (hadd x (h1 x hx)).2) ts)
  | addBeliefs src es ts =>
    have h1 : ∀ x ∈ es.flatMap (fun e => [e, support e src]), (PAct.addBeliefs src es ts).Adds x :=
      fun x hx => mem_pairs.1 hx
    have hne : es.flatMap (fun e => [e, support e src]) ≠ [] := by
      cases es with
      | nil => exact absurd rfl ha.1
      | cons e es => simp
    exact in_addBelief hV hX ts (beliefEdges_many (V := V) ha.1 fun e he => (ha.2 e he).edge)
      (in_addMany hV hX hne (fun x hx => (hadd x (h1 x hx)).1) (fun x hx => (hadd x (h1 x hx)).2) ts)
  | removeBelief src e =>
    show (cRemoveBelief src e).In V k X
    unfold cRemoveBelief
    have h1 := ht e ha.edge (.inl rfl)
    have h2 := ht (support e src) (support_over ha) (.inr rfl)
    refine (in_remove hV hX (support_over ha) h2.1 h2.2).bind fun _ _ =>
      (loc_sources hV hX ha.srcConst ha.fact fun x hx hm => ?_).bind fun srcs _ =>
      Conn.Loc.ite (fun _ => in_remove hV hX ha.edge h1.1 h1.2) fun _ => Conn.Loc.pure trivial
    obtain ⟨y, hy⟩ := (matches_support (V_ne_none hV ha.fact)).1 hm
    exact hs x hx ⟨y, by rw [hx.tup_elems, hy]; rfl⟩

theorem in_batch {fs : List (Conn Unit)} (h : ∀ f ∈ fs, f.In V k X) : (cBatch fs).In V k X := by
  unfold cBatch
  exact (loc_open false).bind fun _ _ => (Conn.Loc.each fun f hf => h f hf).bind fun _ _ => loc_close false true

theorem in_call {c : PCall F} (h : ∀ a ∈ c.acts, (a.myConn k).In V k X) : (c.myConn k).In V k X := by
  cases c with
  | one a => exact h a (by simp [PCall.acts])
  | batch as =>
    refine in_batch fun f hf => ?_
    obtain ⟨a, ha, rfl⟩ := List.mem_map.1 hf
    exact h a ha

end GB
