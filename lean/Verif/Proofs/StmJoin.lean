import Verif.Proofs.StmActs

/-! A batch does what its calls do one after the other, in larger transactions. -/

set_option linter.unusedSectionVars false

namespace GB

variable {F : Type} [PyFloat F] [DecidableEq F] {α β : Type}

/-- Whether the batch, and the calls one after the other, have a transaction open: neither, only the batch, both. -/
inductive Mode where
  | oo
  | io
  | ii
  deriving DecidableEq

/-- After a commit of the calls only. -/
def Mode.drop : Mode → Mode
  | .oo => .oo
  | _ => .io

/-- `p` sends the same statements as `q`, but fewer commits. -/
inductive Join (Q : Mode → β → β → Prop) : Mode → Stm β → Stm β → Prop
  | ret {m : Mode} {b b' : β} (h : Q m b b') : Join Q m (.ret b) (.ret b')
  | read {m : Mode} {k k' : DB → Stm β} (h : ∀ db, Join Q m (k db) (k' db)) : Join Q m (.read k) (.read k')
  | write {m : Mode} {u : DB → Option DB} {k k' : DB → Stm β} {e e' : Stm β} (h : ∀ db, Join Q .ii (k db) (k' db))
      (he : Join Q .ii e e') : Join Q m (.write u k e) (.write u k' e')
  | commit {m : Mode} {p q : Stm β} (h : Join Q .oo p q) : Join Q m (.commit p) (.commit q)
  | drop {m : Mode} {p q : Stm β} (h : Join Q m.drop p q) : Join Q m p (.commit q)
  | extra {m : Mode} {p q : Stm β} (hm : m ≠ .ii) (h : Join Q .oo p q) : Join Q m (.commit p) q

theorem Join.bind {γ : Type} {Q : Mode → β → β → Prop} {R : Mode → γ → γ → Prop} {m : Mode} {p q : Stm β}
    {f g : β → Stm γ} (h : Join Q m p q) (hf : ∀ m b b', Q m b b' → Join R m (f b) (g b')) :
    Join R m (p.bind f) (q.bind g) := by
  induction h with
  | ret h => exact hf _ _ _ h
  | read _ ih => exact .read ih
  | write _ _ ih1 ih2 => exact .write ih1 ih2
  | commit _ ih => exact .commit ih
  | drop _ ih => exact .drop ih
  | extra hm _ ih => exact .extra hm ih

theorem Join.ends {Q : Mode → β → β → Prop} {m : Mode} {p q : Stm β} (h : Join Q m p q) (t : Bool) :
    p.Ends (fun _ b => ∃ m b', Q m b b') t := by
  induction h generalizing t with
  | ret h => exact ⟨_, _, h⟩
  | read _ ih => exact fun db => ih db t
  | write _ _ ih1 ih2 => exact ⟨fun db => ih1 db true, ih2 true⟩
  | commit _ ih => exact ih false
  | drop _ ih => exact ih t
  | extra _ _ ih => exact ih false

/-- The same result, and both without transaction, or both raised. -/
def Shut (m : Mode) (b b' : Except PyErr α × Option Bool) : Prop :=
  b.1 = b'.1 ∧ ((∃ e, b.1 = .error e) ∨ m = .oo)

/-- Where `P` leads by one transaction to `d`, `q` can go from contents `w`. -/
def Goes (d : DB) (P : Proc α) (q : Proc α) (w : DB) : Prop := (∃ q', Alone q w d q' ∧ Mimic P q') ∨ Fails q w

theorem join_mimic {m : Mode} {p q : Stm (Except PyErr α × Option Bool)} (h : Join Shut m p q) :
    (m = .oo → Mimic p.out q.out) ∧
    (m = .io → ∀ d w, Goes (p.ins d w).1 (p.ins d w).2 q.out w) ∧
    (m = .ii → ∀ d d' w, Goes (p.ins d w).1 (p.ins d w).2 (q.ins d' w).2 (q.ins d' w).1) := by
  induction h with
  | @ret m b b' h =>
    obtain ⟨r, c⟩ := b
    obtain ⟨r', c'⟩ := b'
    obtain ⟨h1, h2⟩ := h
    simp only at h1 h2
    subst h1
    refine ⟨fun _ => Mimic.refl _, fun hm d w => ?_, fun hm d d' w => ?_⟩
    · rcases h2 with ⟨e, rfl⟩ | h2
      · exact .inr ⟨w, e, .refl⟩
      · rw [hm] at h2; cases h2
    · rcases h2 with ⟨e, rfl⟩ | h2
      · exact .inr ⟨d', e, .refl⟩
      · rw [hm] at h2; cases h2
  | @read m k k' h ih =>
    refine ⟨fun hm db => .inl ⟨_, .one, (ih db).1 hm⟩, fun hm d w => ?_, fun hm d d' w => (ih w).2.2 hm d d' w⟩
    rcases (ih w).2.1 hm d w with ⟨q', h1, h2⟩ | h1
    · exact .inl ⟨q', .step h1, h2⟩
    · exact .inr (h1.trans .one)
  | @write m u k k' e e' _ _ ih1 ih2 =>
    have key : ∀ d d' w, Goes (match u w with | none => e.ins d w | some w' => (k w).ins d w').1
        (match u w with | none => e.ins d w | some w' => (k w).ins d w').2
        (match u w with | none => e'.ins d' w | some w' => (k' w).ins d' w').2
        (match u w with | none => e'.ins d' w | some w' => (k' w).ins d' w').1 := by
      intro d d' w
      cases u w with
      | none => exact ih2.2.2 rfl d d' w
      | some w' => exact (ih1 w).2.2 rfl d d' w'
    refine ⟨fun _ db => ?_, fun _ d w => ?_, fun _ d d' w => key d d' w⟩
    · rcases key db db db with ⟨q', h1, h2⟩ | h1
      · exact .inl ⟨q', .step h1, h2⟩
      · exact .inr (h1.trans .one)
    · rcases key d w w with ⟨q', h1, h2⟩ | h1
      · exact .inl ⟨q', .step h1, h2⟩
      · exact .inr (h1.trans .one)
  | @commit m p q _ ih =>
    exact ⟨fun _ => ih.1 rfl, fun _ d w => .inl ⟨_, .refl, ih.1 rfl⟩, fun _ d d' w => .inl ⟨_, .refl, ih.1 rfl⟩⟩
  | @drop m p q _ ih =>
    refine ⟨fun hm => ih.1 (by subst hm; rfl), fun hm d w => ih.2.1 (by subst hm; rfl) d w, fun hm d d' w => ?_⟩
    exact ih.2.1 (by subst hm; rfl) d w
  | @extra m p q hm _ ih =>
    exact ⟨fun _ => ih.1 rfl, fun _ d w => .inl ⟨_, .refl, ih.1 rfl⟩, fun h => absurd h hm⟩

/-! ### the methods -/

/-- The same result; with the shared cursor on one side and none on the other, and no transaction open except in the
batch. -/
def Both (m : Mode) (b b' : Except PyErr α × Option Bool) : Prop :=
  b.1 = b'.1 ∧ ((∃ e, b.1 = .error e) ∨ (m ≠ .ii ∧ b.2 = some true ∧ b'.2 = none))

/-- The method does inside a batch what it does outside. -/
def Conn.Batched (x : Conn α) : Prop := ∀ m, m ≠ .ii → Join Both m (x (some true)) (x none)

theorem Conn.Batched.lift (x : Except PyErr α) : Conn.Batched (cLift x) :=
  fun _ hm => .ret ⟨rfl, .inr ⟨hm, rfl, rfl⟩⟩

theorem Conn.Batched.pure (a : α) : Conn.Batched (Pure.pure a : Conn α) :=
  fun _ hm => .ret ⟨rfl, .inr ⟨hm, rfl, rfl⟩⟩

theorem Conn.Batched.bind {x : Conn α} {f : α → Conn β} (hx : x.Batched) (hf : ∀ a, (f a).Batched) :
    Conn.Batched (x >>= f) := by
  intro m hm
  refine Join.bind (f := Conn.next f) (g := Conn.next f) (hx m hm) ?_
  rintro m ⟨r, c⟩ ⟨r', c'⟩ ⟨h1, h2⟩
  simp only at h1 h2
  subst h1
  cases r with
  | error e => exact .ret ⟨rfl, .inl ⟨e, rfl⟩⟩
  | ok a =>
    rcases h2 with ⟨e, he⟩ | ⟨h3, rfl, rfl⟩
    · cases he
    · exact hf a m h3

theorem Conn.Batched.each {f : α → Conn Unit} {xs : List α} (h : ∀ x ∈ xs, (f x).Batched) : (cEach f xs).Batched := by
  induction xs with
  | nil => exact Conn.Batched.pure ()
  | cons x xs ih => exact (h x (by simp)).bind fun _ => ih fun y hy => h y (by simp [hy])

theorem Conn.Batched.ite {p : Prop} [Decidable p] {x y : Conn α} (hx : p → x.Batched) (hy : ¬ p → y.Batched) :
    (if p then x else y).Batched := by
  split
  · exact hx ‹_›
  · exact hy ‹_›

theorem Asks.batched {x : Conn α} (h : Asks x) : x.Batched := by
  intro m hm
  rcases h with ⟨r, h⟩ | ⟨g, h⟩
  · rw [h none (by simp), h (some true) (by simp)]
    exact .ret ⟨rfl, .inr ⟨hm, rfl, rfl⟩⟩
  · rw [h none (by simp), h (some true) (by simp)]
    exact .read fun db => .ret ⟨rfl, .inr ⟨hm, rfl, rfl⟩⟩

/-- A batch of calls does what the calls do one after the other. -/
theorem batch_mimic {fs : List (Conn Unit)} (h : ∀ f ∈ fs, f.Batched) :
    Mimic (cBatch fs none).out (cEach (fun f => f) fs none).out ∧ (cBatch fs).Closed := by
  have hj : Join Both .oo (cEach (fun f => f) fs (some true)) (cEach (fun f => f) fs none) :=
    Conn.Batched.each h .oo (by simp)
  have hb : cBatch fs none = (cEach (fun f => f) fs (some true)).bind (Conn.next fun _ => cClose false true) := rfl
  have hr : ∀ p : Stm (Except PyErr Unit × Option Bool), p.bind .ret = p := by
    intro p
    induction p with
    | ret b => rfl
    | read k ih => show Stm.read _ = _; congr 1; funext db; exact ih db
    | write u k e ih1 ih2 => show Stm.write _ _ _ = _; congr 1; funext db; exact ih1 db
    | commit k ih => show Stm.commit _ = _; congr 1
  constructor
  · refine (join_mimic (m := .oo) ?_).1 rfl
    rw [hb, ← hr (cEach (fun f => f) fs none)]
    refine hj.bind ?_
    rintro m ⟨r, c⟩ ⟨r', c'⟩ ⟨h1, h2⟩
    simp only at h1 h2
    subst h1
    cases r with
    | error e => exact .ret ⟨rfl, .inl ⟨e, rfl⟩⟩
    | ok a =>
      rcases h2 with ⟨e, he⟩ | ⟨h3, rfl, rfl⟩
      · cases he
      · exact .extra h3 (.ret ⟨rfl, .inr rfl⟩)
  · unfold Conn.Closed
    rw [hb]
    refine (hj.ends false).bind ?_
    rintro t ⟨r, c⟩ ⟨m, b', h1, h2⟩
    cases r with
    | error e => exact .inl ⟨e, rfl⟩
    | ok a =>
      rcases h2 with ⟨e, he⟩ | ⟨h3, h4, _⟩
      · cases he
      · simp only at h4
        subst h4
        exact .inr ⟨rfl, rfl⟩

/-- A writing method: one transaction outside a batch, part of one inside. -/
structure Writes (x : Conn α) : Prop where
  single : (x none).Single
  closed : x.Closed
  batched : x.Batched

theorem both_ok {m : Mode} (hm : m ≠ .ii) (r : Except PyErr α) : Both m (r, some true) (r, none) :=
  ⟨rfl, .inr ⟨hm, rfl, rfl⟩⟩

theorem both_err {m : Mode} (e : PyErr) {c c' : Option Bool} :
    Both m ((.error e : Except PyErr α), c) (.error e, c') := ⟨rfl, .inl ⟨e, rfl⟩⟩

theorem writes_inc (t : Str) : Writes (cIncDegree t) where
  single := ⟨⟨fun _ => ⟨_, rfl⟩, trivial⟩, .inr ⟨_, _, _, rfl⟩⟩
  closed := ⟨fun _ => .inr ⟨rfl, rfl⟩, .inl ⟨_, rfl⟩⟩
  batched := fun m hm => .write (fun db => .drop (.ret (both_ok (by simp [Mode.drop]) _))) (.ret (both_err _))

theorem writes_dec (t : Str) : Writes (cDecDegree t) where
  single := ⟨⟨fun _ => ⟨_, rfl⟩, trivial⟩, .inr ⟨_, _, _, rfl⟩⟩
  closed := ⟨fun _ => .inr ⟨rfl, rfl⟩, .inl ⟨_, rfl⟩⟩
  batched := fun m hm => .write (fun db => .drop (.ret (both_ok (by simp [Mode.drop]) _))) (.ret (both_err _))

theorem writes_removeStr (t : Str) : Writes (cRemoveStr t) where
  single := ⟨⟨fun _ => ⟨_, rfl⟩, trivial⟩, .inr ⟨_, _, _, rfl⟩⟩
  closed := ⟨fun _ => .inr ⟨rfl, rfl⟩, .inl ⟨_, rfl⟩⟩
  batched := fun m hm => .write (fun db => .drop (.ret (both_ok (by simp [Mode.drop]) _))) (.ret (both_err _))

theorem writes_removePerm (t : Str) : Writes (cRemovePerm (F := F) t) where
  single := ⟨⟨fun _ => ⟨_, rfl⟩, trivial⟩, .inr ⟨_, _, _, rfl⟩⟩
  closed := ⟨fun _ => .inr ⟨rfl, rfl⟩, .inl ⟨_, rfl⟩⟩
  batched := fun m hm => .write (fun db => .commit (.ret (both_ok (by simp) _))) (.ret (both_err _))

/-- `update_or_insert`, for any two statements. -/
def cUpsert (up : DB → Nat × DB) (ins : DB → Option (Unit × DB)) : Conn Unit := do
  let cur ← cOpen true
  let rowcount ← cWrite cur fun db => some (up db)
  if rowcount = 0 then
    cWrite cur ins
  cClose true true

theorem upsert_none (up : DB → Nat × DB) (ins : DB → Option (Unit × DB)) : cUpsert up ins none =
    .write (fun db => some (up db).2) (fun db =>
      if (up db).1 = 0 then .write (fun db => (ins db).map Prod.snd)
        (fun db => match ins db with
          | some _ => .commit (.ret (.ok (), none))
          | none => .ret (.error .integrityError, none)) (.ret (.error .integrityError, none))
      else .commit (.ret (.ok (), none))) (.ret (.error .integrityError, none)) := by
  show Stm.write _ _ _ = _
  congr 1
  funext db
  show Stm.bind (.ret _) _ = _
  show Conn.next _ _ = _
  unfold Conn.next
  simp only
  split
  · show Stm.write _ _ _ = _
    congr 1
    funext db
    simp only
    cases ins db <;> rfl
  · rfl

theorem upsert_shared (up : DB → Nat × DB) (ins : DB → Option (Unit × DB)) : cUpsert up ins (some true) =
    .write (fun db => some (up db).2) (fun db =>
      if (up db).1 = 0 then .write (fun db => (ins db).map Prod.snd)
        (fun db => match ins db with
          | some _ => .ret (.ok (), some true)
          | none => .ret (.error .integrityError, some true)) (.ret (.error .integrityError, some true))
      else .ret (.ok (), some true)) (.ret (.error .integrityError, some true)) := by
  show Stm.write _ _ _ = _
  congr 1
  funext db
  show Stm.bind (.ret _) _ = _
  show Conn.next _ _ = _
  unfold Conn.next
  simp only
  split
  · show Stm.write _ _ _ = _
    congr 1
    funext db
    simp only
    cases ins db <;> rfl
  · rfl

theorem writes_upsert (up : DB → Nat × DB) (ins : DB → Option (Unit × DB)) : Writes (cUpsert up ins) where
  single := by
    rw [upsert_none]
    refine ⟨⟨fun db => ?_, trivial⟩, .inr ⟨_, _, _, rfl⟩⟩
    simp only
    split
    · refine ⟨fun db => ?_, trivial⟩
      simp only
      cases ins db
      · trivial
      · exact ⟨_, rfl⟩
    · exact ⟨_, rfl⟩
  closed := by
    unfold Conn.Closed
    rw [upsert_none]
    refine ⟨fun db => ?_, .inl ⟨_, rfl⟩⟩
    simp only
    split
    · refine ⟨fun db => ?_, .inl ⟨_, rfl⟩⟩
      simp only
      cases ins db
      · exact .inl ⟨_, rfl⟩
      · exact .inr ⟨rfl, rfl⟩
    · exact .inr ⟨rfl, rfl⟩
  batched := by
    intro m hm
    rw [upsert_none, upsert_shared]
    refine .write (fun db => ?_) (.ret (both_err _))
    split
    · refine .write (fun db => ?_) (.ret (both_err _))
      cases ins db
      · exact .ret (both_err _)
      · exact .drop (.ret (both_ok (by simp [Mode.drop]) _))
    · exact .drop (.ret (both_ok (by simp [Mode.drop]) _))

theorem writes_addStr (t : Str) (d ts : Int) : Writes (cAddStr t d ts) :=
  writes_upsert (fun db => db.updateVertex t d ts) fun db => db.insertVertex t d ts

theorem writes_writePerm (t : Str) : Writes (cWritePerm (F := F) t) :=
  writes_upsert (fun db => db.updatePerm _) fun db => db.insertPerm _

theorem batched_perms {f : Str → Conn Unit} (h : ∀ t, (f t).Batched) (edge : List (Val F)) : (cPerms edge f).Batched :=
  Conn.Batched.each fun _ _ => (Conn.Batched.lift _).bind fun t => h t

theorem batched_addVert (ts : Int) (v : Val F) : (cAddVert ts v).Batched :=
  (writes_inc _).batched.bind fun _ => Conn.Batched.ite (fun _ => (writes_addStr _ _ _).batched) fun _ => Conn.Batched.pure ()

theorem batched_addNew (e : Val F) (ts : Int) : (cAddNew e ts).Batched :=
  (Conn.Batched.lift _).bind fun vs => (Conn.Batched.each fun v _ => batched_addVert ts v).bind fun _ =>
    (writes_addStr _ _ _).batched.bind fun _ => batched_perms (fun t => (writes_writePerm t).batched) vs

theorem batched_addRaw (e : Val F) (ts : Int) : (cAddRaw e ts).Batched :=
  (asks_exists e).batched.bind fun _ => Conn.Batched.ite (fun _ => batched_addNew e ts) fun _ => Conn.Batched.pure ()

theorem batched_removeRaw (e : Val F) : (cRemoveRaw e).Batched :=
  (asks_exists e).batched.bind fun _ => Conn.Batched.ite
    (fun _ => (Conn.Batched.lift _).bind fun vs =>
      (Conn.Batched.each fun _ _ => (writes_dec _).batched.bind fun _ => Conn.Batched.pure ()).bind fun _ =>
      (batched_perms (fun t => (writes_removePerm t).batched) vs).bind fun _ => (writes_removeStr _).batched)
    fun _ => Conn.Batched.pure ()

theorem batched_remove (e : Val F) : (cRemove e).Batched :=
  (Conn.Batched.lift _).bind fun _ => Conn.Batched.ite
    (fun _ => (Conn.Batched.lift _).bind fun _ => Conn.Batched.each fun x _ => batched_removeRaw x)
    fun _ => batched_removeRaw e

end GB
