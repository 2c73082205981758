import Verif.Proofs.StmSim

/-! The calls statement by statement do what they do transaction by transaction. -/

set_option linter.unusedSectionVars false

namespace GB

variable {F : Type} [PyFloat F] [DecidableEq F] {α β : Type}

/-! ### queries -/

/-- The method asks the database at most once, and this does not depend on the cursor it uses. -/
def Asks (x : Conn α) : Prop :=
  (∃ r, ∀ c, c ≠ some false → x c = .ret (r, c)) ∨
    ∃ g : DB → Except PyErr α, ∀ c, c ≠ some false → x c = .read fun db => .ret (g db, c)

theorem Asks.lift (x : Except PyErr α) : Asks (cLift x) := .inl ⟨x, fun _ _ => rfl⟩

theorem Asks.bindL {x : Conn α} (hx : Asks x) (g : α → Except PyErr β) : Asks (x >>= fun a => cLift (g a)) := by
  rcases hx with ⟨r, h⟩ | ⟨f, h⟩
  · refine .inl ⟨r.bind g, fun c hc => ?_⟩
    show (x c).bind _ = _
    rw [h c hc]
    cases r <;> rfl
  · refine .inr ⟨fun db => (f db).bind g, fun c hc => ?_⟩
    show (x c).bind _ = _
    rw [h c hc]
    show Stm.read _ = _
    congr 1
    funext db
    show Conn.next _ _ = Stm.ret ((f db).bind g, c)
    cases f db <;> rfl

theorem Asks.liftBind (r : Except PyErr α) {f : α → Conn β} (hf : ∀ a, Asks (f a)) : Asks (cLift r >>= f) := by
  cases r with
  | error e => exact .inl ⟨.error e, fun _ _ => rfl⟩
  | ok a => exact hf a

theorem asks_select (q : DB → α) (g : α → Except PyErr β) : Asks (do
    let cur ← cOpen true
    let rows ← cRead cur q
    let edges ← cLift (g rows)
    cClose true false
    pure edges) := by
  refine .inr ⟨fun db => g (q db), fun c hc => ?_⟩
  cases c with
  | none =>
    show Stm.read _ = _
    congr 1
    funext db
    show (Conn.bind (cLift (g (q db))) fun edges => do
      cClose true false
      pure edges) none = Stm.ret (g (q db), none)
    cases g (q db) <;> rfl
  | some b =>
    cases b with
    | false => exact absurd rfl hc
    | true =>
      show Stm.read _ = _
      congr 1
      funext db
      show (Conn.bind (cLift (g (q db))) fun edges => do
        cClose true false
        pure edges) (some true) = Stm.ret (g (q db), some true)
      cases g (q db) <;> rfl

theorem Stm.bind_assoc {γ δ : Type} (p : Stm β) (f : β → Stm γ) (g : γ → Stm δ) :
    (p.bind f).bind g = p.bind fun b => (f b).bind g := by
  induction p with
  | ret b => rfl
  | read k ih =>
    show Stm.read _ = Stm.read _
    congr 1
    funext db
    exact ih db
  | write u k e ih1 ih2 =>
    show Stm.write _ _ _ = Stm.write _ _ _
    congr 1
    · funext db; exact ih1 db
  | commit k ih =>
    show Stm.commit _ = Stm.commit _
    congr 1

theorem Conn.bind_assoc {γ : Type} (x : Conn α) (f : α → Conn β) (g : β → Conn γ) :
    ((x >>= f) >>= g) = (x >>= fun a => f a >>= g) := by
  funext c
  show ((x c).bind (Conn.next f)).bind (Conn.next g) = (x c).bind (Conn.next fun a => f a >>= g)
  rw [Stm.bind_assoc]
  congr 1
  funext b
  obtain ⟨r, c'⟩ := b
  cases r <;> rfl

theorem asks_pattern (p : Val F) : Asks (cPattern2edges p) := by
  refine Asks.liftBind _ fun ps => Asks.liftBind _ fun t => ?_
  have h := (asks_select (fun db : DB => db.selectRange (nodes2str (ps.filter fun n => !n.isNone)) t)
    (cur2edges (F := F))).bindL fun edges => (filterE (fun e => edgeMatchesPattern e p) edges).map pySet
  simp only [Conn.bind_assoc] at h
  have e : ∀ edges : List (Val F), (Pure.pure edges >>= fun edges => cLift ((filterE (fun e => edgeMatchesPattern e p) edges).map pySet)) =
      (cLift (filterE (fun e => edgeMatchesPattern e p) edges) >>= fun res => (Pure.pure (pySet res) : Conn (List (Val F)))) := by
    intro edges
    funext c
    show (cLift _ c : Stm _) = _
    unfold cLift
    show _ = (Stm.ret _).bind _
    cases filterE (fun e => edgeMatchesPattern e p) edges <;> rfl
  simp only [e] at h
  exact h

theorem asks_exists (p : Val F) : Asks (cExists p) := (asks_pattern p).bindL fun es => .ok (decide (es.length > 0))

theorem asks_sources (e : Val F) : Asks (cSources e) := by
  have h := (asks_pattern (.tup [.str constSource, e, .none])).bindL fun es => (mapE Val.item2 es).map pySet
  have hc : cSources e = cPattern2edges (.tup [.str constSource, e, .none]) >>= fun es =>
      cLift ((mapE Val.item2 es).map pySet) := by
    unfold cSources
    congr 1
    funext es
    funext c
    show (Stm.ret _).bind _ = _
    cases mapE Val.item2 es <;> rfl
  rw [hc]
  exact h

theorem Asks.closed {x : Conn α} (h : Asks x) : x.Closed := by
  rcases h with ⟨r, h⟩ | ⟨g, h⟩
  · unfold Conn.Closed
    rw [h none (by simp)]
    exact .inr ⟨rfl, rfl⟩
  · unfold Conn.Closed
    rw [h none (by simp)]
    exact fun db => .inr ⟨rfl, rfl⟩

theorem Asks.mimic {x : Conn α} {m : M α} (h : Asks x) (hm : x.run = m) : Mimic (x none).out (Proc.atom m) := by
  subst hm
  rcases h with ⟨r, h⟩ | ⟨g, h⟩
  · rw [h none (by simp)]
    intro db
    have h1 : x.run (reopen db false) = (r, reopen db false) := by
      unfold Conn.run
      rw [show (reopen db false).cur = none from rfl, h none (by simp)]
      rfl
    refine .step ?_
    simp only [h1]
    exact .refl
  · rw [h none (by simp)]
    intro db
    have h1 : x.run (reopen db false) = (g db, reopen db false) := by
      unfold Conn.run
      rw [show (reopen db false).cur = none from rfl, h none (by simp)]
      rfl
    refine .inl ⟨.ret (g db), .step ?_, Mimic.refl _⟩
    simp only [h1]
    exact .refl

/-! ### one transaction -/

/-- At most one commit, at the very end. -/
def Stm.Once : Stm β → Prop
  | .ret _ => True
  | .read k => ∀ db, (k db).Once
  | .write _ k e => (∀ db, (k db).Once) ∧ e.Once
  | .commit k => ∃ b, k = .ret b

theorem ins_exec {p : Stm (Except PyErr α × Option Bool)} (h : p.Once) {s : St} (ha : s.autocommit = false) :
    p.ins s.disk s.work = ((p.exec s).2.disk, .ret (p.exec s).1) := by
  induction p generalizing s with
  | ret b => rfl
  | read k ih => exact ih s.work (h s.work) ha
  | write u k e ih1 ih2 =>
    show (match u s.work with | none => e.ins s.disk s.work | some w => (k s.work).ins s.disk w) = _
    cases hu : u s.work with
    | none => rw [Stm.exec_refused hu]; exact ih2 h.2 ha
    | some w =>
      rw [Stm.exec_write hu]
      rw [if_neg (by simp [ha])]
      exact ih1 s.work (h.1 s.work) (s := { s with work := w }) ha
  | commit k ih =>
    obtain ⟨b, rfl⟩ := h
    rfl

/-- The statements as one transaction: either nothing is sent, or the first statement writes. -/
def Stm.Single (p : Stm β) : Prop := p.Once ∧ ((∃ b, p = .ret b) ∨ ∃ u k e, p = .write u k e)

theorem single_mimic {p : Stm (Except PyErr α × Option Bool)} (h : p.Single) {m : M α}
    (hm : ∀ db, ∃ s, s.work = db ∧ s.disk = db ∧ s.autocommit = false ∧ (p.exec s).1 = (m (reopen db false)).1 ∧
      (p.exec s).2.disk = (m (reopen db false)).2.disk) : Mimic p.out (Proc.atom m) := by
  obtain ⟨h1, h2⟩ := h
  rcases h2 with ⟨⟨r, c⟩, rfl⟩ | ⟨u, k, e, rfl⟩
  · intro db
    obtain ⟨s, _, hd, _, hr, hdisk⟩ := hm db
    have h3 : (m (reopen db false)).1 = r := hr.symm
    have h4 : (m (reopen db false)).2.disk = db := hdisk.symm.trans hd
    refine .step ?_
    simp only [h3, h4]
    exact .refl
  · intro db
    obtain ⟨s, hw, hd, ha, hr, hdisk⟩ := hm db
    have h3 := ins_exec h1 ha
    rw [hw, hd] at h3
    refine .inl ⟨.ret (m (reopen db false)).1, .step ?_, ?_⟩
    · have : ((Stm.write u k e).ins db db).1 = (m (reopen db false)).2.disk := by rw [h3, hdisk]
      show Alone _ _ ((Stm.write u k e).ins db db).1 _
      rw [this]
      exact .refl
    · show Mimic ((Stm.write u k e).ins db db).2 _
      rw [h3, hr]
      exact Mimic.refl _

theorem conn_mimic {x : Conn α} (h : (x none).Single) {m : M α} (hm : x.run = m) : Mimic (x none).out (Proc.atom m) := by
  subst hm
  exact single_mimic h fun db => ⟨reopen db false, rfl, rfl, rfl, rfl, rfl⟩

end GB
