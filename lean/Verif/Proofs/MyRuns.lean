import Verif.Proofs.MyBook

/-! Clients of a MySQL database that keep a book, and know how the book and the contents go together. -/

set_option linter.unusedSectionVars false

namespace GB

variable {α β γ δ : Type} {I : γ → DB → Prop} {R : γ → DB → DB → γ → Prop}

/-- Whenever `I` holds, the next statement changes the contents and the book as `R` says; the program ends with `Q`. -/
def Stm.Runs (I : γ → DB → Prop) (R : γ → DB → DB → γ → Prop) : Stm β → γ → (β → γ → Prop) → Prop
  | .ret b, g, Q => Q b g
  | .read k, g, Q => ∀ db, I g db → ∃ g', R g db db g' ∧ (k db).Runs I R g' Q
  | .write u k e, g, Q => ∀ db, I g db →
      (∃ db' g', u db = some db' ∧ R g db db' g' ∧ (k db).Runs I R g' Q) ∨ (u db = none ∧ e.Runs I R g Q)
  | .commit k, g, Q => k.Runs I R g Q

theorem Stm.Runs.mono {p : Stm β} {g : γ} {Q Q' : β → γ → Prop} (hp : p.Runs I R g Q) (h : ∀ b g, Q b g → Q' b g) :
    p.Runs I R g Q' := by
  induction p generalizing g with
  | ret b => exact h b g hp
  | read k ih =>
    intro db hI
    obtain ⟨g', h1, h2⟩ := hp db hI
    exact ⟨g', h1, ih db h2⟩
  | write u k e ih1 ih2 =>
    intro db hI
    rcases hp db hI with ⟨db', g', h1, h2, h3⟩ | ⟨h1, h2⟩
    · exact .inl ⟨db', g', h1, h2, ih1 db h3⟩
    · exact .inr ⟨h1, ih2 h2⟩
  | commit k ih => exact ih hp

theorem Stm.Runs.bind {p : Stm β} {f : β → Stm δ} {g : γ} {Q : δ → γ → Prop}
    (hp : p.Runs I R g fun b g' => (f b).Runs I R g' Q) : (p.bind f).Runs I R g Q := by
  induction p generalizing g with
  | ret b => exact hp
  | read k ih =>
    intro db hI
    obtain ⟨g', h1, h2⟩ := hp db hI
    exact ⟨g', h1, ih db h2⟩
  | write u k e ih1 ih2 =>
    intro db hI
    rcases hp db hI with ⟨db', g', h1, h2, h3⟩ | ⟨h1, h2⟩
    · exact .inl ⟨db', g', h1, h2, ih1 db h3⟩
    · exact .inr ⟨h1, ih2 h2⟩
  | commit k ih => exact ih hp

variable {E : γ → Prop}

/-- The same for a method that starts with `self.cur` in the state `c` and, if it returns, leaves it in `c'`; if it raises, the book is as `E` says. -/
def Conn.Runs (I : γ → DB → Prop) (R : γ → DB → DB → γ → Prop) (E : γ → Prop) (x : Conn α) (c c' : Option Bool) (g : γ)
    (Q : α → γ → Prop) : Prop :=
  (x c).Runs I R g fun b g' => match b.1 with
    | .ok a => b.2 = c' ∧ Q a g'
    | .error _ => E g'

theorem Conn.Runs.mono {x : Conn α} {c c' : Option Bool} {g : γ} {Q Q' : α → γ → Prop} (hx : x.Runs I R E c c' g Q)
    (h : ∀ a g, Q a g → Q' a g) : x.Runs I R E c c' g Q' := by
  refine Stm.Runs.mono hx ?_
  rintro ⟨r, c1⟩ g' hb
  cases r with
  | ok a => exact ⟨hb.1, h a g' hb.2⟩
  | error e => exact hb

theorem Conn.Runs.bind {x : Conn α} {f : α → Conn β} {c c1 c2 : Option Bool} {g : γ} {Q : β → γ → Prop}
    (hx : x.Runs I R E c c1 g fun a g' => (f a).Runs I R E c1 c2 g' Q) : (x >>= f).Runs I R E c c2 g Q := by
  refine Stm.Runs.bind (Stm.Runs.mono hx ?_)
  rintro ⟨r, c'⟩ g' hb
  cases r with
  | ok a =>
    obtain ⟨h1, h2⟩ := hb
    cases h1
    exact h2
  | error e => exact hb

theorem Conn.Runs.pure {a : α} {c : Option Bool} {g : γ} {Q : α → γ → Prop} (h : Q a g) :
    (Pure.pure a : Conn α).Runs I R E c c g Q := ⟨rfl, h⟩

theorem Conn.Runs.lift {r : Except PyErr α} {a : α} (hr : r = .ok a) {c : Option Bool} {g : γ} {Q : α → γ → Prop}
    (h : Q a g) : (cLift r).Runs I R E c c g Q := by subst hr; exact ⟨rfl, h⟩

theorem Conn.Runs.ite {p : Prop} [Decidable p] {x y : Conn α} {c c' : Option Bool} {g : γ} {Q : α → γ → Prop}
    (hx : p → x.Runs I R E c c' g Q) (hy : ¬ p → y.Runs I R E c c' g Q) : (if p then x else y).Runs I R E c c' g Q := by
  split
  · exact hx ‹_›
  · exact hy ‹_›

theorem runs_commit {c : Option Bool} {g : γ} : cCommit.Runs I R E c c g fun _ g' => g = g' := ⟨rfl, rfl⟩

theorem runs_open {c : Option Bool} {g : γ} : (cOpen true).Runs I R E c c g fun _ g' => g = g' := by
  cases c <;> exact ⟨rfl, rfl⟩

theorem runs_close {c : Option Bool} {g : γ} {b : Bool} : (cClose true b).Runs I R E c c g fun _ g' => g = g' := by
  cases c <;> cases b <;> exact ⟨rfl, rfl⟩

theorem runs_begin {g : γ} : (cOpen false).Runs I R E none (some true) g fun _ g' => g = g' := ⟨rfl, rfl⟩

theorem runs_end {g : γ} : (cClose false true).Runs I R E (some true) none g fun _ g' => g = g' := ⟨rfl, rfl⟩

theorem runsWrite {cu : Cursor} {q : DB → Option (α × DB)} {c : Option Bool} (hc : CurOk c) {g : γ} {Q : α → γ → Prop}
    (h : ∀ db, I g db → (∃ a db' g', q db = some (a, db') ∧ R g db db' g' ∧ Q a g') ∨ (q db = none ∧ E g)) :
    (cWrite cu q).Runs I R E c c g Q := by
  unfold Conn.Runs cWrite
  rw [if_neg (fun h => hc h.2)]
  intro db hI
  rcases h db hI with ⟨a, db', g', h1, h2, h3⟩ | ⟨h1, h2⟩
  · refine .inl ⟨db', g', by simp only [h1]; rfl, h2, ?_⟩
    simp only [h1]
    exact ⟨rfl, h3⟩
  · exact .inr ⟨by simp only [h1]; rfl, h2⟩

/-- A method that asks once, and returns with what it found. -/
theorem Asks.runs {x : Conn α} (h : Asks x) {c : Option Bool} (hc : CurOk c) {g : γ} {Q : α → γ → Prop}
    (h0 : ∃ db a, (x.run (reopen db false)).1 = .ok a ∧ Q a g)
    (he : ∀ db, I g db → ∃ a g', (x.run (reopen db false)).1 = .ok a ∧ R g db db g' ∧ Q a g') :
    x.Runs I R E c c g Q := by
  have hrun : ∀ db, x.run (reopen db false) = (x none).exec (reopen db false) := fun _ => rfl
  rcases h with ⟨r, h⟩ | ⟨f, h⟩
  · obtain ⟨db, a, h1, h2⟩ := h0
    unfold Conn.Runs
    rw [h c hc]
    rw [hrun, h none (by simp)] at h1
    have h1 : r = .ok a := h1
    subst h1
    exact ⟨rfl, h2⟩
  · unfold Conn.Runs
    rw [h c hc]
    intro db hI
    obtain ⟨a, g', h1, h2, h3⟩ := he db hI
    rw [hrun, h none (by simp)] at h1
    have h1 : f db = .ok a := h1
    refine ⟨g', h2, ?_⟩
    simp only [h1]
    exact ⟨rfl, h3⟩

/-! ### processes -/

/-- The same for a process. -/
def Proc.Runs (I : γ → DB → Prop) (R : γ → DB → DB → γ → Prop) (E : γ → Prop) : Proc α → γ → (α → γ → Prop) → Prop
  | .ret r, g, Q => match r with
    | .ok a => Q a g
    | .error _ => E g
  | .tx u n, g, Q => ∀ db, I g db → ∃ g', R g db (u db) g' ∧ (n db).Runs I R E g' Q

theorem Conn.Runs.auto {x : Conn α} {c c' : Option Bool} {g : γ} {Q : α → γ → Prop} (hrefl : ∀ g db, I g db → R g db db g)
    (hx : x.Runs I R E c c' g Q) : (x c).auto.Runs I R E g Q := by
  unfold Conn.Runs at hx
  generalize x c = p at hx
  induction p generalizing g with
  | ret b =>
    obtain ⟨r, c1⟩ := b
    cases r with
    | ok a => exact hx.2
    | error e => exact hx
  | read k ih =>
    intro db hI
    obtain ⟨g', h1, h2⟩ := hx db hI
    exact ⟨g', h1, ih db h2⟩
  | write u k e ih1 ih2 =>
    intro db hI
    rcases hx db hI with ⟨db', g', h1, h2, h3⟩ | ⟨h1, h2⟩
    · simp only [h1, Option.getD_some, Option.isSome_some, if_true]
      exact ⟨g', h2, ih1 db h3⟩
    · simp only [h1, Option.getD_none, Option.isSome_none, Bool.false_eq_true, if_false]
      exact ⟨g, hrefl g db hI, ih2 h2⟩
  | commit k ih => exact ih hx

/-- A method that asks once, and whose answer is not the same for all contents. -/
theorem Asks.runs_read {x : Conn α} (h : Asks x) {c : Option Bool} (hc : CurOk c) {g : γ} {Q : α → γ → Prop} {d d' : DB}
    (hd : (x.run (reopen d false)).1 ≠ (x.run (reopen d' false)).1)
    (he : ∀ db, I g db → ∃ a g', (x.run (reopen db false)).1 = .ok a ∧ R g db db g' ∧ Q a g') :
    x.Runs I R E c c g Q := by
  have hrun : ∀ db, x.run (reopen db false) = (x none).exec (reopen db false) := fun _ => rfl
  rcases h with ⟨r, h⟩ | ⟨f, h⟩
  · refine absurd ?_ hd
    rw [hrun, hrun, h none (by simp)]
    rfl
  · unfold Conn.Runs
    rw [h c hc]
    intro db hI
    obtain ⟨a, g', h1, h2, h3⟩ := he db hI
    rw [hrun, h none (by simp)] at h1
    have h1 : f db = .ok a := h1
    refine ⟨g', h2, ?_⟩
    simp only [h1]
    exact ⟨rfl, h3⟩

/-- A loop of which each turn keeps what `P` says of the book. -/
theorem Conn.Runs.each {f : α → Conn Unit} {xs : List α} {c : Option Bool} {P : γ → Prop} {g : γ} (hg : P g)
    (h : ∀ x ∈ xs, ∀ g, P g → (f x).Runs I R E c c g fun _ => P) : (cEach f xs).Runs I R E c c g fun _ => P := by
  induction xs generalizing g with
  | nil => exact Conn.Runs.pure hg
  | cons x xs ih =>
    refine Conn.Runs.bind (c1 := c) ((h x (by simp) g hg).mono ?_)
    intro _ g1 h1
    exact ih h1 fun y hy => h y (by simp [hy])

/-- The books of all clients together satisfy whatever each step keeps. -/
theorem Sys.Reach.runs {I : γ → DB → Prop} {R : Nat → γ → DB → DB → γ → Prop} {E : γ → Prop} {Inv : DB → List γ → Prop}
    {Q : Nat → γ → Prop} {σ τ : Sys}
    (h : σ.Reach τ) {gs : List γ} (hl : gs.length = σ.procs.length) (h0 : Inv σ.db gs)
    (hp : ∀ (i : Nat) (p : Proc Unit) (g : γ), σ.procs[i]? = some p → gs[i]? = some g → p.Runs I (R i) E g fun _ => Q i)
    (hI : ∀ db (gs : List γ) (i : Nat) (g : γ), Inv db gs → gs[i]? = some g → I g db)
    (hR : ∀ db db' (gs : List γ) (i : Nat) (g g' : γ), Inv db gs → gs[i]? = some g → R i g db db' g' → Inv db' (gs.set i g')) :
    ∃ gs' : List γ, gs'.length = τ.procs.length ∧ Inv τ.db gs' ∧
      ∀ (i : Nat) (p : Proc Unit) (g : γ), τ.procs[i]? = some p → gs'[i]? = some g → p.Runs I (R i) E g fun _ => Q i := by
  induction h with
  | refl => exact ⟨gs, hl, h0, hp⟩
  | step _ hst ih =>
    obtain ⟨gs', hl', h1, h2⟩ := ih
    cases hst with
    | @tx db procs i u n hi =>
      have hil : i < procs.length := (List.getElem?_eq_some_iff.1 hi).1
      have hgi := List.getElem?_eq_getElem (show i < gs'.length by rw [hl']; exact hil)
      obtain ⟨g', h3, h4⟩ := h2 i _ _ hi hgi db (hI db gs' i _ h1 hgi)
      refine ⟨gs'.set i g', by simpa using hl', hR _ _ _ _ _ _ h1 hgi h3, ?_⟩
      intro j p g hj hg
      rcases getElem?_set_cases hj with ⟨rfl, rfl, _⟩ | ⟨hne, hj⟩
      · rcases getElem?_set_cases hg with ⟨_, rfl, _⟩ | ⟨hne, _⟩
        · exact h4
        · exact absurd rfl hne
      · rcases getElem?_set_cases hg with ⟨h, _, _⟩ | ⟨_, hg⟩
        · exact absurd h hne
        · exact h2 j p g hj hg

end GB
