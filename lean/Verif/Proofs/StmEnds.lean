import Verif.Proofs.StmProgram

/-! Processes that wait for each other's lock all end: the number of requests is finite, and there is always one that
can be made. -/

set_option linter.unusedSectionVars false

namespace GB

variable {F : Type} [PyFloat F] [DecidableEq F]

/-- One element of a list is replaced by a smaller one. -/
def OneLess {α : Type} (R : α → α → Prop) (ps' ps : List α) : Prop :=
  ∃ (i : Nat) (p q : α), ps[i]? = some p ∧ R q p ∧ ps' = ps.set i q

theorem oneLess_acc {α : Type} {R : α → α → Prop} (h : ∀ a, Acc R a) (ps : List α) : Acc (OneLess R) ps := by
  induction ps with
  | nil =>
    constructor
    rintro _ ⟨i, p, q, h, _⟩
    simp at h
  | cons p ps ih =>
    have hp := h p
    clear h
    induction hp generalizing ps with
    | intro p _ ihp =>
      induction ih with
      | intro ps hps ihs =>
        constructor
        rintro _ ⟨i, a, q, h, hq, rfl⟩
        cases i with
        | zero =>
          simp at h
          subst h
          exact ihp q hq ps ⟨ps, hps⟩
        | succ i => exact ihs _ ⟨i, a, q, by simpa using h, hq, rfl⟩

/-- What a process can become by one request, or by being gone. -/
inductive Client.Next : Client → Client → Prop
  | read {k} (db : DB) : Next (.live (k db)) (.live (.read k))
  | write {u k e} (db : DB) : Next (.live (k db)) (.live (.write u k e))
  | refused {u k e} : Next (.live e) (.live (.write u k e))
  | commit {k} : Next (.live k) (.live (.commit k))
  | gone {p} : Next .gone (.live p)

theorem gone_acc : Acc Client.Next .gone := ⟨_, fun _ h => nomatch h⟩

theorem next_acc (c : Client) : Acc Client.Next c := by
  cases c with
  | gone => exact gone_acc
  | live p =>
    induction p with
    | ret r =>
      constructor
      intro _ h
      cases h
      exact gone_acc
    | read k ih =>
      constructor
      intro _ h
      cases h with
      | read db => exact ih db
      | gone => exact gone_acc
    | write u k e ih1 ih2 =>
      constructor
      intro _ h
      cases h with
      | write db => exact ih1 db
      | refused => exact ih2
      | gone => exact gone_acc
    | commit k ih =>
      constructor
      intro _ h
      cases h with
      | commit => exact ih
      | gone => exact gone_acc

/-- A step makes a process smaller, or it closes the connection of one that held the lock. -/
theorem box_step_cases {b c : Box} (h : b.Step c) :
    OneLess Client.Next c.clients b.clients ∨ (c.clients = b.clients ∧ b.tx ≠ none ∧ c.tx = none) := by
  cases h with
  | leave i h => exact .inl ⟨i, _, _, h, .gone, rfl⟩
  | move h =>
    cases h with
    | read i h => exact .inl ⟨i, _, _, h, .read _, rfl⟩
    | write i w h => exact .inl ⟨i, _, _, h, .write _, rfl⟩
    | refused i h => exact .inl ⟨i, _, _, h, .refused, rfl⟩
    | commit i w h => exact .inl ⟨i, _, _, h, .commit, rfl⟩
    | idle i h => exact .inl ⟨i, _, _, h, .commit, rfl⟩
    | close i h ht =>
      obtain ⟨w, hw⟩ := ht
      refine .inr ⟨rfl, by rw [hw]; simp, ?_⟩
      unfold Box.release
      simp [hw]

/-- There is no endless run. -/
theorem box_acc (b : Box) : Acc (fun c b : Box => b.Step c) b := by
  have h := oneLess_acc next_acc b.clients
  generalize hp : b.clients = ps at h
  induction h generalizing b with
  | intro ps _ ih =>
    have h1 : ∀ b : Box, b.clients = ps → b.tx = none → Acc (fun c b : Box => b.Step c) b := by
      intro b hb ht
      constructor
      intro c hc
      rcases box_step_cases hc with h | ⟨_, h, _⟩
      · exact ih _ (hb ▸ h) c rfl
      · exact absurd ht h
    constructor
    intro c hc
    rcases box_step_cases hc with h | ⟨h2, _, h3⟩
    · exact ih _ (hp ▸ h) c rfl
    · exact h1 c (h2.trans hp) h3

/-- The lock is held by a process that is there. -/
def Box.Held (b : Box) : Prop := ∀ i w, b.tx = some (i, w) → ∃ p, b.clients[i]? = some (.live p)

theorem set_live {b : Box} {i j : Nat} {p q : Stm (Except PyErr Unit × Option Bool)} (h : b.clients[i]? = some (.live p))
    (hj : ∃ p, b.clients[j]? = some (.live p)) : ∃ p, (b.set i (.live q)).clients[j]? = some (.live p) := by
  unfold Box.set
  simp only [List.getElem?_set]
  split
  · subst_vars
    have hl := (List.getElem?_eq_some_iff.1 h).1
    simp [hl]
  · exact hj

theorem held_step {b c : Box} (hb : b.Held) (h : b.Step c) : c.Held := by
  cases h with
  | leave i h =>
    intro j w hj
    obtain ⟨h1, h2⟩ := Box.release_tx hj
    obtain ⟨p, hp⟩ := hb j w h2
    refine ⟨p, ?_⟩
    show (b.clients.set i .gone)[j]? = _
    simpa [List.getElem?_set, Ne.symm h1] using hp
  | move h =>
    cases h with
    | read i h => exact fun j w hj => set_live h (hb j w hj)
    | write i w h => intro j w' hj; cases hj; exact set_live h ⟨_, h⟩
    | refused i h => intro j w' hj; cases hj; exact set_live h ⟨_, h⟩
    | commit i w h => intro j w' hj; cases hj
    | idle i h => exact fun j w hj => set_live h (hb j w hj)
    | close i h ht => exact fun j w hj => hb j w (Box.release_tx hj).2

theorem held_reach {b c : Box} (hb : b.Held) (h : b.Reach c) : c.Held := by
  induction h with
  | refl => exact hb
  | step _ hs ih => exact held_step ih hs

theorem held_start (db : DB) (progs : List (List (PCall F))) : (Box.start db progs).Held := fun _ _ h => nomatch h

/-- A process that may write, and is not through, can make its next request. -/
theorem move_free {b : Box} {i : Nat} {p} (h : b.clients[i]? = some (.live p)) (hf : b.free i)
    (hn : b.holds i ∨ ∀ r, p ≠ .ret r) : ∃ c, b.Move c := by
  cases p with
  | ret r => exact ⟨_, .close i h (hn.resolve_right fun h => h r rfl)⟩
  | read k => exact ⟨_, .read i h⟩
  | write u k e =>
    cases hw : u (b.view i) with
    | none => exact ⟨_, .refused i h hf hw⟩
    | some w => exact ⟨_, .write i w h hf hw⟩
  | commit k =>
    by_cases ht : b.holds i
    · obtain ⟨w, hw⟩ := ht; exact ⟨_, .commit i w h hw⟩
    · exact ⟨_, .idle i h ht⟩

/-- Nobody waits for ever: as long as a process has something to do, a request can be made. -/
theorem box_progress {b : Box} (hb : b.Held) (h : ∀ c, ¬ b.Move c) :
    b.tx = none ∧ ∀ (i : Nat) p, b.clients[i]? = some (.live p) → ∃ r, p = .ret r := by
  have ht : b.tx = none := by
    cases ht : b.tx with
    | none => rfl
    | some jw =>
      obtain ⟨j, w⟩ := jw
      obtain ⟨p, hp⟩ := hb j w ht
      obtain ⟨c, hc⟩ := move_free hp (fun j' w' h' => by rw [ht] at h'; cases h'; rfl) (.inl ⟨w, ht⟩)
      exact absurd hc (h c)
  refine ⟨ht, fun i p hp => Classical.byContradiction fun hn => ?_⟩
  obtain ⟨c, hc⟩ := move_free hp (fun j' w' h' => by rw [ht] at h'; cases h') (.inr fun r hr => hn ⟨r, hr⟩)
  exact h c hc

end GB
