import Verif.Proofs.MyStm
import Verif.Proofs.ConcAlone

/-! Programs that do the same on two databases, and processes that do not notice each other. -/

set_option linter.unusedSectionVars false

namespace GB

variable {α β γ : Type} {A : DB → DB → Prop} {H : DB → DB → DB → DB → Prop}

/-- On two databases that `A` relates, the program sends the same statements with the same answers, the databases stay
related, and the changes are as `H` says; it ends with `Q`. -/
def Stm.Local (A : DB → DB → Prop) (H : DB → DB → DB → DB → Prop) : Stm β → (β → Prop) → Prop
  | .ret b, Q => Q b
  | .read k, Q => ∀ db d, A db d → k db = k d ∧ (k d).Local A H Q
  | .write u k e, Q => ∀ db d, A db d →
      (∃ db' d', u db = some db' ∧ u d = some d' ∧ A db' d' ∧ H db db' d d' ∧ k db = k d ∧ (k d).Local A H Q) ∨
      (u db = none ∧ u d = none ∧ e.Local A H Q)
  | .commit k, Q => k.Local A H Q

theorem Stm.Local.mono {p : Stm β} {Q Q' : β → Prop} (hp : p.Local A H Q) (h : ∀ b, Q b → Q' b) : p.Local A H Q' := by
  induction p with
  | ret b => exact h b hp
  | read k ih => exact fun db d hA => ⟨(hp db d hA).1, ih d (hp db d hA).2⟩
  | write u k e ih1 ih2 =>
    intro db d hA
    rcases hp db d hA with ⟨db', d', h1, h2, h3, h4, h5, h6⟩ | ⟨h1, h2, h3⟩
    · exact .inl ⟨db', d', h1, h2, h3, h4, h5, ih1 d h6⟩
    · exact .inr ⟨h1, h2, ih2 h3⟩
  | commit k ih => exact ih hp

theorem Stm.Local.bind {p : Stm β} {f : β → Stm γ} {Q : γ → Prop} (hp : p.Local A H fun b => (f b).Local A H Q) :
    (p.bind f).Local A H Q := by
  induction p with
  | ret b => exact hp
  | read k ih =>
    intro db d hA
    refine ⟨?_, ih d (hp db d hA).2⟩
    show (k db).bind f = (k d).bind f
    rw [(hp db d hA).1]
  | write u k e ih1 ih2 =>
    intro db d hA
    rcases hp db d hA with ⟨db', d', h1, h2, h3, h4, h5, h6⟩ | ⟨h1, h2, h3⟩
    · refine .inl ⟨db', d', h1, h2, h3, h4, ?_, ih1 d h6⟩
      show (k db).bind f = (k d).bind f
      rw [h5]
    · exact .inr ⟨h1, h2, ih2 h3⟩
  | commit k ih => exact ih hp

/-- The same for a method: it may raise; if it returns, with `post`. -/
def Conn.Loc (A : DB → DB → Prop) (H : DB → DB → DB → DB → Prop) (x : Conn α) (post : α → Prop) : Prop :=
  ∀ c, c ≠ some false → (x c).Local A H fun b => ∀ a, b.1 = .ok a → post a ∧ b.2 ≠ some false

theorem Conn.Loc.mono {x : Conn α} {post post' : α → Prop} (hx : x.Loc A H post) (h : ∀ a, post a → post' a) :
    x.Loc A H post' := fun c hc => (hx c hc).mono fun _ hb a ha => ⟨h a (hb a ha).1, (hb a ha).2⟩

theorem Conn.Loc.bind {x : Conn α} {f : α → Conn β} {post : α → Prop} {post' : β → Prop} (hx : x.Loc A H post)
    (hf : ∀ a, post a → (f a).Loc A H post') : (x >>= f).Loc A H post' := by
  intro c hc
  refine Stm.Local.bind ((hx c hc).mono ?_)
  rintro ⟨r, c'⟩ hb
  cases r with
  | error e =>
    intro a ha
    cases ha
  | ok a =>
    obtain ⟨h1, h2⟩ := hb a rfl
    exact hf a h1 c' h2

theorem Conn.Loc.pure {post : α → Prop} {a : α} (h : post a) : (Pure.pure a : Conn α).Loc A H post := by
  intro c hc b hb
  cases hb
  exact ⟨h, hc⟩

theorem Conn.Loc.lift {x : Except PyErr α} {post : α → Prop} (h : ∀ a, x = .ok a → post a) : (cLift x).Loc A H post :=
  fun _ hc a ha => ⟨h a ha, hc⟩

theorem Conn.Loc.each {f : α → Conn Unit} {xs : List α} (h : ∀ x ∈ xs, (f x).Loc A H fun _ => True) :
    (cEach f xs).Loc A H fun _ => True := by
  induction xs with
  | nil => exact Conn.Loc.pure trivial
  | cons x xs ih => exact (h x (by simp)).bind fun _ _ => ih fun y hy => h y (by simp [hy])

theorem Conn.Loc.ite {p : Prop} [Decidable p] {x y : Conn α} {post : α → Prop} (hx : p → x.Loc A H post)
    (hy : ¬ p → y.Loc A H post) : (if p then x else y).Loc A H post := by
  split
  · exact hx ‹_›
  · exact hy ‹_›

theorem loc_commit : cCommit.Loc A H fun _ => True := fun _ hc _ _ => ⟨trivial, hc⟩

theorem loc_open (loc : Bool) : (cOpen loc).Loc A H fun _ => True := by
  intro c hc
  cases loc <;> cases c with
  | none => exact fun _ _ => ⟨trivial, by simp⟩
  | some b => exact fun _ _ => ⟨trivial, hc⟩

theorem loc_close (loc commit : Bool) : (cClose loc commit).Loc A H fun _ => True := by
  intro c hc
  cases loc <;> cases commit <;> cases c <;> first
    | exact fun _ _ => ⟨trivial, hc⟩
    | exact fun _ _ => ⟨trivial, by simp⟩
    | (intro _ h; cases h)

theorem loc_write {cu : Cursor} {q : DB → Option (α × DB)} {post : α → Prop}
    (h : ∀ db d, A db d → (∃ a db' d', q db = some (a, db') ∧ q d = some (a, d') ∧ A db' d' ∧ H db db' d d' ∧ post a) ∨
      (q db = none ∧ q d = none)) : (cWrite cu q).Loc A H post := by
  intro c hc
  unfold cWrite
  rw [if_neg (fun h => hc h.2)]
  intro db d hA
  rcases h db d hA with ⟨a, db', d', h1, h2, h3, h4, h5⟩ | ⟨h1, h2⟩
  · refine .inl ⟨db', d', by simp only [h1]; rfl, by simp only [h2]; rfl, h3, h4, by simp only [h1, h2], ?_⟩
    simp only [h2]
    intro b hb
    cases hb
    exact ⟨h5, hc⟩
  · refine .inr ⟨by simp only [h1]; rfl, by simp only [h2]; rfl, ?_⟩
    intro b hb
    cases hb

theorem Asks.loc {x : Conn α} (h : Asks x) {post : α → Prop} (hne : ∃ db d, A db d)
    (he : ∀ db d, A db d → (x.run (reopen db false)).1 = (x.run (reopen d false)).1 ∧
      ∀ a, (x.run (reopen d false)).1 = .ok a → post a) : x.Loc A H post := by
  have hrun : ∀ db, x.run (reopen db false) = (x none).exec (reopen db false) := fun _ => rfl
  rcases h with ⟨r, h⟩ | ⟨g, h⟩
  · intro c hc
    rw [h c hc]
    obtain ⟨db, d, hA⟩ := hne
    intro a ha
    refine ⟨(he db d hA).2 a ?_, hc⟩
    rw [hrun, h none (by simp)]
    exact ha
  · intro c hc
    rw [h c hc]
    intro db d hA
    have h1 : ∀ db, (x.run (reopen db false)).1 = g db := by
      intro db
      rw [hrun, h none (by simp)]
      rfl
    obtain ⟨k1, k2⟩ := he db d hA
    rw [h1, h1] at k1
    rw [h1] at k2
    exact ⟨by simp only [k1], fun a ha => ⟨k2 a ha, hc⟩⟩

/-! ### processes -/

/-- The same for a process. -/
def Proc.Loc (A : DB → DB → Prop) (H : DB → DB → DB → DB → Prop) : Proc α → Prop
  | .ret _ => True
  | .tx u n => ∀ db d, A db d → A (u db) (u d) ∧ H db (u db) d (u d) ∧ n db = n d ∧ (n d).Loc A H

theorem Stm.Local.auto (hH : ∀ db d, A db d → H db db d d) {p : Stm (Except PyErr α × Option Bool)} {Q}
    (hp : p.Local A H Q) : p.auto.Loc A H := by
  induction p with
  | ret b => trivial
  | read k ih =>
    intro db d hA
    refine ⟨hA, hH db d hA, ?_, ih d (hp db d hA).2⟩
    show (k db).auto = (k d).auto
    rw [(hp db d hA).1]
  | write u k e ih1 ih2 =>
    intro db d hA
    rcases hp db d hA with ⟨db', d', h1, h2, h3, h4, h5, h6⟩ | ⟨h1, h2, h3⟩
    · simp only [h1, h2, Option.getD_some, Option.isSome_some, if_true]
      refine ⟨h3, h4, by rw [h5], ih1 d h6⟩
    · simp only [h1, h2, Option.getD_none, Option.isSome_none, Bool.false_eq_true, if_false]
      exact ⟨hA, hH db d hA, trivial, ih2 h3⟩
  | commit k ih => exact ih hp

theorem reach_snoc {σ : Sys} {d : DB} {u : DB → DB} {n : DB → Proc Unit} (h : σ.Reach ⟨d, [.tx u n]⟩) :
    σ.Reach ⟨u d, [n d]⟩ := h.step (Sys.Step.tx 0 rfl)

/-- Processes that do not notice each other: each is where it could be alone. -/
theorem Sys.Reach.alone {A : Nat → DB → DB → Prop} {H : Nat → DB → DB → DB → DB → Prop} {cnt : DB → Int} {σ τ : Sys}
    (h : σ.Reach τ) (h0 : ∀ i, i < σ.procs.length → A i σ.db σ.db)
    (hl : ∀ (i : Nat) (p : Proc Unit), σ.procs[i]? = some p → p.Loc (A i) (H i))
    (hG : ∀ i j, i < σ.procs.length → j < σ.procs.length → i ≠ j → ∀ db db' d d' x, H i db db' d d' → A j db x → A j db' x)
    (hC : ∀ i, i < σ.procs.length → ∀ db db' d d', H i db db' d d' → cnt db' - cnt db = cnt d' - cnt d) :
    ∃ ds : List DB, ds.length = τ.procs.length ∧
      cnt τ.db - cnt σ.db = (ds.map fun d => cnt d - cnt σ.db).sum ∧
      ∀ (i : Nat) (p : Proc Unit) (d : DB), τ.procs[i]? = some p → ds[i]? = some d →
        A i τ.db d ∧ p.Loc (A i) (H i) ∧ ∃ p0, σ.procs[i]? = some p0 ∧ (Sys.mk σ.db [p0]).Reach ⟨d, [p]⟩ := by
  induction h with
  | refl =>
    refine ⟨List.replicate σ.procs.length σ.db, by simp, ?_, ?_⟩
    · rw [List.map_replicate]
      induction σ.procs.length with
      | zero => simp
      | succ n ih => rw [List.replicate_succ, List.sum_cons, ← ih]; omega
    · intro i p d hp hd
      rw [List.getElem?_replicate] at hd
      split at hd
      · cases hd
        exact ⟨h0 i ‹_›, hl i p hp, p, hp, .refl⟩
      · cases hd
  | step hr hst ih =>
    obtain ⟨ds, h1, h2, h3⟩ := ih
    have hlen := hr.length
    cases hst with
    | @tx db procs i u n hp =>
      have hi : i < procs.length := (List.getElem?_eq_some_iff.1 hp).1
      have hi' : i < ds.length := by rw [h1]; exact hi
      have hdi : ds[i]? = some ds[i] := List.getElem?_eq_getElem hi'
      obtain ⟨k1, k2, p0, k3, k4⟩ := h3 i _ _ hp hdi
      obtain ⟨m1, m2, m3, m4⟩ := k2 db ds[i] k1
      refine ⟨ds.set i (u ds[i]), by simpa using h1, ?_, ?_⟩
      · rw [List.map_set, sum_set (c := cnt ds[i] - cnt σ.db) (by rw [List.getElem?_map, hdi]; rfl), ← h2]
        have := hC i (by rw [← hlen]; exact hi) _ _ _ _ m2
        show cnt (u db) - _ = cnt db - _ + _
        omega
      · intro j p d hj hdj
        rcases getElem?_set_cases hj with ⟨rfl, rfl, _⟩ | ⟨hne, hj⟩
        · rcases getElem?_set_cases hdj with ⟨_, rfl, _⟩ | ⟨hne, _⟩
          · refine ⟨m1, m3 ▸ m4, p0, k3, ?_⟩
            rw [m3]
            exact reach_snoc k4
          · exact absurd rfl hne
        · rcases getElem?_set_cases hdj with ⟨h, _, _⟩ | ⟨_, hdj⟩
          · exact absurd h hne
          · obtain ⟨n1, n2, n3⟩ := h3 j p d hj hdj
            have hjl : j < procs.length := (List.getElem?_eq_some_iff.1 hj).1
            exact ⟨hG i j (by rw [← hlen]; exact hi) (by rw [← hlen]; exact hjl) (fun h => hne h.symm) _ _ _ _ _ m2 n1,
              n2, n3⟩

end GB
