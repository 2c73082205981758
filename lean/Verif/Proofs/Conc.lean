import Verif.Model.Concurrent
import Verif.Proofs.Repair

/-! Reasoning about processes step by step, whatever the other processes do in between. -/

set_option linter.unusedSectionVars false

namespace GB

namespace Proc

variable {α β σ : Type}

/-- Every step keeps `I`, changes the contents as `G` allows, and no exception is raised. -/
def Safe (I : DB → Prop) (G : DB → DB → Prop) : Proc α → Prop
  | .ret r => ∃ a, r = .ok a
  | .tx u n => ∀ db, I db → I (u db) ∧ G db (u db) ∧ Safe I G (n db)

/-- If others never change `st`, the process keeps `I` and ends with `Q` of its result, of `st` and of the
total change it made to `cnt`. -/
def Track (I : DB → Prop) (st : DB → σ) (cnt : DB → Int) : Proc α → σ → Int → (α → σ → Int → Prop) → Prop
  | .ret r, S, c, Q => ∃ a, r = .ok a ∧ Q a S c
  | .tx u n, S, c, Q => ∀ db, I db → st db = S →
      I (u db) ∧ Track I st cnt (n db) (st (u db)) (c + (cnt (u db) - cnt db)) Q

variable {I : DB → Prop} {G : DB → DB → Prop} {st : DB → σ} {cnt : DB → Int}

theorem Safe.bind {p : Proc α} {f : α → Proc β} (hp : p.Safe I G) (hf : ∀ a, (f a).Safe I G) :
    (p.bind f).Safe I G := by
  induction p with
  | ret r =>
    obtain ⟨a, rfl⟩ := hp
    exact hf a
  | tx u n ih => exact fun db hI => ⟨(hp db hI).1, (hp db hI).2.1, ih db (hp db hI).2.2⟩

theorem Safe.each {f : α → Proc Unit} {xs : List α} (h : ∀ x ∈ xs, (f x).Safe I G) : (each f xs).Safe I G := by
  induction xs with
  | nil => exact ⟨(), rfl⟩
  | cons x xs ih => exact (h x (by simp)).bind fun _ => ih fun y hy => h y (by simp [hy])

theorem Safe.atom {m : M α} (h : ∀ db, I db → ∃ a db', (m (reopen db false)).1 = .ok a ∧
    (m (reopen db false)).2.disk = db' ∧ I db' ∧ G db db') : (atom m).Safe I G := by
  intro db hI
  obtain ⟨a, db', h1, h2, h3, h4⟩ := h db hI
  simp only [h2]
  exact ⟨h3, h4, a, h1⟩

theorem Safe.mono {G' : DB → DB → Prop} (hG : ∀ a b, G a b → G' a b) {p : Proc α} (hp : p.Safe I G) : p.Safe I G' := by
  induction p with
  | ret r => exact hp
  | tx u n ih => exact fun db hI => ⟨(hp db hI).1, hG _ _ (hp db hI).2.1, ih db (hp db hI).2.2⟩

theorem Track.mono {p : Proc α} {S : σ} {c : Int} {Q Q' : α → σ → Int → Prop} (hp : p.Track I st cnt S c Q)
    (hQ : ∀ a S c, Q a S c → Q' a S c) : p.Track I st cnt S c Q' := by
  induction p generalizing S c with
  | ret r =>
    obtain ⟨a, h1, h2⟩ := hp
    exact ⟨a, h1, hQ _ _ _ h2⟩
  | tx u n ih => exact fun db hI hS => ⟨(hp db hI hS).1, ih db (hp db hI hS).2⟩

theorem Track.bind {p : Proc α} {f : α → Proc β} {S : σ} {c : Int} {Q : β → σ → Int → Prop}
    (hp : p.Track I st cnt S c fun a S' c' => (f a).Track I st cnt S' c' Q) : (p.bind f).Track I st cnt S c Q := by
  induction p generalizing S c with
  | ret r =>
    obtain ⟨a, rfl, h⟩ := hp
    exact h
  | tx u n ih => exact fun db hI hS => ⟨(hp db hI hS).1, ih db (hp db hI hS).2⟩

theorem Track.each {f : α → Proc Unit} {xs : List α} (g : σ → α → σ) (h : α → Int) {S : σ} {c : Int}
    (H : ∀ x ∈ xs, ∀ S c, (f x).Track I st cnt S c fun _ S' c' => S' = g S x ∧ c' = c + h x) :
    (Proc.each f xs).Track I st cnt S c fun _ S' c' => S' = xs.foldl g S ∧ c' = c + (xs.map h).sum := by
  induction xs generalizing S c with
  | nil => exact ⟨(), rfl, rfl, by simp⟩
  | cons x xs ih =>
    refine Track.bind ((H x (by simp) S c).mono ?_)
    rintro _ S' c' ⟨rfl, rfl⟩
    refine (ih fun y hy => H y (by simp [hy])).mono ?_
    rintro _ S' c' ⟨h1, h2⟩
    refine ⟨h1, ?_⟩
    rw [h2, List.map_cons, List.sum_cons]
    omega

theorem Track.atom {m : M α} {S : σ} {c : Int} {Q : α → σ → Int → Prop}
    (h : ∀ db, I db → st db = S → ∃ a db', (m (reopen db false)).1 = .ok a ∧
      (m (reopen db false)).2.disk = db' ∧ I db' ∧ Q a (st db') (c + (cnt db' - cnt db))) :
    (Proc.atom m).Track I st cnt S c Q := by
  intro db hI hS
  obtain ⟨a, db', h1, h2, h3, h4⟩ := h db hI hS
  simp only [h2]
  exact ⟨h3, a, h1, h4⟩

theorem Safe.track {p : Proc α} {S : σ} {c : Int} (hG : ∀ a b, G a b → st b = st a) (hp : p.Safe I G) :
    p.Track I st cnt S c fun _ S' _ => S' = S := by
  induction p generalizing S c with
  | ret r =>
    obtain ⟨a, rfl⟩ := hp
    exact ⟨a, rfl, rfl⟩
  | tx u n ih =>
    intro db hI hS
    refine ⟨(hp db hI).1, ?_⟩
    have : st (u db) = S := by rw [hG _ _ (hp db hI).2.1, hS]
    rw [this]
    exact ih db (hp db hI).2.2

end Proc

/-- A method that runs alone is one step of a process. -/
theorem Runs.here {α : Type} {q : Bool} {T : DB → Prop} {m : M α} {db : DB} {a : α} {db' : DB}
    (h : Runs q T m (reopen db false) a db') :
    (m (reopen db false)).1 = .ok a ∧ (m (reopen db false)).2.disk = db' := by
  obtain ⟨s', e, st⟩ := h
  rw [e]
  exact ⟨rfl, (st.durable (.inl rfl) rfl).trans st.work⟩

/-! ### the system -/

theorem Sys.Reach.length {σ τ : Sys} (h : σ.Reach τ) : τ.procs.length = σ.procs.length := by
  induction h with
  | refl => rfl
  | step _ hst ih => cases hst with | tx i hp => simpa using ih

theorem getElem?_set_cases {α : Type} {l : List α} {i j : Nat} {a b : α} (h : (l.set i a)[j]? = some b) :
    (j = i ∧ b = a ∧ i < l.length) ∨ (j ≠ i ∧ l[j]? = some b) := by
  rw [List.getElem?_set] at h
  split at h
  · rename_i hij
    split at h
    · rename_i hl
      cases h
      exact .inl ⟨hij.symm, rfl, hl⟩
    · cases h
  · rename_i hij
    exact .inr ⟨fun h => hij h.symm, h⟩

/-- Every process keeps to what it is allowed, whatever the schedule. -/
theorem Sys.Reach.safe {I : DB → Prop} {G : Nat → DB → DB → Prop} {σ τ : Sys} (h : σ.Reach τ) (hI : I σ.db)
    (hs : ∀ (i : Nat) (p : Proc Unit), σ.procs[i]? = some p → p.Safe I (G i)) :
    I τ.db ∧ ∀ (i : Nat) (p : Proc Unit), τ.procs[i]? = some p → p.Safe I (G i) := by
  induction h with
  | refl => exact ⟨hI, hs⟩
  | step _ hst ih =>
    obtain ⟨h1, h2⟩ := ih
    cases hst with
    | tx i hp =>
      obtain ⟨k1, k2, k3⟩ := h2 i _ hp _ h1
      refine ⟨k1, ?_⟩
      intro j p hj
      rcases getElem?_set_cases hj with ⟨rfl, rfl, _⟩ | ⟨_, hj⟩
      · exact k3
      · exact h2 j p hj

/-- What all processes leave alone stays. -/
theorem Sys.Reach.same {I : DB → Prop} {G : Nat → DB → DB → Prop} {α : Type} {st : DB → α} {σ τ : Sys}
    (h : σ.Reach τ) (hI : I σ.db)
    (hs : ∀ (i : Nat) (p : Proc Unit), σ.procs[i]? = some p → p.Safe I (G i))
    (hG : ∀ (i : Nat) (p : Proc Unit), σ.procs[i]? = some p → ∀ a b, G i a b → st b = st a) : st τ.db = st σ.db := by
  have hG' : ∀ τ, σ.Reach τ → ∀ (i : Nat) (p : Proc Unit), τ.procs[i]? = some p → ∀ a b, G i a b → st b = st a := by
    intro τ hr i p hp
    have hl := hr.length
    have : i < σ.procs.length := by rw [← hl]; exact (List.getElem?_eq_some_iff.1 hp).1
    exact hG i _ (List.getElem?_eq_getElem this)
  induction h with
  | refl => rfl
  | step hr hst ih =>
    obtain ⟨h1, h2⟩ := hr.safe hI hs
    cases hst with
    | tx i hp =>
      obtain ⟨k1, k2, k3⟩ := h2 i _ hp _ h1
      exact (hG' _ hr i _ hp _ _ k2).trans ih

theorem sum_set {cs : List Int} {i : Nat} {c d : Int} (h : cs[i]? = some c) :
    (cs.set i d).sum = cs.sum + (d - c) := by
  induction cs generalizing i with
  | nil => simp at h
  | cons x xs ih =>
    cases i with
    | zero => simp at h; subst h; simp; omega
    | succ i =>
      simp at h
      simp [ih h]
      omega

/-- What each process knows of its own part (`st i`) stays true, and the changes made to `cnt` add up. -/
theorem Sys.Reach.track {I : DB → Prop} {G : Nat → DB → DB → Prop} {α : Type} {st : Nat → DB → α} {cnt : DB → Int}
    {Q : Nat → α → Int → Prop} {σ τ : Sys} (h : σ.Reach τ) (hI : I σ.db)
    (hs : ∀ (i : Nat) (p : Proc Unit), σ.procs[i]? = some p → p.Safe I (G i))
    (hG : ∀ i j, i < σ.procs.length → j < σ.procs.length → i ≠ j → ∀ a b, G j a b → st i b = st i a)
    (ht : ∀ (i : Nat) (p : Proc Unit), σ.procs[i]? = some p →
      p.Track I (st i) cnt (st i σ.db) 0 fun _ => Q i) :
    ∃ cs : List Int, cs.length = τ.procs.length ∧ cnt τ.db = cnt σ.db + cs.sum ∧
      (∀ (i : Nat) (p : Proc Unit) (c : Int), τ.procs[i]? = some p → cs[i]? = some c →
        p.Track I (st i) cnt (st i τ.db) c fun _ => Q i) ∧
      ∀ (i : Nat) (c : Int), (∀ a b, G i a b → cnt b = cnt a) → cs[i]? = some c → c = 0 := by
  induction h with
  | refl =>
    have h0 : ∀ (i : Nat) (c : Int), (List.replicate σ.procs.length (0 : Int))[i]? = some c → c = 0 := by
      intro i c hc
      rw [List.getElem?_replicate] at hc
      split at hc <;> simp_all
    refine ⟨List.replicate σ.procs.length 0, by simp, by simp, ?_, fun i c _ hc => h0 i c hc⟩
    intro i p c hp hc
    have := h0 i c hc
    subst this
    exact ht i p hp
  | step hr hst ih =>
    obtain ⟨h1, h2⟩ := hr.safe hI hs
    obtain ⟨cs, hl, hc, hq, hz⟩ := ih
    have hlen := hr.length
    cases hst with
    | @tx db procs i u n hp =>
      obtain ⟨k1, k2, k3⟩ := h2 i _ hp _ h1
      have hi : i < procs.length := (List.getElem?_eq_some_iff.1 hp).1
      have hi' : i < cs.length := by rw [hl]; exact hi
      have hci : cs[i]? = some cs[i] := List.getElem?_eq_getElem hi'
      have hti := (hq i _ _ hp hci db h1 rfl).2
      refine ⟨cs.set i (cs[i] + (cnt (u db) - cnt db)), by simpa using hl, ?_, ?_, ?_⟩
      · rw [sum_set hci]
        show cnt (u db) = _
        simp only at hc
        omega
      · intro j p c hj hcj
        rcases getElem?_set_cases hj with ⟨rfl, rfl, _⟩ | ⟨hne, hj⟩
        · rcases getElem?_set_cases hcj with ⟨_, rfl, _⟩ | ⟨hne, _⟩
          · exact hti
          · exact absurd rfl hne
        · rcases getElem?_set_cases hcj with ⟨h, _, _⟩ | ⟨_, hcj⟩
          · exact absurd h hne
          · have hjl : j < procs.length := (List.getElem?_eq_some_iff.1 hj).1
            have := hG j i (by rw [← hlen]; exact hjl) (by rw [← hlen]; exact hi) hne _ _ k2
            show p.Track I (st j) cnt (st j (u db)) c _
            rw [this]
            exact hq j p c hj hcj
      · intro j c hG0 hcj
        rcases getElem?_set_cases hcj with ⟨rfl, rfl, _⟩ | ⟨_, hcj⟩
        · have h0 := hz j _ hG0 hci
          have : cnt (u db) = cnt db := hG0 _ _ k2
          omega
        · exact hz j c hG0 hcj

end GB
