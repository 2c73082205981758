import Verif.Proofs.TreeHeap

/-
Settles of calls with a recursion budget: with every large enough budget the call returns, the result and the heap do not
depend on the budget, and they satisfy the postcondition.
-/

namespace GB

/-- With every large enough budget the call returns the same thing, of which `Q` holds. -/
def Settles {α : Type} (f : Nat → TM α) (h : SemTree) (Q : α → SemTree → Prop) : Prop :=
  ∃ a h', (∃ N, ∀ k, N ≤ k → f k h = .ok (a, h')) ∧ Q a h'

namespace Settles
variable {α β : Type} {h : SemTree}

theorem pure {a : α} {Q : α → SemTree → Prop} (hq : Q a h) : Settles (fun _ => TM.pure a) h Q :=
  ⟨a, h, ⟨0, fun _ _ => rfl⟩, hq⟩

theorem of_eq {f : Nat → TM α} {a : α} {h' : SemTree} {Q : α → SemTree → Prop} (he : ∀ k, f k h = .ok (a, h'))
    (hq : Q a h') : Settles f h Q := ⟨a, h', ⟨0, fun k _ => he k⟩, hq⟩

theorem mono {f : Nat → TM α} {P Q : α → SemTree → Prop} (hr : Settles f h P) (hpq : ∀ a h', P a h' → Q a h') :
    Settles f h Q := by
  obtain ⟨a, h', hN, hp⟩ := hr
  exact ⟨a, h', hN, hpq a h' hp⟩

theorem bind {f : Nat → TM α} {g : Nat → α → TM β} {P : α → SemTree → Prop} {Q : β → SemTree → Prop}
    (hf : Settles f h P) (hg : ∀ a h', P a h' → Settles (fun k => g k a) h' Q) : Settles (fun k => f k >>= g k) h Q := by
  obtain ⟨a, h1, ⟨N, hN⟩, hp⟩ := hf
  obtain ⟨b, h2, ⟨M, hM⟩, hq⟩ := hg a h1 hp
  refine ⟨b, h2, ⟨max N M, fun k hk => ?_⟩, hq⟩
  exact (tm_bind_ok (hN k (by omega))).trans (hM k (by omega))

/-- A step that does not depend on the budget and whose result is known. -/
theorem step {f : Nat → TM α} {g : Nat → α → TM β} {a : α} {h1 : SemTree} {Q : β → SemTree → Prop}
    (hf : ∀ k, f k h = .ok (a, h1)) (hg : Settles (fun k => g k a) h1 Q) : Settles (fun k => f k >>= g k) h Q :=
  bind (P := fun b h' => b = a ∧ h' = h1) (of_eq hf ⟨rfl, rfl⟩) (by rintro _ _ ⟨rfl, rfl⟩; exact hg)

/-- One unit of the budget is used for the call itself. -/
theorem succ {f : Nat → TM α} {g : Nat → TM α} {Q : α → SemTree → Prop} (hfg : ∀ k, f (k + 1) = g k) (hg : Settles g h Q) :
    Settles f h Q := by
  obtain ⟨a, h', ⟨N, hN⟩, hq⟩ := hg
  refine ⟨a, h', ⟨N + 1, fun k hk => ?_⟩, hq⟩
  obtain ⟨k, rfl⟩ : ∃ j, k = j + 1 := ⟨k - 1, by omega⟩
  rw [hfg]
  exact hN k (by omega)

theorem ite {c : Prop} [Decidable c] {f g : Nat → TM α} {Q : α → SemTree → Prop} (h1 : c → Settles f h Q)
    (h2 : ¬ c → Settles g h Q) : Settles (fun k => if c then f k else g k) h Q := by
  by_cases hc : c
  · simpa only [hc, if_true] using h1 hc
  · simpa only [hc, if_false] using h2 hc

/-- A loop `[f(x) for x in xs]`, with an invariant on what is done. -/
theorem mapM {f : Nat → α → TM β} {I : List α → List β → SemTree → Prop} :
    (xs : List α) → (done : List α) → (ys : List β) → (h : SemTree) → I done ys h →
    (∀ done x ys h, x ∈ xs → I done ys h → Settles (fun k => f k x) h (fun y h' => I (done ++ [x]) (ys ++ [y]) h')) →
    Settles (fun k => TM.mapM (f k) xs) h (fun zs h' => I (done ++ xs) (ys ++ zs) h')
  | [], done, ys, h, hi, _ => by
    refine Settles.pure ?_
    simpa using hi
  | x :: xs, done, ys, h, hi, hf => by
    refine Settles.bind (hf done x ys h (by simp) hi) (fun y h1 hy => ?_)
    have ih := mapM (f := f) (I := I) xs (done ++ [x]) (ys ++ [y]) h1 hy
      (fun d x' ys' h' hx' => hf d x' ys' h' (by simp [hx']))
    refine Settles.bind ih (fun zs h2 hz => Settles.pure ?_)
    simpa using hz

theorem forEach {f : Nat → α → TM Unit} {I : SemTree → Prop} :
    (xs : List α) → (h : SemTree) → I h → (∀ x h, x ∈ xs → I h → Settles (fun k => f k x) h (fun _ h' => I h')) →
    Settles (fun k => TM.forEach (f k) xs) h (fun _ h' => I h')
  | [], h, hi, _ => Settles.pure hi
  | x :: xs, h, hi, hf =>
    Settles.bind (hf x h (by simp) hi) (fun _ h1 hy =>
      forEach (f := f) (I := I) xs h1 hy (fun x' h' hx' => hf x' h' (by simp [hx'])))

/-- `any` of a test that only reads. -/
theorem anyM {f : Nat → α → TM Bool} : (xs : List α) →
    (∀ x ∈ xs, Settles (fun k => f k x) h (fun _ h' => h' = h)) → Settles (fun k => TM.anyM (f k) xs) h (fun _ h' => h' = h)
  | [], _ => Settles.pure rfl
  | x :: xs, hf => by
    refine Settles.bind (hf x (by simp)) (fun b h1 he => ?_)
    subst h1
    cases b with
    | true => exact Settles.pure rfl
    | false => exact anyM xs (fun y hy => hf y (by simp [hy]))

/-- `all` of a test that only reads. -/
theorem allM {f : Nat → α → TM Bool} : (xs : List α) →
    (∀ x ∈ xs, Settles (fun k => f k x) h (fun _ h' => h' = h)) → Settles (fun k => TM.allM (f k) xs) h (fun _ h' => h' = h)
  | [], _ => Settles.pure rfl
  | x :: xs, hf => by
    refine Settles.bind (hf x (by simp)) (fun b h1 he => ?_)
    subst h1
    cases b with
    | true => exact allM xs (fun y hy => hf y (by simp [hy]))
    | false => exact Settles.pure rfl

end Settles

end GB
