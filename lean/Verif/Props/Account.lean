import Verif.Proofs.Account
import Verif.Spec.WitnessHist

/-
Property C85: the degree of every vertex, exactly.
-/

namespace GB

variable {F : Type} [PyFloat F] [DecidableEq F] {V : Val F → Prop}

/-- C85: something happens in every history. -/
theorem C85_happens (hV : Vocab V) (ops : List (Op F)) (hops : ∀ op ∈ ops, op.Over V) :
    ∃ evs, HappensAll Spec.empty (ops.flatMap Op.steps) evs := by
  obtain ⟨A, evs, _, _, h, _⟩ := runOps_fromE hV ops hops Abs.empty Spec.empty (St.new false) AbsOk.empty Rel.empty rfl rfl
  exact ⟨evs, h⟩

/-- C85: after any history the degree of any symbol, number or edge is its account of what happened; it does not matter in
which order a call deletes several edges. -/
theorem C85_account (hV : Vocab V) (ops : List (Op F)) (hops : ∀ op ∈ ops, op.Over V) (auto : Bool) (s : St)
    (hs : runOps ops (St.new auto) = (.ok (), s)) (v : Val F) (hv : WfVal v) (evs : List (Event F))
    (he : HappensAll Spec.empty (ops.flatMap Op.steps) evs) :
    hgDegree v s = (.ok ((account v evs none).getD 0), s) := by
  obtain ⟨A, evs', hA, _, h, hd, s', e, st⟩ := runOps_fromE hV ops hops Abs.empty Spec.empty (St.new auto) AbsOk.empty
    Rel.empty rfl rfl
  have : s' = s := by
    have := e.symm.trans hs
    simpa using this
  subst this
  show sqlDegree v s' = _
  rw [degree_run hA.wf hv st.cur st.work, happensAll_unique he h]
  have h1 := hd v
  rw [show lookDeg v Abs.empty = none from rfl] at h1
  rw [← h1]
  rfl

/-- C85, since the last time the edge `v` was created: as long as it is there, its degree is how often it occurs in the edges
created since, minus how often it occurs in the edges deleted since. -/
theorem C85_since (hV : Vocab V) (ops : List (Op F)) (hops : ∀ op ∈ ops, op.Over V) (auto : Bool) (s : St)
    (hs : runOps ops (St.new auto) = (.ok (), s)) (v : Val F) (hv : WfVal v) (a b : List (Event F))
    (he : HappensAll Spec.empty (ops.flatMap Op.steps) (a ++ .created v :: b))
    (hb : ∀ ev ∈ b, ev ≠ .wiped ∧ ev ≠ .created v ∧ ev ≠ .deleted v) :
    hgDegree v s = (.ok (b.map (Event.balance v)).sum, s) := by
  have key : ∀ (b : List (Event F)), (∀ ev ∈ b, ev ≠ .wiped ∧ ev ≠ .created v ∧ ev ≠ .deleted v) → ∀ n : Int,
      account v b (some n) = some (n + (b.map (Event.balance v)).sum) := by
    intro b
    induction b with
    | nil => intro _ n; simp [account]
    | cons x b ih =>
      intro h n
      have hx := h x (by simp)
      have ih := ih fun ev hev => h ev (by simp [hev])
      cases x with
      | created e =>
        have hn : ¬ e = v := fun h' => hx.2.1 (by rw [h'])
        by_cases hm : v ∈ e.elems
        · simp only [account, if_neg hn, if_pos hm, Option.getD_some, ih, List.map_cons, List.sum_cons, Event.balance]
          congr 1
          omega
        · have hc := List.count_eq_zero_of_not_mem hm
          simp only [account, if_neg hn, if_neg hm, ih, List.map_cons, List.sum_cons, Event.balance, hc]
          congr 1
          omega
      | deleted e =>
        have hn : ¬ e = v := fun h' => hx.2.2 (by rw [h'])
        simp only [account, if_neg hn, Option.map_some, ih, List.map_cons, List.sum_cons, Event.balance]
        congr 1
        omega
      | wiped => exact absurd rfl hx.1
  rw [C85_account hV ops hops auto s hs v hv _ he, account_append]
  simp only [account, if_true]
  rw [key b hb 0]
  simp

/-! ### Examples -/

/-- An edge is added as an element of another one, then itself, then the other one is removed: the account is -1, as in
`C23_negative_counterexample`. -/
example : account exE1 [.created exE2, .created exE1, .deleted exE2] none = some (-1) ∧
    ([Event.deleted exE2].map (Event.balance exE1)).sum = -1 := by decide +kernel

theorem exAccount : HappensAll (F := Half) Spec.empty
    (([.prim (.add exE2 1), .prim (.add exE1 2), .prim (.remove exE2)] : List (Op Half)).flatMap Op.steps)
    ([.created exE2] ++ .created exE1 :: [.deleted exE2]) := by
  have h12 : exE1 ≠ exE2 := by decide +kernel
  refine ⟨[.created exE2], _, rfl, ⟨fun h => absurd h (Spec.empty_present _), fun _ => rfl⟩, [.created exE1], _, rfl,
    ⟨fun h => ?_, fun _ => rfl⟩, [.deleted exE2], [], rfl, ⟨[exE2], by simp, fun x => ?_, rfl⟩, rfl⟩
  · rcases (Spec.add_present _ _ _ _).1 h with h | h
    · exact absurd h h12
    · exact absurd h (Spec.empty_present _)
  · constructor
    · intro hx
      have : x = exE2 := by simpa using hx
      subst this
      exact ⟨rfl, (Spec.add_present _ _ _ _).2 (.inr ((Spec.add_present _ _ _ _).2 (.inl rfl)))⟩
    · rintro ⟨rfl, _⟩; simp

example (s : St) (hs : runOps ([.prim (.add exE2 1), .prim (.add exE1 2), .prim (.remove exE2)] : List (Op Half))
    (St.new false) = (.ok (), s)) : hgDegree exE1 s = (.ok (-1), s) :=
  C85_since plainVocab _ (ops_of (by decide +kernel)) false s hs exE1 (plain_of (by decide +kernel)).1 [.created exE2]
    [.deleted exE2] exAccount (by
      intro ev hev
      have h12 : exE2 ≠ exE1 := by decide +kernel
      have : ev = .deleted exE2 := by simpa using hev
      subst this
      exact ⟨by simp, by simp, by simpa using h12⟩)

end GB
