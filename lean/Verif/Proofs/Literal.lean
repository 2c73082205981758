import Verif.Proofs.Hist
import Verif.Spec.Added

/-! Reading histories literally. -/

set_option linter.unusedSectionVars false

namespace GB

variable {F : Type} [PyFloat F] [DecidableEq F]

theorem Spec.add_present (S : Spec F) (e x : Val F) (ts : Int) :
    (S.add e ts).Present x ↔ x = e ∨ S.Present x := by
  unfold Spec.Present Spec.add
  split
  · rename_i h
    constructor
    · exact .inr
    · rintro (rfl | h')
      · exact h
      · exact h'
  · show ((if x = e then some ts else S.created x).isSome = true) ↔ _
    by_cases hx : x = e <;> simp [hx]

theorem Spec.foldRemove_present (es : List (Val F)) (S : Spec F) (x : Val F) :
    (es.foldl Spec.remove S).Present x ↔ x ∉ es ∧ S.Present x := by
  unfold Spec.Present
  rw [Spec.foldRemove_created]
  by_cases h : x ∈ es <;> simp [h]

theorem Spec.remove_present (S : Spec F) (e x : Val F) : (S.remove e).Present x ↔ x ≠ e ∧ S.Present x := by
  simpa using Spec.foldRemove_present [e] S x

open Classical in
theorem Spec.removeWhere_present (S : Spec F) (P : Val F → Prop) (x : Val F) :
    (S.removeWhere P).Present x ↔ ¬ P x ∧ S.Present x := by
  unfold Spec.Present Spec.removeWhere
  show ((if P x then none else S.created x).isSome = true) ↔ _
  by_cases h : P x <;> simp [h]

theorem Spec.addBelief_present (S : Spec F) (src e x : Val F) (ts : Int) :
    (S.addBelief src e ts).Present x ↔ (x = e ∨ x = support e src) ∨ S.Present x := by
  unfold Spec.addBelief
  rw [Spec.add_present, Spec.add_present]
  constructor
  · rintro (h | h | h)
    · exact .inl (.inr h)
    · exact .inl (.inl h)
    · exact .inr h
  · rintro ((h | h) | h)
    · exact .inr (.inl h)
    · exact .inl h
    · exact .inr (.inr h)

theorem Spec.foldAdd_present {α : Type} (f : Spec F → α → Spec F) (P : α → Val F → Prop)
    (h : ∀ S a x, (f S a).Present x ↔ P a x ∨ S.Present x) (l : List α) (S : Spec F) (x : Val F) :
    (l.foldl f S).Present x ↔ (∃ a ∈ l, P a x) ∨ S.Present x := by
  induction l generalizing S with
  | nil => simp
  | cons a l ih =>
    rw [List.foldl_cons, ih, h]
    simp only [List.mem_cons, exists_eq_or_imp]
    constructor
    · rintro (h | h | h)
      · exact .inl (.inr h)
      · exact .inl (.inl h)
      · exact .inr h
    · rintro ((h | h) | h)
      · exact .inr (.inl h)
      · exact .inl h
      · exact .inr (.inr h)

theorem Spec.empty_present (x : Val F) : ¬ (Spec.empty : Spec F).Present x := by
  simp [Spec.empty, Spec.Present]

/-- Effect of a literal operation on presence. -/
theorem Spec.op_present (S : Spec F) {op : Op F} (hl : op.Literal) (x : Val F) :
    (S.op op).Present x ↔ op.Adds x ∨ (S.Present x ∧ ¬ op.Erases x) := by
  cases op with
  | prim p =>
    cases p with
    | add e ts =>
      show (S.add e ts).Present x ↔ x = e ∨ (S.Present x ∧ ¬ False)
      rw [Spec.add_present]; simp
    | remove e =>
      show (S.remove e).Present x ↔ False ∨ (S.Present x ∧ ¬ x = e)
      rw [Spec.remove_present]; simp [and_comm]
    | removeMany es =>
      show (es.foldl Spec.remove S).Present x ↔ False ∨ (S.Present x ∧ ¬ x ∈ es)
      rw [Spec.foldRemove_present]; simp [and_comm]
    | removeByPattern ps =>
      show (S.removeWhere fun x => Matches ps x.elems).Present x ↔ False ∨ (S.Present x ∧ ¬ Matches ps x.elems)
      rw [Spec.removeWhere_present]; simp [and_comm]
    | removeBelief src e => exact absurd hl id
    | destroy =>
      show (Spec.empty : Spec F).Present x ↔ False ∨ (S.Present x ∧ ¬ True)
      simp [Spec.empty_present]
    | query q =>
      show S.Present x ↔ False ∨ (S.Present x ∧ ¬ False)
      simp
  | addMany es ts =>
    show (es.foldl (fun S e => S.add e ts) S).Present x ↔ x ∈ es ∨ (S.Present x ∧ ¬ False)
    rw [Spec.foldAdd_present (fun S e => S.add e ts) (fun e x => x = e) (fun S a x => Spec.add_present S a x ts)]
    simp
  | addBelief src e ts =>
    show (S.addBelief src e ts).Present x ↔ (x = e ∨ x = support e src) ∨ (S.Present x ∧ ¬ False)
    rw [Spec.addBelief_present]; simp
  | addBeliefs src es ts =>
    show (es.foldl (fun S e => S.addBelief src e ts) S).Present x ↔ (∃ e ∈ es, x = e ∨ x = support e src) ∨
      (S.Present x ∧ ¬ False)
    rw [Spec.foldAdd_present (fun S e => S.addBelief src e ts) (fun e x => x = e ∨ x = support e src)
      (fun S a x => Spec.addBelief_present S src a x ts)]
    simp
  | batch ps => exact absurd hl id
  | degree v =>
    show S.Present x ↔ False ∨ (S.Present x ∧ ¬ False)
    simp
  | timestamp v =>
    show S.Present x ↔ False ∨ (S.Present x ∧ ¬ False)
    simp

theorem Spec.after_append (ops ops' : List (Op F)) :
    Spec.after (ops ++ ops') = ops'.foldl Spec.op (Spec.after ops) := by
  simp [Spec.after]

/-- In literal histories, present means: added, and not erased since. -/
theorem Spec.after_present_iff (ops : List (Op F)) (hl : ∀ op ∈ ops, op.Literal) (x : Val F) :
    (Spec.after ops).Present x ↔
      ∃ pre op post, ops = pre ++ op :: post ∧ op.Adds x ∧ ∀ o ∈ post, o.Adds x ∨ ¬ o.Erases x := by
  suffices h : ∀ (rops : List (Op F)), (∀ op ∈ rops, op.Literal) → ((Spec.after rops.reverse).Present x ↔
      ∃ pre op post, rops.reverse = pre ++ op :: post ∧ op.Adds x ∧ ∀ o ∈ post, o.Adds x ∨ ¬ o.Erases x) by
    have := h ops.reverse (by simpa using hl)
    rwa [List.reverse_reverse] at this
  intro rops
  induction rops with
  | nil => intro _; simp [Spec.after, Spec.empty_present]
  | cons op rops ih =>
    intro hl
    rw [List.reverse_cons, Spec.after_append]
    show ((Spec.after rops.reverse).op op).Present x ↔ _
    rw [Spec.op_present _ (hl op (by simp)), ih (fun o ho => hl o (by simp [ho]))]
    constructor
    · rintro (h | ⟨⟨pre, o, post, he, ha, hp⟩, hne⟩)
      · exact ⟨rops.reverse, op, [], by simp, h, by simp⟩
      · refine ⟨pre, o, post ++ [op], by simp [he], ha, ?_⟩
        intro o' ho'
        rcases List.mem_append.1 ho' with h | h
        · exact hp o' h
        · simp only [List.mem_singleton] at h; subst h; exact .inr hne
    · rintro ⟨pre, o, post, he, ha, hp⟩
      rcases List.eq_nil_or_concat post with rfl | ⟨post', o', rfl⟩
      · have := (List.append_inj' he rfl).2
        simp only [List.cons.injEq, and_true] at this
        subst this
        exact .inl ha
      · have h2 : rops.reverse ++ [op] = (pre ++ o :: post') ++ [o'] := by simpa using he
        obtain ⟨e1, e2⟩ := List.append_inj' h2 rfl
        simp only [List.cons.injEq, and_true] at e2
        subst e2
        by_cases hadd : op.Adds x
        · exact .inl hadd
        · right
          refine ⟨⟨pre, o, post', e1, ha, fun a h => hp a (by simp [h])⟩, ?_⟩
          rcases hp op (by simp) with h | h
          · exact absurd h hadd
          · exact h

/-! ### nothing becomes present without being added -/

theorem Spec.literal_phantom (S : Spec F) {op : Op F} (hl : op.Literal) {x : Val F} (h : (S.op op).Present x) :
    op.Adds x ∨ S.Present x := by
  rcases (Spec.op_present S hl x).1 h with h | h
  · exact .inl h
  · exact .inr h.1

theorem Spec.removeBelief_sub (S : Spec F) (src e x : Val F) (h : (S.removeBelief src e).Present x) :
    S.Present x := by
  unfold Spec.removeBelief at h
  simp only at h
  split at h
  · exact ((Spec.remove_present _ _ _).1 h).2
  · exact ((Spec.remove_present _ _ _).1 ((Spec.remove_present _ _ _).1 h).2).2

theorem Spec.prim_phantom (S : Spec F) (p : Prim F) (x : Val F) (h : (S.prim p).Present x) :
    p.Adds x ∨ S.Present x := by
  cases p with
  | removeBelief src e => exact .inr (Spec.removeBelief_sub S src e x h)
  | add e ts => exact Spec.literal_phantom S (op := .prim (.add e ts)) trivial h
  | remove e => exact Spec.literal_phantom S (op := .prim (.remove e)) trivial h
  | removeMany es => exact Spec.literal_phantom S (op := .prim (.removeMany es)) trivial h
  | removeByPattern ps => exact Spec.literal_phantom S (op := .prim (.removeByPattern ps)) trivial h
  | destroy => exact Spec.literal_phantom S (op := .prim .destroy) trivial h
  | query q => exact Spec.literal_phantom S (op := .prim (.query q)) trivial h

theorem Spec.op_phantom (S : Spec F) (op : Op F) (x : Val F) (h : (S.op op).Present x) :
    op.Adds x ∨ S.Present x := by
  cases op with
  | prim p => exact Spec.prim_phantom S p x h
  | batch ps =>
    have h' : (ps.foldl Spec.prim S).Present x := h
    clear h
    induction ps generalizing S with
    | nil => exact .inr h'
    | cons p ps ih =>
      rcases ih _ h' with ⟨q, hq, ha⟩ | h2
      · exact .inl ⟨q, by simp [hq], ha⟩
      · rcases Spec.prim_phantom S p x h2 with h3 | h3
        · exact .inl ⟨p, by simp, h3⟩
        · exact .inr h3
  | addMany es ts => exact Spec.literal_phantom S (op := .addMany es ts) trivial h
  | addBelief src e ts => exact Spec.literal_phantom S (op := .addBelief src e ts) trivial h
  | addBeliefs src es ts => exact Spec.literal_phantom S (op := .addBeliefs src es ts) trivial h
  | degree v => exact Spec.literal_phantom S (op := .degree v) trivial h
  | timestamp v => exact Spec.literal_phantom S (op := .timestamp v) trivial h

theorem Spec.after_phantom (ops : List (Op F)) (x : Val F) (h : (Spec.after ops).Present x) :
    ∃ op ∈ ops, op.Adds x := by
  have key : ∀ (ops : List (Op F)) (S : Spec F), (ops.foldl Spec.op S).Present x →
      (∃ op ∈ ops, op.Adds x) ∨ S.Present x := by
    intro ops
    induction ops with
    | nil => intro S h; exact .inr h
    | cons op ops ih =>
      intro S h
      rcases ih _ h with ⟨o, ho, ha⟩ | h2
      · exact .inl ⟨o, by simp [ho], ha⟩
      · rcases Spec.op_phantom S op x h2 with h3 | h3
        · exact .inl ⟨op, by simp, h3⟩
        · exact .inr h3
  rcases key ops _ h with h | h
  · exact h
  · exact absurd h (Spec.empty_present x)

end GB
