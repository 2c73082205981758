import Verif.Props.Queries
import Verif.Props.Tally
import Verif.Props.Concurrent

/-
Property C70: the filters of queries.py.
-/

set_option linter.unusedSectionVars false

namespace GB

variable {F : Type} [PyFloat F] [DecidableEq F] {V : Val F → Prop}

theorem excludeLoop_run {s : St} (d : Val F → Int) (vs : List (Val F)) (h : ∀ v ∈ vs, hgDegree v s = (.ok (d v), s)) :
    excludeLoop vs s = (.ok (vs.any fun v => decide (d v > 250)), s) := by
  induction vs with
  | nil => rfl
  | cons v vs ih =>
    unfold excludeLoop
    rw [bind_run _ _ _ (h v (by simp))]
    by_cases hd : d v > 250
    · rw [if_pos hd]
      rw [show (v :: vs).any (fun v => decide (d v > 250)) = true by simp [hd]]
      rfl
    · rw [if_neg hd, ih fun w hw => h w (by simp [hw])]
      simp [hd]

/-- C70: after any history `include_edge` accepts an edge exactly when no element after the first has a degree above
250 (the degrees are the counters of C67), and changes nothing. -/
theorem C70_include (hV : Vocab V) (ops : List (Op F)) (hops : ∀ op ∈ ops, op.Over V) (auto : Bool) (s : St)
    (hs : runOps ops (St.new auto) = (.ok (), s)) (l : Bool) (r : Val F) (vs : List (Val F)) (hv : ∀ v ∈ vs, WfVal v) :
    ∃ b, includeEdge (.seq l (r :: vs)) s = (.ok b, s) ∧
      (b = true ↔ ∀ v ∈ vs, ((Tally.after ops).count v).getD 0 ≤ 250) := by
  have h1 := excludeLoop_run (s := s) (fun v => ((Tally.after ops).count v).getD 0) vs
    fun v hvm => C67_degree hV ops hops auto s hs v (hv v hvm)
  have h2 : excludeEdge (.seq l (r :: vs)) s =
      (.ok (vs.any fun v => decide (((Tally.after ops).count v).getD 0 > 250)), s) := by
    unfold excludeEdge
    rw [bind_run (liftE (Val.seq l (r :: vs)).iter) _ _ (a := r :: vs) (s' := s) rfl]
    exact h1
  refine ⟨_, by unfold includeEdge; rw [bind_run _ _ _ h2]; rfl, ?_⟩
  rw [Bool.not_eq_true', List.any_eq_false]
  refine forall_congr' fun v => imp_congr_right fun _ => ?_
  simp

/-- C70: `interedge` accepts an edge exactly when all its elements after the first are among the given ones. -/
theorem C70_interedge {α : Type} [DecidableEq α] (r : α) (vs interverts : List α) :
    interedge (r :: vs) interverts = true ↔ ∀ v ∈ vs, v ∈ interverts := by
  simp [interedge, List.all_eq_true]

theorem nodup_dedup {α : Type} [DecidableEq α] (n : Nat) (l : List α) (h : l.length ≤ n) : l.eraseDups.Nodup := by
  induction n generalizing l with
  | zero => rw [List.eq_nil_of_length_eq_zero (Nat.le_zero.1 h)]; simp
  | succ n ih =>
    cases l with
    | nil => simp
    | cons a l =>
      rw [List.eraseDups_cons, List.nodup_cons]
      refine ⟨by simp [List.mem_eraseDups], ih _ ?_⟩
      have := List.length_filter_le (fun b => !(b == a)) l
      simp only [List.length_cons] at h
      omega

/-- C70: `add_neighbours` gives the set of the given neighbours and the elements after the first. -/
theorem C70_add_neighbours {α : Type} [DecidableEq α] (neighbours : List α) (r : α) (vs : List α) :
    (addNeighbours neighbours (r :: vs)).Nodup ∧
      ∀ x, x ∈ addNeighbours neighbours (r :: vs) ↔ x ∈ neighbours ∨ x ∈ vs := by
  refine ⟨?_, fun x => ?_⟩
  · exact nodup_dedup _ _ (Nat.le_refl _)
  · simp [addNeighbours, List.mem_eraseDups]

/-- The hypotheses are met after the histories of the examples; a symbol that occurs rarely passes. -/
example : ∃ s, runOps exShareOps (St.new false) = (.ok (), s) ∧
    includeEdge (F := Half) (.tup [sy "is", sy "a", sy "b"]) s = (.ok true, s) := by
  obtain ⟨s, A, hA⟩ := after_exists plainVocab exShareOps exShareOps_over false
  have hw : ∀ v ∈ [sy "a", sy "b"], WfVal v := by
    intro v hv
    simp only [List.mem_cons, List.not_mem_nil, or_false] at hv
    rcases hv with rfl | rfl <;> exact (plain_of (by decide +kernel)).1
  obtain ⟨b, h1, h2⟩ := C70_include plainVocab exShareOps exShareOps_over false s hA.run false (sy "is") [sy "a", sy "b"] hw
  refine ⟨s, hA.run, ?_⟩
  rw [show b = true from h2.2 (by
    intro v hv
    simp only [List.mem_cons, List.not_mem_nil, or_false] at hv
    rcases hv with rfl | rfl <;> decide +kernel)] at h1
  exact h1

example : interedge [1, 2, 3] [2, 3, 4] = true ∧ interedge [1, 2, 5] [2, 3, 4] = false ∧
    addNeighbours [7, 2] [1, 2, 3] = [7, 2, 3] := by decide

end GB
