import Verif.Proofs.Ops
import Verif.Spec.History

/-! Relation between the abstract store and the specification of histories. -/

set_option linter.unusedSectionVars false

namespace GB

variable {F : Type} [PyFloat F] [DecidableEq F] {V : Val F → Prop}

/-! ### looking up vertices after updates -/

theorem lookV_none {v : Val F} {vs : List (VEnt F)} : lookV v vs = none ↔ hasV v vs = false := by
  simp [lookV, hasV, List.find?_eq_none]

theorem lookV_v {v : Val F} {vs : List (VEnt F)} {r : VEnt F} (h : lookV v vs = some r) : r.v = v := by
  have := List.find?_some h
  simpa using this

theorem lookV_map {v : Val F} {vs : List (VEnt F)} (f : VEnt F → VEnt F) (hf : ∀ r, (f r).v = r.v) :
    lookV v (vs.map f) = (lookV v vs).map f := by
  unfold lookV
  rw [List.find?_map]
  congr 1
  congr 1
  funext r
  simp [hf]

theorem lookV_bump (d : Int) (v w : Val F) (vs : List (VEnt F)) :
    lookV v (bumpV d w vs) =
      (lookV v vs).map fun r => if v = w then { r with deg := r.deg + d } else r := by
  unfold bumpV
  rw [lookV_map _ (by intro r; split <;> rfl)]
  cases h : lookV v vs with
  | none => rfl
  | some r =>
    have := lookV_v h
    simp [this]

theorem lookV_append (v : Val F) (vs ws : List (VEnt F)) :
    lookV v (vs ++ ws) = (lookV v vs).or (lookV v ws) := by
  simp [lookV, List.find?_append]

theorem lookV_touch (ts : Int) (v w : Val F) (vs : List (VEnt F)) :
    lookV v (touchV ts vs w) =
      if v = w then some (match lookV v vs with
        | some r => { r with deg := r.deg + 1 }
        | none => ⟨v, 1, ts⟩)
      else lookV v vs := by
  unfold touchV
  by_cases h : hasV w vs = true
  · rw [if_pos h, lookV_bump]
    by_cases hvw : v = w
    · subst hvw
      cases hl : lookV v vs with
      | none => rw [lookV_none] at hl; rw [hl] at h; simp at h
      | some r => simp
    · simp [hvw]
  · rw [if_neg h, lookV_append]
    have hn : lookV w vs = none := lookV_none.2 (by simpa using h)
    by_cases hvw : v = w
    · subst hvw
      rw [hn]
      simp [lookV]
    · have : lookV v [(⟨w, 1, ts⟩ : VEnt F)] = none := by
        simp [lookV, Ne.symm hvw]
      rw [this]
      simp [hvw]

theorem lookV_set (d ts : Int) (v w : Val F) (vs : List (VEnt F)) :
    lookV v (setV w d ts vs) = if v = w then some ⟨w, d, ts⟩ else lookV v vs := by
  unfold setV
  by_cases h : hasV w vs = true
  · rw [if_pos h]
    have hm : vs.map (fun r => if r.v = w then (⟨w, d, ts⟩ : VEnt F) else r) =
        vs.map (fun r => if r.v = w then (⟨r.v, d, ts⟩ : VEnt F) else r) := by
      apply List.map_congr_left
      intro r _
      by_cases hr : r.v = w <;> simp [hr]
    rw [hm, lookV_map _ (by intro r; split <;> rfl)]
    by_cases hvw : v = w
    · subst hvw
      cases hl : lookV v vs with
      | none => rw [lookV_none] at hl; rw [hl] at h; simp at h
      | some r =>
        have := lookV_v hl
        simp [this]
    · cases hl : lookV v vs with
      | none => simp [hvw]
      | some r =>
        have := lookV_v hl
        simp [this, hvw]
  · rw [if_neg h, lookV_append]
    have hn : lookV w vs = none := lookV_none.2 (by simpa using h)
    by_cases hvw : v = w
    · subst hvw
      rw [hn]
      simp [lookV]
    · have : lookV v [(⟨w, d, ts⟩ : VEnt F)] = none := by
        simp [lookV, Ne.symm hvw]
      rw [this]
      simp [hvw]

theorem lookV_del (v w : Val F) (vs : List (VEnt F)) :
    lookV v (delV w vs) = if v = w then none else lookV v vs := by
  unfold delV lookV
  rw [List.find?_filter]
  by_cases h : v = w
  · subst h
    simp
  · rw [if_neg h]
    congr 1
    funext r
    by_cases hr : r.v = v
    · subst hr; simp [h]
    · simp [hr]

/-- Degree of a vertex (0 if unknown). -/
def degOf (v : Val F) (vs : List (VEnt F)) : Int := ((lookV v vs).map VEnt.deg).getD 0

/-- Timestamp of a vertex, if known. -/
def tsOf (v : Val F) (vs : List (VEnt F)) : Option Int := (lookV v vs).map VEnt.ts

theorem degOf_foldTouch (ts : Int) (v : Val F) (xs : List (Val F)) (vs : List (VEnt F)) :
    degOf v (xs.foldl (touchV ts) vs) = degOf v vs + xs.count v := by
  induction xs generalizing vs with
  | nil => simp
  | cons x xs ih =>
    rw [List.foldl_cons, ih, List.count_cons]
    unfold degOf
    rw [lookV_touch]
    by_cases h : v = x
    · subst h
      cases lookV v vs <;> simp <;> omega
    · have : ¬ x = v := fun h' => h h'.symm
      simp [h, this]

theorem tsOf_foldTouch (ts : Int) (v : Val F) (xs : List (Val F)) (vs : List (VEnt F)) :
    tsOf v (xs.foldl (touchV ts) vs) = if v ∈ xs ∧ tsOf v vs = none then some ts else tsOf v vs := by
  induction xs generalizing vs with
  | nil => simp
  | cons x xs ih =>
    rw [List.foldl_cons, ih]
    unfold tsOf
    rw [lookV_touch]
    by_cases h : v = x
    · subst h
      cases lookV v vs <;> simp
    · simp [h]

theorem lookV_foldBump (d : Int) (v : Val F) (xs : List (Val F)) (vs : List (VEnt F)) :
    lookV v (xs.foldl (fun vs v => bumpV d v vs) vs) =
      (lookV v vs).map fun r => { r with deg := r.deg + d * xs.count v } := by
  induction xs generalizing vs with
  | nil => simp
  | cons x xs ih =>
    rw [List.foldl_cons, ih, lookV_bump, List.count_cons]
    cases lookV v vs with
    | none => rfl
    | some r =>
      by_cases h : v = x
      · subst h
        simp only [Option.map_some, if_true, beq_self_eq_true]
        congr 2
        push_cast
        rw [Int.mul_add]; omega
      · have : ¬ x = v := fun h' => h h'.symm
        simp [h, this]

/-! ### occurrences -/

theorem occurrences_append (v : Val F) (l m : List (Val F)) :
    occurrences v (l ++ m) = occurrences v l + occurrences v m := by
  simp [occurrences]

theorem occurrences_filter {v e : Val F} {l : List (Val F)} (hn : l.Nodup) (he : e ∈ l) :
    occurrences v (l.filter fun x => x ≠ e) + e.elems.count v = occurrences v l := by
  induction l with
  | nil => simp at he
  | cons x l ih =>
    rw [List.nodup_cons] at hn
    by_cases h : x = e
    · subst h
      rw [List.filter_cons_of_neg (by simp)]
      have : l.filter (fun y => y ≠ x) = l := by
        rw [List.filter_eq_self]
        intro y hy
        simp only [decide_eq_true_eq]
        rintro rfl
        exact hn.1 hy
      rw [this]
      simp [occurrences]; omega
    · have he' : e ∈ l := by
        rcases List.mem_cons.1 he with h' | h'
        · exact absurd h'.symm h
        · exact h'
      rw [List.filter_cons_of_pos (by simpa using h)]
      have := ih hn.2 he'
      simp only [occurrences, List.map_cons, List.sum_cons] at this ⊢
      omega

/-! ### the relation -/

/-- The store agrees with what the specification says. -/
structure Rel (A : Abs F) (S : Spec F) : Prop where
  present : ∀ e, (S.created e).isSome = true ↔ e ∈ A.edges
  created : ∀ e, e ∈ A.edges → S.known e = S.created e
  known : ∀ v, S.known v = tsOf v A.verts
  deg : ∀ v : Val F, v.isAtom = true → degOf v A.verts = occurrences v A.edges

theorem Rel.empty : Rel (Abs.empty : Abs F) Spec.empty :=
  ⟨by simp [Spec.empty, Abs.empty], by simp [Abs.empty], by simp [Spec.empty, Abs.empty, tsOf, lookV],
    by simp [Abs.empty, degOf, lookV, occurrences]⟩

theorem atom_ne_edge {v e : Val F} (hv : v.isAtom = true) (he : EdgeOver V e) : v ≠ e := by
  rintro rfl
  obtain ⟨h, t, rfl, _⟩ := he
  simp [Val.isAtom] at hv

theorem sizeOf_elem_lt {e x : Val F} (h : x ∈ e.elems) : sizeOf x < sizeOf e := by
  cases e with
  | seq b xs =>
    have : sizeOf x < sizeOf xs := List.sizeOf_lt_of_mem h
    simp; omega
  | _ => simp [Val.elems] at h

theorem not_mem_self (e : Val F) : e ∉ e.elems := fun h => Nat.lt_irrefl _ (sizeOf_elem_lt h)

theorem Rel.add {A : Abs F} {S : Spec F} (h : Rel A S) {e : Val F} (he : EdgeOver V e) (ts : Int) :
    Rel (A.add e ts) (S.add e ts) := by
  unfold Abs.add Spec.add
  by_cases hm : e ∈ A.edges
  · rw [if_pos hm, if_pos ((h.present e).2 hm)]; exact h
  · have hns : ¬ (S.created e).isSome = true := fun h' => hm ((h.present e).1 h')
    rw [if_neg hm, if_neg hns]
    have hkn : ∀ v, (if v = e then some ts else if v ∈ e.elems ∧ S.known v = none then some ts else S.known v)
        = tsOf v (setV e 0 ts (e.elems.foldl (touchV ts) A.verts)) := by
      intro v
      have h1 : tsOf v (setV e 0 ts (e.elems.foldl (touchV ts) A.verts)) =
          if v = e then some ts else tsOf v (e.elems.foldl (touchV ts) A.verts) := by
        unfold tsOf; rw [lookV_set]; split <;> rfl
      rw [h1, tsOf_foldTouch, ← h.known v]
    refine ⟨?_, ?_, hkn, ?_⟩
    · intro x
      simp only [List.mem_append, List.mem_singleton]
      by_cases hx : x = e
      · simp [hx]
      · simp [hx, h.present x]
    · intro x hx
      simp only [List.mem_append, List.mem_singleton] at hx
      by_cases hxe : x = e
      · simp [hxe]
      · have hx' : x ∈ A.edges := by rcases hx with h | h; exact h; exact absurd h hxe
        have hk := h.created x hx'
        have hp := (h.present x).2 hx'
        have hkn : S.known x ≠ none := by
          rw [hk]; intro h'; rw [h'] at hp; simp at hp
        show (if x = e then some ts else if x ∈ e.elems ∧ S.known x = none then some ts else S.known x)
          = if x = e then some ts else S.created x
        rw [if_neg hxe, if_neg hxe, if_neg (fun h' => hkn h'.2)]
        exact hk
    · intro v hv
      have hve := atom_ne_edge hv he
      have h1 : degOf v (setV e 0 ts (e.elems.foldl (touchV ts) A.verts)) =
          degOf v (e.elems.foldl (touchV ts) A.verts) := by
        unfold degOf; rw [lookV_set, if_neg hve]
      show degOf v (setV e 0 ts (e.elems.foldl (touchV ts) A.verts)) = (occurrences v (A.edges ++ [e]) : Nat)
      rw [h1, degOf_foldTouch, h.deg v hv, occurrences_append]
      simp [occurrences]

theorem Rel.remove {A : Abs F} {S : Spec F} (h : Rel A S) (hA : AbsOk V A) (e : Val F) :
    Rel (A.remove e) (S.remove e) := by
  unfold Abs.remove Spec.remove
  by_cases hm : e ∈ A.edges
  · have he := hA.over e hm
    rw [if_pos hm, if_pos ((h.present e).2 hm)]
    refine ⟨?_, ?_, ?_, ?_⟩
    · intro x
      by_cases hx : x = e
      · simp [hx]
      · simp [hx, h.present x]
    · intro x hx
      have hx' : x ∈ A.edges ∧ x ≠ e := by simpa using hx
      simp [hx'.2, h.created x hx'.1]
    · intro v
      show _ = tsOf v (delV e (e.elems.foldl (fun vs v => bumpV (-1) v vs) A.verts))
      unfold tsOf
      rw [lookV_del, lookV_foldBump]
      by_cases hv : v = e
      · simp [hv]
      · simp only [hv, if_false, h.known v]
        unfold tsOf
        cases lookV v A.verts <;> rfl
    · intro v hv
      have hve := atom_ne_edge hv he
      show degOf v (delV e (e.elems.foldl (fun vs v => bumpV (-1) v vs) A.verts)) =
        ((occurrences v (A.edges.filter fun x => x ≠ e) : Nat) : Int)
      have hocc := occurrences_filter (v := v) hA.nodup hm
      have hd := h.deg v hv
      unfold degOf at hd ⊢
      rw [lookV_del, if_neg hve, lookV_foldBump]
      cases hl : lookV v A.verts with
      | none =>
        rw [hl] at hd
        simp only [Option.map_none, Option.getD_none, Option.map_some, Option.getD_some] at hd ⊢
        omega
      | some r =>
        rw [hl] at hd
        simp only [Option.map_none, Option.getD_none, Option.map_some, Option.getD_some] at hd ⊢
        omega
  · have hns : ¬ (S.created e).isSome = true := fun h' => hm ((h.present e).1 h')
    rw [if_neg hm, if_neg hns]; exact h

theorem Rel.removeAll {A : Abs F} {S : Spec F} (h : Rel A S) (hA : AbsOk V A) (es : List (Val F)) :
    Rel (es.foldl Abs.remove A) (es.foldl Spec.remove S) ∧ AbsOk V (es.foldl Abs.remove A) := by
  induction es generalizing A S with
  | nil => exact ⟨h, hA⟩
  | cons e es ih => exact ih (h.remove hA e) (hA.remove e)

theorem Rel.addAll (hV : Vocab V) {A : Abs F} {S : Spec F} (h : Rel A S) (hA : AbsOk V A) (ts : Int)
    (es : List (Val F)) (hes : ∀ e ∈ es, EdgeOver V e) :
    Rel (es.foldl (fun A e => A.add e ts) A) (es.foldl (fun S e => S.add e ts) S) ∧
      AbsOk V (es.foldl (fun A e => A.add e ts) A) := by
  induction es generalizing A S with
  | nil => exact ⟨h, hA⟩
  | cons e es ih =>
    exact ih (h.add (hes e (by simp)) ts) (hA.add hV (hes e (by simp)) ts) (fun x hx => hes x (by simp [hx]))

end GB
