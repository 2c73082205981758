import Verif.Proofs.View

/-! Timestamps of symbols across operations. -/

set_option linter.unusedSectionVars false

namespace GB

variable {F : Type} [PyFloat F] [DecidableEq F] {V : Val F → Prop}

/-- Only edges are present. -/
def EdgesOnly (S : Spec F) : Prop := ∀ x, S.Present x → x.isAtom = false

theorem edge_not_atom {e : Val F} (he : EdgeOver V e) : e.isAtom = false := by
  obtain ⟨h, t, rfl, _⟩ := he; rfl

theorem Shows.edgesOnly {s : St} {S : Spec F} (h : Shows V s S) : EdgesOnly S := by
  obtain ⟨A, hA, hR, hw⟩ := h.ex
  intro x hx
  exact edge_not_atom (hA.over x ((hR.present x).1 hx))

theorem support_not_atom (e src : Val F) : (support e src).isAtom = false := rfl

theorem Spec.add_known_kept {S : Spec F} {e v : Val F} {ts t : Int} (he : e.isAtom = false)
    (hv : v.isAtom = true) (hk : S.known v = some t) : (S.add e ts).known v = some t := by
  have hne : v ≠ e := by rintro rfl; rw [hv] at he; simp at he
  unfold Spec.add
  split
  · exact hk
  · show (if v = e then some ts else if v ∈ e.elems ∧ S.known v = none then some ts else S.known v) = some t
    rw [if_neg hne, if_neg (by rw [hk]; simp), hk]

theorem EdgesOnly.add {S : Spec F} (h : EdgesOnly S) {e : Val F} (he : e.isAtom = false) (ts : Int) :
    EdgesOnly (S.add e ts) := by
  intro x hx
  rcases (Spec.add_present S e x ts).1 hx with rfl | hx
  · exact he
  · exact h x hx

theorem EdgesOnly.sub {S S' : Spec F} (h : EdgesOnly S) (hs : ∀ x, S'.Present x → S.Present x) : EdgesOnly S' :=
  fun x hx => h x (hs x hx)

theorem Spec.remove_known_kept {S : Spec F} (h : EdgesOnly S) {e v : Val F} {t : Int}
    (hv : v.isAtom = true) (hk : S.known v = some t) : (S.remove e).known v = some t := by
  rw [Spec.remove_known]
  rw [if_neg ?_, hk]
  rintro ⟨rfl, hc⟩
  have := h v hc
  rw [hv] at this; simp at this

theorem Spec.prim_kept {S : Spec F} (h : EdgesOnly S) {p : Prim F} (hp : p.Over V) {v : Val F} {t : Int}
    (hv : v.isAtom = true) (hk : S.known v = some t) :
    EdgesOnly (S.prim p) ∧ (p.Keeps → (S.prim p).known v = some t) := by
  cases p with
  | add e ts =>
    have he := edge_not_atom (V := V) hp
    exact ⟨h.add he ts, fun _ => Spec.add_known_kept he hv hk⟩
  | remove e =>
    exact ⟨h.sub fun x hx => ((Spec.remove_present S e x).1 hx).2, fun _ => Spec.remove_known_kept h hv hk⟩
  | removeMany es =>
    refine ⟨h.sub fun x hx => ((Spec.foldRemove_present es S x).1 hx).2, fun _ => ?_⟩
    show (es.foldl Spec.remove S).known v = some t
    rw [Spec.foldRemove_known, if_neg ?_, hk]
    rintro ⟨_, hc⟩
    have := h v hc
    rw [hv] at this; simp at this
  | removeByPattern ps =>
    refine ⟨h.sub fun x hx => ((Spec.removeWhere_present S _ x).1 hx).2, fun _ => ?_⟩
    show (S.removeWhere fun x => Matches ps x.elems).known v = some t
    unfold Spec.removeWhere
    simp only
    rw [if_neg ?_, hk]
    rintro ⟨_, hc⟩
    have := h v hc
    rw [hv] at this; simp at this
  | removeBelief src e =>
    refine ⟨h.sub fun x hx => Spec.removeBelief_sub S src e x hx, fun _ => ?_⟩
    show (S.removeBelief src e).known v = some t
    have h1 : EdgesOnly (S.remove (support e src)) := h.sub fun x hx => ((Spec.remove_present S _ x).1 hx).2
    have k1 := Spec.remove_known_kept h (e := support e src) hv hk
    unfold Spec.removeBelief
    simp only
    split
    · exact k1
    · exact Spec.remove_known_kept h1 hv k1
  | destroy =>
    exact ⟨fun x hx => absurd hx (Spec.empty_present x), fun hk => absurd hk id⟩
  | query q => exact ⟨h, fun _ => hk⟩

theorem foldl_inv {α β : Type} (P : β → Prop) (f : β → α → β) (l : List α) (b : β) (hb : P b)
    (h : ∀ b, P b → ∀ a ∈ l, P (f b a)) : P (l.foldl f b) := by
  induction l generalizing b with
  | nil => exact hb
  | cons a l ih => exact ih (f b a) (h b hb a (by simp)) (fun b hb a ha => h b hb a (by simp [ha]))

theorem Spec.op_kept {S : Spec F} (h : EdgesOnly S) {op : Op F} (ho : op.Over V) (hkeep : op.Keeps) {v : Val F} {t : Int}
    (hv : v.isAtom = true) (hk : S.known v = some t) : (S.op op).known v = some t := by
  cases op with
  | prim p => exact (Spec.prim_kept h ho hv hk).2 hkeep
  | addMany es ts =>
    exact foldl_inv (fun S => S.known v = some t) (fun S e => S.add e ts) es S hk
      (fun S hS e he => Spec.add_known_kept (edge_not_atom (V := V) (ho.2 e he)) hv hS)
  | addBelief src e ts =>
    have hb : BeliefOver V src e := ho
    exact Spec.add_known_kept (support_not_atom e src) hv (Spec.add_known_kept (edge_not_atom hb.edge) hv hk)
  | addBeliefs src es ts =>
    exact foldl_inv (fun S => S.known v = some t) (fun S e => S.addBelief src e ts) es S hk
      (fun S hS e he => Spec.add_known_kept (support_not_atom e src) hv
        (Spec.add_known_kept (edge_not_atom (ho.2 e he).edge) hv hS))
  | batch ps =>
    exact (foldl_inv (fun S => EdgesOnly S ∧ S.known v = some t) Spec.prim ps S ⟨h, hk⟩
      (fun S hS p hp => by
        obtain ⟨a, b⟩ := Spec.prim_kept hS.1 (ho p hp) hv hS.2
        exact ⟨a, b (hkeep p hp)⟩)).2
  | degree _ => exact hk
  | timestamp _ => exact hk

theorem le_sum_of_mem' {l : List Nat} {n : Nat} (h : n ∈ l) : n ≤ l.sum := by
  induction l with
  | nil => simp at h
  | cons m l ih =>
    rw [List.sum_cons]
    rcases List.mem_cons.1 h with rfl | h
    · omega
    · have := ih h; omega

/-- Elements of present edges that are atoms are known. -/
def AtomsKnown (S : Spec F) : Prop := ∀ e v, S.Present e → v ∈ e.elems → v.isAtom = true → (S.known v).isSome = true

theorem Rel.atomsKnown {A : Abs F} {S : Spec F} (h : Rel A S) : AtomsKnown S := by
  intro e v he hv ha
  have hm := (h.present e).1 he
  have hd := h.deg v ha
  have hpos : 0 < occurrences v A.edges := by
    unfold occurrences
    have h1 : e.elems.count v ∈ A.edges.map fun e => e.elems.count v := List.mem_map.2 ⟨e, hm, rfl⟩
    have h2 := List.count_pos_iff.2 hv
    have : e.elems.count v ≤ (A.edges.map fun e => e.elems.count v).sum := by
      exact le_sum_of_mem' h1
    omega
  rw [h.known]
  unfold tsOf
  unfold degOf at hd
  cases hl : lookV v A.verts with
  | none => rw [hl] at hd; simp at hd; omega
  | some r => rfl

end GB
