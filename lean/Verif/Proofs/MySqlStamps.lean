import Verif.Proofs.MySqlRun

/-
Histories in which no time stamp is used again after a removal are smooth.
-/

set_option linter.unusedSectionVars false

namespace GB

variable {F : Type} [PyFloat F] [DecidableEq F]

/-- Graph and tally belong together. -/
structure Coupled (S : Spec F) (T : Tally F) : Prop where
  same : ∀ e, e ∈ T.edges ↔ S.Present e
  unknown : ∀ v, T.count v = none ↔ S.known v = none

theorem Coupled.removed {S S' : Spec F} {T : Tally F} (h : Coupled S T) (P : Val F → Prop)
    (hc : ∀ x, ¬ P x → S'.created x = S.created x) (hcn : ∀ x, P x → S'.created x = none)
    (hk : ∀ x, ¬ (P x ∧ S.Present x) → S'.known x = S.known x) (hkn : ∀ x, P x → S.Present x → S'.known x = none) :
    Coupled S' (T.removeWhere P) := by
  classical
  refine ⟨fun e => ?_, fun v => ?_⟩
  · rw [Tally.edges_where, List.mem_filter, h.same e]
    unfold Spec.Present
    by_cases hP : P e
    · simp [hP, hcn e hP]
    · simp [hP, hc e hP]
  · rw [Tally.count_where]
    by_cases hP : P v ∧ S.Present v
    · simp [hkn v hP.1 hP.2, hP.1, (h.same v).2 hP.2]
    · rw [hk v hP, if_neg (fun h' => hP ⟨h'.2, (h.same v).1 h'.1⟩), ← h.unknown v]
      simp

theorem Coupled.remove {S : Spec F} {T : Tally F} (h : Coupled S T) (e : Val F) :
    Coupled (S.remove e) (T.removeWhere (· = e)) := by
  refine h.removed _ (fun x hx => ?_) (fun x hx => ?_) (fun x hx => ?_) (fun x hx hp => ?_)
  · unfold Spec.remove; split <;> simp_all
  · unfold Spec.remove; split <;> simp_all
  · rw [Spec.remove_known]; simp only [Spec.Present] at hx; simp_all
  · rw [Spec.remove_known]; simp only [Spec.Present] at hp; simp_all

theorem Coupled.add {S : Spec F} {T : Tally F} (h : Coupled S T) (e : Val F) (ts : Int) :
    Coupled (S.add e ts) (T.add e) := by
  unfold Spec.add Tally.add
  by_cases hm : e ∈ T.edges
  · rw [if_pos hm, if_pos (show (S.created e).isSome = true from (h.same e).1 hm)]; exact h
  · rw [if_neg hm, if_neg (show ¬ (S.created e).isSome = true from fun h' => hm ((h.same e).2 h'))]
    refine ⟨fun x => ?_, fun v => ?_⟩
    · by_cases hx : x = e
      · simp [hx, Spec.Present]
      · have := h.same x
        simp only [Spec.Present] at this
        simp [hx, Spec.Present, this]
    · by_cases hve : v = e
      · simp [hve]
      · simp only [hve, if_false]
        unfold Tally.more
        by_cases h0 : e.elems.count v = 0
        · have : v ∉ e.elems := List.count_eq_zero.1 h0
          rw [if_pos h0]; simp [this, h.unknown v]
        · have : v ∈ e.elems := by
            rw [List.count_eq_zero] at h0; exact Classical.not_not.1 h0
          rw [if_neg h0]
          by_cases hk : S.known v = none <;> simp [this, hk]

theorem Coupled.prim {S : Spec F} {T : Tally F} (h : Coupled S T) (p : Prim F) : Coupled (S.prim p) (T.prim p) := by
  cases p with
  | add e ts => exact h.add e ts
  | query q => exact h
  | remove e => exact h.remove e
  | removeMany es =>
    refine h.removed _ (fun x hx => ?_) (fun x hx => ?_) (fun x hx => ?_) (fun x hx hp => ?_)
    · show (es.foldl Spec.remove S).created x = _; rw [Spec.foldRemove_created, if_neg hx]
    · show (es.foldl Spec.remove S).created x = _; rw [Spec.foldRemove_created, if_pos hx]
    · show (es.foldl Spec.remove S).known x = _; rw [Spec.foldRemove_known]; exact if_neg hx
    · show (es.foldl Spec.remove S).known x = _; rw [Spec.foldRemove_known]; exact if_pos ⟨hx, hp⟩
  | removeByPattern ps =>
    refine h.removed _ (fun x hx => ?_) (fun x hx => ?_) (fun x hx => ?_) (fun x hx hp => ?_)
    · simp only [Spec.prim, Spec.removeWhere]; exact if_neg hx
    · simp only [Spec.prim, Spec.removeWhere]; exact if_pos hx
    · simp only [Spec.prim, Spec.removeWhere]; exact if_neg hx
    · simp only [Spec.prim, Spec.removeWhere]; exact if_pos ⟨hx, hp⟩
  | removeBelief src e =>
    show Coupled (S.removeBelief src e) (T.removeBelief src e)
    have h1 := h.remove (support e src)
    unfold Spec.removeBelief Tally.removeBelief
    have hiff : (∃ s', (S.remove (support e src)).Present (support e s')) ↔
        ∃ s', support e s' ∈ (T.removeWhere (· = support e src)).edges :=
      exists_congr fun s' => (h1.same _).symm
    by_cases hh : ∃ s', (S.remove (support e src)).Present (support e s')
    · simp only [hh, if_true, hiff.1 hh]; exact h1
    · simp only [hh, if_false, mt hiff.2 hh]; exact h1.remove e
  | destroy =>
    exact ⟨fun e => by simp [Tally.prim, Tally.empty, Spec.prim, Spec.empty, Spec.Present], fun v => by simp [Tally.prim, Tally.empty, Spec.prim, Spec.empty]⟩

theorem Coupled.empty : Coupled (Spec.empty : Spec F) Tally.empty :=
  ⟨fun e => by simp [Tally.empty, Spec.empty, Spec.Present], fun v => by simp [Tally.empty, Spec.empty]⟩

/-- The stamps used before the last removal (`old`) and after it (`cur`). -/
structure Stamped (S : Spec F) (T : Tally F) (old cur : List Int) : Prop where
  coupled : Coupled S T
  used : ∀ v ts, S.known v = some ts → ts ∈ old ∨ ts ∈ cur
  idle : ∀ v ts c, ¬ S.Present v → T.count v = some c → c ≤ 0 → S.known v = some ts → ts ∈ old

theorem Stamped.add {S : Spec F} {T : Tally F} {old cur : List Int} (h : Stamped S T old cur) (e : Val F) (ts : Int) :
    Stamped (S.add e ts) (T.add e) old (ts :: cur) := by
  refine ⟨h.coupled.add e ts, ?_, ?_⟩
  · intro v t hv
    unfold Spec.add at hv
    split at hv
    · rcases h.used v t hv with h | h <;> simp [h]
    · simp only at hv
      split at hv
      · simp_all
      · split at hv
        · simp_all
        · rcases h.used v t hv with h | h <;> simp [h]
  · intro v t c hp hc h0c hk
    unfold Spec.add at hp hk
    unfold Tally.add at hc
    by_cases hm : e ∈ T.edges
    · rw [if_pos hm] at hc
      rw [if_pos (show (S.created e).isSome = true from (h.coupled.same e).1 hm)] at hp hk
      exact h.idle v t c hp hc h0c hk
    · rw [if_neg hm] at hc
      rw [if_neg (show ¬ (S.created e).isSome = true from fun h' => hm ((h.coupled.same e).2 h'))] at hp hk
      by_cases hve : v = e
      · exact absurd (show Spec.Present _ v by simp [Spec.Present, hve]) hp
      · have hp' : ¬ S.Present v := by simpa [Spec.Present, hve] using hp
        simp only [hve, if_false] at hc hk
        unfold Tally.more at hc
        by_cases h0 : e.elems.count v = 0
        · rw [if_pos h0] at hc
          rw [if_neg (fun h' => List.count_eq_zero.1 h0 h'.1)] at hk
          exact h.idle v t c hp' hc h0c hk
        · rw [if_neg h0] at hc
          have hve' : v ∈ e.elems := by
            rw [List.count_eq_zero] at h0; exact Classical.not_not.1 h0
          simp only [Option.some.injEq] at hc
          cases hT : T.count v with
          | none => rw [hT] at hc; simp at hc; omega
          | some d =>
            rw [hT] at hc
            simp only [Option.getD_some] at hc
            have hkn : S.known v ≠ none := fun h' => by rw [(h.coupled.unknown v).2 h'] at hT; cases hT
            rw [if_neg (fun h' => hkn h'.2)] at hk
            exact h.idle v t d hp' hT (by omega) hk

theorem Spec.prim_known {S : Spec F} {p : Prim F} (hp : p.keeps = false) {v : Val F} {ts : Int}
    (h : (S.prim p).known v = some ts) : S.known v = some ts := by
  have hrem : ∀ (S : Spec F) e, (S.remove e).known v = some ts → S.known v = some ts := by
    intro S e h
    rw [Spec.remove_known] at h
    split at h
    · cases h
    · exact h
  cases p with
  | add e ts => cases hp
  | query q => cases hp
  | remove e => exact hrem S e h
  | removeMany es =>
    rw [show S.prim (.removeMany es) = es.foldl Spec.remove S from rfl, Spec.foldRemove_known] at h
    split at h
    · cases h
    · exact h
  | removeByPattern ps =>
    simp only [Spec.prim, Spec.removeWhere] at h
    split at h
    · cases h
    · exact h
  | removeBelief src e =>
    simp only [Spec.prim, Spec.removeBelief] at h
    split at h
    · exact hrem S _ h
    · exact hrem S _ (hrem _ _ h)
  | destroy => simp [Spec.prim, Spec.empty] at h

theorem Stamped.other {S : Spec F} {T : Tally F} {old cur : List Int} (h : Stamped S T old cur) {p : Prim F}
    (hp : p.keeps = false) : Stamped (S.prim p) (T.prim p) (old ++ cur) [] := by
  have hu : ∀ v ts, (S.prim p).known v = some ts → ts ∈ old ++ cur := fun v ts hv =>
    List.mem_append.2 (h.used v ts (Spec.prim_known hp hv))
  exact ⟨h.coupled.prim p, fun v ts hv => .inl (hu v ts hv), fun v ts c _ _ _ hk => hu v ts hk⟩

/-- The stamps with which edges are added. -/
def stampsOf (ps : List (Prim F)) : List Int := ps.filterMap fun p => match p with | .add _ ts => some ts | _ => none

theorem Stamped.smooth {k : Nat} (ps : List (Prim F)) (hf : ∀ e ts, Prim.add e ts ∈ ps → KeyFits k e) :
    ∀ {S : Spec F} {T : Tally F} {old cur : List Int}, Stamped S T old cur →
      (∀ ts ∈ stampsOf ps, ts ∉ old) →
      (∀ pre q post, ps = pre ++ q :: post → q.keeps = false → ∀ ts ∈ stampsOf post, ts ∉ cur) →
      (∀ pre e ts mid q post, ps = pre ++ .add e ts :: mid ++ q :: post → q.keeps = false → ts ∉ stampsOf post) →
      Smooth k S T ps := by
  induction ps with
  | nil => intros; trivial
  | cons p ps ih =>
    intro S T old cur h hold hcur hps
    have hf' : ∀ e ts, Prim.add e ts ∈ ps → KeyFits k e := fun e ts he => hf e ts (by simp [he])
    have hps' : ∀ pre e ts mid q post, ps = pre ++ .add e ts :: mid ++ q :: post → q.keeps = false →
        ts ∉ stampsOf post := fun pre e ts mid q post he hq => hps (p :: pre) e ts mid q post (by simp [he]) hq
    by_cases hkp : p.keeps = true
    · cases p with
      | add e ts =>
        refine ⟨?_, ih hf' (h.add e ts) (fun t ht => hold t (by simp [stampsOf] at ht ⊢; exact .inr ht)) ?_ hps'⟩
        · rintro e' ts' ⟨rfl, rfl⟩
          refine ⟨hf e ts (by simp), fun hc => ?_⟩
          exact hold ts (by simp [stampsOf]) (h.idle e ts 0 hc.1 hc.2.1 (by omega) hc.2.2)
        · intro pre q post he hq t ht
          rw [List.mem_cons, not_or]
          refine ⟨?_, hcur (.add e ts :: pre) q post (by simp [he]) hq t ht⟩
          rintro rfl
          exact hps [] e t pre q post (by simp [he]) hq ht
      | query q =>
        exact ⟨fun _ _ h' => (nomatch h'), ih hf' h (fun t ht => hold t (by simpa [stampsOf] using ht))
          (fun pre q' post he => hcur (.query q :: pre) q' post (by simp [he])) hps'⟩
      | remove e => cases hkp
      | removeMany es => cases hkp
      | removeByPattern ps => cases hkp
      | removeBelief src e => cases hkp
      | destroy => cases hkp
    · have hkp : p.keeps = false := by simpa using hkp
      have hst : stampsOf (p :: ps) = stampsOf ps := by cases p <;> first | rfl | cases hkp
      rw [hst] at hold
      refine ⟨fun e ts h' => ?_, ih hf' (h.other hkp) (fun t ht => ?_) (fun _ _ _ _ _ _ _ => List.not_mem_nil) hps'⟩
      · subst h'; cases hkp
      · rw [List.mem_append, not_or]
        exact ⟨hold t ht, hcur [] p ps rfl hkp t ht⟩

end GB
