import Verif.Proofs.Tally
import Verif.Spec.WitnessHist

/-
Property C67: what `degree` and `f_all` report for every vertex (symbol, number or edge) after every history.  The
specification is `Spec/Tally.lean`: a counter per vertex, raised when an edge with that element is created, lowered
when one is removed, set to 0 when the vertex itself is created as an edge, dropped when it is removed.
-/

set_option linter.unusedSectionVars false

namespace GB

variable {F : Type} [PyFloat F] [DecidableEq F] {V : Val F → Prop}

/-- C67: after any history the degree of any vertex is its counter in the tally, 0 if it has none. -/
theorem C67_degree (hV : Vocab V) (ops : List (Op F)) (hops : ∀ op ∈ ops, op.Over V) (auto : Bool) (s : St)
    (hs : runOps ops (St.new auto) = (.ok (), s)) (v : Val F) (hv : WfVal v) :
    hgDegree v s = (.ok (((Tally.after ops).count v).getD 0), s) := by
  obtain ⟨A, hA, hT, hc, hw⟩ := tallied_of hV hops hs
  unfold hgDegree
  rw [degree_run hA.wf hv hc hw, hT.count]

theorem lookV_deg_iff {vs : List (VEnt F)} (h : (vs.map VEnt.v).Nodup) (v : Val F) (d : Int) :
    (lookV v vs).map VEnt.deg = some d ↔ (v, d) ∈ vs.map fun r => (r.v, r.deg) := by
  induction vs with
  | nil => simp [lookV]
  | cons r vs ih =>
    rw [List.map_cons, List.nodup_cons] at h
    by_cases hr : r.v = v
    · have h1 : lookV v (r :: vs) = some r := by simp [lookV, hr]
      rw [h1]
      simp only [Option.map_some, Option.some.injEq, List.map_cons, List.mem_cons, Prod.mk.injEq, List.mem_map]
      constructor
      · intro hd; exact .inl ⟨hr.symm, hd.symm⟩
      · rintro (⟨_, hd⟩ | ⟨q, hq, hq1, _⟩)
        · exact hd.symm
        · exact absurd (List.mem_map.2 ⟨q, hq, hq1.trans hr.symm⟩) h.1
    · have h1 : lookV v (r :: vs) = lookV v vs := by simp [lookV, hr]
      rw [h1, ih h.2]
      simp only [List.map_cons, List.mem_cons, Prod.mk.injEq]
      constructor
      · intro hh; exact .inr hh
      · rintro (⟨hh, _⟩ | hh)
        · exact absurd hh.symm hr
        · exact hh

/-- C67: `f_all` applies the function to exactly the vertices that have a counter, once each, with that counter. -/
theorem C67_f_all (hV : Vocab V) (ops : List (Op F)) (hops : ∀ op ∈ ops, op.Over V) (auto : Bool) (s : St)
    (hs : runOps ops (St.new auto) = (.ok (), s)) {β : Type} (f : Val F → Int → β) :
    ∃ L : List (Val F × Int), hgFAll f s = (.ok (L.map fun p => f p.1 p.2), s) ∧ (L.map Prod.fst).Nodup ∧
      ∀ v d, (v, d) ∈ L ↔ (Tally.after ops).count v = some d := by
  obtain ⟨A, hA, hT, hc, hw⟩ := tallied_of hV hops hs
  refine ⟨A.verts.map fun r => (r.v, r.deg), ?_, ?_, ?_⟩
  · unfold hgFAll
    rw [fAll_run hA.wf f (St.usable_of_none hc) hw, List.map_map]
    rfl
  · rw [List.map_map]
    exact hA.keys
  · intro v d
    rw [← hT.count, lookV_deg_iff hA.keys]

/-- C67: the edges of the tally are the present ones, without repetition. -/
theorem C67_edges (hV : Vocab V) (ops : List (Op F)) (hops : ∀ op ∈ ops, op.Over V) :
    Lists (Spec.after ops) (Tally.after ops).edges := by
  obtain ⟨s, A, h⟩ := after_exists hV ops hops false
  obtain ⟨B, hB, hT, _, hw⟩ := tallied_of hV hops h.run
  have hAB : ∀ e, e ∈ A.edges ↔ e ∈ B.edges := by
    intro e
    have hconc : A.conc = B.conc := h.work.symm.trans hw
    have side : ∀ {A B : Abs F}, AbsOk V A → AbsOk V B → A.conc = B.conc → ∀ e ∈ A.edges, e ∈ B.edges := by
      intro A B hA hB hc e he
      have hs : (⟨A.conc, A.conc, [], none, false⟩ : St).usable := St.usable_of_none rfl
      have h1 := existsM_run hV hA (hA.over e he) (s := ⟨A.conc, A.conc, [], none, false⟩) hs rfl
      have h2 := existsM_run hV hB (hA.over e he) (s := ⟨A.conc, A.conc, [], none, false⟩) hs hc
      have h3 := h1.symm.trans h2
      have h4 : decide (e ∈ A.edges) = decide (e ∈ B.edges) := by simpa using h3
      simpa [he] using h4
    exact ⟨side h.ok hB hconc e, side hB h.ok hconc.symm e⟩
  refine ⟨hT.edges ▸ hB.nodup, fun e => ?_⟩
  rw [← hT.edges, ← hAB]
  exact (h.rel.present e).symm

/-! ### the degree never overcounts -/

/-- The counter is at most the number of occurrences. -/
def Tally.Under (T : Tally F) (v : Val F) : Prop := (T.count v).getD 0 ≤ (occurrences v T.edges : Nat)

theorem Tally.Under.add {T : Tally F} {v : Val F} (h : T.Under v) (e : Val F) : (T.add e).Under v := by
  unfold Tally.Under Tally.add at *
  by_cases hm : e ∈ T.edges
  · rw [if_pos hm]; exact h
  · rw [if_neg hm]
    show (if v = e then some 0 else Tally.more (T.count v) (e.elems.count v)).getD 0 ≤
      ((occurrences v (T.edges ++ [e]) : Nat) : Int)
    rw [occurrences_append]
    have h1 : occurrences v [e] = e.elems.count v := by simp [occurrences]
    rw [h1]
    by_cases hv : v = e
    · rw [if_pos hv]
      simp only [Option.getD_some]
      omega
    · rw [if_neg hv]
      unfold Tally.more
      by_cases h0 : e.elems.count v = 0
      · rw [if_pos h0]; omega
      · rw [if_neg h0]
        simp only [Option.getD_some]
        omega

theorem Tally.Under.removeWhere {T : Tally F} {v : Val F} (h : T.Under v) (P : Val F → Prop) :
    (T.removeWhere P).Under v := by
  classical
  unfold Tally.Under at *
  rw [Tally.count_where, Tally.edges_where]
  have hs := occurrences_split v P (fun _ => True) T.edges
  have e1 : ((T.edges.filter fun x => decide (¬ P x)).filter fun _ => decide True) =
      T.edges.filter fun x => decide (¬ P x) := by rw [List.filter_eq_self]; simp
  rw [e1] at hs
  have hs' : occurrences v (T.edges.filter fun x => decide (P x)) +
      occurrences v (T.edges.filter fun x => decide (¬ P x)) = occurrences v T.edges := by
    rw [hs]
    congr 1
    rw [List.filter_eq_self]
    simp
  by_cases hv : v ∈ T.edges ∧ P v
  · rw [if_pos hv]; simp only [Option.getD_none]; omega
  · rw [if_neg hv]
    cases hc : T.count v with
    | none => simp only [Option.map_none, Option.getD_none]; omega
    | some c =>
      rw [hc] at h
      simp only [Option.map_some, Option.getD_some] at h ⊢
      omega

theorem Tally.Under.prim {T : Tally F} {v : Val F} (h : T.Under v) (p : Prim F) : (T.prim p).Under v := by
  cases p with
  | add e ts => exact h.add e
  | remove e => exact h.removeWhere _
  | removeMany es => exact h.removeWhere _
  | removeByPattern ps => exact h.removeWhere _
  | removeBelief src e =>
    show (T.removeBelief src e).Under v
    unfold Tally.removeBelief
    simp only
    split
    · exact h.removeWhere _
    · exact (h.removeWhere _).removeWhere _
  | destroy => simp [Tally.prim, Tally.Under, Tally.empty, occurrences]
  | query q => exact h

theorem Tally.Under.fold {α : Type} {f : Tally F → α → Tally F} {v : Val F}
    (hf : ∀ T a, T.Under v → (f T a).Under v) (xs : List α) {T : Tally F} (h : T.Under v) :
    (xs.foldl f T).Under v := by
  induction xs generalizing T with
  | nil => exact h
  | cons x xs ih => exact ih (hf T x h)

theorem Tally.Under.op {T : Tally F} {v : Val F} (h : T.Under v) (o : Op F) : (T.op o).Under v := by
  cases o with
  | prim p => exact h.prim p
  | addMany es ts => exact Tally.Under.fold (fun _ e h => h.add e) es h
  | addBelief src e ts => exact (h.add e).add _
  | addBeliefs src es ts => exact Tally.Under.fold (fun _ e h => (h.add e).add _) es h
  | batch ps => exact Tally.Under.fold (fun _ p h => h.prim p) ps h
  | degree w => exact h
  | timestamp w => exact h

/-- C67: whatever the history, the degree of a vertex is at most the number of its occurrences in the present edges:
`degree` may report too little (for vertices that are edges), never too much. -/
theorem C67_never_too_much (hV : Vocab V) (ops : List (Op F)) (hops : ∀ op ∈ ops, op.Over V) (auto : Bool) (s : St)
    (hs : runOps ops (St.new auto) = (.ok (), s)) (v : Val F) (hv : WfVal v) (l : List (Val F))
    (hl : Lists (Spec.after ops) l) :
    ∃ d : Int, hgDegree v s = (.ok d, s) ∧ d ≤ (occurrences v l : Nat) := by
  refine ⟨_, C67_degree hV ops hops auto s hs v hv, ?_⟩
  have hT : (Tally.after ops).Under v :=
    Tally.Under.fold (fun _ o h => h.op o) ops (by simp [Tally.Under, Tally.empty, occurrences])
  have he := C67_edges hV ops hops
  rw [occurrences_congr hl.1 he.1 (fun x => by rw [hl.2, he.2])]
  exact hT

/-! ### examples -/

/-- A statement about a fact, then the fact, then the statement is removed: the counter of the fact is -1, that of its
subject 1, that of the speaker 0 (it stays known), and there is none for the statement. -/
example :
    let T : Tally Half := Tally.after [.prim (.add exE2 1), .prim (.add exE1 2), .prim (.remove exE2)]
    T.count exE1 = some (-1) ∧ T.count (sy "sky/1") = some 1 ∧ T.count (sy "mary") = some 0 ∧ T.count exE2 = none := by
  refine ⟨?_, ?_, ?_, ?_⟩ <;>
  · show ((((Tally.empty).add exE2).add exE1).removeWhere (· = exE2)).count _ = _
    rw [Tally.count_where]
    decide +kernel

/-- The hypotheses are met by the example history, and the tables agree. -/
example : (∀ op ∈ exOps, op.Over PlainVocab) ∧
    ((runOps [.prim (.add exE2 1), .prim (.add exE1 2), .prim (.remove exE2)] >>= fun _ => hgDegree exE1)
      (St.new false)).1 = .ok (-1) ∧
    ((runOps exOps) (St.new false)).1 = .ok () := ⟨exOps_over, by decide +kernel, by decide +kernel⟩

end GB
