import Verif.Proofs.Calm
import Verif.Spec.WitnessHist

/-
Property C23: the degree of a vertex that is itself an edge.  The full statement (`degree(v)` is the number of
occurrences of `v` in the present edges, for every well-formed `v` and every history) is false; here is the largest
class of histories in which it is preserved, and what happens outside of it.
-/

set_option linter.unusedSectionVars false

namespace GB

variable {F : Type} [PyFloat F] [DecidableEq F] {V : Val F → Prop}

/-- C23, partial: after any history in which `v` is never created while it is an element of a present edge, and no
edge with the element `v` is left behind when `v` is removed, the degree of `v` (symbol, number or edge) is the
number of its occurrences in the present edges.  Missing: the other histories, in which it is false (below). -/
theorem C23_degree_partial (hV : Vocab V) (ops : List (Op F)) (hops : ∀ op ∈ ops, op.Over V) (auto : Bool) (s : St)
    (hs : runOps ops (St.new auto) = (.ok (), s)) (v : Val F) (hv : WfVal v)
    (hc : Spec.empty.CalmAll v (ops.flatMap Op.steps)) (l : List (Val F)) (hl : Lists (Spec.after ops) l) :
    hgDegree v s = (.ok (occurrences v l : Nat), s) := by
  obtain ⟨A, hA, hR, hd, s', e, st⟩ := runOps_fromD hV v ops hops Abs.empty Spec.empty (St.new auto) AbsOk.empty
    Rel.empty rfl rfl (by simp [DegOk, Abs.empty, degOf, lookV, occurrences]) hc
  have hss : s' = s := by
    have := e.symm.trans hs
    simpa using this
  subst hss
  unfold hgDegree
  rw [degree_run hA.wf hv st.cur st.work]
  have h1 : ((lookV v A.verts).map VEnt.deg).getD 0 = degOf v A.verts := rfl
  have h2 : degOf v A.verts = occurrences v A.edges := hd
  rw [h1, h2, occurrences_congr hA.nodup hl.1 (fun x => by rw [hl.2]; exact (hR.present x).symm)]

/-- C23, counterexamples: whenever an absent edge that already occurs in present edges is added, its degree becomes 0. -/
theorem C23_added_later_counterexample (hV : Vocab V) (ops : List (Op F)) (hops : ∀ op ∈ ops, op.Over V) (auto : Bool)
    (s : St) (hs : runOps ops (St.new auto) = (.ok (), s)) (e : Val F) (he : EdgeOver V e) (hw : WfVal e) (ts : Int)
    (ha : ¬ (Spec.after ops).Present e) :
    ∃ s', Prim.run (.add e ts) s = (.ok (), s') ∧ hgDegree e s' = (.ok 0, s') := by
  obtain ⟨A, h⟩ := after_of hV hops hs
  have hm : e ∉ A.edges := fun hm => ha ((h.rel.present e).2 hm)
  obtain ⟨s', e', st⟩ : Runs false TT (Prim.run (.add e ts)) s () (A.add e ts).conc := by
    refine Runs.bind (add_run hV h.ok he ts h.usable h.work (fun _ _ _ => trivial)) ?_
    intro s1 st1
    exact Runs.pure' () st1.work
  refine ⟨s', e', ?_⟩
  unfold hgDegree
  rw [degree_run (h.ok.add hV he ts).wf hw (st.cur.trans h.idle) st.work]
  have : lookV e (A.add e ts).verts = some ⟨e, 0, ts⟩ := by
    unfold Abs.add
    rw [if_neg hm]
    show lookV e (setV e 0 ts _) = _
    rw [lookV_set, if_pos rfl]
  rw [this]; rfl

/-- C23, counterexamples: whenever a present edge is removed, its degree becomes 0, even if it still occurs in present
edges. -/
theorem C23_removed_counterexample (hV : Vocab V) (ops : List (Op F)) (hops : ∀ op ∈ ops, op.Over V) (auto : Bool)
    (s : St) (hs : runOps ops (St.new auto) = (.ok (), s)) (e : Val F) (he : EdgeOver V e) (hw : WfVal e)
    (ha : (Spec.after ops).Present e) :
    ∃ s', Prim.run (.remove e) s = (.ok (), s') ∧ hgDegree e s' = (.ok 0, s') := by
  obtain ⟨A, h⟩ := after_of hV hops hs
  have hm : e ∈ A.edges := (h.rel.present e).1 ha
  obtain ⟨s', e', st⟩ := remove_run (T := TT) hV h.ok he h.usable h.work (fun _ _ _ => trivial)
  refine ⟨s', e', ?_⟩
  unfold hgDegree
  rw [degree_run (h.ok.remove e).wf hw (st.cur.trans h.idle) st.work]
  have : lookV e (A.remove e).verts = none := by
    have := lookV_foldRemove [e] hm (by simp)
    simpa using this
  rw [this]; rfl

/-- C23, counterexample: degrees can become negative.  `(says mary (is/1 sky/1 blue/1))` is added, then its third
element, then the former is removed: the third element has degree -1. -/
theorem C23_negative_counterexample :
    ((runOps [.prim (.add exE2 1), .prim (.add exE1 2), .prim (.remove exE2)] >>= fun _ => hgDegree exE1)
      (St.new false)).1 = .ok (-1) := by
  decide +kernel

/-- The hypotheses of `C23_degree_partial` are met: a fact, then a statement about it and a belief in it, then the
removal of the belief. -/
example : Spec.empty.CalmAll exE1 ([.prim (.add exE1 1), .prim (.add exE2 2), .addBelief (sy "john") exE4 3,
    .prim (.remove exE4), .degree exE1].flatMap Op.steps) ∧ WfVal exE1 ∧
    (∀ op ∈ [Op.prim (.add exE1 1), .prim (.add exE2 2), .addBelief (sy "john") exE4 3,
      .prim (.remove exE4), .degree exE1], op.Over PlainVocab) ∧
    Lists (Spec.after [.prim (.add exE1 1), .prim (.add exE2 2), .prim (.remove exE2)]) [exE1] := by
  refine ⟨⟨?_, ?_, ?_, ?_, ?_, trivial⟩, (plain_of (by decide +kernel)).1, ops_of (by decide +kernel), ?_, ?_⟩
  · intro _
    exact .inr fun ⟨e, h, _⟩ => by simp [Spec.Present, Spec.empty] at h
  · intro h; exact absurd h (by decide +kernel)
  · intro h; exact absurd h (by decide +kernel)
  · intro h; exact absurd h (by decide +kernel)
  · intro h; exact absurd h (by decide +kernel)
  · decide +kernel
  · intro e
    have h12 : ¬ exE2 = exE1 := by decide +kernel
    by_cases h1 : e = exE1
    · subst h1
      simp [Spec.after, Spec.op, Spec.prim, Spec.add, Spec.remove, Spec.Present, Spec.empty, h12, Ne.symm h12, show ¬ exE1 = exE2 from fun h => h12 h.symm]
    · by_cases h2 : e = exE2
      · subst h2
        simp [Spec.after, Spec.op, Spec.prim, Spec.add, Spec.remove, Spec.Present, Spec.empty, h12]
      · simp [Spec.after, Spec.op, Spec.prim, Spec.add, Spec.remove, Spec.Present, Spec.empty, h12, h1, h2]

/-- The cases of the universal counterexamples occur: the edge is an element of a present edge. -/
example :
    (((runOps [.prim (.add exE2 1), .prim (.add exE1 2)]) >>= fun _ => hgDegree exE1) (St.new false)).1 = .ok 0 ∧
    (((runOps [.prim (.add exE2 1), .prim (.add exE1 2)]) >>= fun _ => hgExists exE2) (St.new false)).1 = .ok true ∧
    (((runOps [.prim (.add exE1 1), .prim (.add exE2 2), .prim (.remove exE1)]) >>= fun _ => hgDegree exE1)
      (St.new false)).1 = .ok 0 := by
  decide +kernel

end GB
