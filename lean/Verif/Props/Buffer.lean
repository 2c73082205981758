import Verif.Proofs.Buffer
import Verif.Spec.WitnessHist

/-
Properties C40, C41, C42, C48: buffered additions (BatchHyperGraph).
-/

set_option linter.unusedSectionVars false
set_option linter.unusedVariables false

namespace GB

variable {F : Type} [PyFloat F] [DecidableEq F] {V : Val F → Prop}

theorem clean_of (hV : Vocab V) {ops : List (Op F)} (hops : ∀ op ∈ ops, op.Over V) {auto : Bool} {s : St}
    (hs : runOps ops (St.new auto) = (.ok (), s)) :
    ∃ A, AbsOk V A ∧ Rel A (Spec.after ops) ∧ Clean A s := by
  obtain ⟨A, h⟩ := after_of hV hops hs
  exact ⟨A, h.ok, h.rel, h.idle, h.work, h.disk⟩

/-! ### C40 -/

/-- C40: after any history on a graph, any sequence of additions (single, bulk, beliefs, with explicit flushes in
between) through a BatchHyperGraph of any buffer size succeeds, and so does the same sequence made directly on the
graph; once the buffer is empty, or has been emptied by a final `flush`, the database holds exactly the same tables, in
memory and on disk. -/
theorem C40_buffered (hV : Vocab V) (ops : List (Op F)) (hops : ∀ op ∈ ops, op.Over V) (auto : Bool) (s : St)
    (hs : runOps ops (St.new auto) = (.ok (), s)) (os : List (BOp F)) (hos : ∀ o ∈ os, o.Over V)
    (bufferMax ts : Int) :
    ∃ b s', bhRun bufferMax ts os ⟨s, []⟩ = (.ok (), b) ∧
      runOps (os.flatMap (BOp.direct ts)) s = (.ok (), s') ∧
      (b.buffer = [] → b.base.work = s'.work ∧ b.base.disk = s'.disk) ∧
      (b.buffer ≠ [] → ∃ b', bhFlush ts b = (.ok (), b') ∧ b'.buffer = [] ∧ b'.base.work = s'.work ∧
        b'.base.disk = s'.disk) := by
  obtain ⟨A, hA, _, hc⟩ := clean_of hV hops hs
  obtain ⟨b, hb, hB⟩ := bhRun_ok hV hA (ts := ts) bufferMax os (total := []) (b := ⟨s, []⟩)
    ⟨by simp, [], rfl, hc⟩ hos
  obtain ⟨s', hs', hc'⟩ := directRun_ok hV (ts := ts) os hA hc hos
  rw [List.nil_append] at hB
  refine ⟨b, s', hb, hs', ?_, ?_⟩
  · intro he
    obtain ⟨_, done, ht, hcl⟩ := hB
    rw [he, List.append_nil] at ht
    rw [← ht] at hcl
    have : b.base.work = s'.work := by rw [hcl.work, hc'.work]
    exact ⟨this, by rw [hcl.disk, hc'.disk, this]⟩
  · intro hne
    obtain ⟨b', e', hB', hemp, hw⟩ := flush_run hV hA hB hne
    obtain ⟨_, done, _, hcl⟩ := hB'
    have : b'.base.work = s'.work := by rw [hw, hc'.work]
    exact ⟨b', e', hemp, this, by rw [hcl.disk, hc'.disk, this]⟩

/-- C40: at every moment nothing is lost: the additions made so far are those written followed by those buffered,
and the database shows the graph with the written ones. -/
theorem C40_nothing_lost (hV : Vocab V) (ops : List (Op F)) (hops : ∀ op ∈ ops, op.Over V) (auto : Bool) (s : St)
    (hs : runOps ops (St.new auto) = (.ok (), s)) (os : List (BOp F)) (hos : ∀ o ∈ os, o.Over V)
    (bufferMax ts : Int) (b : BSt F) (hb : bhRun bufferMax ts os ⟨s, []⟩ = (.ok (), b)) :
    ∃ written, os.flatMap BOp.edges = written ++ b.buffer ∧
      ∀ e, EdgeOver V e → ∃ r, hgExists e b.base = (.ok r, b.base) ∧
        (r = true ↔ (Spec.after ops).Present e ∨ e ∈ written) := by
  obtain ⟨A, hA, hR, hc⟩ := clean_of hV hops hs
  obtain ⟨b1, hb1, hB⟩ := bhRun_ok hV hA (ts := ts) bufferMax os (total := []) (b := ⟨s, []⟩)
    ⟨by simp, [], rfl, hc⟩ hos
  have : b1 = b := by
    have := hb1.symm.trans hb
    simpa using this
  subst this
  obtain ⟨hall, done, ht, hcl⟩ := hB
  refine ⟨done, by simpa using ht, ?_⟩
  intro e he
  have hdone : ∀ e ∈ done, EdgeOver V e := fun e he => hall e (by rw [ht]; simp [he])
  have hA' := hA.addAll hV ts done hdone
  refine ⟨_, existsM_run hV hA' he (St.usable_of_none hcl.cur) hcl.work, ?_⟩
  have hmem : ∀ (l : List (Val F)) (A : Abs F), e ∈ (A.addAll ts l).edges ↔ e ∈ A.edges ∨ e ∈ l := by
    intro l
    induction l with
    | nil => intro A; simp [Abs.addAll]
    | cons x l ih =>
      intro A
      have : A.addAll ts (x :: l) = (A.add x ts).addAll ts l := rfl
      rw [this, ih]
      have hx : e ∈ (A.add x ts).edges ↔ e ∈ A.edges ∨ e = x := by
        unfold Abs.add
        split
        · rename_i hx
          constructor
          · exact .inl
          · rintro (h | rfl)
            · exact h
            · exact hx
        · simp
      rw [hx, List.mem_cons, or_assoc]
  rw [decide_eq_true_iff, hmem, ← hR.present]; rfl

example : ∀ o ∈ [BOp.add exE1, .addMany [exE3, exE4], .flush, .addBelief (sy "john") exE1, .add exE2],
    o.Over PlainVocab := by
  intro o ho
  simp only [List.mem_cons, List.not_mem_nil, or_false] at ho
  rcases ho with rfl | rfl | rfl | rfl | rfl
  · exact edge_of (by decide +kernel)
  · refine ⟨by simp, ?_⟩
    intro e he
    simp only [List.mem_cons, List.not_mem_nil, or_false] at he
    rcases he with rfl | rfl
    · exact edge_of (by decide +kernel)
    · exact edge_of (by decide +kernel)
  · trivial
  · exact belief_of (by decide +kernel)
  · exact edge_of (by decide +kernel)

/-! ### C41 -/

/-- C41: after any successful addition, of any value, the buffer holds at most `buffer_max` edges (none if it is
negative), in any state. -/
theorem C41_bound (bufferMax ts : Int) (edges r : Val F) (b b' : BSt F)
    (h : bhAdd bufferMax edges ts b = (.ok r, b')) : (b'.buffer.length : Int) ≤ max bufferMax 0 := by
  unfold bhAdd at h
  split at h
  · simp at h
  · rename_i buf hb
    split at h
    · rename_i hl
      split at h
      · rename_i b'' hf
        have : b'' = b' := by simpa using (Prod.mk.inj h).2
        subst this
        unfold bhFlush at hf
        split at hf
        · have := (Prod.mk.inj hf).2
          subst this
          simp
          omega
        · simp at hf
      · simp at h
    · have := (Prod.mk.inj h).2
      subst this
      simp only
      omega

/-- C41: an addition that raises leaves all the edges, old and new, in the buffer, or leaves the graph unchanged. -/
theorem C41_raising (bufferMax ts : Int) (edges : Val F) (err : PyErr) (b b' : BSt F)
    (h : bhAdd bufferMax edges ts b = (.error err, b')) :
    b' = b ∨ bhExtend b.buffer edges = .ok b'.buffer := by
  unfold bhAdd at h
  split at h
  · exact .inl ((Prod.mk.inj h).2).symm
  · rename_i buf hb
    split at h
    · split at h
      · simp at h
      · rename_i hf
        have h2 := (Prod.mk.inj h).2
        subst h2
        unfold bhFlush at hf
        split at hf
        · simp at hf
        · have := (Prod.mk.inj hf).2
          subst this
          exact .inr hb
    · simp at h

/-- C41: so after any sequence of successful calls. -/
theorem C41_history (bufferMax ts : Int) (os : List (BOp F)) (s : St) (b : BSt F)
    (h : bhRun bufferMax ts os ⟨s, []⟩ = (.ok (), b)) : (b.buffer.length : Int) ≤ max bufferMax 0 := by
  have key : ∀ (os : List (BOp F)) (b0 : BSt F), (b0.buffer.length : Int) ≤ max bufferMax 0 →
      bhRun bufferMax ts os b0 = (.ok (), b) → (b.buffer.length : Int) ≤ max bufferMax 0 := by
    intro os
    induction os with
    | nil =>
      intro b0 h0 h
      have : b0 = b := by simpa [bhRun] using h
      rw [← this]; exact h0
    | cons o os ih =>
      intro b0 h0 h
      rw [bhRun] at h
      split at h
      · rename_i b1 h1
        refine ih b1 ?_ h
        have hadd : ∀ (v : Val F) (r : Except PyErr (Val F)), bhAdd bufferMax v ts b0 = (r, b1) →
            r.map (fun _ => ()) = .ok () → (b1.buffer.length : Int) ≤ max bufferMax 0 := by
          intro v r hr hm
          cases r with
          | error e => simp [Except.map] at hm
          | ok v' => exact C41_bound _ _ _ _ _ _ hr
        have hbel : ∀ (src v : Val F), bhAddBelief bufferMax src v ts b0 = (.ok (), b1) →
            (b1.buffer.length : Int) ≤ max bufferMax 0 := by
          intro src v hr
          unfold bhAddBelief at hr
          split at hr
          · simp at hr
          · split at hr
            · rename_i hr'
              have := (Prod.mk.inj hr).2
              subst this
              exact C41_bound _ _ _ _ _ _ hr'
            · simp at hr
        cases o with
        | add e =>
          rw [BOp.run] at h1
          have h2 := Prod.mk.inj h1
          exact hadd e _ (Prod.ext rfl h2.2) h2.1
        | addMany es =>
          rw [BOp.run] at h1
          have h2 := Prod.mk.inj h1
          exact hadd (.seq true es) _ (Prod.ext rfl h2.2) h2.1
        | addBelief src e => exact hbel _ _ h1
        | addBeliefs src es => exact hbel _ _ h1
        | flush =>
          rw [BOp.run] at h1
          split at h1
          · have := (Prod.mk.inj h1).2
            rw [← this]; exact h0
          · unfold bhFlush at h1
            split at h1
            · have := (Prod.mk.inj h1).2
              rw [← this]; simp; omega
            · simp at h1
      · simp at h
  exact key os ⟨s, []⟩ (by simp; omega) h

example : (bhRun 2 1 [BOp.add exE1, .addMany [exE3, exE4], .add exE2] ⟨St.new false, []⟩).2.buffer = [exE2] := by
  decide +kernel

/-! ### C42 -/

/-- C42, partial: after any sequence of additions a non-empty buffer can be flushed, with any timestamp.  Missing:
flushing an empty buffer, and the timestamps, both false (below). -/
theorem C42_flush_partial (hV : Vocab V) (ops : List (Op F)) (hops : ∀ op ∈ ops, op.Over V) (auto : Bool) (s : St)
    (hs : runOps ops (St.new auto) = (.ok (), s)) (os : List (BOp F)) (hos : ∀ o ∈ os, o.Over V)
    (bufferMax ts ts' : Int) (b : BSt F) (hb : bhRun bufferMax ts os ⟨s, []⟩ = (.ok (), b)) (hne : b.buffer ≠ []) :
    ∃ b', bhFlush ts' b = (.ok (), b') ∧ b'.buffer = [] := by
  obtain ⟨A, hA, hR, hc⟩ := clean_of hV hops hs
  obtain ⟨b1, hb1, hB⟩ := bhRun_ok hV hA (ts := ts) bufferMax os (total := []) (b := ⟨s, []⟩)
    ⟨by simp, [], rfl, hc⟩ hos
  have : b1 = b := by
    have := hb1.symm.trans hb
    simpa using this
  subst this
  obtain ⟨hall, done, ht, hcl⟩ := hB
  obtain ⟨s', e', _⟩ := addMany_clean hV (hA.addAll hV ts done fun e he => hall e (by rw [ht]; simp [he]))
    (b := true) hne (fun e he => hall e (by rw [ht]; simp [he])) ts' hcl
  exact ⟨⟨s', []⟩, by unfold bhFlush; rw [e'], rfl⟩

/-- C42, counterexamples: flushing an empty buffer always raises IndexError. -/
theorem C42_empty_counterexample (ts : Int) (s : St) :
    bhFlush ts (⟨s, []⟩ : BSt F) = (.error .indexError, ⟨s, []⟩) := rfl

/-- C42, counterexamples: a buffered edge gets the timestamp of the flush, never the one it was added with. -/
theorem C42_timestamp_counterexample (hV : Vocab V) (ops : List (Op F)) (hops : ∀ op ∈ ops, op.Over V) (auto : Bool)
    (s : St) (hs : runOps ops (St.new auto) = (.ok (), s)) (e : Val F) (he : EdgeOver V e) (hw : WfVal e)
    (ha : ¬ (Spec.after ops).Present e) (bufferMax ts ts' : Int) (hmax : 1 ≤ bufferMax) :
    ∃ b b', bhAdd bufferMax e ts ⟨s, []⟩ = (.ok e, b) ∧ bhFlush ts' b = (.ok (), b') ∧
      hgTimestamp e b'.base = (.ok ts', b'.base) := by
  obtain ⟨A, hA, hR, hc⟩ := clean_of hV hops hs
  have hm : e ∉ A.edges := fun hm => ha ((hR.present e).2 hm)
  obtain ⟨s', e', hc'⟩ := addMany_clean hV hA (b := true) (es := [e]) (by simp) (by simpa using he) ts' hc
  refine ⟨⟨s, [e]⟩, ⟨s', []⟩, ?_, ?_, ?_⟩
  · unfold bhAdd
    rw [bhExtend_edge he]
    dsimp only [List.nil_append, List.length_singleton]
    rw [if_neg (by omega)]
  · unfold bhFlush; rw [e']
  · unfold hgTimestamp
    have hA' : AbsOk V (A.addAll ts' [e]) := hA.add hV he ts'
    rw [timestamp_run hA'.wf hw hc'.cur hc'.work]
    have : lookV e (A.addAll ts' [e]).verts = some ⟨e, 0, ts'⟩ := by
      show lookV e (A.add e ts').verts = _
      unfold Abs.add
      rw [if_neg hm]
      show lookV e (setV e 0 ts' _) = _
      rw [lookV_set, if_pos rfl]
    rw [this]; rfl

example : ((bhFlush 5 (bhAdd 10 exE1 3 (⟨St.new false, []⟩ : BSt Half)).2).2.base.work.vertices.map VRow.timestamp) =
    [5, 5, 5, 5] := by
  decide +kernel

/-! ### C48 -/

/-- C48: an addition that does not fill the buffer does not touch the database at all, in any state and for any value:
every query through either graph gives what it gave before, and nothing is written. -/
theorem C48_invisible (bufferMax ts : Int) (edges : Val F) (b : BSt F) (buf : List (Val F))
    (hx : bhExtend b.buffer edges = .ok buf) (hl : (buf.length : Int) ≤ bufferMax) :
    bhAdd bufferMax edges ts b = (.ok edges, ⟨b.base, buf⟩) := by
  unfold bhAdd
  rw [hx]
  dsimp only
  rw [if_neg (by omega)]

/-- C48: in particular an edge absent from the graph and added to the buffer is still reported absent. -/
theorem C48_still_absent (hV : Vocab V) (ops : List (Op F)) (hops : ∀ op ∈ ops, op.Over V) (auto : Bool)
    (s : St) (hs : runOps ops (St.new auto) = (.ok (), s)) (e : Val F) (he : EdgeOver V e)
    (ha : ¬ (Spec.after ops).Present e) (bufferMax ts : Int) (hmax : 1 ≤ bufferMax) :
    ∃ b, bhAdd bufferMax e ts ⟨s, []⟩ = (.ok e, b) ∧ b.buffer = [e] ∧ (bhBase (hgExists e) b).1 = .ok false := by
  refine ⟨⟨s, [e]⟩, C48_invisible bufferMax ts e ⟨s, []⟩ [e] (bhExtend_edge he _) (by simpa using hmax), rfl, ?_⟩
  unfold bhBase
  dsimp only
  rw [(shows_of hV hops hs).exists_ hV he]
  dsimp only
  congr 1
  simpa [Spec.Present] using ha

end GB
