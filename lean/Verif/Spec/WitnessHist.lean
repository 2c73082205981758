import Verif.Spec.Witness
import Verif.Spec.History

/-
Decidable sufficient tests for the hypotheses of the theorems about histories, and an example history.
-/

namespace GB

/-- Test for `PatternOver PlainVocab`. -/
def patternB (ps : List HVal) : Bool :=
  ps.all (fun p => p == .none || plainB p) &&
    match ps.dropWhile (fun p => p == .none) with
    | c :: _ => c.isAtom
    | [] => false

theorem pattern_of {ps : List HVal} (h : patternB ps = true) : PatternOver PlainVocab ps := by
  simp only [patternB, Bool.and_eq_true, List.all_eq_true, Bool.or_eq_true, beq_iff_eq] at h
  obtain ⟨h1, h2⟩ := h
  refine ⟨fun p hp => ?_, ?_⟩
  · rcases h1 p hp with h | h
    · exact .inl h
    · exact .inr (plain_of h)
  · have hsplit := List.takeWhile_append_dropWhile (p := fun p : HVal => p == .none) (l := ps)
    cases hd : ps.dropWhile (fun p => p == .none) with
    | nil => rw [hd] at h2; simp at h2
    | cons c post =>
      rw [hd] at h2 hsplit
      refine ⟨_, c, post, hsplit.symm, ?_, h2⟩
      intro p hp
      have := List.all_takeWhile (p := fun p : HVal => p == .none) (l := ps)
      rw [List.all_eq_true] at this
      simpa using this p hp

/-- Test for `BeliefOver PlainVocab`. -/
def beliefB (src e : HVal) : Bool := plainB src && plainB e && edgeB e

theorem belief_of {src e : HVal} (h : beliefB src e = true) : BeliefOver PlainVocab src e := by
  simp only [beliefB, Bool.and_eq_true] at h
  exact ⟨plain_of (by decide +kernel), plain_of h.1.1, plain_of h.1.2, edge_of h.2⟩

/-- Test for `Query.Over`. -/
def queryB : Query Half → Bool
  | .exists e => edgeB e
  | .pattern ps => patternB ps
  | .star c => plainB c && c.isAtom
  | .symbolsWithRoot r => r.all (fun c => !isSpace c) && r.head? != some '('
  | .sources e => plainB e
  | .fAll => true

theorem query_of {q : Query Half} (h : queryB q = true) : q.Over PlainVocab := by
  cases q with
  | «exists» e => exact edge_of h
  | pattern ps => exact pattern_of h
  | star c =>
    simp only [queryB, Bool.and_eq_true] at h
    exact ⟨plain_of h.1, h.2⟩
  | symbolsWithRoot r =>
    simp only [queryB, Bool.and_eq_true, List.all_eq_true, Bool.not_eq_true', bne_iff_ne] at h
    exact h
  | sources e => exact ⟨plain_of (by decide +kernel), plain_of h⟩
  | fAll => trivial

/-- Test for `Prim.Over`. -/
def primB : Prim Half → Bool
  | .add e _ => edgeB e
  | .remove e => edgeB e
  | .removeMany es => !es.isEmpty && es.all edgeB
  | .removeByPattern ps => patternB ps
  | .removeBelief src e => beliefB src e
  | .destroy => true
  | .query q => queryB q

theorem prim_of {p : Prim Half} (h : primB p = true) : p.Over PlainVocab := by
  cases p with
  | add e ts => exact edge_of h
  | remove e => exact edge_of h
  | removeMany es =>
    simp only [primB, Bool.and_eq_true, List.all_eq_true, Bool.not_eq_true', List.isEmpty_eq_false_iff] at h
    exact ⟨h.1, fun e he => edge_of (h.2 e he)⟩
  | removeByPattern ps => exact pattern_of h
  | removeBelief src e => exact belief_of h
  | destroy => trivial
  | query q => exact query_of h

/-- Test for `Op.Over`. -/
def opB : Op Half → Bool
  | .prim p => primB p
  | .addMany es _ => !es.isEmpty && es.all edgeB
  | .addBelief src e _ => beliefB src e
  | .addBeliefs src es _ => !es.isEmpty && es.all (beliefB src)
  | .batch ps => ps.all primB
  | .degree v => plainB v
  | .timestamp v => plainB v

theorem op_of {op : Op Half} (h : opB op = true) : op.Over PlainVocab := by
  cases op with
  | prim p => exact prim_of h
  | addMany es ts =>
    simp only [opB, Bool.and_eq_true, List.all_eq_true, Bool.not_eq_true', List.isEmpty_eq_false_iff] at h
    exact ⟨h.1, fun e he => edge_of (h.2 e he)⟩
  | addBelief src e ts => exact belief_of h
  | addBeliefs src es ts =>
    simp only [opB, Bool.and_eq_true, List.all_eq_true, Bool.not_eq_true', List.isEmpty_eq_false_iff] at h
    exact ⟨h.1, fun e he => belief_of (h.2 e he)⟩
  | batch ps =>
    simp only [opB, List.all_eq_true] at h
    exact fun p hp => prim_of (h p hp)
  | degree v => exact (plain_of h).1
  | timestamp v => exact (plain_of h).1

theorem ops_of {ops : List (Op Half)} (h : ops.all opB = true) : ∀ op ∈ ops, op.Over PlainVocab := by
  rw [List.all_eq_true] at h
  exact fun op ho => op_of (h op ho)

/-! An example history. -/

/-- `(is/1 sky/1 blue/1)` -/
def exE1 : HVal := .tup [sy "is/1", sy "sky/1", sy "blue/1"]
/-- `(says mary (is/1 sky/1 blue/1))` -/
def exE2 : HVal := .tup [sy "says", sy "mary", exE1]
/-- `(size sky/1 7)` -/
def exE3 : HVal := .tup [sy "size", sy "sky/1", .int 7]
/-- `(loves mary mary)` -/
def exE4 : HVal := .tup [sy "loves", sy "mary", sy "mary"]

/-- Adds, a belief, a bulk addition, removals, a batch, queries. -/
def exOps : List (Op Half) :=
  [.prim (.add exE1 10), .prim (.add exE2 11), .addMany [exE3, exE4] 12,
   .addBelief (sy "john") exE1 13, .prim (.remove exE3),
   .batch [.add exE3 14, .query (.star (sy "mary")), .removeByPattern [sy "loves", .none, sy "mary"]],
   .degree (sy "mary")]

theorem exOps_over : ∀ op ∈ exOps, op.Over PlainVocab := ops_of (by decide +kernel)

end GB
