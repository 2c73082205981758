import Verif.Py.Half

/-
Sufficient, decidable conditions for the hypotheses used in the property theorems, so that concrete
cases can be exhibited, and vocabularies to which the storage theorems apply.
-/

namespace GB

variable {F : Type} [PyFloat F]

/-- Decidable test for `WfStr`. -/
def wfStrB (s : Str) : Bool :=
  !s.isEmpty && s.all (fun c => !isSpace c) && s.head? != some '(' && s.getLast? != some ')' &&
    tokenType s == .string

theorem wfStr_of {s : Str} (h : wfStrB s = true) : WfStr s := by
  simp only [wfStrB, Bool.and_eq_true, bne_iff_ne, beq_iff_eq, List.all_eq_true,
    Bool.not_eq_true', List.isEmpty_eq_false_iff] at h
  obtain ⟨⟨⟨⟨h1, h2⟩, h3⟩, h4⟩, h5⟩ := h
  rw [tokenType_string_iff] at h5
  exact ⟨h1, h2, h3, h4, h5.1, h5.2⟩

theorem wfStr_iff {s : Str} : WfStr s ↔ wfStrB s = true := by
  refine ⟨fun h => ?_, wfStr_of⟩
  simp only [wfStrB, Bool.and_eq_true, bne_iff_ne, beq_iff_eq, List.all_eq_true,
    Bool.not_eq_true', List.isEmpty_eq_false_iff]
  exact ⟨⟨⟨⟨h.ne, h.noSpace⟩, h.noOpen⟩, h.noClose⟩, (tokenType_string_iff s).2 ⟨h.notInt, h.notDec⟩⟩

mutual
/-- Decidable sufficient test for `WfVal` (floats tested by `fb`). -/
def wfValB (fb : F → Bool) : Val F → Bool
  | .str s => wfStrB s
  | .int _ => true
  | .flt x => fb x
  | .none => false
  | .seq b xs => !b && decide (2 ≤ xs.length) && wfValsB fb xs
/-- ... on all elements. -/
def wfValsB (fb : F → Bool) : List (Val F) → Bool
  | [] => true
  | x :: xs => wfValB fb x && wfValsB fb xs
end

mutual
theorem wfVal_of {fb : F → Bool} (hfb : ∀ x, fb x = true → PlainFloat x) :
    ∀ v : Val F, wfValB fb v = true → WfVal v
  | .str s, h => .str (wfStr_of h)
  | .int _, _ => .int
  | .flt x, h => .flt (hfb x h)
  | .none, h => by simp [wfValB] at h
  | .seq b xs, h => by
    simp only [wfValB, Bool.and_eq_true, Bool.not_eq_true', decide_eq_true_eq] at h
    obtain ⟨⟨rfl, h2⟩, h3⟩ := h
    exact .tup h2 (wfVals_of hfb xs h3)
theorem wfVals_of {fb : F → Bool} (hfb : ∀ x, fb x = true → PlainFloat x) :
    ∀ xs : List (Val F), wfValsB fb xs = true → ∀ x ∈ xs, WfVal x
  | [], _ => fun _ hx => absurd hx List.not_mem_nil
  | y :: ys, h => by
    simp only [wfValsB, Bool.and_eq_true] at h
    intro x hx
    rcases List.mem_cons.1 hx with hx | hx
    · rw [hx]; exact wfVal_of hfb y h.1
    · exact wfVals_of hfb ys h.2 x hx
end

/-- Decidable sufficient test for `WfVal` with `Half` floats. -/
theorem wfVal_half {v : HVal} (h : wfValB (fun _ => true) v = true) : WfVal v :=
  wfVal_of (fun x _ => Half.plain x) v h

mutual
/-- No floats anywhere in the value. -/
def NoFloat : Val F → Prop
  | .flt _ => False
  | .seq _ xs => NoFloats xs
  | _ => True
/-- No floats anywhere in the values. -/
def NoFloats : List (Val F) → Prop
  | [] => True
  | x :: xs => NoFloat x ∧ NoFloats xs
end

mutual
/-- No integers anywhere in the value. -/
def NoInt : Val F → Prop
  | .int _ => False
  | .seq _ xs => NoInts xs
  | _ => True
/-- No integers anywhere in the values. -/
def NoInts : List (Val F) → Prop
  | [] => True
  | x :: xs => NoInt x ∧ NoInts xs
end

/-- The largest vocabulary without floats: every well-formed float-free value not ending in a last
character. -/
def PlainVocab (v : Val F) : Prop := WfVal v ∧ NoFloat v ∧ ¬ EndsInLastChar v

mutual
theorem pyEq_eq_noFloat : ∀ (v w : Val F), NoFloat v → NoFloat w → pyEq v w = true → v = w
  | .str s, w, _, _, h => by cases w <;> simp_all [pyEq]
  | .int i, w, _, hw, h => by cases w <;> simp_all [pyEq, NoFloat]
  | .none, w, _, _, h => by cases w <;> simp_all [pyEq]
  | .flt x, w, hv, _, _ => by simp [NoFloat] at hv
  | .seq b xs, w, hv, hw, h => by
    cases w with
    | seq c ys =>
      simp only [pyEq, Bool.and_eq_true, beq_iff_eq] at h
      obtain ⟨rfl, h⟩ := h
      rw [NoFloat] at hv hw
      rw [pyEqs_eq_noFloat xs ys hv hw h]
    | _ => simp [pyEq] at h
theorem pyEqs_eq_noFloat : ∀ (xs ys : List (Val F)), NoFloats xs → NoFloats ys → pyEqs xs ys = true → xs = ys
  | [], [], _, _, _ => rfl
  | [], _ :: _, _, _, h => by simp [pyEqs] at h
  | _ :: _, [], _, _, h => by simp [pyEqs] at h
  | x :: xs, y :: ys, hx, hy, h => by
    simp only [pyEqs, Bool.and_eq_true] at h
    rw [NoFloats] at hx hy
    rw [pyEq_eq_noFloat x y hx.1 hy.1 h.1, pyEqs_eq_noFloat xs ys hx.2 hy.2 h.2]
end

/-- The storage theorems apply to all float-free values, whatever the floats are. -/
theorem plainVocab : Vocab (PlainVocab (F := F)) where
  wf _ h := h.1
  last _ h := h.2.2
  eq v w hv hw h := pyEq_eq_noFloat v w hv.2.1 hw.2.1 h

/-- All values without integers (with `Half` as floats). -/
def DecVocab (v : HVal) : Prop := WfVal v ∧ NoInt v ∧ ¬ EndsInLastChar v

mutual
theorem pyEq_eq_noInt : ∀ (v w : HVal), NoInt v → NoInt w → pyEq v w = true → v = w
  | .str s, w, _, _, h => by cases w <;> simp_all [pyEq]
  | .int i, w, hv, hw, h => by simp [NoInt] at hv
  | .none, w, _, _, h => by cases w <;> simp_all [pyEq]
  | .flt ⟨x⟩, w, _, hw, h => by
    cases w with
    | flt y =>
      obtain ⟨y⟩ := y
      have : x = y := by simpa [pyEq, PyFloat.feq] using h
      rw [this]
    | int i => simp [NoInt] at hw
    | _ => simp [pyEq] at h
  | .seq b xs, w, hv, hw, h => by
    cases w with
    | seq c ys =>
      simp only [pyEq, Bool.and_eq_true, beq_iff_eq] at h
      obtain ⟨rfl, h⟩ := h
      rw [NoInt] at hv hw
      rw [pyEqs_eq_noInt xs ys hv hw h]
    | _ => simp [pyEq] at h
theorem pyEqs_eq_noInt : ∀ (xs ys : List HVal), NoInts xs → NoInts ys → pyEqs xs ys = true → xs = ys
  | [], [], _, _, _ => rfl
  | [], _ :: _, _, _, h => by simp [pyEqs] at h
  | _ :: _, [], _, _, h => by simp [pyEqs] at h
  | x :: xs, y :: ys, hx, hy, h => by
    simp only [pyEqs, Bool.and_eq_true] at h
    rw [NoInts] at hx hy
    rw [pyEq_eq_noInt x y hx.1 hy.1 h.1, pyEqs_eq_noInt xs ys hx.2 hy.2 h.2]
end

/-- ... and to values with floats, as long as they do not mix equal integers and floats. -/
theorem decVocab : Vocab DecVocab where
  wf _ h := h.1
  last _ h := h.2.2
  eq v w hv hw h := pyEq_eq_noInt v w hv.2.1 hw.2.1 h

mutual
/-- Decidable test for `NoFloat`. -/
def noFloatB : Val F → Bool
  | .flt _ => false
  | .seq _ xs => noFloatsB xs
  | _ => true
/-- Decidable test for `NoFloats`. -/
def noFloatsB : List (Val F) → Bool
  | [] => true
  | x :: xs => noFloatB x && noFloatsB xs
end

mutual
theorem noFloat_of : ∀ v : Val F, noFloatB v = true → NoFloat v
  | .str _, _ => trivial
  | .int _, _ => trivial
  | .none, _ => trivial
  | .flt _, h => by simp [noFloatB] at h
  | .seq _ xs, h => by rw [noFloatB] at h; rw [NoFloat]; exact noFloats_of xs h
theorem noFloats_of : ∀ xs : List (Val F), noFloatsB xs = true → NoFloats xs
  | [], _ => trivial
  | x :: xs, h => by
    simp only [noFloatsB, Bool.and_eq_true] at h
    exact ⟨noFloat_of x h.1, noFloats_of xs h.2⟩
end

/-- Decidable test: the last character has a successor. -/
def lastOkB : Val F → Bool
  | .str s => match s.getLast? with
    | some c => c.toNat != 0x10FFFF && c.toNat != 0xD7FF
    | Option.none => true
  | _ => true

theorem lastOk_of {v : Val F} (h : lastOkB v = true) : ¬ EndsInLastChar v := by
  rintro ⟨s, c, rfl, hc⟩
  simp [lastOkB] at h
  omega

/-- Decidable sufficient test for membership of `PlainVocab`. -/
def plainB (v : HVal) : Bool := wfValB (fun _ => true) v && noFloatB v && lastOkB v

theorem plain_of {v : HVal} (h : plainB v = true) : PlainVocab v := by
  simp only [plainB, Bool.and_eq_true] at h
  exact ⟨wfVal_half h.1.1, noFloat_of _ h.1.2, lastOk_of h.2⟩

/-- Decidable sufficient test for `EdgeOver PlainVocab`. -/
def edgeB : HVal → Bool
  | .seq false (h :: t) => !t.isEmpty && h.isAtom && (h :: t).all plainB
  | _ => false

theorem edge_of {e : HVal} (h : edgeB e = true) : EdgeOver PlainVocab e := by
  unfold edgeB at h
  split at h
  · rename_i a t
    simp only [Bool.and_eq_true, Bool.not_eq_true', List.isEmpty_eq_false_iff, List.all_eq_true] at h
    exact ⟨a, t, rfl, h.1.1, h.1.2, fun x hx => plain_of (h.2 x hx)⟩
  · simp at h

end GB
