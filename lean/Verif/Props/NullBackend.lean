import Verif.Model.Backend
import Verif.Model.History
import Verif.Spec.WitnessHist

/-
Property C43: the null backend never holds anything; and the calls that can fail on it.
-/

namespace GB

variable {F : Type} [PyFloat F]

/-- C43: after any history of calls whatsoever with backend 'null' (any arguments, exceptions caught), every query is
empty, nothing exists, degrees are 0 and timestamps -1, and there are no sources. -/
theorem C43_null (ops : List (Op F)) (s : Unit) (v : Val F) (ps : Val F) (r : Str)
    (f : Val F → Int → Val F × Int) :
    let B := nullBackend (F := F)
    let s' := runAll B ops s
    (B.exists v s').1 = .ok false ∧ (B.pattern2edges ps s').1 = .ok [] ∧ (B.star v s').1 = .ok [] ∧
    (B.symbolsWithRoot r s').1 = .ok [] ∧ (B.degree v s').1 = .ok 0 ∧ (B.timestamp v s').1 = .ok (-1) ∧
    (B.fAll f s').1 = .ok [] ∧ (B.sources v s').1 = .ok [] := by
  exact ⟨rfl, rfl, rfl, rfl, rfl, rfl, rfl, rfl⟩

/-- C43: `add` returns its argument, for any argument and state. -/
theorem C43_add (v : Val F) (ts : Int) (s : Unit) : (nullBackend (F := F).add v ts s).1 = .ok v := rfl

/-- C43: no call of a history over a vocabulary raises with backend 'null'. -/
theorem C43_no_error [DecidableEq F] {V : Val F → Prop} (op : Op F) (ho : op.Over V) (s : Unit) :
    (op.runOn nullBackend s).1 = .ok () := by
  cases op with
  | prim p =>
    cases p with
    | query q => cases q <;> rfl
    | _ => rfl
  | addBelief src e ts =>
    have hb : BeliefOver V src e := ho
    obtain ⟨h, t, rfl, _, ha, _⟩ := hb.edge
    have hs : h.isSeq = false := by cases h <;> simp_all [Val.isAtom, Val.isSeq]
    show (Backend.addBelief nullBackend src (.tup (h :: t)) ts s).1 = _
    unfold Backend.addBelief beliefEdges
    have : (Val.tup (h :: t)).head0 = .ok h := rfl
    rw [this]
    simp only [bind, Except.bind, hs, Bool.false_eq_true, if_false]
    rfl
  | addBeliefs src es ts =>
    obtain ⟨hne, hes⟩ := ho
    cases es with
    | nil => contradiction
    | cons e es =>
      have hb : BeliefOver V src e := hes e (by simp)
      obtain ⟨h, t, rfl, _, ha, _⟩ := hb.edge
      show (Backend.addBelief nullBackend src (.seq true (.tup (h :: t) :: es)) ts s).1 = _
      unfold Backend.addBelief beliefEdges
      have : (Val.seq true (Val.tup (h :: t) :: es)).head0 = .ok (.tup (h :: t)) := rfl
      rw [this]
      rfl
  | _ => rfl

example : ∀ op ∈ exOps, op.Over PlainVocab := exOps_over

/-! The calls of a history are the same for every backend: with the SQL backend they are the calls of
`Model/History.lean`. -/

section
variable [DecidableEq F]

theorem Query.runOn_sql (q : Query F) : q.runOn sqlBackend = q.run := by
  cases q with
  | sources e =>
    show Call.bind ((sqlBackend (F := F)).sources e) _ = M.bind (hgSources e) _
    rw [sql_sources]; exact Call.bind_eq _ _
  | _ => exact Call.bind_eq _ _

theorem Prim.runOn_sql (p : Prim F) : p.runOn sqlBackend = p.run := by
  cases p with
  | add e ts => exact Call.bind_eq _ _
  | removeByPattern ps => exact sql_removeByPattern _
  | removeBelief src e => exact sql_removeBelief _ _
  | query q => exact q.runOn_sql
  | _ => rfl

/-- C43: what the calls of a history do differs between backends only through the methods of the backend. -/
theorem C43_same_calls (o : Op F) : o.runOn sqlBackend = o.run := by
  cases o with
  | prim p => exact p.runOn_sql
  | addBelief src e ts => exact sql_addBelief _ _ _
  | addBeliefs src es ts => exact sql_addBelief _ _ _
  | batch ps =>
    show sqlBatchExec (ps.map (Prim.runOn sqlBackend)) = hgBatchExec (ps.map Prim.run)
    have : Prim.runOn (sqlBackend (F := F)) = Prim.run := funext Prim.runOn_sql
    rw [this]; rfl
  | _ => exact Call.bind_eq _ _

end

end GB
