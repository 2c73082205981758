import Verif.Model.MyStatements
import Verif.Proofs.StmActs

/-! The methods statement by statement are those of Model/MySql.lean. -/

set_option linter.unusedSectionVars false

namespace GB

variable {F : Type} [PyFloat F] [DecidableEq F]

theorem run_myVertex (k : Nat) (id : Str) (deg ts : Int) :
    (cMyUpdateOrInsertVertex k id deg ts).run = myUpdateOrInsertVertex k id deg ts := by
  unfold cMyUpdateOrInsertVertex myUpdateOrInsertVertex
  simp only [Conn.run_bind, Conn.run_open, Conn.run_write, Conn.run_close, Conn.run_ite, Conn.run_pure]

theorem run_myPerm (k : Nat) (id : Str) : (cMyUpdateOrInsertPerm k id).run = myUpdateOrInsertPerm k id := by
  unfold cMyUpdateOrInsertPerm myUpdateOrInsertPerm
  simp only [Conn.run_bind, Conn.run_open, Conn.run_write, Conn.run_close, Conn.run_ite, Conn.run_pure]

theorem run_myAddVert (k : Nat) (ts : Int) (v : Val F) : (cMyAddVert k ts v).run = myAddVert k ts v := by
  unfold cMyAddVert myAddVert
  have h : (cMyAddStr k (edge2str v) 1 ts).run = myAddStr k (edge2str v) 1 ts := run_myVertex k _ 1 ts
  simp only [Conn.run_bind, run_inc, h, Conn.run_ite, Conn.run_pure]

theorem run_myAddRaw (k : Nat) (e : Val F) (ts : Int) : (cMyAddRaw k e ts).run = (do let _ ← myAddRaw k e ts) := by
  have hw : ∀ t, (cMyWritePerm (F := F) k t).run = myWriteEdgePermutation (F := F) k t := fun t => run_myPerm k _
  have hs : ∀ t d, (cMyAddStr k t d ts).run = myAddStr k t d ts := fun t d => run_myVertex k t d ts
  unfold cMyAddRaw myAddRaw
  rw [Conn.run_bind, run_exists, M.bind_assoc']
  congr 1
  funext b
  cases b with
  | true => rfl
  | false =>
    show (cMyAddNew k e ts).run = _
    unfold cMyAddNew
    simp only [Conn.run_bind, Conn.run_lift, hs, Conn.run_each fun v _ => run_myAddVert k ts v, run_perms hw,
      Bool.not_false, if_true, M.bind_assoc', myWriteEdgePermutations]
    congr 1
    funext vs
    congr 1
    funext _
    congr 1
    funext _
    funext s
    show _ = M.bind _ _ s
    unfold M.bind
    cases doWithEdgePermutations vs (myWriteEdgePermutation (F := F) k) s with
    | mk r t => cases r <;> rfl

theorem run_myAdd (k : Nat) (e : Val F) (ts : Int) : (cMyAdd k e ts).run = (do let _ ← myAdd k e ts) := by
  unfold cMyAdd myAdd
  rw [Conn.run_bind, Conn.run_lift, M.bind_assoc']
  congr 1
  funext f
  rw [Conn.run_ite]
  cases hf : f.isSeq with
  | false =>
    simp only [Bool.false_eq_true, if_false]
    rw [run_myAddRaw, M.bind_assoc']
    rfl
  | true =>
    simp only [if_true, Conn.run_bind, Conn.run_open, Conn.run_lift, Conn.run_close, M.bind_assoc',
      Conn.run_each fun x _ => run_myAddRaw k x ts]
    congr 1
    funext _
    congr 1
    funext es
    congr 1
    funext _
    funext s
    show _ = M.bind _ _ s
    unfold M.bind
    cases closeCursor false true s with
    | mk r t => cases r <;> rfl

theorem run_myAct (k : Nat) (a : PAct F) : (a.myConn k).run = a.op.myRun k := by
  have hb : ∀ (src e : Val F) (ts : Int), (cMyAddBelief k src e ts).run = myAddBelief k src e ts := by
    intro src e ts
    unfold cMyAddBelief myAddBelief
    rw [Conn.run_bind, Conn.run_lift]
    simp only [run_myAdd]
  cases a with
  | add e ts => exact run_myAdd k e ts
  | addMany es ts => exact run_myAdd k _ ts
  | remove e => exact run_act (.remove e)
  | removeMany es => exact run_act (.removeMany es)
  | removeByPattern ps => exact run_act (.removeByPattern ps)
  | addBelief src e ts => exact hb _ _ _
  | addBeliefs src es ts => exact hb _ _ _
  | removeBelief src e => exact run_act (.removeBelief src e)

/-- Under autocommit, the statements of a single client do what the method does. -/
theorem auto_exec {α : Type} (p : Stm (Except PyErr α × Option Bool)) (s : St) (ha : s.autocommit = true) :
    (p.auto.run s.work) = ((p.exec s).1, (p.exec s).2.work) := by
  induction p generalizing s with
  | ret b => rfl
  | read k ih => exact ih s.work s ha
  | write u k e ih1 ih2 =>
    cases hu : u s.work with
    | none =>
      rw [Stm.exec_refused hu]
      show Proc.run (if (u s.work).isSome then _ else _) ((u s.work).getD s.work) = _
      rw [hu]
      exact ih2 s ha
    | some w =>
      rw [Stm.exec_write hu]
      show Proc.run (if (u s.work).isSome then _ else _) ((u s.work).getD s.work) = _
      rw [if_pos ha, hu]
      exact ih1 s.work (St.commit { s with work := w }) ha
  | commit k ih => exact ih s.commit ha

end GB
