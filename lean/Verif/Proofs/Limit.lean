import Verif.Model.Limit
import Verif.Proofs.Server
import Verif.Proofs.MySql
import Verif.Proofs.Repair

/-! Servers with columns of limited length. -/

set_option linter.unusedSectionVars false

namespace GB

variable {F : Type} [PyFloat F] [DecidableEq F] {V : Val F → Prop} {n : Nat} {srv : Server}

theorem limitInsert_fits {t : Str} (h : t.length ≤ n) (m : M Unit) : limitInsert n t m = m := by
  funext s
  unfold limitInsert
  rw [if_pos h]

/-! ### what fits is stored as without limits -/

theorem addStrLim_same {t : Str} (h : t.length ≤ n) (d ts : Int) : addStrOn (srv.limit n) t d ts = addStrOn srv t d ts := by
  unfold addStrOn updateOrInsertVertexOn
  simp only [Server.limit, limitInsert_fits h]

theorem addVertLim_same {x : Val F} (h : (edge2str x).length ≤ n) (ts : Int) :
    addVertOn (srv.limit n) ts x = addVertOn srv ts x := by
  unfold addVertOn
  simp only [addStrLim_same h]
  rfl

theorem writeLim_same {t : Str} (h : t.length ≤ n) :
    writeEdgePermutationOn F (srv.limit n) t = writeEdgePermutationOn F srv t := by
  have h' : (edge2str (F := F) (.str t)).length ≤ n := h
  unfold writeEdgePermutationOn updateOrInsertPermOn
  simp only [Server.limit, limitInsert_fits h']

theorem addRawLim_same {e : Val F} (he : EdgeOver V e) (hf : KeyFits n e) (ts : Int) :
    addRawOn (srv.limit n) e ts = addRawOn srv e ts := by
  have e2 : forEach (addVertOn (srv.limit n) ts) e.elems = forEach (addVertOn srv ts) e.elems :=
    forEach_congr fun x hx => addVertLim_same (hf.elem he x hx) ts
  have e4 : writeEdgePermutationsOn (srv.limit n) e.elems = writeEdgePermutationsOn srv e.elems := by
    unfold writeEdgePermutationsOn
    rw [doWithPerms_eq he.elems_ne, doWithPerms_eq he.elems_ne]
    exact forEach_congr fun t ht => writeLim_same (hf.rows he t ht)
  unfold addRawOn
  rw [iter_edge he]
  simp only [liftE_bind, e2, addStrLim_same hf.text, e4]
  rfl

theorem addLim_same {e : Val F} (he : EdgeOver V e) (hf : KeyFits n e) (ts : Int) :
    hgAddOn (srv.limit n) e ts = hgAddOn srv e ts := by
  obtain ⟨h, hh, hs⟩ := head0_edge he
  rw [addOn_single hh hs, addOn_single hh hs, addRawLim_same he hf]

theorem addManyLim_same {c : Bool} {es : List (Val F)} (hne : es ≠ []) (hes : ∀ e ∈ es, EdgeOver V e) (hf : ∀ e ∈ es, KeyFits n e)
    (ts : Int) : hgAddOn (srv.limit n) (.seq c es) ts = hgAddOn srv (.seq c es) ts := by
  obtain ⟨k, hk, hks⟩ := head0_coll (b := c) hne hes
  have : forEach (fun e => (do let _ ← addRawOn (srv.limit n) e ts : M Unit)) es =
      forEach (fun e => (do let _ ← addRawOn srv e ts : M Unit)) es := by
    apply forEach_congr
    intro e he
    rw [addRawLim_same (hes e he) (hf e he)]
  unfold hgAddOn
  rw [hk, show (Val.seq c es).iter = .ok es from rfl]
  simp only [liftE_bind, this, hks, if_true]

theorem Prim.limSame {p : Prim F} (hp : p.Over V) (hf : ∀ e ts, p = .add e ts → KeyFits n e) :
    p.srvRun (srv.limit n) = p.srvRun srv := by
  cases p with
  | add e ts =>
    show (do let _ ← hgAddOn (srv.limit n) e ts : M Unit) = (do let _ ← hgAddOn srv e ts)
    rw [addLim_same hp (hf e ts rfl)]
  | query q => cases q <;> rfl
  | _ => rfl

theorem Op.limSame {op : Op F} (hop : op.Over V) (hf : ∀ e ts, Prim.add e ts ∈ op.steps → KeyFits n e) :
    op.srvRun (srv.limit n) = op.srvRun srv := by
  cases op with
  | prim p => exact Prim.limSame hop fun e ts h => hf e ts (by simp [Op.steps, h])
  | addMany es ts =>
    show (do let _ ← hgAddOn (srv.limit n) (.seq true es) ts : M Unit) = (do let _ ← hgAddOn srv (.seq true es) ts)
    rw [addManyLim_same hop.1 hop.2 fun e he => hf e ts (List.mem_map_of_mem he)]
  | addBelief src e ts =>
    have hb : BeliefOver V src e := hop
    have : hgAddOn (srv.limit n) (.tup [e, support e src]) ts = hgAddOn srv (.tup [e, support e src]) ts := by
      refine addManyLim_same (V := V) (c := false) (es := [e, support e src]) (by simp) ?_ ?_ ts
      · intro x hx
        simp only [List.mem_cons, List.not_mem_nil, or_false] at hx
        rcases hx with rfl | rfl
        · exact hb.edge
        · exact support_over hb
      · intro x hx
        refine hf x ts ?_
        simp only [List.mem_cons, List.not_mem_nil, or_false] at hx
        rcases hx with rfl | rfl <;> simp [Op.steps]
    simp only [Op.srvRun, hgAddBeliefOn]
    rw [beliefEdges_single hb.edge]
    simp only [liftE_bind]
    rw [this]
  | addBeliefs src es ts =>
    have hb : ∀ e ∈ es, BeliefOver V src e := hop.2
    have hne : es.flatMap (fun e => [e, support e src]) ≠ [] := by
      have := hop.1
      cases es with
      | nil => contradiction
      | cons e es => simp
    have hall : ∀ x ∈ es.flatMap (fun e => [e, support e src]), EdgeOver V x ∧ KeyFits n x := by
      intro x hx
      rw [List.mem_flatMap] at hx
      obtain ⟨e, he, hx⟩ := hx
      refine ⟨?_, hf x ts ?_⟩
      · simp only [List.mem_cons, List.not_mem_nil, or_false] at hx
        rcases hx with rfl | rfl
        · exact (hb _ he).edge
        · exact support_over (hb _ he)
      · refine List.mem_flatMap.2 ⟨e, he, ?_⟩
        simp only [List.mem_cons, List.not_mem_nil, or_false] at hx
        rcases hx with rfl | rfl <;> simp
    simp only [Op.srvRun, hgAddBeliefOn]
    rw [beliefEdges_many (src := src) hop.1 (fun e he => (hb e he).edge)]
    simp only [liftE_bind]
    rw [addManyLim_same (c := true) hne (fun x hx => (hall x hx).1) fun x hx => (hall x hx).2]
  | batch ps =>
    show hgBatchExec (ps.map (Prim.srvRun (srv.limit n))) = hgBatchExec (ps.map (Prim.srvRun srv))
    rw [List.map_congr_left fun p hp => Prim.limSame (hop p hp) fun e ts h => hf e ts (by rw [← h]; exact hp)]
  | degree v => rfl
  | timestamp v => rfl

theorem runOpsLim_same (ops : List (Op F)) (hops : ∀ op ∈ ops, op.Over V)
    (hf : ∀ e ts, Prim.add e ts ∈ ops.flatMap Op.steps → KeyFits n e) : runOpsOn (srv.limit n) ops = runOpsOn srv ops := by
  unfold runOpsOn
  exact forEach_congr fun op ho => Op.limSame (hops op ho) fun e ts h => hf e ts (List.mem_flatMap.2 ⟨op, ho, h⟩)

/-! ### otherwise the call stops -/

/-- `a` does what `b` does, or raises `DataError` on the way. -/
def Stops {α : Type} (a b : M α) : Prop := ∀ s, a s = b s ∨ (a s).1 = .error .dataError

theorem Stops.refl {α : Type} (a : M α) : Stops a a := fun _ => .inl rfl

theorem Stops.bind {α β : Type} {a b : M α} {f g : α → M β} (h : Stops a b) (hf : ∀ x, Stops (f x) (g x)) :
    Stops (a >>= f) (b >>= g) := by
  intro s
  cases ha : a s with
  | mk r t =>
    cases r with
    | error e =>
      rw [bind_err _ _ _ ha]
      rcases h s with h | h
      · rw [ha] at h; rw [bind_err _ _ _ h.symm]; exact .inl rfl
      · rw [ha] at h
        injection h with h
        exact .inr (by rw [h])
    | ok x =>
      rw [bind_run _ _ _ ha]
      rcases h s with h | h
      · rw [ha] at h; rw [bind_run _ _ _ h.symm]; exact hf x t
      · rw [ha] at h; cases h

theorem Stops.each {α : Type} {f g : α → M Unit} (xs : List α) (h : ∀ x, Stops (f x) (g x)) :
    Stops (forEach f xs) (forEach g xs) := by
  induction xs with
  | nil => exact Stops.refl _
  | cons x xs ih => exact (h x).bind fun _ => ih

theorem Stops.ite {α : Type} {p : Prop} [Decidable p] {a b a' b' : M α} (h : Stops a b) (h' : Stops a' b') :
    Stops (if p then a else a') (if p then b else b') := by split <;> assumption

theorem stops_insert (t : Str) (m : M Unit) : Stops (limitInsert n t m) m := by
  intro s
  unfold limitInsert
  split
  · exact .inl rfl
  · split
    · exact .inr rfl
    · exact .inr rfl
    · next h => rw [h]; exact .inl rfl

theorem stops_addStr (t : Str) (d ts : Int) : Stops (addStrOn (srv.limit n) t d ts) (addStrOn srv t d ts) :=
  (Stops.refl _).bind fun _ => (Stops.refl _).bind fun _ =>
    Stops.ite ((stops_insert _ _).bind fun _ => Stops.refl _) (Stops.refl _)

theorem stops_write (t : Str) : Stops (writeEdgePermutationOn F (srv.limit n) t) (writeEdgePermutationOn F srv t) :=
  (Stops.refl _).bind fun _ => (Stops.refl _).bind fun _ =>
    Stops.ite ((stops_insert _ _).bind fun _ => Stops.refl _) (Stops.refl _)

theorem stops_addVert (ts : Int) (x : Val F) : Stops (addVertOn (srv.limit n) ts x) (addVertOn srv ts x) :=
  (Stops.refl _).bind fun _ => Stops.ite (stops_addStr _ _ _) (Stops.refl _)

theorem stops_addRaw (e : Val F) (ts : Int) : Stops (addRawOn (srv.limit n) e ts) (addRawOn srv e ts) :=
  (Stops.refl _).bind fun _ => Stops.ite ((Stops.refl _).bind fun verts => (Stops.each verts fun x => stops_addVert ts x).bind fun _ =>
    (stops_addStr _ _ _).bind fun _ => (Stops.each _ fun _ => (Stops.refl _).bind fun _ => stops_write _).bind fun _ => Stops.refl _)
    (Stops.refl _)

theorem stops_add (e : Val F) (ts : Int) : Stops (hgAddOn (srv.limit n) e ts) (hgAddOn srv e ts) :=
  (Stops.refl _).bind fun _ => Stops.ite ((Stops.refl _).bind fun _ => (Stops.refl _).bind fun es =>
    (Stops.each es fun x => (stops_addRaw x ts).bind fun _ => Stops.refl _).bind fun _ => Stops.refl _)
    ((stops_addRaw e ts).bind fun _ => Stops.refl _)

theorem stops_prim (p : Prim F) : Stops (p.srvRun (srv.limit n)) (p.srvRun srv) := by
  cases p with
  | add e ts => exact (stops_add e ts).bind fun _ => Stops.refl _
  | query q => cases q <;> exact Stops.refl _
  | _ => exact Stops.refl _

theorem stops_batch {α : Type} {f g : α → M Unit} (h : ∀ x, Stops (f x) (g x)) (xs : List α) :
    Stops (forEach (fun m => m) (xs.map f)) (forEach (fun m => m) (xs.map g)) := by
  rw [forEach_map, forEach_map]
  exact Stops.each xs h

theorem stops_op (op : Op F) : Stops (op.srvRun (srv.limit n)) (op.srvRun srv) := by
  cases op with
  | prim p => exact stops_prim p
  | addMany es ts => exact (stops_add _ ts).bind fun _ => Stops.refl _
  | addBelief src e ts => exact (Stops.refl _).bind fun _ => (stops_add _ ts).bind fun _ => Stops.refl _
  | addBeliefs src es ts => exact (Stops.refl _).bind fun _ => (stops_add _ ts).bind fun _ => Stops.refl _
  | batch ps => exact (Stops.refl _).bind fun _ => (stops_batch stops_prim ps).bind fun _ => Stops.refl _
  | degree v => exact Stops.refl _
  | timestamp v => exact Stops.refl _

end GB
