import Verif.Proofs.Lazy
import Verif.Props.Graph

/-
C76: `f_all` as a lazy sequence, with calls between its values and in its function.
-/

namespace GB

variable {F : Type} [PyFloat F] [DecidableEq F] {V : Val F → Prop} {β : Type}

/-- C76: the reading calls of this model, with every cursor operation, are the methods all other properties speak of:
same result or exception, same effect on the connection, inside a batch or not and whatever rows are unread. -/
theorem C76_same_calls (c : RCall F) (l : Live) : (c.live l).1 = (c.run l.st).1 ∧ (c.live l).2.st = (c.run l.st).2 :=
  agree_call c l

/-- C76: a program that starts after any history and makes any number of `f_all` sequences, asks them in any order, makes
reading calls between, enters and leaves batches and changes the graph, sees exactly what the specification says: each
sequence lists the vertices at its first `next`; the functions may read the graph, raise, and handle exceptions.
Conditions (`FairActs`): no sequence is first asked inside a batch, and with SQLite no operation is made while a sequence
is underway. -/
theorem C76_lazy (hV : Vocab V) (ops : List (Op F)) (hops : ∀ op ∈ ops, op.Over V) (auto : Bool) (s : St)
    (hs : runOps ops (St.new auto) = (.ok (), s)) (as : List (Act F β)) (hf : FairActs as s [])
    (ho : ∀ a ∈ as, ∀ o, a.op? = some o → o.Over V) :
    (runActs as ⟨⟨s, [], 0⟩, []⟩).1 = (specActs as s []).1 ∧
      (runActs as ⟨⟨s, [], 0⟩, []⟩).2.live.st = (specActs as s []).2.1 := by
  have h := shows_of hV hops hs
  have hself : ({ s with cur := none } : St) = s := by
    have := h.idle
    cases s; cases this; rfl
  exact acts_spec hV as rfl ⟨_, by rw [hself]; exact h⟩ ⟨rfl, fun i g q h1 _ => by simp at h1⟩ hf ho

/-- C76: reading only.  After any history there is a list of the known vertices, each once and with the degree that
`degree` reports, such that in every program that makes sequences, asks them in any order and makes reading calls, the
values a sequence hands out are its function's values for those vertices in that order, then `StopIteration` as often as
it is asked; here `b` is what the function returns for a vertex when it is called with no sequence around.  The graph is
as before. -/
theorem C76_values (hV : Vocab V) (ops : List (Op F)) (hops : ∀ op ∈ ops, op.Over V) (auto : Bool) (s : St)
    (hs : runOps ops (St.new auto) = (.ok (), s)) :
    ∃ L : List (Val F × Int), (L.map Prod.fst).Nodup ∧
      (∀ v, v ∈ L.map Prod.fst ↔ ((Spec.after ops).known v).isSome = true) ∧
      (∀ p ∈ L, hgDegree p.1 s = (.ok p.2, s)) ∧
      ∀ (f : Val F → Int → RProg F β) (b : Val F × Int → β), (∀ vd ∈ L, ((f vd.1 vd.2).run s).1 = .ok (b vd)) →
      ∀ (pre post : List (Act F β)), (∀ a ∈ pre ++ post, a.reads = true) → asks (makes pre) pre = 0 →
        gots (makes pre) (pre ++ .make f :: post) (runActs (pre ++ .make f :: post) ⟨⟨s, [], 0⟩, []⟩).1 =
          (List.range (asks (makes pre) post)).map (valueAt b L) ∧
        (runActs (pre ++ .make f :: post) ⟨⟨s, [], 0⟩, []⟩).2.live.st = s := by
  obtain ⟨L, h1, h2, h3, h4⟩ := C26_f_all hV ops hops auto s hs (fun (v : Val F) (d : Int) => (v, d))
  refine ⟨L, h2, h3, h4, ?_⟩
  intro f b hb pre post hr hpre
  have hidle := (shows_of hV hops hs).idle
  have hr' : ∀ a ∈ pre ++ .make f :: post, a.reads = true := by
    intro a ha
    rcases List.mem_append.1 ha with h | h
    · exact hr a (List.mem_append_left _ h)
    · rcases List.mem_cons.1 h with rfl | h
      · rfl
      · exact hr a (List.mem_append_right _ h)
  obtain ⟨e1, e2⟩ := C76_lazy hV ops hops auto s hs (pre ++ .make f :: post) (fair_reads _ hr' hidle _) (by
    intro a ha o ho
    have := hr' a ha
    cases a <;> simp_all [Act.reads, Act.op?])
  rw [e1, e2]
  refine ⟨?_, spec_state _ hr' hidle _⟩
  have hvs : verticesNow s = L := by
    unfold verticesNow
    rw [h1]
    simp
  have hlen := specActs_makes pre s ([] : List (Seq F β))
  have hst := spec_state pre (fun a ha => hr a (List.mem_append_left _ ha)) hidle ([] : List (Seq F β))
  simp only [List.length_nil, Nat.zero_add] at hlen
  rw [specActs_append, gots_append _ _ _ _ _ (specActs_length ..), gots_none _ _ hpre, List.nil_append, hst]
  show gots _ (Act.make f :: post) (_ :: (specActs post s ((specActs pre s []).2.2 ++ [.fresh f])).1) = _
  show gots _ post _ = _
  rw [gots_spec (f := f) (i := makes pre) hidle hvs hb post (fun a ha => hr a (List.mem_append_right _ ha)) 0
    ((specActs pre s []).2.2 ++ [Seq.fresh f]) (by simp [hlen]) (Or.inl ⟨rfl, by rw [← hlen]; simp⟩)]
  apply List.map_congr_left
  intro j _
  rw [Nat.zero_add]

/-- C76: a sequence made before changes and first asked after them lists the vertices there are then. -/
theorem C76_late (hV : Vocab V) (ops ops' : List (Op F)) (hops : ∀ op ∈ ops ++ ops', op.Over V) (auto : Bool) (s s' : St)
    (hs : runOps ops (St.new auto) = (.ok (), s)) (hs' : runOps ops' s = (.ok (), s')) (rest : Nat → List Fetched)
    (f : Val F → Int → RProg F β) (b : Val F × Int → β)
    (hb : ∀ vd ∈ verticesNow s', ((f vd.1 vd.2).run s').1 = .ok (b vd)) (n : Nat) :
    (runActs (.make f :: ops'.map (fun o => .op o rest) ++ List.replicate n (.next 0)) ⟨⟨s, [], 0⟩, []⟩).1 =
      List.replicate (ops'.length + 1) (.unit (.ok ())) ++ (List.range n).map (valueAt b (verticesNow s')) := by
  have h0 := shows_of hV (fun o ho => hops o (List.mem_append_left _ ho)) hs
  have hspec : ∀ (os : List (Op F)) (S : Spec F) (t t' : St), (∀ o ∈ os, o.Over V) → Shows V t S →
      runOps os t = (.ok (), t') → t'.cur = none ∧
      FairActs (os.map (fun o => Act.op o rest)) t [Seq.fresh f] ∧
      specActs (os.map (fun o => Act.op o rest)) t [Seq.fresh f] =
        (List.replicate os.length (.unit (.ok ())), t', [Seq.fresh f]) := by
    intro os
    induction os with
    | nil => intro S t t' _ h e; cases e; exact ⟨h.idle, trivial, rfl⟩
    | cons o os ih =>
      intro S t t' ho h e
      obtain ⟨t1, e1, h1⟩ := h.ops hV (ops := [o]) (fun x hx => ho x (by simp_all))
      have e1' : o.run t = (.ok (), t1) := by
        unfold runOps forEach at e1
        cases hr : o.run t with
        | mk r u =>
          cases r with
          | ok x => rw [bind_run _ _ _ hr] at e1; cases e1; rfl
          | error x => rw [bind_err _ _ _ hr] at e1; cases e1
      have e2 : runOps os t1 = (.ok (), t') := by
        unfold runOps forEach at e
        rw [bind_run _ _ _ e1'] at e
        exact e
      obtain ⟨i1, i2, i3⟩ := ih _ t1 t' (fun x hx => ho x (by simp [hx])) h1 e2
      have hsp : (Act.op o rest).spec t [Seq.fresh f] = (.unit (.ok ()), t1, [Seq.fresh f]) := by
        unfold Act.spec; simp only [e1']
      refine ⟨i1, ⟨⟨h.idle, fun _ q hq => ?_⟩, ?_⟩, ?_⟩
      · rw [List.mem_singleton.1 hq]; rfl
      · rw [hsp]; exact i2
      · show ((Act.op o rest).spec t [Seq.fresh f]).1 :: _ |> fun x => (x, _) = _
        rw [hsp]
        simp only
        rw [i3]; rfl
  obtain ⟨c1, c2, c3⟩ := hspec ops' _ s s' (fun o ho => hops o (List.mem_append_right _ ho)) h0 hs'
  have hrd : ∀ a ∈ List.replicate n (Act.next (F := F) (β := β) 0), a.reads = true := by
    intro a ha; rw [List.eq_of_mem_replicate ha]; rfl
  have hask : asks 0 (List.replicate n (Act.next (F := F) (β := β) 0)) = n := by
    induction n with
    | zero => rfl
    | succ n ih =>
      rw [List.replicate_succ]
      have := ih (fun a ha => by rw [List.eq_of_mem_replicate ha]; rfl)
      simp [asks, this]
  have hfair : ∀ (as : List (Act F β)) (t : St) (qs : List (Seq F β)), FairActs as t qs →
      ∀ bs, FairActs bs (specActs as t qs).2.1 (specActs as t qs).2.2 → FairActs (as ++ bs) t qs := by
    intro as
    induction as with
    | nil => intro t qs _ bs hb; exact hb
    | cons a as ih => intro t qs h bs hb; exact ⟨h.1, ih _ _ h.2 bs hb⟩
  obtain ⟨e1, _⟩ := C76_lazy hV ops (fun o ho => hops o (List.mem_append_left _ ho)) auto s hs
    (.make f :: ops'.map (fun o => .op o rest) ++ List.replicate n (.next 0))
    (hfair (.make f :: ops'.map (fun o => .op o rest)) s [] ⟨trivial, c2⟩ _ (by
      show FairActs _ (specActs (ops'.map (fun o => Act.op o rest)) s [Seq.fresh f]).2.1 _
      rw [c3]; exact fair_reads _ hrd c1 _)) (by
      intro a ha o ho
      rcases List.mem_append.1 ha with ha | ha
      · rcases List.mem_cons.1 ha with rfl | ha
        · cases ho
        · obtain ⟨o', ho', rfl⟩ := List.mem_map.1 ha
          cases ho
          exact hops _ (List.mem_append_right _ ho')
      · rw [List.eq_of_mem_replicate ha] at ho; cases ho)
  rw [e1]
  show (Out.unit (.ok ())) :: (specActs (ops'.map (fun o => Act.op o rest) ++ List.replicate n (.next 0)) s [Seq.fresh f]).1 = _
  rw [specActs_append, c3]
  have hg := gots_spec (f := f) (i := 0) c1 rfl hb (List.replicate n (.next 0)) hrd 0 [Seq.fresh f] (by simp) (Or.inl ⟨rfl, rfl⟩)
  have hall : ∀ (n : Nat) (os : List (Out F β)), os.length = n → gots 0 (List.replicate n (.next 0)) os = os := by
    intro n
    induction n with
    | zero => intro os h; rw [List.length_eq_zero_iff.1 h]; rfl
    | succ n ih =>
      intro os h
      cases os with
      | nil => cases h
      | cons o os =>
        rw [List.replicate_succ]
        simp only [gots, if_true]
        rw [ih os (by simpa using h)]
  rw [hall n _ (by rw [specActs_length]; simp), hask] at hg
  rw [hg, List.replicate_succ, List.cons_append]
  simp only
  congr 2
  apply List.map_congr_left
  intro j _
  rw [Nat.zero_add]

/-- C76: consuming a sequence inside the batch it was made in, with nothing between and a function that does not use the
graph, gives every vertex. -/
theorem C76_batch_alone (hV : Vocab V) (ops : List (Op F)) (hops : ∀ op ∈ ops, op.Over V) (auto : Bool) (s : St)
    (hs : runOps ops (St.new auto) = (.ok (), s)) (f : Val F → Int → RProg F β) (b : Val F × Int → β)
    (hf : ∀ v d, f v d = .ret (b (v, d))) (n : Nat) :
    (runActs (.enter :: .make f :: List.replicate n (.next 0)) ⟨⟨s, [], 0⟩, []⟩).1 =
      .unit (.ok ()) :: .unit (.ok ()) :: (List.range n).map (valueAt b (verticesNow s)) := by
  have h := shows_of hV hops hs
  have hrows := rows_vertices (F := F) (V := V) (s := s) ⟨_, by
    have := h.idle
    cases s; cases this; exact h⟩ h.idle
  have hen : openCursor false s = (.ok .shared, { s with cur := some true }) := by
    unfold openCursor; rw [h.idle]; rfl
  have h1 : Act.run (⟨⟨s, [], 0⟩, []⟩ : Prg F β) .enter = (.unit (.ok ()), ⟨⟨{ s with cur := some true }, [], 0⟩, []⟩) := by
    unfold Act.run
    simp only [hen, ite_self]
  unfold runActs
  simp only [h1]
  unfold runActs
  simp only [Act.run, List.nil_append]
  congr 2
  cases n with
  | zero => rfl
  | succ n =>
    rw [← shared_takes hf (n + 1) (t := { s with cur := some true }) rfl hrows, List.replicate_succ]
    have hg := genNext_new (f := f) (l := ⟨{ s with cur := some true }, [], 0⟩) rfl
    unfold runActs
    have hstep : Act.run (⟨⟨{ s with cur := some true }, [], 0⟩, [.new f]⟩ : Prg F β) (.next 0) =
        Act.run (⟨⟨{ s with cur := some true }, s.work.vertexRows, 0⟩, [.shared f 0]⟩ : Prg F β) (.next 0) := by
      unfold Act.run
      simp only [List.getElem?_cons_zero, hg]
      rfl
    rw [hstep]

theorem runActs_cons (a : Act F β) (as : List (Act F β)) (p : Prg F β) :
    runActs (a :: as) p = ((a.run p).1 :: (runActs as (a.run p).2).1, (runActs as (a.run p).2).2) := rfl

/-- The state of a program that, inside a batch, made a sequence over at least one vertex and took its first value. -/
theorem batch_start (hV : Vocab V) (ops : List (Op F)) (hops : ∀ op ∈ ops, op.Over V) (auto : Bool) (s : St)
    (hs : runOps ops (St.new auto) = (.ok (), s)) (f : Val F → Int → RProg F β) (b : Val F × Int → β)
    (hf : ∀ v d, f v d = .ret (b (v, d))) (vd : Val F × Int) (left : List (Val F × Int))
    (hvs : verticesNow s = vd :: left) : ∃ rows, ∀ as,
    (runActs (.enter :: .make f :: .next 0 :: as) ⟨⟨s, [], 0⟩, []⟩).1 =
      .unit (.ok ()) :: .unit (.ok ()) :: .got (.ok (some (b vd))) ::
        (runActs as (⟨⟨{ s with cur := some true }, rows, 0⟩, [.shared f 0]⟩ : Prg F β)).1 := by
  have h := shows_of hV hops hs
  have hrows := rows_vertices (F := F) (V := V) (s := s) ⟨_, by
    have := h.idle
    cases s; cases this; exact h⟩ h.idle
  have hen : openCursor false s = (.ok .shared, { s with cur := some true }) := by
    unfold openCursor; rw [h.idle]; rfl
  have h1 : Act.run (⟨⟨s, [], 0⟩, []⟩ : Prg F β) .enter = (.unit (.ok ()), ⟨⟨{ s with cur := some true }, [], 0⟩, []⟩) := by
    unfold Act.run
    simp only [hen, ite_self]
  cases hr : s.work.vertexRows with
  | nil =>
    rw [hr, hvs] at hrows
    cases hrows
  | cons r rows =>
    rw [hr, hvs] at hrows
    obtain ⟨vd', left', e1, e2, e3⟩ := mapE_cons_ok hrows
    cases e3
    refine ⟨rows, fun as => ?_⟩
    have hg := genNext_shared (β := β) hf (l := ⟨{ s with cur := some true }, [], 0⟩) rfl hr e1
    have hstep : Act.run (⟨⟨{ s with cur := some true }, [], 0⟩, [.new f]⟩ : Prg F β) (.next 0) =
        (.got (.ok (some (b vd))), ⟨⟨{ s with cur := some true }, rows, 0⟩, [.shared f 0]⟩) := by
      unfold Act.run
      simp only [List.getElem?_cons_zero, hg]
      rfl
    rw [runActs_cons, h1, runActs_cons]
    show _ :: _ :: (runActs (.next 0 :: as) (⟨⟨{ s with cur := some true }, [], 0⟩, [.new f]⟩ : Prg F β)).1 = _
    rw [runActs_cons, hstep]
    rfl

/-- C76, why a sequence must not be first asked inside a batch: after any reading call that returns, other than `degree`
and `timestamp`, it stops without an error, whatever vertices were left. -/
theorem C76_batch_cut_counterexample (hV : Vocab V) (ops : List (Op F)) (hops : ∀ op ∈ ops, op.Over V) (auto : Bool)
    (s : St) (hs : runOps ops (St.new auto) = (.ok (), s)) (f : Val F → Int → RProg F β) (b : Val F × Int → β)
    (hf : ∀ v d, f v d = .ret (b (v, d))) (vd : Val F × Int) (left : List (Val F × Int))
    (hvs : verticesNow s = vd :: left) (c : RCall F) (hc : c.looks = false) (a : Ans F)
    (ha : (c.run { s with cur := some true }).1 = .ok a) :
    (runActs [.enter, .make f, .next 0, .call c, .next 0] ⟨⟨s, [], 0⟩, []⟩).1 =
      [.unit (.ok ()), .unit (.ok ()), .got (.ok (some (b vd))), .answer (.ok a), .got (.ok none)] := by
  obtain ⟨rows, h⟩ := batch_start hV ops hops auto s hs f b hf vd left hvs
  rw [h]
  obtain ⟨g1, _⟩ := agree_call c ⟨{ s with cur := some true }, rows, 0⟩
  have g1' : (c.live ⟨{ s with cur := some true }, rows, 0⟩).1 = .ok a := g1.trans ha
  obtain ⟨d1, d2, d3⟩ := drains_call c hc ⟨{ s with cur := some true }, rows, 0⟩ a rfl g1'
  have hcall : c.live ⟨{ s with cur := some true }, rows, 0⟩ = (.ok a, ⟨{ s with cur := some true }, [], 0⟩) := by
    cases hx : c.live ⟨{ s with cur := some true }, rows, 0⟩ with
    | mk r l =>
      rw [hx] at g1' d1 d2 d3
      cases l
      simp only at g1' d1 d2 d3
      rw [g1', d1, d2, d3]
  have hlost : (⟨{ s with cur := some true }, [], 0⟩ : Live).lost 0 = false := by unfold Live.lost; simp
  have hg : genNext (.shared f 0) (⟨{ s with cur := some true }, [], 0⟩ : Live) =
      (.ok none, .done, ⟨{ s with cur := some true }, [], 0⟩) := by
    have hfe : lFetch .shared [] (⟨{ s with cur := some true }, [], 0⟩ : Live) =
        (.ok (none, []), ⟨{ s with cur := some true }, [], 0⟩) := by unfold lFetch; simp
    have hcl : lOn (closeCursor true false) (⟨{ s with cur := some true }, [], 0⟩ : Live) =
        (.ok (), ⟨{ s with cur := some true }, [], 0⟩) := by
      unfold lOn; rw [closeCursor_local]
    unfold genNext
    simp only [hlost, Bool.false_eq_true, if_false, hfe]
    unfold genTurn
    simp only [hcl]
  simp only [runActs, Act.run, hcall, List.getElem?_cons_zero, hg]

/-- C76, the same with `degree` or `timestamp` of a known vertex between: the sequence raises `ProgrammingError`. -/
theorem C76_batch_closed_counterexample (hV : Vocab V) (ops : List (Op F)) (hops : ∀ op ∈ ops, op.Over V) (auto : Bool)
    (s : St) (hs : runOps ops (St.new auto) = (.ok (), s)) (f : Val F → Int → RProg F β) (b : Val F × Int → β)
    (hf : ∀ v d, f v d = .ret (b (v, d))) (vd : Val F × Int) (left : List (Val F × Int))
    (hvs : verticesNow s = vd :: left) (v : Val F) (hv : s.work.selectVertex (edge2str v) ≠ []) (c : RCall F)
    (hc : c = .degree v ∨ c = .timestamp v) :
    ∃ n, (runActs [.enter, .make f, .next 0, .call c, .next 0] ⟨⟨s, [], 0⟩, []⟩).1 =
      [.unit (.ok ()), .unit (.ok ()), .got (.ok (some (b vd))), .answer (.ok (.int n)),
        .got (.error .programmingError)] := by
  obtain ⟨rows, h⟩ := batch_start hV ops hops auto s hs f b hf vd left hvs
  have look : ∀ (sel : VRow → Int) (dflt : Int), ∃ n un,
      lLook sel dflt v ⟨{ s with cur := some true }, rows, 0⟩ = (.ok n, ⟨{ s with cur := some false }, un, 0⟩) := by
    intro sel dflt
    cases hsel : s.work.selectVertex (edge2str v) with
    | nil => exact absurd hsel hv
    | cons r rs =>
      refine ⟨sel r, rs.map fun r => .num (sel r), ?_⟩
      unfold lLook
      rw [lbind_ok _ _ _ (lopen_shared (l := ⟨{ s with cur := some true }, rows, 0⟩) rfl),
        lbind_ok _ _ _ (lselect_shared (l := ⟨{ s with cur := some true }, rows, 0⟩) rfl _)]
      simp only [hsel, List.map_cons]
      rfl
  have hcall : ∃ n un, c.live ⟨{ s with cur := some true }, rows, 0⟩ =
      (.ok (.int n), ⟨{ s with cur := some false }, un, 0⟩) := by
    rcases hc with rfl | rfl
    · obtain ⟨n, un, e⟩ := look VRow.degree 0
      exact ⟨n, un, lbind_ok _ _ _ e⟩
    · obtain ⟨n, un, e⟩ := look VRow.timestamp (-1)
      exact ⟨n, un, lbind_ok _ _ _ e⟩
  obtain ⟨n, un, hcall⟩ := hcall
  refine ⟨n, ?_⟩
  rw [h]
  have hlost : (⟨{ s with cur := some false }, un, 0⟩ : Live).lost 0 = false := by unfold Live.lost; simp
  have hg : genNext (.shared f 0) (⟨{ s with cur := some false }, un, 0⟩ : Live) =
      (.error .programmingError, .done, ⟨{ s with cur := some false }, un, 0⟩) := by
    have hfe : lFetch .shared [] (⟨{ s with cur := some false }, un, 0⟩ : Live) =
        (.error .programmingError, ⟨{ s with cur := some false }, un, 0⟩) := by unfold lFetch; simp
    unfold genNext
    simp only [hlost, Bool.false_eq_true, if_false, hfe]
  simp only [runActs, Act.run, hcall, List.getElem?_cons_zero, hg]

/-- C76: a sequence taken out of the batch it was first asked in raises `ProgrammingError` at the next `next`, also inside
a later batch. -/
theorem C76_batch_left_counterexample (hV : Vocab V) (ops : List (Op F)) (hops : ∀ op ∈ ops, op.Over V) (auto : Bool)
    (s : St) (hs : runOps ops (St.new auto) = (.ok (), s)) (f : Val F → Int → RProg F β) (b : Val F × Int → β)
    (hf : ∀ v d, f v d = .ret (b (v, d))) (vd : Val F × Int) (left : List (Val F × Int))
    (hvs : verticesNow s = vd :: left) :
    (runActs [.enter, .make f, .next 0, .leave, .next 0] ⟨⟨s, [], 0⟩, []⟩).1 =
      [.unit (.ok ()), .unit (.ok ()), .got (.ok (some (b vd))), .unit (.ok ()), .got (.error .programmingError)] ∧
    (runActs [.enter, .make f, .next 0, .leave, .enter, .next 0] ⟨⟨s, [], 0⟩, []⟩).1 =
      [.unit (.ok ()), .unit (.ok ()), .got (.ok (some (b vd))), .unit (.ok ()), .unit (.ok ()),
        .got (.error .programmingError)] := by
  obtain ⟨rows, h⟩ := batch_start hV ops hops auto s hs f b hf vd left hvs
  refine ⟨?_, ?_⟩
  · rw [h]; rfl
  · rw [h]; rfl

/-! ### Examples -/

/-- A function that asks for the star of the vertex and its degree. -/
def exLook (v : HVal) (d : Int) : RProg Half (Nat × Bool) :=
  .call (.star v) fun r => .call (.degree v) fun r' => .ret
    (match r with | .ok (.edges es) => es.length | _ => 0, decide (r' = .ok (.int d)))

/-- Two sequences asked alternately, with calls between, over a graph with a nested edge. -/
def exLazy : List (Act Half (Nat × Bool)) :=
  [.make exLook, .next 0, .make exLook, .next 0, .call (.exists exE1), .next 1, .next 0, .call (.degree (sy "sky/1")), .next 1,
    .next 5]

example : ((runOps exOps >>= fun _ => fun s => (.ok (runActs exLazy ⟨⟨s, [], 0⟩, []⟩).1, s)) (St.new false)).1 =
    .ok [.unit (.ok ()), .got (.ok (some (1, true))), .unit (.ok ()), .got (.ok (some (2, true))), .answer (.ok (.bool true)),
      .got (.ok (some (1, true))), .got (.ok (some (1, true))), .answer (.ok (.int 2)), .got (.ok (some (2, true))),
      .got (.error .keyError)] := by decide +kernel

/-- It satisfies the conditions. -/
example (s : St) (hc : s.cur = none) : FairActs exLazy s [] := fair_reads _ (by decide) hc _

/-- A program that changes the graph while a sequence is underway satisfies the conditions with MySQL. -/
example (s : St) (hc : s.cur = none) (ha : s.autocommit = true) (rest : Nat → List Fetched) :
    FairActs [.make exLook, .next 0, .op (.prim (.add exE1 7)) rest] s [] := by
  refine ⟨trivial, fun _ => hc, ⟨?_, ?_⟩, trivial⟩
  · rw [spec_reads _ rfl hc, spec_reads _ rfl]
    · exact hc
    · exact hc
  · intro h
    rw [spec_reads _ rfl (by rw [spec_reads _ rfl hc]; exact hc), spec_reads _ rfl hc] at h
    rw [ha] at h; cases h

/-- Inside a batch the same function ends the sequence after the first vertex. -/
example : ((runOps exOps >>= fun _ => fun s => (.ok (runActs (.enter :: exLazy) ⟨⟨s, [], 0⟩, []⟩).1, s)) (St.new false)).1 =
    .ok [.unit (.ok ()), .unit (.ok ()), .got (.ok (some (1, true))), .unit (.ok ()), .got (.error .programmingError),
      .answer (.error .programmingError), .got (.error .programmingError), .got (.ok none),
      .answer (.error .programmingError), .got (.ok none), .got (.error .keyError)] := by decide +kernel

/-- The hypotheses of the batch theorems hold after `exOps`. -/
example : ∃ s vd left, runOps exOps (St.new false) = (.ok (), s) ∧ verticesNow (F := Half) s = vd :: left ∧ left ≠ [] ∧
    (RCall.run (.exists exE1) { s with cur := some true }).1 = .ok (.bool true) := by
  refine ⟨(runOps exOps (St.new false)).2, (sy "is/1", 1), (verticesNow (F := Half) (runOps exOps (St.new false)).2).tail,
    ?_, ?_, ?_, ?_⟩ <;> decide +kernel

end GB
