import Verif.Model.Queries
import Verif.Model.Params
import Verif.Model.Backend
import Verif.Proofs.View
import Verif.Spec.WitnessHist

/-
Properties C44, C45 (queries.py) and C49 (choice of the backend).
-/

set_option linter.unusedSectionVars false

namespace GB

/-! ### C45 -/

section
variable {α : Type} [DecidableEq α]

theorem WMap.get_set (m : WMap α) (a b : α) (n : Nat) :
    (m.set a n).get b = if b = a then some n else m.get b := by
  unfold WMap.set WMap.get
  by_cases h : (m.any fun kv => kv.1 = a) = true
  · rw [if_pos h, List.find?_map]
    have hcomp : ((fun kv : α × Nat => decide (kv.1 = b)) ∘ fun kv => if kv.1 = a then (a, n) else kv) =
        fun kv => decide (kv.1 = b) := by
      funext kv
      simp only [Function.comp]
      by_cases hk : kv.1 = a
      · simp [hk]
      · simp [hk]
    rw [hcomp]
    by_cases hb : b = a
    · subst hb
      rw [if_pos rfl]
      rw [List.any_eq_true] at h
      cases hf : m.find? (fun kv => decide (kv.1 = b)) with
      | none =>
        rw [List.find?_eq_none] at hf
        obtain ⟨kv, h1, h2⟩ := h
        exact absurd h2 (hf kv h1)
      | some kv =>
        have := List.find?_some hf
        simp only [decide_eq_true_eq] at this
        simp [this]
    · rw [if_neg hb]
      cases hf : m.find? (fun kv => decide (kv.1 = b)) with
      | none => rfl
      | some kv =>
        have := List.find?_some hf
        simp only [decide_eq_true_eq] at this
        simp [this, hb]
  · rw [if_neg h, List.find?_append]
    have hn : m.find? (fun kv => decide (kv.1 = a)) = none := by
      rw [List.find?_eq_none]
      intro kv hkv hk
      exact h (List.any_eq_true.2 ⟨kv, hkv, hk⟩)
    by_cases hb : b = a
    · subst hb
      rw [hn]; simp
    · have : (a, n).1 ≠ b := fun h => hb h.symm
      cases hf : m.find? (fun kv => decide (kv.1 = b)) with
      | none => simp [hb, Ne.symm hb]
      | some kv => simp [hb]

/-- Least of two optional lengths. -/
def minOpt : Option Nat → Nat → Option Nat
  | none, n => some n
  | some k, n => some (min k n)

theorem get_step (m : WMap α) (n : Nat) (a b : α) :
    (walkStep2wmap m n a).get b = if b = a then minOpt (m.get a) n else m.get b := by
  unfold walkStep2wmap
  cases h : m.get a with
  | none =>
    rw [WMap.get_set]; rfl
  | some k =>
    dsimp only
    by_cases hn : n < k
    · rw [if_pos hn, WMap.get_set]
      simp only [minOpt, Nat.min_eq_right (Nat.le_of_lt hn)]
    · rw [if_neg hn]
      by_cases hb : b = a
      · subst hb
        rw [if_pos rfl, h]
        simp only [minOpt, Nat.min_eq_left (Nat.le_of_not_lt hn)]
      · rw [if_neg hb]

theorem minOpt_idem (o : Option Nat) (n : Nat) : minOpt (minOpt o n) n = minOpt o n := by
  cases o <;> simp [minOpt, Nat.min_assoc]

theorem get_steps (n : Nat) (steps : List α) (m : WMap α) (b : α) :
    (steps.foldl (fun m s => walkStep2wmap m n s) m).get b = if b ∈ steps then minOpt (m.get b) n else m.get b := by
  induction steps generalizing m with
  | nil => simp
  | cons s steps ih =>
    rw [List.foldl_cons, ih, get_step]
    by_cases h1 : b = s
    · subst h1
      by_cases h2 : b ∈ steps <;> simp [h2, minOpt_idem]
    · by_cases h2 : b ∈ steps <;> simp [h1, h2]

theorem get_walk (m : WMap α) (walk : List α) (b : α) :
    (walk2wmap m walk).get b = if b ∈ walk then minOpt (m.get b) walk.length else m.get b :=
  get_steps walk.length walk m b

/-- The length of the shortest of the walks through `b`, if there is one. -/
def IsShortest (wks : List (List α)) (b : α) : Option Nat → Prop
  | none => ∀ w ∈ wks, b ∉ w
  | some n => (∃ w ∈ wks, b ∈ w ∧ w.length = n) ∧ ∀ w ∈ wks, b ∈ w → n ≤ w.length

theorem walks2wmap_shortest (wks : List (List α)) (b : α) : IsShortest wks b ((walks2wmap wks).get b) := by
  have key : ∀ (wks done : List (List α)) (m : WMap α), IsShortest done b (m.get b) →
      IsShortest (done ++ wks) b ((wks.foldl walk2wmap m).get b) := by
    intro wks
    induction wks with
    | nil => intro done m h; simpa using h
    | cons w wks ih =>
      intro done m h
      rw [List.foldl_cons]
      have : IsShortest (done ++ [w]) b ((walk2wmap m w).get b) := by
        rw [get_walk]
        by_cases hb : b ∈ w
        · rw [if_pos hb]
          cases hg : m.get b with
          | none =>
            rw [hg] at h
            refine ⟨⟨w, by simp, hb, rfl⟩, ?_⟩
            intro w' hw' hbw'
            rcases List.mem_append.1 hw' with h' | h'
            · exact absurd hbw' (h w' h')
            · rw [List.mem_singleton] at h'; rw [h']; exact Nat.le_refl _
          | some k =>
            rw [hg] at h
            obtain ⟨⟨w0, hw0, hb0, hl0⟩, hmin⟩ := h
            refine ⟨?_, ?_⟩
            · by_cases hk : k ≤ w.length
              · exact ⟨w0, by simp [hw0], hb0, by rw [hl0, Nat.min_eq_left hk]⟩
              · exact ⟨w, by simp, hb, by rw [Nat.min_eq_right (by omega)]⟩
            · intro w' hw' hbw'
              rcases List.mem_append.1 hw' with h' | h'
              · exact Nat.le_trans (Nat.min_le_left _ _) (hmin w' h' hbw')
              · rw [List.mem_singleton] at h'; rw [h']; exact Nat.min_le_right _ _
        · rw [if_neg hb]
          cases hg : m.get b with
          | none =>
            rw [hg] at h
            intro w' hw'
            rcases List.mem_append.1 hw' with h' | h'
            · exact h w' h'
            · rw [List.mem_singleton] at h'; rw [h']; exact hb
          | some k =>
            rw [hg] at h
            obtain ⟨⟨w0, hw0, hb0, hl0⟩, hmin⟩ := h
            refine ⟨⟨w0, by simp [hw0], hb0, hl0⟩, ?_⟩
            intro w' hw' hbw'
            rcases List.mem_append.1 hw' with h' | h'
            · exact hmin w' h' hbw'
            · rw [List.mem_singleton] at h'; rw [h'] at hbw'; exact absurd hbw' hb
      have := ih (done ++ [w]) _ this
      simpa using this
  have := key wks [] [] (by intro w hw; simp at hw)
  simpa [walks2wmap] using this

/-- C45: the map gives exactly the vertices on some walk, each with the length of the shortest walk through it. -/
theorem C45_shortest (wks : List (List α)) (b : α) (n : Nat) :
    (walks2wmap wks).get b = some n ↔
      (∃ w ∈ wks, b ∈ w ∧ w.length = n) ∧ ∀ w ∈ wks, b ∈ w → n ≤ w.length := by
  have h := walks2wmap_shortest wks b
  constructor
  · intro hg; rw [hg] at h; exact h
  · rintro ⟨⟨w, hw, hb, hl⟩, hmin⟩
    cases hg : (walks2wmap wks).get b with
    | none => rw [hg] at h; exact absurd hb (h w hw)
    | some k =>
      rw [hg] at h
      obtain ⟨⟨w', hw', hb', hl'⟩, hmin'⟩ := h
      have h1 := hmin w' hw' hb'
      have h2 := hmin' w hw hb
      congr 1; omega

/-- C45: the map depends only on the set of walks, not on their order or multiplicity. -/
theorem C45_order (wks wks' : List (List α)) (h : ∀ w, w ∈ wks ↔ w ∈ wks') (b : α) :
    (walks2wmap wks).get b = (walks2wmap wks').get b := by
  have key : ∀ n, (walks2wmap wks).get b = some n ↔ (walks2wmap wks').get b = some n := by
    intro n
    rw [C45_shortest, C45_shortest]
    simp only [h]
  cases h1 : (walks2wmap wks).get b with
  | some n => exact ((key n).1 h1).symm
  | none =>
    cases h2 : (walks2wmap wks').get b with
    | none => rfl
    | some n => rw [(key n).2 h2] at h1; simp at h1

/-- C45: `valid_walk` never raises on one of the walks, and accepts it exactly when no step that is not a seed lies on
a shorter walk. -/
theorem C45_valid (wks : List (List α)) (nodes walk : List α) (hw : walk ∈ wks) :
    ∃ r, validWalk (walks2wmap wks) nodes walk = .ok r ∧
      (r = true ↔ ∀ step ∈ walk, step ∈ nodes ∨ ∀ w ∈ wks, step ∈ w → walk.length ≤ w.length) := by
  have key : ∀ steps : List α, (∀ s ∈ steps, s ∈ walk) →
      ∃ r, validSteps (walks2wmap wks) nodes walk.length steps = .ok r ∧
      (r = true ↔ ∀ step ∈ steps, step ∈ nodes ∨ ∀ w ∈ wks, step ∈ w → walk.length ≤ w.length) := by
    intro steps
    induction steps with
    | nil => intro _; exact ⟨true, rfl, by simp⟩
    | cons s steps ih =>
      intro hs
      obtain ⟨r, hr, hiff⟩ := ih (fun x hx => hs x (by simp [hx]))
      have hstep : ∃ b, validStep (walks2wmap wks) nodes walk.length s = .ok b ∧
          (b = true ↔ s ∈ nodes ∨ ∀ w ∈ wks, s ∈ w → walk.length ≤ w.length) := by
        unfold validStep
        by_cases hn : s ∈ nodes
        · rw [if_pos hn]; exact ⟨true, rfl, by simp [hn]⟩
        · rw [if_neg hn]
          have h := walks2wmap_shortest wks s
          cases hg : (walks2wmap wks).get s with
          | none => rw [hg] at h; exact absurd (hs s (by simp)) (h walk hw)
          | some k =>
            rw [hg] at h
            obtain ⟨⟨w', hw', hb', hl'⟩, hmin⟩ := h
            refine ⟨_, rfl, ?_⟩
            simp only [decide_eq_true_eq, hn, false_or]
            constructor
            · intro hk w hww hsw
              rw [hk]; exact hmin w hww hsw
            · intro hall
              have h1 := hall w' hw' hb'
              have h2 := hmin walk hw (hs s (by simp))
              omega
      obtain ⟨b, hb, hbiff⟩ := hstep
      rw [validSteps, hb]
      simp only [bind, Except.bind]
      cases b with
      | false =>
        refine ⟨false, rfl, ?_⟩
        constructor
        · simp
        · intro h
          have := hbiff.2 (h s (by simp))
          simp at this
      | true =>
        refine ⟨r, by simpa using hr, ?_⟩
        rw [hiff]
        have := hbiff.1 rfl
        constructor
        · intro h x hx
          rcases List.mem_cons.1 hx with rfl | hx
          · exact this
          · exact h x hx
        · intro h x hx
          exact h x (by simp [hx])
  exact key walk (fun _ h => h)

example : (walks2wmap [[1, 2, 3, 4], [1, 5, 4], [2, 4]]).get 2 = some 2 ∧
    validWalk (walks2wmap [[1, 2, 3, 4], [1, 5, 4], [2, 4]]) [1, 4] [1, 5, 4] = .ok true ∧
    validWalk (walks2wmap [[1, 2, 3, 4], [1, 5, 4], [2, 4]]) [1, 4] [1, 2, 3, 4] = .ok false := by
  decide

end

/-! ### C44 -/

section
variable {F : Type} [PyFloat F]

/-- C44, counterexamples: with a positive depth `ego` raises, in every state and for every centre, over every backend. -/
theorem C44_ego_counterexample {σ : Type} (B : Backend F σ) (center : Val F) (depth : Int) (hd : depth > 0) (s : σ) :
    ∃ e, (B.ego center depth s).1 = .error e := by
  unfold Backend.ego
  rw [if_pos hd]
  unfold Call.bind
  rcases B.star center s with ⟨r, s'⟩
  cases r <;> exact ⟨_, rfl⟩

/-- C44, partial: `ego` leaves the graph unchanged, and for a depth that is not positive it returns None.  Missing: all
positive depths, where it always raises. -/
theorem C44_ego_partial {σ : Type} (B : Backend F σ) (center : Val F) (depth : Int) (hd : depth ≤ 0) (s : σ) :
    B.ego center depth s = (.ok none, s) := by
  unfold Backend.ego
  rw [if_neg (by omega)]

/-- C44, counterexamples: the exception is TypeError whenever `star` itself works. -/
theorem C44_ego_typeError_counterexample [DecidableEq F] {V : Val F → Prop} (hV : Vocab V) (ops : List (Op F))
    (hops : ∀ op ∈ ops, op.Over V) (auto : Bool) (s : St) (hs : runOps ops (St.new auto) = (.ok (), s)) (c : Val F)
    (hc : V c) (ha : c.isAtom = true) (depth : Int) (hd : depth > 0) :
    hgEgo c depth s = (.error .typeError, s) := by
  obtain ⟨res, h, _⟩ := (shows_of hV hops hs).star hV hc ha
  unfold hgEgo
  rw [if_pos hd, bind_run _ _ _ h]
  rfl

theorem ego_fails (node : Val F) (s : St) : ∃ e s', hgEgo node 2 s = (.error e, s') := by
  obtain ⟨e, he⟩ := C44_ego_counterexample (sqlBackend (F := F)) node 2 (by omega) s
  rw [sql_ego] at he
  exact ⟨e, (hgEgo node 2 s).2, Prod.ext he rfl⟩

/-- C44, counterexamples: `intersect` raises for every list of seeds, in every state. -/
theorem C44_intersect_counterexample (seeds : List (Val F)) (s : St) : ∃ e, (hgIntersect seeds s).1 = .error e := by
  unfold hgIntersect
  cases seeds with
  | nil => exact ⟨.indexError, rfl⟩
  | cons seed seeds =>
    obtain ⟨e, s', he⟩ := ego_fails seed s
    have h1 : node2edges seed s = (.error e, s') := by
      unfold node2edges
      rw [bind_err _ _ _ he]
    have h2 : edgesets (seed :: seeds) s = (.error e, s') := by
      rw [edgesets, bind_err _ _ _ h1]
    rw [bind_err _ _ _ h2]
    exact ⟨e, rfl⟩

/-- C44, counterexamples: building the vertex map raises KeyError as soon as there is an edge with at least one
element. -/
theorem C44_vemap_counterexample {α : Type} [DecidableEq α] (vemap : VEMap α) (edges : List (List α)) :
    (edges2vemap vemap edges).1 = if ∃ e ∈ edges, e ≠ [] then .error .keyError else .ok () := by
  induction edges generalizing vemap with
  | nil => simp [edges2vemap]
  | cons e edges ih =>
    cases e with
    | nil =>
      show (edges2vemap vemap edges).1 = _
      rw [ih]
      simp
    | cons a e =>
      rw [if_pos ⟨a :: e, by simp, by simp⟩]
      rfl

/-- C44, counterexamples: and it leaves the map with the entries it had, only the first vertex of the first non-empty
edge having got that edge. -/
theorem C44_vemap_left_counterexample {α : Type} [DecidableEq α] (vemap : VEMap α) (edges : List (List α)) (v : α) :
    ((edges2vemap vemap edges).2.find? fun kv => kv.1 = v).map Prod.snd =
      match edges.find? fun e => !e.isEmpty with
      | some (u :: e) =>
        if v = u then
          some (match (vemap.find? fun kv => kv.1 = v).map Prod.snd with
            | some (es, ns) => (es ++ [u :: e], ns)
            | none => ([u :: e], []))
        else (vemap.find? fun kv => kv.1 = v).map Prod.snd
      | _ => (vemap.find? fun kv => kv.1 = v).map Prod.snd := by
  induction edges generalizing vemap with
  | nil => rfl
  | cons e edges ih =>
    cases e with
    | nil =>
      show ((edges2vemap vemap edges).2.find? _).map _ = _
      rw [ih]; rfl
    | cons u e =>
      show ((vemap.addEdge u (u :: e)).find? _).map _ = if v = u then _ else _
      unfold VEMap.addEdge
      by_cases hv : v = u
      · subst hv
        rw [if_pos rfl]
        by_cases ha : (vemap.any fun kv => kv.1 = v) = true
        · rw [if_pos ha]
          induction vemap with
          | nil => simp at ha
          | cons kv m ihm =>
            by_cases hk : kv.1 = v
            · simp [hk]
            · simp only [List.any_cons, hk, decide_false, Bool.false_or] at ha
              simpa [hk] using ihm ha
        · rw [if_neg ha]
          have : vemap.find? (fun kv => kv.1 = v) = none := by
            simp only [List.any_eq_true, not_exists, not_and] at ha
            exact List.find?_eq_none.2 ha
          rw [List.find?_append, this]
          simp
      · rw [if_neg hv]
        split
        · rename_i ha
          clear ha ih
          induction vemap with
          | nil => rfl
          | cons kv m ihm =>
            by_cases hk : kv.1 = u
            · have h2 : ¬ u = v := fun h => hv h.symm
              simpa [hk, h2] using ihm
            · by_cases h3 : kv.1 = v
              · have h2 : ¬ v = u := hv
                simp [h2, h3]
              · simpa [hk, h3] using ihm
        · rw [List.find?_append]
          have h2 : ¬ u = v := fun h => hv h.symm
          simp [h2]

example : (edges2vemap [(1, [], [2]), (3, [], [])] [[], [1, 2], [5]]).2 = [(1, [[1, 2]], [2]), (3, [], [])] := by decide

theorem foldlM_nil {β γ : Type} (f : β → Except PyErr (List γ)) :
    ∀ (xs : List β) (acc : List γ), (∀ x ∈ xs, ∀ r, f x = .ok r → r = []) →
      ∀ r, xs.foldlM (fun acc x => do let w ← f x; Except.ok (acc ++ w)) acc = .ok r → r = acc := by
  intro xs
  induction xs with
  | nil =>
    intro acc _ r hr
    simp [List.foldlM, pure, Except.pure] at hr
    exact hr.symm
  | cons x xs ih =>
    intro acc h r hr
    rw [List.foldlM_cons] at hr
    cases hfx : f x with
    | error e => rw [hfx] at hr; simp [bind, Except.bind] at hr
    | ok w =>
      rw [hfx] at hr
      have hw := h x (by simp) w hfx
      subst hw
      simp only [bind, Except.bind, List.append_nil] at hr
      exact ih acc (fun y hy => h y (by simp [hy])) r hr

/-- C44, counterexamples: the walk search never yields a walk: for every vertex map, seeds and start it either raises
or finds nothing. -/
theorem C44_walks_counterexample {α : Type} [DecidableEq α] (vemap : VEMap α) (nodes : List α) (fuel : Nat)
    (walk : List α) (r : List (List α)) (h : walks vemap nodes fuel walk = .ok r) : r = [] := by
  induction fuel generalizing walk r with
  | zero => simp [walks] at h
  | succ fuel ih =>
    rw [walks] at h
    split at h
    · simp at h
    · cases hl : lastOf walk with
      | error e => rw [hl] at h; simp [bind, Except.bind] at h
      | ok last =>
        rw [hl] at h
        simp only [bind, Except.bind] at h
        cases hn : vemap.neighbours last with
        | error e => rw [hn] at h; simp at h
        | ok ns =>
          rw [hn] at h
          exact foldlM_nil (fun step => walks vemap nodes fuel (walk ++ [step])) _ []
            (fun step _ r hr => ih _ r hr) r h

/-- One step of a walk: `b` is recorded as a neighbour of `a`. -/
def VEMap.Near {α : Type} (m : VEMap α) (a b : α) : Prop := ∃ es ns, (a, es, ns) ∈ m ∧ b ∈ ns

/-- `w'` continues the walk `w`, from neighbour to neighbour and without coming to any vertex again. -/
inductive VEMap.Extends {α : Type} (m : VEMap α) : List α → List α → Prop
  | refl (w : List α) : Extends m w w
  | step {w w' : List α} {a b : α} : w.getLast? = some a → m.Near a b → b ∉ w → Extends m (w ++ [b]) w' → Extends m w w'

/-- Every key occurs once, and every neighbour is a key. -/
structure VEMap.Closed {α : Type} (m : VEMap α) : Prop where
  nodup : (m.map Prod.fst).Nodup
  closed : ∀ a b, m.Near a b → b ∈ m.map Prod.fst

theorem VEMap.neighbours_of {α : Type} [DecidableEq α] {m : VEMap α} (h : (m.map Prod.fst).Nodup) {a : α}
    (ha : a ∈ m.map Prod.fst) : ∃ ns, m.neighbours a = .ok ns ∧ ∀ b, b ∈ ns ↔ m.Near a b := by
  obtain ⟨⟨k, es, ns⟩, hm, rfl⟩ := List.mem_map.1 ha
  have key : ∀ kv ∈ m, kv.1 = k → kv = (k, es, ns) := by
    intro kv hkv hk
    clear ha
    induction m with
    | nil => simp at hm
    | cons x m ih =>
      rw [List.map_cons, List.nodup_cons] at h
      rcases List.mem_cons.1 hkv with rfl | h1 <;> rcases List.mem_cons.1 hm with h2 | h2
      · exact h2.symm
      · exact absurd (List.mem_map.2 ⟨_, h2, hk.symm⟩) h.1
      · subst h2
        exact absurd (List.mem_map.2 ⟨_, h1, hk⟩) h.1
      · exact ih h.2 h2 h1
  cases hf : m.find? (fun kv => decide (kv.1 = k)) with
  | none =>
    have := List.find?_eq_none.1 hf _ hm
    simp at this
  | some kv =>
    have h1 := List.mem_of_find?_eq_some hf
    have h2 : kv.1 = k := by simpa using List.find?_some hf
    have h3 := key kv h1 h2
    refine ⟨ns, by unfold VEMap.neighbours; rw [hf, h3], fun b => ⟨fun hb => ⟨es, ns, hm, hb⟩, ?_⟩⟩
    rintro ⟨es', ns', hm', hb⟩
    have := key _ hm' rfl
    simp only [Prod.mk.injEq, true_and] at this
    rw [← this.2]; exact hb

theorem fold_either {β γ : Type} (f : β → Except PyErr (List γ)) (err : PyErr) (xs : List β)
    (h : ∀ x ∈ xs, f x = .error err ∨ f x = .ok []) (acc : List γ) :
    ((∃ x ∈ xs, f x = .error err) → xs.foldlM (fun acc x => do let w ← f x; Except.ok (acc ++ w)) acc = .error err) ∧
    ((∀ x ∈ xs, f x = .ok []) → xs.foldlM (fun acc x => do let w ← f x; Except.ok (acc ++ w)) acc = .ok acc) := by
  induction xs generalizing acc with
  | nil => exact ⟨by simp, fun _ => rfl⟩
  | cons x xs ih =>
    obtain ⟨i1, i2⟩ := ih (fun y hy => h y (by simp [hy])) acc
    rw [List.foldlM_cons]
    rcases h x (by simp) with hx | hx
    · rw [hx]
      refine ⟨fun _ => rfl, fun h' => ?_⟩
      have := h' x (by simp)
      rw [hx] at this
      cases this
    · rw [hx]
      simp only [bind, Except.bind, List.append_nil]
      constructor
      · rintro ⟨y, hy, hfy⟩
        rcases List.mem_cons.1 hy with rfl | hy
        · rw [hx] at hfy; cases hfy
        · exact i1 ⟨y, hy, hfy⟩
      · exact fun h' => i2 fun y hy => h' y (by simp [hy])

/-- C44, counterexamples: on a closed vertex map the walk search raises TypeError exactly when there is a walk to be
found: one that continues the given one without repetition and comes to all seeds.  Otherwise it finds nothing.  (For
every budget that exceeds the number of vertices not yet visited, so in particular Python's recursion ends.) -/
theorem C44_walks_exact_counterexample {α : Type} [DecidableEq α] (vemap : VEMap α) (hm : vemap.Closed) (nodes : List α)
    (fuel : Nat) (walk : List α) (hne : walk ≠ []) (hnd : walk.Nodup) (hk : ∀ x ∈ walk, x ∈ vemap.map Prod.fst)
    (hf : vemap.length < fuel + walk.length) :
    ((∃ w, vemap.Extends walk w ∧ ∀ n ∈ nodes, n ∈ w) → walks vemap nodes fuel walk = .error .typeError) ∧
    ((¬ ∃ w, vemap.Extends walk w ∧ ∀ n ∈ nodes, n ∈ w) → walks vemap nodes fuel walk = .ok []) := by
  induction fuel generalizing walk with
  | zero =>
    have := hnd.length_le_of_subset (l₂ := vemap.map Prod.fst) (fun x hx => hk x hx)
    rw [List.length_map] at this
    omega
  | succ fuel ih =>
    rw [walks]
    by_cases hv : (nodes.all fun n => decide (n ∈ walk)) = true
    · rw [if_pos hv]
      refine ⟨fun _ => rfl, fun h => absurd ⟨walk, .refl _, ?_⟩ h⟩
      simpa [List.all_eq_true] using hv
    · rw [if_neg hv]
      have hl : walk.getLast? = some (walk.getLast hne) := List.getLast?_eq_some_getLast hne
      have hlast : lastOf walk = .ok (walk.getLast hne) := by unfold lastOf; rw [hl]
      obtain ⟨ns, hns, hnear⟩ := VEMap.neighbours_of hm.nodup (hk _ (List.getLast_mem hne))
      rw [hlast]
      simp only [bind, Except.bind]
      rw [hns]
      simp only []
      have hstep : ∀ b ∈ ns.filter (fun n => !decide (n ∈ walk)), vemap.Near (walk.getLast hne) b ∧ b ∉ walk := by
        intro b hb
        rw [List.mem_filter] at hb
        exact ⟨(hnear b).1 hb.1, by simpa using hb.2⟩
      have hrec : ∀ b ∈ ns.filter (fun n => !decide (n ∈ walk)),
          ((∃ w, vemap.Extends (walk ++ [b]) w ∧ ∀ n ∈ nodes, n ∈ w) →
            walks vemap nodes fuel (walk ++ [b]) = .error .typeError) ∧
          ((¬ ∃ w, vemap.Extends (walk ++ [b]) w ∧ ∀ n ∈ nodes, n ∈ w) →
            walks vemap nodes fuel (walk ++ [b]) = .ok []) := by
        intro b hb
        obtain ⟨h1, h2⟩ := hstep b hb
        refine ih (walk ++ [b]) (by simp) ?_ ?_ (by simp; omega)
        · rw [List.nodup_append]
          exact ⟨hnd, by simp, by rintro x hx y hy rfl; exact h2 (List.mem_singleton.1 hy ▸ hx)⟩
        · intro x hx
          rcases List.mem_append.1 hx with hx | hx
          · exact hk x hx
          · rw [List.mem_singleton.1 hx]
            exact hm.closed _ _ h1
      obtain ⟨f1, f2⟩ := fold_either (fun b => walks vemap nodes fuel (walk ++ [b])) .typeError
        (ns.filter (fun n => !decide (n ∈ walk))) (fun b hb => by
          by_cases h : ∃ w, vemap.Extends (walk ++ [b]) w ∧ ∀ n ∈ nodes, n ∈ w
          · exact .inl ((hrec b hb).1 h)
          · exact .inr ((hrec b hb).2 h)) []
      constructor
      · rintro ⟨w, hw, hcov⟩
        apply f1
        cases hw with
        | refl => exact absurd (by simpa [List.all_eq_true] using hcov) hv
        | @step _ _ a b h1 h2 h3 h4 =>
          rw [hl] at h1
          cases h1
          have hb : b ∈ ns.filter (fun n => !decide (n ∈ walk)) := List.mem_filter.2 ⟨(hnear b).2 h2, by simpa using h3⟩
          exact ⟨b, hb, (hrec b hb).1 ⟨w, h4, hcov⟩⟩
      · intro hno
        apply f2
        intro b hb
        refine (hrec b hb).2 ?_
        rintro ⟨w, hw, hcov⟩
        exact hno ⟨w, .step hl (hstep b hb).1 (hstep b hb).2 hw, hcov⟩

/-- A vertex map with three vertices. -/
def exVEMap : VEMap Nat := [(1, [[0, 1, 2]], [2]), (2, [[0, 1, 2], [0, 2, 3]], [1, 3]), (3, [[0, 2, 3]], [2])]

example : exVEMap.Closed ∧ exVEMap.Extends [1] [1, 2, 3] ∧ walks exVEMap [1, 3] 3 [1] = .error .typeError ∧
    walks exVEMap [1, 4] 3 [1] = .ok [] := by
  refine ⟨⟨by decide, ?_⟩, ?_, by decide, by decide⟩
  · rintro a b ⟨es, ns, h, hb⟩
    simp only [exVEMap, List.mem_cons, Prod.mk.injEq, List.not_mem_nil, or_false] at h
    rcases h with ⟨_, _, rfl⟩ | ⟨_, _, rfl⟩ | ⟨_, _, rfl⟩ <;> simp at hb <;> simp [exVEMap, hb] <;> omega
  · refine .step (a := 1) (b := 2) rfl ⟨_, _, List.mem_cons_self, by simp⟩ (by decide) ?_
    exact .step (a := 2) (b := 3) rfl ⟨[[0, 1, 2], [0, 2, 3]], [1, 3], by simp [exVEMap], by simp⟩ (by decide) (.refl _)

end

/-! ### C49 -/

/-- C49, partial: with `--backend sqlite` and `--backend null` the command line opens a graph, for all other option
values.  Missing: `--backend mysql`, which is false (below). -/
theorem C49_cli_partial (db user pass : Str) :
    openHyperGraph (cliParams (lit "sqlite") db user pass) = .ok (.sqlite db) ∧
    openHyperGraph (cliParams (lit "null") db user pass) = .ok .null := ⟨rfl, rfl⟩

/-- C49, counterexamples: with `--backend mysql` the command line always raises KeyError, whatever the other options. -/
theorem C49_mysql_counterexample (db user pass : Str) :
    openHyperGraph (cliParams (lit "mysql") db user pass) = .error .keyError := rfl

/-- C49: any other backend name is refused with RuntimeError, except 'none', which opens a graph without a backend. -/
theorem C49_unknown (p : Params) (b : Str) (hb : p.get (lit "backend") = .ok b) (h0 : b ≠ lit "none")
    (h1 : b ≠ lit "null") (h2 : b ≠ lit "sqlite") (h3 : b ≠ lit "mysql") :
    openHyperGraph p = .error .runtimeError := by
  unfold openHyperGraph
  rw [hb]
  simp only [bind, Except.bind]
  rw [if_neg h0, if_neg h1, if_neg h2, if_neg h3]

/-- C49: used as a library, a MySQL graph opens exactly when all four parameters are given. -/
theorem C49_mysql (p : Params) (hb : p.get (lit "backend") = .ok (lit "mysql")) (h u w d : Str) :
    openHyperGraph p = .ok (.mysql h u w d) ↔
      p.get (lit "host") = .ok h ∧ p.get (lit "user") = .ok u ∧ p.get (lit "password") = .ok w ∧
      p.get (lit "db") = .ok d := by
  unfold openHyperGraph
  rw [hb]
  simp only [bind, Except.bind]
  rw [if_neg (by decide), if_neg (by decide), if_neg (by decide), if_pos trivial]
  unfold openMysql
  cases p.get (lit "host") <;> cases p.get (lit "user") <;> cases p.get (lit "password") <;>
    cases p.get (lit "db") <;> simp [bind, Except.bind]

example : openHyperGraph [(lit "backend", lit "mysql"), (lit "host", lit "h"), (lit "user", lit "u"),
    (lit "password", lit "p"), (lit "db", lit "d")] = .ok (.mysql (lit "h") (lit "u") (lit "p") (lit "d")) ∧
    openHyperGraph [(lit "backend", lit "memory")] = .error .runtimeError := by decide

end GB
