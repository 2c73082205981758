import Verif.Spec.Rep

/-
The heap of semantic trees: runs of the heap operations, frames.
-/

namespace GB

theorem tm_bind {α β : Type} (x : TM α) (f : α → TM β) (h : SemTree) :
    (x >>= f) h = match x h with | .ok (a, h') => f a h' | .error e => .error e := rfl

theorem tm_pure {α : Type} (a : α) (h : SemTree) : TM.pure a h = .ok (a, h) := rfl

theorem tm_bind_ok {α β : Type} {x : TM α} {f : α → TM β} {h h' : SemTree} {a : α} (e : x h = .ok (a, h')) :
    (x >>= f) h = f a h' := by rw [tm_bind, e]

/-- Is the place in use? -/
def Loc.valid (h : SemTree) : Loc → Prop
  | .id n => n < h.table.length
  | .obj r => r < h.objs.length
  | .lst l => l < h.lists.length

/-- The two heaps have the same contents at the place. -/
def Agree (h h' : SemTree) : Loc → Prop
  | .id n => h'.table[n]? = h.table[n]?
  | .obj r => h'.objs[r]? = h.objs[r]?
  | .lst l => h'.lists[l]? = h.lists[l]?

theorem some_lt {α : Type} {xs : List α} {n : Nat} {a : α} (e : xs[n]? = some a) : n < xs.length :=
  (List.getElem?_eq_some_iff.mp e).1

mutual
theorem Rep.frame {h h' : SemTree} : (t : STree) → {i : Int} → {F : List Loc} → Rep h t i F →
    (∀ x ∈ F, Agree h h' x) → Rep h' t i F
  | .leaf ns tok, i, F, hr, hf => by
    obtain ⟨n, r, hi, ht, ho, rfl⟩ := hr
    refine ⟨n, r, hi, ?_, ?_, rfl⟩
    · rw [hf (.id n) (by simp)]; exact ht
    · rw [hf (.obj r) (by simp)]; exact ho
  | .node ns c ts, i, F, hr, hf => by
    obtain ⟨n, r, l, ids, Fs, hi, ht, ho, hl, hs, rfl⟩ := hr
    refine ⟨n, r, l, ids, Fs, hi, ?_, ?_, ?_, ?_, rfl⟩
    · rw [hf (.id n) (by simp)]; exact ht
    · rw [hf (.obj r) (by simp)]; exact ho
    · rw [hf (.lst l) (by simp)]; exact hl
    · exact Reps.frame ts hs (fun x hx => hf x (by simp [hx]))
theorem Reps.frame {h h' : SemTree} : (ts : List STree) → {ids : List Int} → {F : List Loc} → Reps h ts ids F →
    (∀ x ∈ F, Agree h h' x) → Reps h' ts ids F
  | [], _, _, hr, _ => hr
  | t :: ts, ids, F, hr, hf => by
    obtain ⟨i, is, F1, F2, rfl, h1, h2, rfl⟩ := hr
    exact ⟨i, is, F1, F2, rfl, Rep.frame t h1 (fun x hx => hf x (by simp [hx])),
      Reps.frame ts h2 (fun x hx => hf x (by simp [hx])), rfl⟩
end

mutual
theorem Rep.valid {h : SemTree} : (t : STree) → {i : Int} → {F : List Loc} → Rep h t i F → ∀ x ∈ F, x.valid h
  | .leaf ns tok, i, F, hr => by
    obtain ⟨n, r, hi, ht, ho, rfl⟩ := hr
    intro x hx
    simp only [List.mem_cons, List.not_mem_nil, or_false] at hx
    rcases hx with rfl | rfl
    · exact some_lt ht
    · exact some_lt ho
  | .node ns c ts, i, F, hr => by
    obtain ⟨n, r, l, ids, Fs, hi, ht, ho, hl, hs, rfl⟩ := hr
    intro x hx
    simp only [List.mem_cons] at hx
    rcases hx with rfl | rfl | rfl | hx
    · exact some_lt ht
    · exact some_lt ho
    · exact some_lt hl
    · exact Reps.valid ts hs x hx
theorem Reps.valid {h : SemTree} : (ts : List STree) → {ids : List Int} → {F : List Loc} → Reps h ts ids F →
    ∀ x ∈ F, x.valid h
  | [], _, _, hr => by
    obtain ⟨_, rfl⟩ := hr
    intro x hx; cases hx
  | t :: ts, ids, F, hr => by
    obtain ⟨i, is, F1, F2, rfl, h1, h2, rfl⟩ := hr
    intro x hx
    rcases List.mem_append.mp hx with hx | hx
    · exact Rep.valid t h1 x hx
    · exact Reps.valid ts h2 x hx
end

theorem Reps.append {h : SemTree} : {ts us : List STree} → {is js : List Int} → {F G : List Loc} → Reps h ts is F →
    Reps h us js G → Reps h (ts ++ us) (is ++ js) (F ++ G)
  | [], us, is, js, F, G, h1, h2 => by
    obtain ⟨rfl, rfl⟩ := h1
    exact h2
  | t :: ts, us, is, js, F, G, h1, h2 => by
    obtain ⟨i, is', F1, F2, rfl, ha, hb, rfl⟩ := h1
    exact ⟨i, is' ++ js, F1, F2 ++ G, rfl, ha, hb.append h2, by simp⟩

theorem Reps.one {h : SemTree} {t : STree} {i : Int} {F : List Loc} (hr : Rep h t i F) : Reps h [t] [i] F :=
  ⟨i, [], F, [], rfl, hr, ⟨rfl, rfl⟩, by simp⟩

theorem Reps.cons {h : SemTree} {t : STree} {i : Int} {F G : List Loc} {ts : List STree} {is : List Int}
    (hr : Rep h t i F) (hs : Reps h ts is G) : Reps h (t :: ts) (i :: is) (F ++ G) :=
  ⟨i, is, F, G, rfl, hr, hs, rfl⟩

theorem Reps.length {h : SemTree} : {ts : List STree} → {is : List Int} → {F : List Loc} → Reps h ts is F →
    is.length = ts.length
  | [], is, F, h1 => by obtain ⟨rfl, rfl⟩ := h1; rfl
  | t :: ts, is, F, h1 => by
    obtain ⟨i, is', F1, F2, rfl, ha, hb, rfl⟩ := h1
    simp [hb.length]

/-- Every id behind a tree is a natural number in the table. -/
theorem Rep.entry {h : SemTree} {t : STree} {i : Int} {F : List Loc} (hr : Rep h t i F) :
    ∃ (n r : Nat), i = (n : Int) ∧ h.table[n]? = some r ∧ Loc.id n ∈ F ∧ Loc.obj r ∈ F ∧ ∃ e, h.objs[r]? = some e ∧
      e.id = n ∧ e.isNode = t.isNode ∧ e.isTerminal = t.terminal := by
  cases t with
  | leaf ns tok =>
    obtain ⟨n, r, hi, ht, ho, rfl⟩ := hr
    exact ⟨n, r, hi, ht, by simp, by simp, _, ho, rfl, rfl, rfl⟩
  | node ns c ts =>
    obtain ⟨n, r, l, ids, Fs, hi, ht, ho, hl, hs, rfl⟩ := hr
    exact ⟨n, r, hi, ht, by simp, by simp, _, ho, rfl, rfl, rfl⟩

/-! ### Runs of the heap operations -/

theorem treeGet_run {h : SemTree} {n r : Nat} (e : h.table[n]? = some r) : treeGet (n : Int) h = .ok (r, h) := by
  have : ¬ ((n : Int) < 0) := by omega
  simp [treeGet, this, e]

theorem deref_run {h : SemTree} {r : Nat} {x : Elem} (e : h.objs[r]? = some x) : deref r h = .ok (x, h) := by
  simp [deref, e]

theorem readList_run {h : SemTree} {l : Nat} {xs : List Int} (e : h.lists[l]? = some xs) :
    readList l h = .ok (xs, h) := by simp [readList, e]

theorem elemId_run {h : SemTree} {r : Nat} {x : Elem} (e : h.objs[r]? = some x) : elemId r h = .ok (x.id, h) := by
  simp [elemId, tm_bind, deref_run e, tm_pure]

theorem childrenRef_run {h : SemTree} {r : Nat} {x : Elem} {l : Nat} {lids : List Nat} {lid : Int} {c : Bool}
    (e : h.objs[r]? = some x) (hb : x.body = .node l lids lid c) : childrenRef r h = .ok (l, h) := by
  simp [childrenRef, tm_bind, deref_run e, hb, tm_pure]

theorem childrenIds_run {h : SemTree} {r : Nat} {x : Elem} {l : Nat} {lids : List Nat} {lid : Int} {c : Bool}
    {xs : List Int} (e : h.objs[r]? = some x) (hb : x.body = .node l lids lid c) (hl : h.lists[l]? = some xs) :
    childrenIds r h = .ok (xs, h) := by
  simp [childrenIds, tm_bind, childrenRef_run e hb, readList_run hl]

theorem childId_run {h : SemTree} {r : Nat} {x : Elem} {l : Nat} {lids : List Nat} {lid : Int} {c : Bool}
    {xs : List Int} {i : Nat} {y : Int} (e : h.objs[r]? = some x) (hb : x.body = .node l lids lid c)
    (hl : h.lists[l]? = some xs) (hi : xs[i]? = some y) : childId r i h = .ok (y, h) := by
  simp [childId, tm_bind, childrenIds_run e hb hl, hi, tm_pure]

/-- The heap after `create_leaf`. -/
def SemTree.addLeaf (h : SemTree) (tok : TokInfo) : SemTree :=
  { h with table := h.table ++ [h.objs.length], objs := h.objs ++ [⟨h.table.length, none, .leaf tok⟩] }

theorem createLeaf_run (h : SemTree) (tok : TokInfo) :
    createLeaf tok h = .ok (h.objs.length, h.addLeaf tok) := by
  simp [createLeaf, newObj, treeAdd, curId, tablePush, setObj, deref, tm_bind, tm_pure, SemTree.addLeaf]

/-- The heap after `create_node` with a list object. -/
def SemTree.addNodeWith (h : SemTree) (l : Nat) : SemTree :=
  { h with
    table := h.table ++ [h.objs.length], objs := h.objs ++ [⟨h.table.length, none, .node l [] (-1) false⟩] }

theorem createNodeWith_run (h : SemTree) (l : Nat) :
    createNodeWith l h = .ok (h.objs.length, h.addNodeWith l) := by
  simp [createNodeWith, newObj, treeAdd, curId, tablePush, setObj, deref, tm_bind, tm_pure, SemTree.addNodeWith]

/-- The heap after `create_node` with a new list. -/
def SemTree.addNode (h : SemTree) (ids : List Int) : SemTree :=
  { h with
    table := h.table ++ [h.objs.length], objs := h.objs ++ [⟨h.table.length, none, .node h.lists.length [] (-1) false⟩]
    lists := h.lists ++ [ids] }

theorem createNode_run (h : SemTree) (ids : List Int) :
    createNode ids h = .ok (h.objs.length, h.addNode ids) := by
  simp [createNode, newList, tm_bind, createNodeWith_run, SemTree.addNode, SemTree.addNodeWith]

/-- The heap after `enclose`. -/
def SemTree.encl (h : SemTree) (r n : Nat) (x : Elem) : SemTree :=
  { h with
    table := (h.table ++ [r, h.objs.length]).set n h.objs.length
    objs := h.objs.set r { x with id := h.table.length } ++ [⟨n, none, .node h.lists.length [] (-1) false⟩]
    lists := h.lists ++ [[(h.table.length : Int)]] }

theorem enclose_run {h : SemTree} {r n : Nat} {x : Elem} (e : h.objs[r]? = some x) (hn : x.id = n) :
    enclose r h = .ok (h.objs.length, h.encl r n x) := by
  obtain ⟨hr, hx⟩ := List.getElem?_eq_some_iff.mp e
  have h1 : treeAdd r h = .ok ((), { h with table := h.table ++ [r], objs := h.objs.set r { x with id := h.table.length } }) := by
    simp [treeAdd, tm_bind, deref_run e, setObj, curId, tablePush]
  simp [enclose, tm_bind, h1, elemId, deref, hr, tm_pure, createNode_run, SemTree.addNode, treeSet, tableSet, setObj,
    SemTree.encl, hx, hn]

theorem writeList_run (h : SemTree) (l : Nat) (xs : List Int) :
    writeList l xs h = .ok ((), { h with lists := h.lists.set l xs }) := rfl

theorem setObj_run (h : SemTree) (r : Nat) (x : Elem) :
    setObj r x h = .ok ((), { h with objs := h.objs.set r x }) := rfl

end GB
