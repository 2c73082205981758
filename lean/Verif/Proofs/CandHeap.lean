import Verif.Proofs.ChoiceRun
import Verif.Spec.Candidates

/-
The calls of the delta stage on trees as values: copying, flattening and marking.
-/

namespace GB

/-- All ids, or all lists. -/
abbrev Every : Nat → Prop := fun _ => True

mutual
/-- Following the links from the id gives the tree, and all ids on the way satisfy `P` and all lists `L`. -/
def ReadsP (h : SemTree) (P L : Nat → Prop) : STree → Int → Prop
  | .leaf ns tok, i => ∃ (n r : Nat), i = (n : Int) ∧ P n ∧ h.table[n]? = some r ∧ h.objs[r]? = some ⟨n, ns, .leaf tok⟩
  | .node ns c ts, i => ∃ (n r l : Nat) (lids : List Nat) (lid : Int) (ids : List Int), i = (n : Int) ∧ P n ∧
      h.table[n]? = some r ∧ h.objs[r]? = some ⟨n, ns, .node l lids lid c⟩ ∧ L l ∧ h.lists[l]? = some ids ∧ ReadsPL h P L ts ids
/-- The same for several ids. -/
def ReadsPL (h : SemTree) (P L : Nat → Prop) : List STree → List Int → Prop
  | [], ids => ids = []
  | t :: ts, ids => ∃ i is, ids = i :: is ∧ ReadsP h P L t i ∧ ReadsPL h P L ts is
end

mutual
theorem ReadsP.reads {h : SemTree} {P L : Nat → Prop} : (t : STree) → {i : Int} → ReadsP h P L t i → Reads h t i
  | .leaf ns tok, i, hr => by
    obtain ⟨n, r, hi, _, ht, ho⟩ := hr
    exact ⟨n, r, hi, ht, ho⟩
  | .node ns c ts, i, hr => by
    obtain ⟨n, r, l, lids, lid, ids, hi, _, ht, ho, _, hl, hs⟩ := hr
    exact ⟨n, r, l, lids, lid, ids, hi, ht, ho, hl, ReadsPL.reads ts hs⟩
theorem ReadsPL.reads {h : SemTree} {P L : Nat → Prop} : (ts : List STree) → {ids : List Int} → ReadsPL h P L ts ids → ReadsL h ts ids
  | [], _, hr => hr
  | t :: ts, _, hr => by
    obtain ⟨i, is, rfl, ha, hb⟩ := hr
    exact ⟨i, is, rfl, ha.reads t, hb.reads ts⟩
end

mutual
theorem Reads.readsP {h : SemTree} {P L : Nat → Prop} (hP : ∀ n, n < h.table.length → P n) (hL : ∀ l, l < h.lists.length → L l) : (t : STree) → {i : Int} → Reads h t i →
    ReadsP h P L t i
  | .leaf ns tok, i, hr => by
    obtain ⟨n, r, hi, ht, ho⟩ := hr
    exact ⟨n, r, hi, hP n (some_lt ht), ht, ho⟩
  | .node ns c ts, i, hr => by
    obtain ⟨n, r, l, lids, lid, ids, hi, ht, ho, hl, hs⟩ := hr
    exact ⟨n, r, l, lids, lid, ids, hi, hP n (some_lt ht), ht, ho, hL l (some_lt hl), hl, hs.readsP hP hL ts⟩
theorem ReadsL.readsP {h : SemTree} {P L : Nat → Prop} (hP : ∀ n, n < h.table.length → P n) (hL : ∀ l, l < h.lists.length → L l) : (ts : List STree) →
    {ids : List Int} → ReadsL h ts ids → ReadsPL h P L ts ids
  | [], _, hr => hr
  | t :: ts, _, hr => by
    obtain ⟨i, is, rfl, ha, hb⟩ := hr
    exact ⟨i, is, rfl, ha.readsP hP hL t, hb.readsP hP hL ts⟩
end

/-- What is in the heap stays as it is, except that nodes may get other lists with the same contents, and that nothing
is said of the elements whose ids do not satisfy `P`; there may be more. -/
structure Saves (P : Nat → Prop) (h h' : SemTree) : Prop where
  root : h'.rootId = h.rootId
  table : ∀ (m r : Nat), h.table[m]? = some r → h'.table[m]? = some r
  leaf : ∀ (n r : Nat) (ns : Option Str) (tok : TokInfo), P n → h.table[n]? = some r → h.objs[r]? = some ⟨n, ns, .leaf tok⟩ →
    h'.objs[r]? = some ⟨n, ns, .leaf tok⟩
  node : ∀ (n r : Nat) (ns : Option Str) (l : Nat) (lids : List Nat) (lid : Int) (c : Bool) (ids : List Int), P n →
    h.table[n]? = some r → h.objs[r]? = some ⟨n, ns, .node l lids lid c⟩ → h.lists[l]? = some ids →
    ∃ l', h'.objs[r]? = some ⟨n, ns, .node l' lids lid c⟩ ∧ h'.lists[l']? = some ids

theorem Saves.len {P : Nat → Prop} {h h' : SemTree} (k : Saves P h h') : h.table.length ≤ h'.table.length := len_of k.table

theorem Saves.refl (P : Nat → Prop) (h : SemTree) : Saves P h h :=
  ⟨rfl, fun _ _ e => e, fun _ _ _ _ _ _ e => e, fun _ _ _ l _ _ _ _ _ _ e e' => ⟨l, e, e'⟩⟩

theorem Ext.saves {h h' : SemTree} (x : Ext h h') (P : Nat → Prop) : Saves P h h' :=
  ⟨x.root, x.table, fun _ r _ _ _ _ e => x.objs r _ e, fun _ r _ l _ _ _ _ _ _ e e' => ⟨l, x.objs r _ e, x.lists l _ e'⟩⟩

theorem Saves.trans {P Q : Nat → Prop} {h1 h2 h3 : SemTree} (a : Saves P h1 h2) (b : Saves Q h2 h3)
    (hPQ : ∀ n, P n → n < h1.table.length → Q n) : Saves P h1 h3 where
  root := b.root.trans a.root
  table := fun m r e => b.table m r (a.table m r e)
  leaf := fun n r ns tok hp ht ho => b.leaf n r ns tok (hPQ n hp (some_lt ht)) (a.table n r ht) (a.leaf n r ns tok hp ht ho)
  node := by
    intro n r ns l lids lid c ids hp ht ho hl
    obtain ⟨l', ho', hl'⟩ := a.node n r ns l lids lid c ids hp ht ho hl
    exact b.node n r ns l' lids lid c ids (hPQ n hp (some_lt ht)) (a.table n r ht) ho' hl'

theorem Saves.and {h1 h2 h3 : SemTree} {P : Nat → Prop} (a : Saves P h1 h2) (b : Saves Every h2 h3) : Saves P h1 h3 :=
  a.trans b (fun _ _ _ => trivial)

mutual
theorem ReadsP.keep {P Q : Nat → Prop} {h h' : SemTree} (k : Saves Q h h') (hPQ : ∀ n, P n → Q n) : (t : STree) → {i : Int} →
    ReadsP h P Every t i → ReadsP h' P Every t i
  | .leaf ns tok, i, hr => by
    obtain ⟨n, r, hi, hp, ht, ho⟩ := hr
    exact ⟨n, r, hi, hp, k.table n r ht, k.leaf n r ns tok (hPQ n hp) ht ho⟩
  | .node ns c ts, i, hr => by
    obtain ⟨n, r, l, lids, lid, ids, hi, hp, ht, ho, _, hl, hs⟩ := hr
    obtain ⟨l', ho', hl'⟩ := k.node n r ns l lids lid c ids (hPQ n hp) ht ho hl
    exact ⟨n, r, l', lids, lid, ids, hi, hp, k.table n r ht, ho', trivial, hl', hs.keep k hPQ ts⟩
theorem ReadsPL.keep {P Q : Nat → Prop} {h h' : SemTree} (k : Saves Q h h') (hPQ : ∀ n, P n → Q n) : (ts : List STree) →
    {ids : List Int} → ReadsPL h P Every ts ids → ReadsPL h' P Every ts ids
  | [], _, hr => hr
  | t :: ts, _, hr => by
    obtain ⟨i, is, rfl, ha, hb⟩ := hr
    exact ⟨i, is, rfl, ha.keep k hPQ t, hb.keep k hPQ ts⟩
end

theorem Reads.keep {h h' : SemTree} (k : Saves Every h h') {t : STree} {i : Int} (hr : Reads h t i) : Reads h' t i :=
  (ReadsP.keep (P := Every) k (fun _ _ => trivial) t (hr.readsP (fun _ _ => trivial) (fun _ _ => trivial) t)).reads t

theorem ReadsL.keep {h h' : SemTree} (k : Saves Every h h') {ts : List STree} {is : List Int} (hr : ReadsL h ts is) :
    ReadsL h' ts is :=
  (ReadsPL.keep (P := Every) k (fun _ _ => trivial) ts (hr.readsP (fun _ _ => trivial) (fun _ _ => trivial) ts)).reads ts

theorem RefsR.keep {h h' : SemTree} (k : Saves Every h h') : {ts : List STree} → {rs : List Nat} → RefsR h ts rs → RefsR h' ts rs
  | [], _, hr => hr
  | t :: ts, _, hr => by
    obtain ⟨r, rs, n, rfl, ht, ha, hb⟩ := hr
    exact ⟨r, rs, n, rfl, k.table n r ht, ha.keep k, hb.keep k⟩

theorem RefsR.append {h : SemTree} : {ts us : List STree} → {rs qs : List Nat} → RefsR h ts rs → RefsR h us qs →
    RefsR h (ts ++ us) (rs ++ qs)
  | [], _, _, _, hr, hs => by
    cases (show _ = [] from hr)
    exact hs
  | t :: ts, _, _, _, hr, hs => by
    obtain ⟨r, rs, n, rfl, ht, ha, hb⟩ := hr
    exact ⟨r, _, n, rfl, ht, ha, hb.append hs⟩

theorem ReadsPL.append {h : SemTree} {P L : Nat → Prop} : {ts us : List STree} → {is js : List Int} → ReadsPL h P L ts is →
    ReadsPL h P L us js → ReadsPL h P L (ts ++ us) (is ++ js)
  | [], _, _, _, hr, hs => by
    cases (show _ = [] from hr)
    exact hs
  | t :: ts, _, _, _, hr, hs => by
    obtain ⟨i, is, rfl, ha, hb⟩ := hr
    exact ⟨i, _, rfl, ha, hb.append hs⟩

theorem ReadsL.append {h : SemTree} : {ts us : List STree} → {is js : List Int} → ReadsL h ts is →
    ReadsL h us js → ReadsL h (ts ++ us) (is ++ js)
  | [], _, _, _, hr, hs => by
    cases (show _ = [] from hr)
    exact hs
  | t :: ts, _, _, _, hr, hs => by
    obtain ⟨i, is, rfl, ha, hb⟩ := hr
    exact ⟨i, _, rfl, ha, hb.append hs⟩

/-! ### New nodes -/

theorem reads_addNodeC {h : SemTree} {ts : List STree} {ids : List Int} (c : Bool) (hs : ReadsL h ts ids) :
    Reads (h.addNodeC ids c) (.node none c ts) ((h.table.length : Nat) : Int) :=
  ⟨h.table.length, h.objs.length, h.lists.length, [], -1, ids, rfl, addNodeC_table h ids c, addNodeC_obj h ids c,
    addNodeC_list h ids c, hs.keep ((ext_addNodeC h ids c).saves _)⟩

mutual
theorem ReadsP.ext {P L : Nat → Prop} {h h' : SemTree} (x : Ext h h') : (t : STree) → {i : Int} → ReadsP h P L t i → ReadsP h' P L t i
  | .leaf ns tok, i, hr => by
    obtain ⟨n, r, hi, hp, ht, ho⟩ := hr
    exact ⟨n, r, hi, hp, x.table n r ht, x.objs r _ ho⟩
  | .node ns c ts, i, hr => by
    obtain ⟨n, r, l, lids, lid, ids, hi, hp, ht, ho, hL, hl, hs⟩ := hr
    exact ⟨n, r, l, lids, lid, ids, hi, hp, x.table n r ht, x.objs r _ ho, hL, x.lists l _ hl, hs.ext x ts⟩
theorem ReadsPL.ext {P L : Nat → Prop} {h h' : SemTree} (x : Ext h h') : (ts : List STree) → {ids : List Int} → ReadsPL h P L ts ids →
    ReadsPL h' P L ts ids
  | [], _, hr => hr
  | t :: ts, _, hr => by
    obtain ⟨i, is, rfl, ha, hb⟩ := hr
    exact ⟨i, is, rfl, ha.ext x t, hb.ext x ts⟩
end

mutual
/-- Writing to a list that is not used. -/
theorem ReadsP.write {P L : Nat → Prop} {h : SemTree} {a : Nat} (ha : ¬ L a) (xs : List Int) : (t : STree) → {i : Int} →
    ReadsP h P L t i → ReadsP { h with lists := h.lists.set a xs } P L t i
  | .leaf ns tok, i, hr => hr
  | .node ns c ts, i, hr => by
    obtain ⟨n, r, l, lids, lid, ids, hi, hp, ht, ho, hL, hl, hs⟩ := hr
    have : ¬ a = l := by
      rintro rfl
      exact ha hL
    exact ⟨n, r, l, lids, lid, ids, hi, hp, ht, ho, hL, by simp [this, hl], hs.write ha xs ts⟩
theorem ReadsPL.write {P L : Nat → Prop} {h : SemTree} {a : Nat} (ha : ¬ L a) (xs : List Int) : (ts : List STree) → {ids : List Int} →
    ReadsPL h P L ts ids → ReadsPL { h with lists := h.lists.set a xs } P L ts ids
  | [], _, hr => hr
  | t :: ts, _, hr => by
    obtain ⟨i, is, rfl, hb, hc⟩ := hr
    exact ⟨i, is, rfl, hb.write ha xs t, hc.write ha xs ts⟩
end

theorem readsP_addNodeC {h : SemTree} {P L : Nat → Prop} {ts : List STree} {ids : List Int} (c : Bool) (hP : P h.table.length)
    (hL : L h.lists.length) (hs : ReadsPL h P L ts ids) : ReadsP (h.addNodeC ids c) P L (.node none c ts) ((h.table.length : Nat) : Int) :=
  ⟨h.table.length, h.objs.length, h.lists.length, [], -1, ids, rfl, hP, addNodeC_table h ids c, addNodeC_obj h ids c, hL,
    addNodeC_list h ids c, hs.ext (ext_addNodeC h ids c)⟩

/-! ### Copies -/

mutual
/-- A copy of an element reads as a copy of the tree, and its ids are old ones that satisfy `P` or new ones. -/
theorem clone_reads {P L : Nat → Prop} : (t : STree) → {h : SemTree} → {n r : Nat} → ReadsP h P L t (n : Int) → h.table[n]? = some r →
    (∀ m, h.table.length ≤ m → P m) → (∀ m, h.lists.length ≤ m → L m) →
    Settles (fun k => clone k r) h (fun q h' => ∃ w : Nat, Ext h h' ∧ h'.table[w]? = some q ∧ ReadsP h' P L t.copy (w : Int) ∧
      (t.isNode = true → h.table.length ≤ w))
  | .leaf ns tok, h, n, r, hr, ht, hP, hL => by
    have ho := reads_leaf (hr.reads) ht
    refine Settles.succ (fun k => by rw [clone]) ?_
    refine Settles.step (fun _ => deref_run ho) ?_
    exact Settles.pure ⟨n, .refl h, ht, hr, fun h0 => by cases h0⟩
  | .node ns c ts, h, n, r, hr, ht, hP, hL => by
    obtain ⟨n', r', l, lids, lid, ids, hi, hp, ht', ho, _, hl, hs⟩ := hr
    obtain rfl : n = n' := by omega
    obtain rfl := some_eq ht ht'
    refine Settles.succ (fun k => by rw [clone]) ?_
    refine Settles.step (fun _ => deref_run ho) ?_
    refine Settles.step (fun _ => readList_run hl) ?_
    refine Settles.bind (cloneL_reads ts hs hP hL) ?_
    rintro ids' h1 ⟨x1, hs1⟩
    refine Settles.step (fun _ => createNode_run _ _) ?_
    rw [addNode_eq]
    refine Settles.step (fun _ => deref_run ((ext_addNodeC h1 ids' false).objs _ _ (x1.objs _ _ ho))) ?_
    refine Settles.step (fun _ => deref_run (addNodeC_obj h1 ids' false)) ?_
    refine Settles.step (fun _ => setMark_run ids' c) ?_
    have := len_of x1.table
    have h2 := len_of x1.lists
    exact Settles.pure ⟨h1.table.length, x1.trans (ext_addNodeC h1 ids' c), addNodeC_table h1 ids' c,
      readsP_addNodeC c (hP _ this) (hL _ h2) hs1, fun _ => this⟩
theorem cloneL_reads {P L : Nat → Prop} : (ts : List STree) → {h : SemTree} → {ids : List Int} → ReadsPL h P L ts ids →
    (∀ m, h.table.length ≤ m → P m) → (∀ m, h.lists.length ≤ m → L m) →
    Settles (fun k => TM.mapM (fun c => do
        let n ← clone k (← treeGet c)
        TM.pure ((← elemId n : Nat) : Int)) ids) h (fun ids' h' => Ext h h' ∧ ReadsPL h' P L (copyL ts) ids')
  | [], h, ids, hs, hP, hL => by
    cases (show ids = [] from hs)
    exact Settles.pure ⟨.refl h, rfl⟩
  | t :: ts, h, ids, hs, hP, hL => by
    obtain ⟨i, is, rfl, ha, hb⟩ := hs
    obtain ⟨n, r, rfl, ht, hg⟩ := (ha.reads t).entry
    refine Settles.bind (P := fun i' h' => Ext h h' ∧ ReadsP h' P L t.copy i') ?_ ?_
    · refine Settles.step (fun _ => hg) ?_
      refine Settles.bind (clone_reads t ha ht hP hL) ?_
      rintro q h1 ⟨w, x1, ht1, hr1, _⟩
      refine Settles.step (fun _ => elemId_reads (hr1.reads _) ht1) ?_
      exact Settles.pure ⟨x1, hr1⟩
    · rintro i' h1 ⟨x1, hr1⟩
      have := len_of x1.table
      have h2 := len_of x1.lists
      refine Settles.bind (cloneL_reads ts (hb.ext x1 ts) (fun m hm => hP m (by omega)) (fun m hm => hL m (by omega))) ?_
      rintro is' h2 ⟨x2, hs2⟩
      exact Settles.pure ⟨x1.trans x2, i', is', rfl, hr1.ext x2 _, hs2⟩
end

/-! ### Marks -/

theorem set_same {α : Type} {xs : List α} {n : Nat} {a : α} (h : xs[n]? = some a) : xs.set n a = xs := by
  apply List.ext_getElem?
  intro i
  by_cases hi : n = i
  · subst hi
    rw [List.getElem?_set_self (some_lt h), h]
  · simp [hi]

mutual
/-- Marking a name changes nothing. -/
theorem setCompound_named : (t : STree) → {h : SemTree} → {n r : Nat} → Reads h t (n : Int) → h.table[n]? = some r →
    t.named = true → t.isNode = true → Settles (fun k => setCompound k true r) h (fun _ h' => h' = h)
  | .leaf ns tok, h, n, r, hr, ht, hn, hnode => by cases hnode
  | .node ns c ts, h, n, r, hr, ht, hn, hnode => by
    obtain ⟨l, lids, lid, ids, ho, hl, hs⟩ := reads_node hr ht
    simp only [STree.named, Bool.and_eq_true] at hn
    obtain ⟨⟨rfl, _⟩, hn⟩ := hn
    refine Settles.succ (fun k => by rw [setCompound]) ?_
    refine Settles.step (fun _ => deref_run ho) ?_
    refine Settles.step (a := ()) (h1 := h) (fun _ => ?_) ?_
    · have : h.objs.set r ⟨n, ns, .node l lids lid true⟩ = h.objs := by
        exact set_same ho
      show Except.ok ((), { h with objs := h.objs.set r ⟨n, ns, .node l lids lid true⟩ }) = _
      rw [this]
    · obtain ⟨rs, hrs, hrefs⟩ := children_reads ho rfl hl hs
      refine Settles.step (fun _ => hrs) ?_
      exact setCompoundL_named ts hrefs hn
theorem setCompoundL_named : (ts : List STree) → {h : SemTree} → {rs : List Nat} → RefsR h ts rs → namedL ts = true →
    Settles (fun k => TM.forEach (fun c => do
        if (← deref c).isNode then setCompound k true c else TM.pure ()) rs) h (fun _ h' => h' = h)
  | [], h, rs, hr, _ => by
    cases (show rs = [] from hr)
    exact Settles.pure rfl
  | t :: ts, h, rs, hr, hn => by
    obtain ⟨r, rs, n, rfl, ht, ha, hb⟩ := hr
    simp only [namedL, Bool.and_eq_true] at hn
    refine Settles.bind (P := fun _ h' => h' = h) ?_ ?_
    · cases t with
      | leaf ns tok =>
        refine Settles.step (fun _ => deref_run (reads_leaf ha ht)) ?_
        exact Settles.pure rfl
      | node ns c us =>
        obtain ⟨l, lids, lid, ids, ho, hl, hs⟩ := reads_node ha ht
        refine Settles.step (fun _ => deref_run ho) ?_
        exact setCompound_named (.node ns c us) ha ht hn.1 rfl
    · rintro _ h1 rfl
      exact setCompoundL_named ts hb hn.2
end

/-! ### Without brackets -/

/-- A word, a name, or a node of words and names. -/
def STree.level (t : STree) : Prop := t.named = true ∨ ∃ ns ts, t = .node ns false ts ∧ ts ≠ [] ∧ namedL ts = true

/-- The same, or a node of such trees that ends with a word or a name. -/
def STree.loose (t : STree) : Prop :=
  t.level ∨ ∃ ns ts u, t = .node ns false (ts ++ [u]) ∧ (∀ x ∈ ts, x.level) ∧ u.named = true

theorem named_parts {t : STree} (h : t.named = true) : t.parts = [t] := by
  cases t with
  | leaf ns tok => rfl
  | node ns c ts =>
    simp only [STree.named, Bool.and_eq_true] at h
    obtain ⟨⟨rfl, _⟩, _⟩ := h
    rfl

mutual
theorem named_flat : (t : STree) → t.named = true → t.flat = t
  | .leaf ns tok, _ => rfl
  | .node ns c ts, h => by
    simp only [STree.named, Bool.and_eq_true] at h
    rw [STree.flat, namedL_flat ts h.2]
theorem namedL_flat : (ts : List STree) → namedL ts = true → flatL ts = ts
  | [], _ => rfl
  | t :: ts, h => by
    simp only [namedL, Bool.and_eq_true] at h
    rw [flatL, named_flat t h.1, named_parts h.1, namedL_flat ts h.2]
    rfl
end

theorem level_flat {t : STree} (h : t.level) : t.flat = t := by
  rcases h with h | ⟨ns, ts, rfl, _, h⟩
  · exact named_flat t h
  · rw [STree.flat, namedL_flat ts h]

/-- The list object of a node is replaced. -/
def SemTree.relist (h : SemTree) (r n : Nat) (ns : Option Str) (lids : List Nat) (lid : Int) (c : Bool) (xs : List Int) : SemTree :=
  { h with lists := h.lists ++ [xs], objs := h.objs.set r ⟨n, ns, .node h.lists.length lids lid c⟩ }

variable {h : SemTree} {r n l : Nat} {ns : Option Str} {lids : List Nat} {lid : Int} {c : Bool} {xs : List Int}

theorem relist_obj (ho : h.objs[r]? = some ⟨n, ns, .node l lids lid c⟩) :
    (h.relist r n ns lids lid c xs).objs[r]? = some ⟨n, ns, .node h.lists.length lids lid c⟩ := by
  simp [SemTree.relist, some_lt ho]

theorem relist_list : (h.relist r n ns lids lid c xs).lists[h.lists.length]? = some xs := by simp [SemTree.relist]

theorem relist_saves (ho : h.objs[r]? = some ⟨n, ns, .node l lids lid c⟩) :
    Saves (fun m => m ≠ n) h (h.relist r n ns lids lid c xs) where
  root := rfl
  table := fun _ _ e => e
  leaf := by
    intro m q ns' tok hp ht ho'
    have : ¬ r = q := by
      rintro rfl
      rw [ho] at ho'
      cases ho'
    simp [SemTree.relist, this, ho']
  node := by
    intro m q ns' l' lids' lid' c' ids' hp ht ho' hl'
    have : ¬ r = q := by
      rintro rfl
      rw [ho] at ho'
      cases ho'
      exact hp rfl
    exact ⟨l', by simp [SemTree.relist, this, ho'], get_append hl'⟩

theorem relist_same (ho : h.objs[r]? = some ⟨n, ns, .node l lids lid c⟩) (hl : h.lists[l]? = some xs) :
    Saves Every h (h.relist r n ns lids lid c xs) where
  root := rfl
  table := fun _ _ e => e
  leaf := by
    intro m q ns' tok hp ht ho'
    have : ¬ r = q := by
      rintro rfl
      rw [ho] at ho'
      cases ho'
    simp [SemTree.relist, this, ho']
  node := by
    intro m q ns' l' lids' lid' c' ids' hp ht ho' hl'
    by_cases hq : r = q
    · subst hq
      rw [ho] at ho'
      cases ho'
      obtain rfl := some_eq hl hl'
      exact ⟨h.lists.length, relist_obj ho, relist_list⟩
    · exact ⟨l', by simp [SemTree.relist, hq, ho'], get_append hl'⟩

/-- The body of the loop of `flatten`. -/
def flattenPart (k : Nat) (i : Int) : TM (List Int) := do
  let child ← treeGet i
  flatten k child
  let e ← deref child
  if e.isTerminal then TM.pure [(e.id : Int)] else childrenIds child

/-- `flatten` of a node, given what its loop does. -/
theorem flatten_node {ids : List Int} (ht : h.table[n]? = some r)
    (ho : h.objs[r]? = some ⟨n, ns, .node l lids lid c⟩) (hl : h.lists[l]? = some ids) {Q : List Int → SemTree → Prop}
    (hloop : Settles (fun k => TM.mapM (flattenPart k) ids) h (fun parts h1 => Saves Every h h1 ∧ Q parts.flatten h1)) :
    Settles (fun k => flatten k r) h (fun _ h' => ∃ h1 l1 xs, Saves Every h h1 ∧ Q xs h1 ∧
      h1.objs[r]? = some ⟨n, ns, .node l1 lids lid c⟩ ∧ h1.lists[l1]? = some ids ∧ h' = h1.relist r n ns lids lid c xs) := by
  refine Settles.succ (fun k => by rw [flatten]) ?_
  refine Settles.step (fun _ => deref_run ho) ?_
  refine Settles.step (fun _ => readList_run hl) ?_
  refine Settles.bind hloop ?_
  rintro parts h1 ⟨k1, hq⟩
  obtain ⟨l1, ho1, hl1⟩ := k1.node n r ns l lids lid c ids trivial ht ho hl
  refine Settles.step (fun _ => newList_run _ _) ?_
  refine Settles.step (fun _ => deref_run ho1) ?_
  exact Settles.of_eq (fun _ => setObj_run _ _ _) ⟨h1, l1, _, k1, hq, ho1, hl1, rfl⟩

mutual
/-- Flattening a word or a name changes no value. -/
theorem flatten_named : (t : STree) → {h : SemTree} → {n r : Nat} → Reads h t (n : Int) → h.table[n]? = some r →
    t.named = true → Settles (fun k => flatten k r) h (fun _ h' => Saves Every h h')
  | .leaf ns tok, h, n, r, hr, ht, _ => by
    refine Settles.succ (fun k => by rw [flatten]) ?_
    refine Settles.step (fun _ => deref_run (reads_leaf hr ht)) ?_
    exact Settles.pure (.refl _ h)
  | .node ns c ts, h, n, r, hr, ht, hn => by
    obtain ⟨l, lids, lid, ids, ho, hl, hs⟩ := reads_node hr ht
    simp only [STree.named, Bool.and_eq_true] at hn
    refine (flatten_node (Q := fun xs _ => xs = ids) ht ho hl (flattenL_named ts hs hn.2)).mono ?_
    rintro _ h' ⟨h1, l1, xs, k1, rfl, ho1, hl1, rfl⟩
    exact k1.and (relist_same ho1 hl1)
theorem flattenL_named : (ts : List STree) → {h : SemTree} → {ids : List Int} → ReadsL h ts ids → namedL ts = true →
    Settles (fun k => TM.mapM (flattenPart k) ids) h (fun parts h1 => Saves Every h h1 ∧ parts.flatten = ids)
  | [], h, ids, hs, _ => by
    cases (show ids = [] from hs)
    exact Settles.pure ⟨.refl _ h, rfl⟩
  | t :: ts, h, ids, hs, hn => by
    obtain ⟨i, is, rfl, ha, hb⟩ := hs
    simp only [namedL, Bool.and_eq_true] at hn
    obtain ⟨n, r, rfl, ht, hg⟩ := ha.entry
    refine Settles.bind (P := fun p h1 => Saves Every h h1 ∧ p = [(n : Int)]) ?_ ?_
    · refine Settles.step (fun _ => hg) ?_
      refine Settles.bind (flatten_named t ha ht hn.1) ?_
      rintro _ h1 k1
      have ha1 := ha.keep k1
      have ht1 := k1.table _ _ ht
      cases t with
      | leaf ns tok =>
        refine Settles.step (fun _ => deref_run (reads_leaf ha1 ht1)) ?_
        exact Settles.pure ⟨k1, rfl⟩
      | node ns c us =>
        obtain ⟨l, lids, lid, ids, ho, hl, hs⟩ := reads_node ha1 ht1
        refine Settles.step (fun _ => deref_run ho) ?_
        have hn := hn.1
        simp only [STree.named, Bool.and_eq_true] at hn
        obtain ⟨⟨rfl, _⟩, _⟩ := hn
        exact Settles.pure ⟨k1, rfl⟩
    · rintro p h1 ⟨k1, rfl⟩
      refine Settles.bind (flattenL_named ts (hb.keep k1) hn.2) ?_
      rintro ps h2 ⟨k2, rfl⟩
      exact Settles.pure ⟨k1.and k2, rfl⟩
end

/-- Flattening a tree without brackets changes no value. -/
theorem flatten_level {t : STree} {h : SemTree} {n r : Nat} (hr : Reads h t (n : Int)) (ht : h.table[n]? = some r) (hn : t.level) :
    Settles (fun k => flatten k r) h (fun _ h' => Saves Every h h') := by
  rcases hn with hn | ⟨ns, ts, rfl, _, hn⟩
  · exact flatten_named t hr ht hn
  · obtain ⟨l, lids, lid, ids, ho, hl, hs⟩ := reads_node hr ht
    refine (flatten_node (Q := fun xs _ => xs = ids) ht ho hl (flattenL_named ts hs hn)).mono ?_
    rintro _ h' ⟨h1, l1, xs, k1, rfl, ho1, hl1, rfl⟩
    exact k1.and (relist_same ho1 hl1)

mutual
/-- A tree does not contain itself. -/
theorem Reads.inside {h : SemTree} {T : STree} {n : Nat} (hT : Reads h T (n : Int)) : (t : STree) → {i : Int} → Reads h t i →
    t.depth < T.depth → ReadsP h (fun m => m ≠ n) Every t i
  | .leaf ns tok, i, hr, hd => by
    have hr' := hr
    obtain ⟨m, r, rfl, ht, ho⟩ := hr
    refine ⟨m, r, rfl, ?_, ht, ho⟩
    rintro rfl
    rw [reads_unique _ _ hr' hT] at hd
    omega
  | .node ns c ts, i, hr, hd => by
    have hr' := hr
    obtain ⟨m, r, l, lids, lid, ids, rfl, ht, ho, hl, hs⟩ := hr
    refine ⟨m, r, l, lids, lid, ids, rfl, ?_, ht, ho, trivial, hl, Reads.insideL hT ts hs (by rw [STree.depth] at hd; omega)⟩
    rintro rfl
    rw [reads_unique _ _ hr' hT] at hd
    omega
theorem Reads.insideL {h : SemTree} {T : STree} {n : Nat} (hT : Reads h T (n : Int)) : (ts : List STree) → {ids : List Int} →
    ReadsL h ts ids → depthL ts < T.depth → ReadsPL h (fun m => m ≠ n) Every ts ids
  | [], _, hr, _ => hr
  | t :: ts, _, hr, hd => by
    obtain ⟨i, is, rfl, ha, hb⟩ := hr
    simp only [depthL] at hd
    exact ⟨i, is, rfl, Reads.inside hT t ha (by omega), Reads.insideL hT ts hb (by omega)⟩
end

theorem flattenL_level {P : Nat → Prop} : (ts : List STree) → {h : SemTree} → {ids : List Int} → ReadsPL h P Every ts ids →
    (∀ t ∈ ts, t.level) →
    Settles (fun k => TM.mapM (flattenPart k) ids) h (fun parts h1 => Saves Every h h1 ∧ ReadsPL h1 P Every (flatL ts) parts.flatten)
  | [], h, ids, hs, _ => by
    cases (show ids = [] from hs)
    exact Settles.pure ⟨.refl _ h, rfl⟩
  | t :: ts, h, ids, hs, hn => by
    obtain ⟨i, is, rfl, ha, hb⟩ := hs
    have hlev := hn t (by simp)
    obtain ⟨n, r, rfl, ht, hg⟩ := (ha.reads t).entry
    refine Settles.bind (P := fun p h1 => Saves Every h h1 ∧ ReadsPL h1 P Every t.parts p) ?_ ?_
    · refine Settles.step (fun _ => hg) ?_
      refine Settles.bind (flatten_level (ha.reads t) ht hlev) ?_
      rintro _ h1 k1
      have ha1 := ha.keep k1 (fun _ _ => trivial)
      have ht1 := k1.table _ _ ht
      cases t with
      | leaf ns tok =>
        refine Settles.step (fun _ => deref_run (reads_leaf (ha1.reads _) ht1)) ?_
        exact Settles.pure ⟨k1, n, [], rfl, ha1, rfl⟩
      | node ns c us =>
        have ha2 := ha1
        obtain ⟨n', r', l, lids, lid, ids, hi, hp, ht', ho, _, hl, hs⟩ := ha1
        obtain rfl : n = n' := by omega
        obtain rfl := some_eq ht1 ht'
        refine Settles.step (fun _ => deref_run ho) ?_
        cases c with
        | true => exact Settles.pure ⟨k1, n, [], rfl, ha2, rfl⟩
        | false => exact Settles.of_eq (fun _ => childrenIds_run ho rfl hl) ⟨k1, hs⟩
    · rintro p h1 ⟨k1, hp⟩
      refine Settles.bind (flattenL_level ts (hb.keep k1 (fun _ _ => trivial)) (fun x hx => hn x (by simp [hx]))) ?_
      rintro ps h2 ⟨k2, hps⟩
      refine Settles.pure ⟨k1.and k2, ?_⟩
      rw [flatL, level_flat hlev]
      exact (hp.keep k2 (fun _ _ => trivial)).append hps

/-- Flattening a relation: it then reads as the relation without brackets inside, and nothing else changes its value; if
there are no brackets inside, not even the relation does. -/
theorem flatten_loose {t : STree} {h : SemTree} {n r : Nat} (hr : Reads h t (n : Int)) (ht : h.table[n]? = some r) (hn : t.loose) :
    Settles (fun k => flatten k r) h (fun _ h' => Saves (fun m => m ≠ n ∨ t.level) h h' ∧ Reads h' t.flat (n : Int)) := by
  by_cases hlev : t.level
  · refine (flatten_level hr ht hlev).mono ?_
    intro _ h' k
    refine ⟨⟨k.root, k.table, fun n r ns tok _ => k.leaf n r ns tok trivial, fun n r ns l lids lid c ids _ => k.node n r ns l lids lid c ids trivial⟩, ?_⟩
    rw [level_flat hlev]
    exact hr.keep k
  · rcases hn with hn | ⟨ns, ts, u, rfl, hts, hu⟩
    · exact absurd hn hlev
    · have hr0 := hr
      obtain ⟨l, lids, lid, ids, ho, hl, hs⟩ := reads_node hr ht
      have hin := Reads.insideL hr0 _ hs (by simp only [STree.depth]; omega)
      refine (flatten_node (Q := fun xs h1 => ReadsPL h1 (fun m => m ≠ n) Every (flatL (ts ++ [u])) xs) ht ho hl
        (flattenL_level _ hin ?_)).mono ?_
      · intro x hx
        rcases List.mem_append.mp hx with hx | hx
        · exact hts x hx
        · simp only [List.mem_singleton] at hx
          subst hx
          exact .inl hu
      · rintro _ h' ⟨h1, l1, xs, k1, hxs, ho1, hl1, rfl⟩
        have k2 := relist_saves (xs := xs) ho1
        refine ⟨Saves.trans (Q := fun m => m ≠ n) ⟨k1.root, k1.table, fun n r ns tok _ => k1.leaf n r ns tok trivial,
          fun n r ns l lids lid c ids _ => k1.node n r ns l lids lid c ids trivial⟩ k2 ?_, ?_⟩
        · rintro m (hm | hm) _
          · exact hm
          · exact absurd hm hlev
        · exact ⟨n, r, _, lids, lid, xs, rfl, k2.table _ _ (k1.table _ _ ht), relist_obj ho1, relist_list,
            (hxs.keep k2 (fun _ hm => hm)).reads _⟩

end GB
