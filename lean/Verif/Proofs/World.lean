import Verif.Proofs.AlphaHeap
import Verif.Proofs.Settles
import Verif.Spec.Reads

/-
Heaps in which elements are shared: every visible id has a list of words and a rank, and the children of a visible node
are visible, have smaller ranks, and together have its words.
-/

namespace GB

/-- What is known of a heap: the words and the rank of the visible ids, the lists that visible nodes use, and whether
every visible node has at least two children. -/
structure World where
  ty : Nat → Option (List Word × Nat)
  own : Nat → Prop
  two : Prop

/-- Enough children: at least one, and at least two if the world says so. -/
def World.Wide (Ψ : World) (ids : List Int) : Prop := ids ≠ [] ∧ (Ψ.two → 2 ≤ ids.length)

theorem World.wide_two (Ψ : World) (i j : Int) : Ψ.Wide [i, j] := ⟨by simp, fun _ => by simp⟩

theorem World.Wide.of_le {Ψ : World} {is js : List Int} (h : Ψ.Wide is) (hl : is.length ≤ js.length) : Ψ.Wide js :=
  ⟨fun h0 => h.1 (List.length_eq_zero_iff.mp (by simpa [h0] using hl)), fun x => Nat.le_trans (h.2 x) hl⟩

/-- The id is visible, with these words and a rank below `n`. -/
def World.Child (Ψ : World) (n : Nat) (i : Int) (ls : List Word) : Prop :=
  ∃ (m ρ : Nat), i = (m : Int) ∧ Ψ.ty m = some (ls, ρ) ∧ ρ < n

/-- The same for several ids. -/
def World.Kids (Ψ : World) (n : Nat) : List Int → List (List Word) → Prop
  | [], lss => lss = []
  | i :: is, lss => ∃ ls lss', lss = ls :: lss' ∧ Ψ.Child n i ls ∧ Ψ.Kids n is lss'

/-- The object behind a visible id is as the world says. -/
def Good (h : SemTree) (Ψ : World) (m : Nat) (ls : List Word) (ρ : Nat) : Prop :=
  ∃ r e, h.table[m]? = some r ∧ h.objs[r]? = some e ∧ e.id = m ∧
    ((∃ tok, e.body = .leaf tok ∧ ls = [(e.nspace, tok)]) ∨
     (∃ l lids lid c ids lss, e.body = .node l lids lid c ∧ Ψ.own l ∧ h.lists[l]? = some ids ∧ Ψ.Wide ids ∧
        Ψ.Kids ρ ids lss ∧ ls = lss.flatten))

/-- The heap is as the world says. -/
structure WF (h : SemTree) (Ψ : World) : Prop where
  good : ∀ m ls ρ, Ψ.ty m = some (ls, ρ) → Good h Ψ m ls ρ
  own : ∀ l, Ψ.own l → l < h.lists.length

/-- The second world knows more. -/
structure World.Le (Ψ Ψ' : World) : Prop where
  ty : ∀ m x, Ψ.ty m = some x → Ψ'.ty m = some x
  own : ∀ l, Ψ.own l → Ψ'.own l
  two : Ψ'.two ↔ Ψ.two

theorem World.Le.refl (Ψ : World) : Ψ.Le Ψ := ⟨fun _ _ h => h, fun _ h => h, Iff.rfl⟩

theorem World.Wide.le {Ψ Ψ' : World} (hle : Ψ.Le Ψ') {ids : List Int} (h : Ψ.Wide ids) : Ψ'.Wide ids :=
  ⟨h.1, fun x => h.2 (hle.two.mp x)⟩

theorem World.Le.trans {Ψ1 Ψ2 Ψ3 : World} (h1 : Ψ1.Le Ψ2) (h2 : Ψ2.Le Ψ3) : Ψ1.Le Ψ3 :=
  ⟨fun m x h => h2.ty m x (h1.ty m x h), fun l h => h2.own l (h1.own l h), h2.two.trans h1.two⟩

theorem World.Child.le {Ψ Ψ' : World} (hle : Ψ.Le Ψ') {n n' : Nat} (hn : n ≤ n') {i : Int} {ls : List Word}
    (hc : Ψ.Child n i ls) : Ψ'.Child n' i ls := by
  obtain ⟨m, ρ, hi, ht, hr⟩ := hc
  exact ⟨m, ρ, hi, hle.ty _ _ ht, by omega⟩

theorem World.Kids.le {Ψ Ψ' : World} (hle : Ψ.Le Ψ') {n n' : Nat} (hn : n ≤ n') : {is : List Int} →
    {lss : List (List Word)} → Ψ.Kids n is lss → Ψ'.Kids n' is lss
  | [], lss, hk => hk
  | i :: is, lss, hk => by
    obtain ⟨ls, lss', rfl, h1, h2⟩ := hk
    exact ⟨ls, lss', rfl, h1.le hle hn, h2.le hle hn⟩

theorem World.Kids.append {Ψ : World} {n : Nat} : {is js : List Int} → {l1 l2 : List (List Word)} → Ψ.Kids n is l1 →
    Ψ.Kids n js l2 → Ψ.Kids n (is ++ js) (l1 ++ l2)
  | [], js, l1, l2, h1, h2 => by
    cases (show l1 = [] from h1)
    exact h2
  | i :: is, js, l1, l2, h1, h2 => by
    obtain ⟨ls, lss', rfl, ha, hb⟩ := h1
    exact ⟨ls, lss' ++ l2, rfl, ha, hb.append h2⟩

theorem World.Kids.split {Ψ : World} {n : Nat} : {is js : List Int} → {lss : List (List Word)} →
    Ψ.Kids n (is ++ js) lss → ∃ l1 l2, lss = l1 ++ l2 ∧ Ψ.Kids n is l1 ∧ Ψ.Kids n js l2
  | [], js, lss, hk => ⟨[], lss, rfl, rfl, hk⟩
  | i :: is, js, lss, hk => by
    obtain ⟨ls, lss', rfl, ha, hb⟩ := hk
    obtain ⟨l1, l2, rfl, h1, h2⟩ := hb.split
    exact ⟨ls :: l1, l2, rfl, ⟨ls, l1, rfl, ha, h1⟩, h2⟩

theorem World.Kids.one {Ψ : World} {n : Nat} {i : Int} {ls : List Word} (hc : Ψ.Child n i ls) : Ψ.Kids n [i] [ls] :=
  ⟨ls, [], rfl, hc, rfl⟩

theorem World.Kids.mem {Ψ : World} {n : Nat} : {is : List Int} → {lss : List (List Word)} → Ψ.Kids n is lss →
    ∀ i ∈ is, ∃ ls, Ψ.Child n i ls
  | [], _, _, i, hi => by cases hi
  | j :: is, lss, hk, i, hi => by
    obtain ⟨ls, lss', rfl, ha, hb⟩ := hk
    rcases List.mem_cons.mp hi with rfl | hi
    · exact ⟨ls, ha⟩
    · exact hb.mem i hi

/-- A visible id and its rank. -/
theorem World.Child.some {Ψ : World} {n : Nat} {i : Int} {ls : List Word} (hc : Ψ.Child n i ls) :
    ∃ (m ρ : Nat), i = (m : Int) ∧ Ψ.ty m = .some (ls, ρ) ∧ ρ < n := hc

/-- How calls may change a heap and what is known of it. -/
structure Moves (h : SemTree) (Ψ : World) (h' : SemTree) (Ψ' : World) : Prop where
  wf : WF h' Ψ'
  le : Ψ.Le Ψ'
  tyNew : ∀ m x, Ψ'.ty m = some x → Ψ.ty m = some x ∨ h.table.length ≤ m
  ownNew : ∀ l, Ψ'.own l → Ψ.own l ∨ h.lists.length ≤ l
  root : h'.rootId = h.rootId
  table : ∀ (m r : Nat), h.table[m]? = some r → h'.table[m]? = some r
  lists : ∀ (l : Nat) (xs : List Int), h.lists[l]? = some xs → h'.lists[l]? = some xs
  objLen : h.objs.length ≤ h'.objs.length
  kind : ∀ (r : Nat) (e : Elem), h.objs[r]? = some e → ∃ e', h'.objs[r]? = some e' ∧ e'.isLeaf = e.isLeaf
  leaf : ∀ (r : Nat) (e : Elem), h.objs[r]? = some e → e.isLeaf = true → h'.objs[r]? = some e
  frozen : ∀ (w r : Nat) (e : Elem), h.table[w]? = some r → h.objs[r]? = some e → e.id = w → Ψ.ty w = none →
    h'.objs[r]? = some e

theorem len_of {α : Type} {xs ys : List α} (h : ∀ (i : Nat) (a : α), xs[i]? = some a → ys[i]? = some a) :
    xs.length ≤ ys.length := by
  cases hx : xs.length with
  | zero => omega
  | succ n =>
    have : n < xs.length := by omega
    have := some_lt (h n xs[n] (by simp [this]))
    omega

theorem Moves.tableLen {h h' : SemTree} {Ψ Ψ' : World} (s : Moves h Ψ h' Ψ') : h.table.length ≤ h'.table.length :=
  len_of s.table

theorem Moves.listsLen {h h' : SemTree} {Ψ Ψ' : World} (s : Moves h Ψ h' Ψ') : h.lists.length ≤ h'.lists.length :=
  len_of s.lists

theorem Moves.refl {h : SemTree} {Ψ : World} (hw : WF h Ψ) : Moves h Ψ h Ψ where
  wf := hw
  le := .refl Ψ
  tyNew := fun _ _ h => .inl h
  ownNew := fun _ h => .inl h
  root := rfl
  table := fun _ _ h => h
  lists := fun _ _ h => h
  objLen := Nat.le_refl _
  kind := fun _ e h => ⟨e, h, rfl⟩
  leaf := fun _ _ h _ => h
  frozen := fun _ _ _ _ h _ _ => h

theorem Moves.hidden {h h' : SemTree} {Ψ Ψ' : World} (s : Moves h Ψ h' Ψ') {w : Nat} (hw : w < h.table.length)
    (hn : Ψ.ty w = none) : Ψ'.ty w = none := by
  cases hc : Ψ'.ty w with
  | none => rfl
  | some x =>
    rcases s.tyNew w x hc with h1 | h1
    · rw [hn] at h1; cases h1
    · omega

theorem Moves.trans {h1 h2 h3 : SemTree} {Ψ1 Ψ2 Ψ3 : World} (a : Moves h1 Ψ1 h2 Ψ2) (b : Moves h2 Ψ2 h3 Ψ3) :
    Moves h1 Ψ1 h3 Ψ3 where
  wf := b.wf
  le := a.le.trans b.le
  tyNew := by
    intro m x hx
    rcases b.tyNew m x hx with h | h
    · exact a.tyNew m x h
    · have := a.tableLen
      exact .inr (by omega)
  ownNew := by
    intro m hx
    rcases b.ownNew m hx with h | h
    · exact a.ownNew m h
    · have := a.listsLen
      exact .inr (by omega)
  root := b.root.trans a.root
  table := fun m r h => b.table m r (a.table m r h)
  lists := fun l xs h => b.lists l xs (a.lists l xs h)
  objLen := Nat.le_trans a.objLen b.objLen
  kind := by
    intro r e h
    obtain ⟨e1, h1, k1⟩ := a.kind r e h
    obtain ⟨e2, h2, k2⟩ := b.kind r e1 h1
    exact ⟨e2, h2, k2.trans k1⟩
  leaf := fun r e h k => b.leaf r e (a.leaf r e h k) k
  frozen := by
    intro w r e ht ho hi hn
    exact b.frozen w r e (a.table w r ht) (a.frozen w r e ht ho hi hn) hi (a.hidden (some_lt ht) hn)

theorem Good.frame {h h' : SemTree} {Ψ Ψ' : World} {m ρ : Nat} {ls : List Word} (hg : Good h Ψ m ls ρ) (hle : Ψ.Le Ψ')
    (ht : ∀ r, h.table[m]? = some r → h'.table[m]? = some r)
    (hl : ∀ l xs, Ψ.own l → h.lists[l]? = some xs → h'.lists[l]? = some xs)
    (ho : ∀ r e, h.table[m]? = some r → h.objs[r]? = some e → e.id = m → ∃ e', h'.objs[r]? = some e' ∧ e'.id = e.id ∧
      e'.nspace = e.nspace ∧ (∀ tok, e.body = .leaf tok → e'.body = .leaf tok) ∧
      (∀ l lids lid c, e.body = .node l lids lid c → ∃ lids' lid' c', e'.body = .node l lids' lid' c')) :
    Good h' Ψ' m ls ρ := by
  obtain ⟨r, e, h1, h2, h3, h4⟩ := hg
  obtain ⟨e', h5, h6, h7, h8, h9⟩ := ho r e h1 h2 h3
  refine ⟨r, e', ht r h1, h5, h6.trans h3, ?_⟩
  rcases h4 with ⟨tok, hb, hls⟩ | ⟨l, lids, lid, c, ids, lss, hb, hown, hlist, hne, hk, hls⟩
  · exact .inl ⟨tok, h8 tok hb, by rw [h7, hls]⟩
  · obtain ⟨lids', lid', c', hb'⟩ := h9 l lids lid c hb
    exact .inr ⟨l, lids', lid', c', ids, lss, hb', hle.own l hown, hl l ids hown hlist, hne.le hle, hk.le hle (Nat.le_refl _), hls⟩

/-- What is in the heap stays as it is; there may be more. -/
structure Ext (h h' : SemTree) : Prop where
  root : h'.rootId = h.rootId
  table : ∀ (m r : Nat), h.table[m]? = some r → h'.table[m]? = some r
  objs : ∀ (r : Nat) (e : Elem), h.objs[r]? = some e → h'.objs[r]? = some e
  lists : ∀ (l : Nat) (xs : List Int), h.lists[l]? = some xs → h'.lists[l]? = some xs

theorem Ext.refl (h : SemTree) : Ext h h := ⟨rfl, fun _ _ h => h, fun _ _ h => h, fun _ _ h => h⟩

theorem Ext.trans {h1 h2 h3 : SemTree} (a : Ext h1 h2) (b : Ext h2 h3) : Ext h1 h3 :=
  ⟨b.root.trans a.root, fun m r h => b.table m r (a.table m r h), fun m r h => b.objs m r (a.objs m r h),
    fun m r h => b.lists m r (a.lists m r h)⟩

theorem Ext.good {h h' : SemTree} (x : Ext h h') {Ψ Ψ' : World} (hle : Ψ.Le Ψ') {m ρ : Nat} {ls : List Word}
    (hg : Good h Ψ m ls ρ) : Good h' Ψ' m ls ρ :=
  hg.frame hle (x.table m) (fun l xs _ => x.lists l xs)
    (fun r e _ ho _ => ⟨e, x.objs r e ho, rfl, rfl, fun _ h => h, fun l lids lid c h => ⟨lids, lid, c, h⟩⟩)

theorem Ext.wf {h h' : SemTree} (x : Ext h h') {Ψ : World} (hw : WF h Ψ) : WF h' Ψ where
  good := fun m ls ρ hm => x.good (.refl Ψ) (hw.good m ls ρ hm)
  own := fun l hl => Nat.lt_of_lt_of_le (hw.own l hl) (len_of x.lists)

theorem Ext.step {h h' : SemTree} (x : Ext h h') {Ψ Ψ' : World} (hw : WF h' Ψ') (hle : Ψ.Le Ψ')
    (hty : ∀ m x, Ψ'.ty m = some x → Ψ.ty m = some x ∨ h.table.length ≤ m)
    (hown : ∀ l, Ψ'.own l → Ψ.own l ∨ h.lists.length ≤ l) : Moves h Ψ h' Ψ' where
  wf := hw
  le := hle
  tyNew := hty
  ownNew := hown
  root := x.root
  table := x.table
  lists := x.lists
  objLen := len_of x.objs
  kind := fun r e h => ⟨e, x.objs r e h, rfl⟩
  leaf := fun r e h _ => x.objs r e h
  frozen := fun _ r e _ h _ _ => x.objs r e h

theorem Ext.step' {h h' : SemTree} (x : Ext h h') {Ψ : World} (hw : WF h Ψ) : Moves h Ψ h' Ψ :=
  x.step (x.wf hw) (.refl Ψ) (fun _ _ h => .inl h) (fun _ h => .inl h)

/-! ### New nodes -/

/-- The heap after making a node with a new list and the mark `c`. -/
def SemTree.addNodeC (h : SemTree) (ids : List Int) (c : Bool) : SemTree :=
  { h with
    table := h.table ++ [h.objs.length], objs := h.objs ++ [⟨h.table.length, none, .node h.lists.length [] (-1) c⟩]
    lists := h.lists ++ [ids] }

theorem addNode_eq (h : SemTree) (ids : List Int) : h.addNode ids = h.addNodeC ids false := rfl

theorem get_append {α : Type} {xs ys : List α} {n : Nat} {a : α} (h : xs[n]? = some a) : (xs ++ ys)[n]? = some a := by
  rw [List.getElem?_append_left (some_lt h)]; exact h

theorem ext_addNodeC (h : SemTree) (ids : List Int) (c : Bool) : Ext h (h.addNodeC ids c) :=
  ⟨rfl, fun _ _ e => get_append e, fun _ _ e => get_append e, fun _ _ e => get_append e⟩

theorem addNodeC_table (h : SemTree) (ids : List Int) (c : Bool) :
    (h.addNodeC ids c).table[h.table.length]? = some h.objs.length := by simp [SemTree.addNodeC]

theorem addNodeC_obj (h : SemTree) (ids : List Int) (c : Bool) :
    (h.addNodeC ids c).objs[h.objs.length]? = some ⟨h.table.length, none, .node h.lists.length [] (-1) c⟩ := by
  simp [SemTree.addNodeC]

theorem addNodeC_list (h : SemTree) (ids : List Int) (c : Bool) :
    (h.addNodeC ids c).lists[h.lists.length]? = some ids := by simp [SemTree.addNodeC]

theorem writeList_addNodeC (h : SemTree) (ids xs : List Int) (c : Bool) :
    writeList h.lists.length xs (h.addNodeC ids c) = .ok ((), h.addNodeC xs c) := by
  simp [writeList, SemTree.addNodeC]

theorem WF.lt {h : SemTree} {Ψ : World} (hw : WF h Ψ) {m : Nat} {x : List Word × Nat} (hm : Ψ.ty m = some x) :
    m < h.table.length := by
  obtain ⟨ls, ρ⟩ := x
  obtain ⟨r, e, ht, _⟩ := hw.good m ls ρ hm
  exact some_lt ht

theorem WF.fresh {h : SemTree} {Ψ : World} (hw : WF h Ψ) {m : Nat} (hm : h.table.length ≤ m) : Ψ.ty m = none := by
  cases hx : Ψ.ty m with
  | none => rfl
  | some x => have := hw.lt hx; omega

/-! ### Making a node visible -/

/-- The world where `m`, with the list `l`, is visible too. -/
def World.show (Ψ : World) (m l : Nat) (ls : List Word) (ρ : Nat) : World where
  ty := fun i => if i = m then some (ls, ρ) else Ψ.ty i
  own := fun i => i = l ∨ Ψ.own i
  two := Ψ.two

theorem World.le_show {Ψ : World} {m l ρ : Nat} {ls : List Word} (hm : Ψ.ty m = none) : Ψ.Le (Ψ.show m l ls ρ) where
  ty := by
    intro i x hx
    have : i ≠ m := by rintro rfl; rw [hm] at hx; cases hx
    simp [World.show, this, hx]
  own := fun i hi => .inr hi
  two := Iff.rfl

theorem WF.show {h : SemTree} {Ψ : World} (hw : WF h Ψ) {m r l n : Nat} {e : Elem} {lids : List Nat} {lid : Int} {c : Bool}
    {ids : List Int} {lss : List (List Word)} (hm : Ψ.ty m = none) (ht : h.table[m]? = some r) (ho : h.objs[r]? = some e)
    (hi : e.id = m) (hb : e.body = .node l lids lid c) (hl : h.lists[l]? = some ids) (hne : Ψ.Wide ids)
    (hk : Ψ.Kids n ids lss) : WF h (Ψ.show m l lss.flatten n) where
  good := by
    intro i ls ρ hx
    simp only [World.show] at hx
    split at hx
    · rename_i him
      subst him
      simp only [Option.some.injEq, Prod.mk.injEq] at hx
      obtain ⟨rfl, rfl⟩ := hx
      exact ⟨r, e, ht, ho, hi, .inr ⟨l, lids, lid, c, ids, lss, hb, .inl rfl, hl, hne,
        hk.le (World.le_show hm) (Nat.le_refl _), rfl⟩⟩
    · exact (Ext.refl h).good (World.le_show hm) (hw.good i ls ρ hx)
  own := by
    rintro i (rfl | hi)
    · exact some_lt hl
    · exact hw.own i hi

theorem Moves.show {h0 h : SemTree} {Ψ0 Ψ : World} (s : Moves h0 Ψ0 h Ψ) {m r l n : Nat} {e : Elem} {lids : List Nat}
    {lid : Int} {c : Bool} {ids : List Int} {lss : List (List Word)} (hm : Ψ.ty m = none) (hm0 : h0.table.length ≤ m)
    (hl0 : h0.lists.length ≤ l) (ht : h.table[m]? = some r) (ho : h.objs[r]? = some e)
    (hi : e.id = m) (hb : e.body = .node l lids lid c) (hl : h.lists[l]? = some ids) (hne : Ψ.Wide ids)
    (hk : Ψ.Kids n ids lss) : Moves h0 Ψ0 h (Ψ.show m l lss.flatten n) :=
  { s with
    wf := s.wf.show hm ht ho hi hb hl hne hk
    le := s.le.trans (World.le_show hm)
    tyNew := by
      intro i x hx
      simp only [World.show] at hx
      split at hx
      · rename_i him; subst him; exact .inr hm0
      · exact s.tyNew i x hx
    ownNew := by
      rintro i (rfl | hx)
      · exact .inr hl0
      · exact s.ownNew i hx }

theorem World.child_show {Ψ : World} {m l n : Nat} {ls : List Word} :
    (Ψ.show m l ls n).Child (n + 1) (m : Int) ls :=
  ⟨m, n, rfl, by simp [World.show], by omega⟩

/-- Changing a list that no visible node uses. -/
theorem Moves.write {h0 h : SemTree} {Ψ0 Ψ : World} (s : Moves h0 Ψ0 h Ψ) {l : Nat} (hl : ¬ Ψ.own l)
    (hl0 : h0.lists.length ≤ l) (xs : List Int) : Moves h0 Ψ0 { h with lists := h.lists.set l xs } Ψ :=
  { s with
    wf :=
      { good := fun m ls ρ hm => (s.wf.good m ls ρ hm).frame (.refl Ψ) (fun r h => h)
          (by
            intro l' ys hown hy
            have : l ≠ l' := by rintro rfl; exact hl hown
            simp [List.getElem?_set, this, hy])
          (fun r e _ ho _ => ⟨e, ho, rfl, rfl, fun _ h => h, fun l lids lid c h => ⟨lids, lid, c, h⟩⟩)
        own := by
          intro l' hl'
          have := s.wf.own l' hl'
          simpa using this }
    lists := by
      intro l' ys hy
      have : l ≠ l' := by have := some_lt hy; omega
      have := s.lists l' ys hy
      simp [List.getElem?_set, *] }

end GB
