import Verif.Proofs.CandValue

/-
The search of the delta stage finds the rearrangements of a tidy tree.
-/

namespace GB

mutual
theorem ReadsP.bound {P Q L M : Nat → Prop} {h : SemTree} (hPQ : ∀ n, n < h.table.length → P n → Q n)
    (hLM : ∀ l, l < h.lists.length → L l → M l) : (t : STree) → {i : Int} → ReadsP h P L t i → ReadsP h Q M t i
  | .leaf ns tok, i, hr => by
    obtain ⟨n, r, hi, hp, ht, ho⟩ := hr
    exact ⟨n, r, hi, hPQ n (some_lt ht) hp, ht, ho⟩
  | .node ns c ts, i, hr => by
    obtain ⟨n, r, l, lids, lid, ids, hi, hp, ht, ho, hL, hl, hs⟩ := hr
    exact ⟨n, r, l, lids, lid, ids, hi, hPQ n (some_lt ht) hp, ht, ho, hLM l (some_lt hl) hL, hl, hs.bound hPQ hLM ts⟩
theorem ReadsPL.bound {P Q L M : Nat → Prop} {h : SemTree} (hPQ : ∀ n, n < h.table.length → P n → Q n)
    (hLM : ∀ l, l < h.lists.length → L l → M l) : (ts : List STree) → {ids : List Int} → ReadsPL h P L ts ids → ReadsPL h Q M ts ids
  | [], _, hr => hr
  | t :: ts, _, hr => by
    obtain ⟨i, is, rfl, ha, hb⟩ := hr
    exact ⟨i, is, rfl, ha.bound hPQ hLM t, hb.bound hPQ hLM ts⟩
end

theorem Saves.weaken {P Q : Nat → Prop} {h h' : SemTree} (k : Saves P h h') (hQ : ∀ n, n < h.table.length → Q n → P n) :
    Saves Q h h' :=
  (Saves.refl Q h).trans k (fun n hn hl => hQ n hl hn)

theorem Ext.write {h h' : SemTree} (x : Ext h h') {a : Nat} (ha : h.lists.length ≤ a) (xs : List Int) :
    Ext h { h' with lists := h'.lists.set a xs } :=
  { root := x.root, table := x.table, objs := x.objs, lists := by
      intro l ys hl
      have : ¬ a = l := by
        have := some_lt hl
        omega
      simpa [this] using x.lists l ys hl }

/-- The node that is being built, with its relation and its arguments. -/
def Working (h : SemTree) (q x : Nat) (r : STree) (as : List STree) : Prop :=
  ∃ (w l : Nat) (lids : List Nat) (lid : Int) (is : List Int), h.table[w]? = some q ∧
    h.objs[q]? = some ⟨w, none, .node l lids lid false⟩ ∧ h.lists[l]? = some ((x : Int) :: is) ∧ Reads h r (x : Int) ∧
    ReadsPL h (fun m => m ≠ x ∨ r.level) Every as is ∧ w ≠ x

variable {h : SemTree} {q x j : Nat} {r f : STree} {as bs ts : List STree}

theorem Working.keep {h' : SemTree} (hw : Working h q x r as) (k : Saves Every h h') : Working h' q x r as := by
  obtain ⟨w, l, lids, lid, is, ht, ho, hl, hr, hs, hne⟩ := hw
  obtain ⟨l', ho', hl'⟩ := k.node w q none l lids lid false _ trivial ht ho hl
  exact ⟨w, l', lids, lid, is, k.table _ _ ht, ho', hl', hr.keep k, hs.keep k (fun _ _ => trivial) as, hne⟩

theorem Working.of_addNodeC {is : List Int} (hr : Reads h r (x : Int))
    (hs : ReadsPL h (fun m => m ≠ x ∨ r.level) Every as is) : Working (h.addNodeC ((x : Int) :: is) false) h.objs.length x r as := by
  refine ⟨h.table.length, h.lists.length, [], -1, is, addNodeC_table _ _ _, addNodeC_obj _ _ _, addNodeC_list _ _ _,
    hr.keep ((ext_addNodeC h _ false).saves _), hs.ext (ext_addNodeC h _ false) as, ?_⟩
  obtain ⟨n, r', he, ht, _⟩ := hr.entry
  have := some_lt ht
  omega

/-- A copy of the working node. -/
theorem Working.clone {P L : Nat → Prop} {w l : Nat} {lids : List Nat} {lid : Int} {is : List Int}
    (ho : h.objs[q]? = some ⟨w, none, .node l lids lid false⟩) (hl : h.lists[l]? = some ((x : Int) :: is))
    (hr : Reads h r (x : Int)) (hs : ReadsPL h P L as is) (hP : ∀ m, h.table.length ≤ m → P m)
    (hL : ∀ m, h.lists.length ≤ m → L m) :
    Settles (fun k => GB.clone k q) h (fun q' h' => ∃ h1 x' is', Ext h h1 ∧ q' = h1.objs.length ∧
      h' = h1.addNodeC (((x' : Nat) : Int) :: is') false ∧ Reads h1 r.copy (x' : Int) ∧
      ReadsPL h1 (fun m => P m ∧ (m ≠ x' ∨ r.copy.level)) L (copyL as) is' ∧ (h.table.length ≤ x' ∨ r.copy.level)) := by
  obtain ⟨x0, rx, hx0, htx, hg⟩ := hr.entry
  obtain rfl : x = x0 := by omega
  refine Settles.succ (fun k => by rw [GB.clone]) ?_
  refine Settles.step (fun _ => deref_run ho) ?_
  refine Settles.step (fun _ => readList_run hl) ?_
  refine Settles.bind (P := fun ids' h1 => Ext h h1 ∧ ∃ (x' : Nat) (is' : List Int), ids' = (x' : Int) :: is' ∧ Reads h1 r.copy (x' : Int) ∧
      ReadsPL h1 (fun m => P m ∧ (m ≠ x' ∨ r.copy.level)) L (copyL as) is' ∧ (h.table.length ≤ x' ∨ r.copy.level)) ?_ ?_
  · refine Settles.bind (P := fun i' h' => ∃ x' : Nat, i' = (x' : Int) ∧ Ext h h' ∧ Reads h' r.copy (x' : Int) ∧
      (r.isNode = true → h.table.length ≤ x')) ?_ ?_
    · refine Settles.step (fun _ => hg) ?_
      refine Settles.bind (clone_reads (P := Every) (L := Every) r (hr.readsP (fun _ _ => trivial) (fun _ _ => trivial) r) htx
        (fun _ _ => trivial) (fun _ _ => trivial)) ?_
      rintro q1 h1 ⟨x', x1, ht1, hr1, hfr⟩
      refine Settles.step (fun _ => elemId_reads (hr1.reads _) ht1) ?_
      exact Settles.pure ⟨x', rfl, x1, hr1.reads _, hfr⟩
    · rintro i' h1 ⟨x', rfl, x1, hr1, hfr⟩
      have hle := len_of x1.table
      have hle2 := len_of x1.lists
      have hlt : x' < h1.table.length := by
        obtain ⟨n, r', he, ht, _⟩ := hr1.entry
        have := some_lt ht
        omega
      have hfresh : ∀ m, (m < h.table.length ∨ h1.table.length ≤ m) → (m ≠ x' ∨ r.copy.level) := by
        intro m hm
        cases r with
        | leaf ns tok => exact .inr (.inl rfl)
        | node ns c ts =>
          have := hfr rfl
          left
          omega
      have hs1 : ReadsPL h1 (fun m => P m ∧ (m ≠ x' ∨ r.copy.level)) L as is :=
        (hs.bound (Q := fun m => P m ∧ (m ≠ x' ∨ r.copy.level)) (M := L) (fun n hn hp => ⟨hp, hfresh n (.inl hn)⟩) (fun _ _ h => h)).ext x1 as
      refine Settles.bind (cloneL_reads as hs1 (fun m hm => ⟨hP m (by omega), hfresh m (.inr hm)⟩) (fun m hm => hL m (by omega))) ?_
      rintro is' h2 ⟨x2, hs2⟩
      refine Settles.pure ⟨x1.trans x2, x', is', rfl, hr1.keep (x2.saves _), hs2, ?_⟩
      cases r with
      | leaf ns tok => exact .inr (.inl rfl)
      | node ns c ts => exact .inl (hfr rfl)
  · rintro ids' h1 ⟨x1, x', is', rfl, hr1, hs1, hfr⟩
    refine Settles.step (fun _ => createNode_run _ _) ?_
    rw [addNode_eq]
    refine Settles.step (fun _ => deref_run ((ext_addNodeC h1 _ false).objs _ _ (x1.objs _ _ ho))) ?_
    refine Settles.step (fun _ => deref_run (addNodeC_obj h1 _ false)) ?_
    refine Settles.step (fun _ => setMark_run _ false) ?_
    exact Settles.pure ⟨h1, x', is', x1, rfl, rfl, hr1, hs1, hfr⟩

/-! ### The four ways of merging -/

/-- What building a candidate with a new relation guarantees. -/
def BuildsV (h : SemTree) (build : Nat → Int → TM (List Nat)) (G : STree → List STree) (rels : List STree) : Prop :=
  ∀ (h1 : SemTree) (x : Nat) (rel : STree), Saves Every h h1 → h.table.length ≤ x → Reads h1 rel (x : Int) → rel ∈ rels →
    Settles (fun k => build k (x : Int)) h1 (fun rs h2 => Saves (fun m => m ≠ x) h1 h2 ∧ RefsR h2 (G rel) rs)

variable {build : Nat → Int → TM (List Nat)} {G : STree → List STree} {rels : List STree}

theorem BuildsV.keep {h1 : SemTree} (hb : BuildsV h build G rels) (k : Saves Every h h1) : BuildsV h1 build G rels :=
  fun h2 x rel k2 hx => hb h2 x rel (k.and k2) (by have := k.len; omega)

theorem BuildsV.sub {rels' : List STree} (hb : BuildsV h build G rels) (hs : ∀ x ∈ rels', x ∈ rels) : BuildsV h build G rels' :=
  fun h1 x rel k hx hr hm => hb h1 x rel k hx hr (hs _ hm)

theorem BuildsV.run {h1 : SemTree} {rel : STree} {x : Nat} (hb : BuildsV h build G rels) (k : Saves Every h h1) (hx : h.table.length ≤ x)
    (hr : Reads h1 rel (x : Int)) (hm : rel ∈ rels) :
    Settles (fun k => build k (x : Int)) h1 (fun rs h2 => Saves Every h h2 ∧ RefsR h2 ([rel].flatMap G) rs) := by
  refine (hb h1 x rel k hx hr hm).mono ?_
  rintro rs h2 ⟨k2, hrs⟩
  exact ⟨k.trans k2 (fun n _ hn => by omega), by simpa using hrs⟩

/-- The candidate of a child. -/
def ChildR (h : SemTree) (child j : Nat) (f : STree) (bs : List STree) : Prop :=
  ∃ (n l : Nat) (ns : Option Str) (c : Bool) (lids : List Nat) (lid : Int) (js : List Int), h.table[n]? = some child ∧
    h.objs[child]? = some ⟨n, ns, .node l lids lid c⟩ ∧ h.lists[l]? = some ((j : Int) :: js) ∧ Reads h f (j : Int) ∧ ReadsL h bs js

variable {child : Nat}

theorem ChildR.keep {h' : SemTree} (hc : ChildR h child j f bs) (k : Saves Every h h') : ChildR h' child j f bs := by
  obtain ⟨n, l, ns, c, lids, lid, js, ht, ho, hl, hr, hs⟩ := hc
  obtain ⟨l', ho', hl'⟩ := k.node n child ns l lids lid c _ trivial ht ho hl
  exact ⟨n, l', ns, c, lids, lid, js, k.table _ _ ht, ho', hl', hr.keep k, hs.keep k⟩

theorem reads_pair {t u : STree} {i j : Int} (a : Reads h t i) (b : Reads h u j) : ReadsL h [t, u] [i, j] :=
  ⟨i, [j], rfl, a, j, [], rfl, b, rfl⟩

theorem insertBefore_reads (hw : Working h q x r as) (hc : ChildR h child j f bs)
    (hb : BuildsV h build G (if as.isEmpty then [.node none false [f, r]] else [])) :
    Settles (fun k => insertBefore (build k) q child) h (fun rs h' => Saves Every h h' ∧
      RefsR h' ((if as.isEmpty then [STree.node none false [f, r]] else []).flatMap G) rs) := by
  obtain ⟨w, l, lids, lid, is, ht, ho, hl, hr, hs, hne⟩ := hw
  obtain ⟨n, lc, ns, c, lidsc, lidc, js, htc, hoc, hlc, hrf, hsb⟩ := hc
  refine Settles.step (fun _ => childrenIds_run ho rfl hl) ?_
  have hem : (as.isEmpty = true) ↔ ((x : Int) :: is).length = 1 := by
    cases as with
    | nil =>
      cases (show is = [] from hs)
      simp
    | cons a as =>
      obtain ⟨i, is', rfl, _⟩ := hs
      simp
  refine Settles.ite (fun h1 => ?_) (fun h1 => ?_)
  · have he := hem.mpr h1
    simp only [he, if_true] at hb ⊢
    refine Settles.step (fun _ => childId_run hoc rfl hlc (i := 0) rfl) ?_
    refine Settles.step (fun _ => childId_run ho rfl hl (i := 0) rfl) ?_
    refine Settles.step (fun _ => createNode_run _ _) ?_
    rw [addNode_eq]
    refine Settles.step (fun _ => elemId_run (addNodeC_obj h [(j : Int), (x : Int)] false)) ?_
    exact hb.run ((ext_addNodeC h _ false).saves _) (Nat.le_refl _) (reads_addNodeC false (reads_pair hrf hr)) (by simp)
  · have he : as.isEmpty = false := by
      cases he : as.isEmpty with
      | false => rfl
      | true => exact absurd (hem.mp he) h1
    simp only [he, Bool.false_eq_true, if_false]
    exact Settles.pure ⟨.refl _ h, rfl⟩

/-- The element that a tree is read from. -/
theorem reads_terminal {t : STree} {n q : Nat} (hr : Reads h t (n : Int)) (ht : h.table[n]? = some q) :
    ∃ e, h.objs[q]? = some e ∧ e.id = n ∧ e.isTerminal = t.terminal := by
  cases t with
  | leaf ns tok => exact ⟨_, reads_leaf hr ht, rfl, rfl⟩
  | node ns c us =>
    obtain ⟨l, lids, lid, ids, ho, hl, hs⟩ := reads_node hr ht
    exact ⟨_, ho, rfl, rfl⟩

theorem makeCompound_reads (hw : Working h q x r as) (hc : ChildR h child j f bs) (hloose : r.loose) (hlevel : f.level)
    (hb : BuildsV h build G (if r.terminal && f.terminal then [.node none true [r.copy, f]] else []))
    {rl rr : Nat} (htl : h.table[x]? = some rl) (htr : h.table[j]? = some rr) :
    Settles (fun k => makeCompound k (build k) rl rr child) h (fun rs h' => Saves Every h h' ∧
      RefsR h' ((if r.terminal && f.terminal then [STree.node none true [r.copy, f]] else []).flatMap G) rs) := by
  obtain ⟨w0, l0, lids0, lid0, is, ht, ho, hl, hrr, hs, hne⟩ := hw
  obtain ⟨n, l, ns, c, lids, lid, js, htc, hoc, hlc, hrf, hsb⟩ := hc
  obtain ⟨el, hol, hil, hel⟩ := reads_terminal hrr htl
  obtain ⟨er, hor, hir, her⟩ := reads_terminal hrf htr
  refine Settles.step (fun _ => deref_run hol) ?_
  refine Settles.step (fun _ => deref_run hor) ?_
  rw [hel, her]
  refine Settles.ite (fun h0 => ?_) (fun h0 => ?_)
  · simp only [h0, if_true] at hb ⊢
    have h0' := h0
    simp only [Bool.and_eq_true] at h0'
    have hnr := loose_terminal hloose h0'.1
    have hnf := loose_terminal (.inl hlevel) h0'.2
    refine Settles.bind (clone_reads (P := Every) (L := Every) r (hrr.readsP (fun _ _ => trivial) (fun _ _ => trivial) r) htl
        (fun _ _ => trivial) (fun _ _ => trivial)) ?_
    rintro q1 h1 ⟨w, x1, ht1, hr1, _⟩
    have hr1 := hr1.reads _
    obtain ⟨e1, ho1, hi1, he1⟩ := reads_terminal hr1 ht1
    rw [copy_terminal, h0'.1] at he1
    refine Settles.step (a := h1.objs.length) (h1 := h1.addNodeC [(w : Int)] false) (fun _ => ?_) ?_
    · rw [tm_bind_ok (deref_run ho1)]
      simp only [he1, if_true]
      rw [tm_bind_ok (elemId_run ho1), hi1]
      exact createNode_run _ _
    · have x2 := x1.trans (ext_addNodeC h1 [(w : Int)] false)
      refine Settles.step (fun _ => childId_run (x2.objs _ _ hoc) rfl (x2.lists _ _ hlc) (i := 0) rfl) ?_
      refine Settles.step (fun _ => addChild_addNodeC _ _ _ _) ?_
      have hpair : ReadsL h1 [r.copy, f] ([(w : Int)] ++ [(j : Int)]) := reads_pair hr1 (hrf.keep (x1.saves _))
      refine Settles.bind (P := fun _ h' => h' = h1.addNodeC ([(w : Int)] ++ [(j : Int)]) true) ?_ ?_
      · refine Settles.succ (fun k => by rw [setCompound]) ?_
        refine Settles.step (fun _ => deref_run (addNodeC_obj h1 _ false)) ?_
        refine Settles.step (fun _ => setMark_run _ true) ?_
        have hx := ext_addNodeC h1 ([(w : Int)] ++ [(j : Int)]) true
        obtain ⟨rs, hrs, hrefs⟩ := children_reads (addNodeC_obj h1 ([(w : Int)] ++ [(j : Int)]) true) rfl (addNodeC_list h1 _ true)
          (hpair.keep (hx.saves _))
        refine Settles.step (fun _ => hrs) ?_
        exact setCompoundL_named _ hrefs (by simp [namedL, copy_named, hnr, hnf])
      · rintro _ h3 rfl
        refine Settles.step (fun _ => elemId_run (addNodeC_obj h1 _ true)) ?_
        exact hb.run ((x1.trans (ext_addNodeC h1 _ true)).saves _) (len_of x1.table) (reads_addNodeC true hpair) (by simp)
  · have h0 : (r.terminal && f.terminal) = false := by simpa using h0
    simp only [h0, Bool.false_eq_true, if_false]
    exact Settles.pure ⟨.refl _ h, rfl⟩

theorem parts_terminal {t : STree} (ht : t.terminal = true) : t.parts = [t] := by
  cases t with
  | leaf ns tok => rfl
  | node ns c us =>
    cases (show c = true from ht)
    rfl

theorem readsL_append : (ts : List STree) → {us : List STree} → {is : List Int} → ReadsL h (ts ++ us) is →
    ∃ a b, is = a ++ b ∧ ReadsL h ts a ∧ ReadsL h us b
  | [], us, is, hr => ⟨[], is, rfl, rfl, hr⟩
  | t :: ts, us, is, hr => by
    obtain ⟨i, is, rfl, ha, hb⟩ := hr
    obtain ⟨a, b, rfl, h1, h2⟩ := readsL_append ts hb
    exact ⟨i :: a, b, rfl, ⟨i, a, rfl, ha, h1⟩, h2⟩

theorem splitLeft_reads {t u : STree} {us : List STree} {n q : Nat} (hr : Reads h t (n : Int)) (ht : h.table[n]? = some q)
    (hp : t.parts = us ++ [u]) : ∃ la lb, splitLeft q h = .ok ((la, lb), h) ∧ ReadsL h us la ∧ Reads h u lb := by
  obtain ⟨e, ho, hi, he⟩ := reads_terminal hr ht
  cases hterm : t.terminal with
  | true =>
    rw [parts_terminal hterm] at hp
    have hus : us = [] := by
      cases us with
      | nil => rfl
      | cons v us => simp at hp
    subst hus
    cases hp
    refine ⟨[], (e.id : Int), ?_, rfl, by rw [hi]; exact hr⟩
    simp [splitLeft, tm_bind, deref_run ho, he, hterm, tm_pure]
  | false =>
    cases t with
    | leaf ns tok => cases hterm
    | node ns c vs =>
      cases (show c = false from hterm)
      cases (show vs = us ++ [u] from hp)
      obtain ⟨l, lids, lid, ids, ho', hl, hs⟩ := reads_node hr ht
      obtain ⟨a, b, rfl, h1, h2⟩ := readsL_append us hs
      obtain ⟨i, is, rfl, h3, h4⟩ := h2
      cases (show is = [] from h4)
      refine ⟨a, i, ?_, h1, h3⟩
      obtain rfl := some_eq ho ho'
      simp [splitLeft, tm_bind, deref_run ho, he, hterm, childrenIds_run ho rfl hl, tm_pure]

theorem splitRight_reads {t u : STree} {us : List STree} {n q : Nat} (hr : Reads h t (n : Int)) (ht : h.table[n]? = some q)
    (hp : t.parts = u :: us) : ∃ ra rb, splitRight q h = .ok ((ra, rb), h) ∧ Reads h u ra ∧ ReadsL h us rb := by
  obtain ⟨e, ho, hi, he⟩ := reads_terminal hr ht
  cases hterm : t.terminal with
  | true =>
    rw [parts_terminal hterm] at hp
    cases hp
    refine ⟨(e.id : Int), [], ?_, by rw [hi]; exact hr, rfl⟩
    simp [splitRight, tm_bind, deref_run ho, he, hterm, tm_pure]
  | false =>
    cases t with
    | leaf ns tok => cases hterm
    | node ns c vs =>
      cases (show c = false from hterm)
      cases (show vs = u :: us from hp)
      obtain ⟨l, lids, lid, ids, ho', hl, hs⟩ := reads_node hr ht
      obtain ⟨i, is, rfl, h3, h4⟩ := hs
      refine ⟨i, is, ?_, h3, h4⟩
      obtain rfl := some_eq ho ho'
      simp [splitRight, tm_bind, deref_run ho, he, hterm, childrenIds_run ho rfl hl, tm_pure]

/-- Marking a new node of words and names. -/
theorem mark_new {ids : List Int} {us : List STree} (hs : ReadsL h us ids) (hn : namedL us = true) :
    Settles (fun k => setCompound k true h.objs.length) (h.addNodeC ids false) (fun _ h' => h' = h.addNodeC ids true) := by
  refine Settles.succ (fun k => by rw [setCompound]) ?_
  refine Settles.step (fun _ => deref_run (addNodeC_obj h _ false)) ?_
  refine Settles.step (fun _ => setMark_run _ true) ?_
  obtain ⟨rs, hrs, hrefs⟩ := children_reads (addNodeC_obj h ids true) rfl (addNodeC_list h _ true)
    (hs.keep ((ext_addNodeC h ids true).saves _))
  refine Settles.step (fun _ => hrs) ?_
  exact setCompoundL_named _ hrefs hn

/-- The relation with the two joined at the center. -/
def centered (r f : STree) : STree :=
  .node none false (r.parts.dropLast ++ [.node none true (r.parts.getLast?.toList ++ f.parts.take 1)] ++ f.parts.drop 1)

theorem mergeCenter_reads (hw : Working h q x r as) (hc : ChildR h child j f bs) (hloose : r.loose) (hlevel : f.level)
    (hb : BuildsV h build G (if r.terminal && f.terminal then [] else [centered r f]))
    {rl rr : Nat} (htl : h.table[x]? = some rl) (htr : h.table[j]? = some rr) :
    Settles (fun k => mergeCenter k (build k) rl rr) h (fun rs h' => Saves Every h h' ∧
      RefsR h' ((if r.terminal && f.terminal then [] else [centered r f]).flatMap G) rs) := by
  obtain ⟨w0, l0, lids0, lid0, is, ht, ho, hl, hrr, hs, hne⟩ := hw
  obtain ⟨n, l, ns, c, lids, lid, js, htc, hoc, hlc, hrf, hsb⟩ := hc
  obtain ⟨el, hol, hil, hel⟩ := reads_terminal hrr htl
  obtain ⟨er, hor, hir, her⟩ := reads_terminal hrf htr
  refine Settles.step (fun _ => deref_run hol) ?_
  refine Settles.step (fun _ => deref_run hor) ?_
  rw [hel, her]
  refine Settles.ite (fun h0 => ?_) (fun h0 => ?_)
  · have h0 : (r.terminal && f.terminal) = false := by
      revert h0
      cases r.terminal <;> cases f.terminal <;> simp
    simp only [h0, Bool.false_eq_true, if_false] at hb ⊢
    obtain ⟨us, u, hp, hus, hu⟩ := loose_parts hloose
    obtain ⟨v, vs, hq, hv, hvs⟩ := level_parts hlevel
    obtain ⟨la, lb, hl1, hla, hlb⟩ := splitLeft_reads hrr htl hp
    obtain ⟨ra, rb, hr1, hra, hrb⟩ := splitRight_reads hrf htr hq
    have hcen : centered r f = .node none false (us ++ [.node none true [u, v]] ++ vs) := by simp [centered, hp, hq]
    refine Settles.step (fun _ => hl1) ?_
    refine Settles.step (fun _ => hr1) ?_
    refine Settles.step (fun _ => createNode_run _ _) ?_
    rw [addNode_eq]
    have hpair := reads_pair hlb hra
    refine Settles.bind (mark_new hpair (by simp [namedL, hu, hv])) ?_
    rintro _ h2 rfl
    refine Settles.step (fun _ => elemId_run (addNodeC_obj h [lb, ra] true)) ?_
    refine Settles.step (fun _ => createNode_run _ _) ?_
    rw [addNode_eq]
    have x1 := ext_addNodeC h [lb, ra] true
    have hone : ReadsL (h.addNodeC [lb, ra] true) [.node none true [u, v]] [((h.table.length : Nat) : Int)] :=
      ⟨_, [], rfl, reads_addNodeC true hpair, rfl⟩
    have hall : ReadsL (h.addNodeC [lb, ra] true) (us ++ [.node none true [u, v]] ++ vs)
        (la ++ [((h.table.length : Nat) : Int)] ++ rb) :=
      ((hla.keep (x1.saves _)).append hone).append (hrb.keep (x1.saves _))
    refine Settles.step (fun _ => elemId_run (addNodeC_obj (h.addNodeC [lb, ra] true) _ false)) ?_
    refine hb.run ((x1.trans (ext_addNodeC _ _ false)).saves _) (len_of x1.table) ?_ (by simp)
    rw [hcen]
    exact reads_addNodeC false hall
  · have h0 : (r.terminal && f.terminal) = true := by
      revert h0
      cases r.terminal <;> cases f.terminal <;> simp
    simp only [h0, if_true]
    exact Settles.pure ⟨.refl _ h, rfl⟩

/-- The relation that `addToFirst` extends. -/
theorem newRel_reads {L : Nat → Prop} {n q : Nat} (hr : ReadsP h Every L r (n : Int)) (ht : h.table[n]? = some q)
    (hL : ∀ m, h.lists.length ≤ m → L m) :
    Settles (fun k => do
      let e ← deref q
      if !e.isTerminal then clone k q else createNode [(e.id : Int)]) h
      (fun q' h' => ∃ h1 ids, Ext h h1 ∧ q' = h1.objs.length ∧ h' = h1.addNodeC ids false ∧
        ReadsPL h1 Every L (if r.terminal then [r] else r.copy.parts) ids) := by
  obtain ⟨e, ho, hi, he⟩ := reads_terminal (hr.reads _) ht
  refine Settles.step (fun _ => deref_run ho) ?_
  rw [he]
  cases hterm : r.terminal with
  | true =>
    simp only [Bool.not_true, Bool.false_eq_true, if_false, if_true]
    refine Settles.of_eq (fun _ => createNode_run _ _) ?_
    rw [addNode_eq]
    exact ⟨h, [(e.id : Int)], .refl h, rfl, rfl, _, [], rfl, by rw [hi]; exact hr, rfl⟩
  | false =>
    simp only [Bool.not_false, if_true, Bool.false_eq_true, if_false]
    cases r with
    | leaf ns tok => cases hterm
    | node ns c us =>
      cases (show c = false from hterm)
      obtain ⟨n', r', l, lids, lid, ids, hi', hp, ht', ho', _, hl, hs⟩ := hr
      obtain rfl : n = n' := by omega
      obtain rfl := some_eq ht ht'
      refine Settles.succ (fun k => by rw [clone]) ?_
      refine Settles.step (fun _ => deref_run ho') ?_
      refine Settles.step (fun _ => readList_run hl) ?_
      refine Settles.bind (cloneL_reads us hs (fun _ _ => trivial) hL) ?_
      rintro ids' h1 ⟨x1, hs1⟩
      refine Settles.step (fun _ => createNode_run _ _) ?_
      rw [addNode_eq]
      refine Settles.step (fun _ => deref_run ((ext_addNodeC h1 ids' false).objs _ _ (x1.objs _ _ ho'))) ?_
      refine Settles.step (fun _ => deref_run (addNodeC_obj h1 ids' false)) ?_
      refine Settles.step (fun _ => setMark_run ids' false) ?_
      exact Settles.pure ⟨h1, ids', x1, rfl, rfl, hs1⟩

/-- The relation with the other one as its last part. -/
def extended (r f : STree) : STree := .node none false ((if r.terminal then [r] else r.copy.parts) ++ [f])

theorem addToFirst_reads (hw : Working h q x r as) (hc : ChildR h child j f bs)
    (hb : BuildsV h build G (if f.terminal then [extended r f] else []))
    {rr : Nat} (htr : h.table[j]? = some rr) :
    Settles (fun k => addToFirst k (build k) rr q child) h (fun rs h' => Saves Every h h' ∧
      RefsR h' ((if f.terminal then [extended r f] else []).flatMap G) rs) := by
  obtain ⟨w0, l0, lids0, lid0, is, ht, ho, hl, hrr, hs, hne⟩ := hw
  obtain ⟨n, l, ns, c, lids, lid, js, htc, hoc, hlc, hrf, hsb⟩ := hc
  obtain ⟨er, hor, hir, her⟩ := reads_terminal hrf htr
  refine Settles.step (fun _ => deref_run hor) ?_
  rw [her]
  refine Settles.ite (fun h0 => ?_) (fun h0 => ?_)
  · simp only [h0, if_true] at hb ⊢
    refine Settles.bind (Working.clone ho hl hrr (hs.bound (Q := Every) (fun _ _ _ => trivial) (fun _ _ h => h))
      (fun _ _ => trivial) (fun _ _ => trivial)) ?_
    rintro q1 hA ⟨h1, x1, is1, e1, rfl, rfl, _, _, _⟩
    have eA := e1.trans (ext_addNodeC h1 ((x1 : Int) :: is1) false)
    refine Settles.step (fun _ => childId_run (eA.objs _ _ ho) rfl (eA.lists _ _ hl) (i := 0) rfl) ?_
    obtain ⟨x0, rx, hx0, htx, hg⟩ := hrr.entry
    obtain rfl : x = x0 := by omega
    refine Settles.step (fun _ => treeGet_run (eA.table _ _ htx)) ?_
    have hlen1 := len_of e1.lists
    -- the relation does not use the list of the copy
    have hrA : ReadsP (h1.addNodeC ((x1 : Int) :: is1) false) Every (fun m => m ≠ h1.lists.length) r (x : Int) :=
      ((hrr.readsP (P := Every) (L := fun m => m ≠ h1.lists.length) (fun _ _ => trivial) (fun m hm => by omega) r)).ext eA r
    refine Settles.bind (newRel_reads hrA (eA.table _ _ htx) (fun m hm => by
      simp only [SemTree.addNodeC, List.length_append, List.length_cons, List.length_nil] at hm
      omega)) ?_
    rintro q2 hB ⟨h2, idsR, e2, rfl, rfl, hs2⟩
    have hoN : (h2.addNodeC idsR false).objs[h1.objs.length]? = some ⟨h1.table.length, none, .node h1.lists.length [] (-1) false⟩ :=
      (ext_addNodeC h2 idsR false).objs _ _ (e2.objs _ _ (addNodeC_obj _ _ _))
    have hlN : (h2.addNodeC idsR false).lists[h1.lists.length]? = some ((x1 : Int) :: is1) :=
      (ext_addNodeC h2 idsR false).lists _ _ (e2.lists _ _ (addNodeC_list _ _ _))
    have hlt : h1.lists.length < h2.lists.length := some_lt (e2.lists _ _ (addNodeC_list h1 ((x1 : Int) :: is1) false))
    refine Settles.step (fun _ => elemId_run (addNodeC_obj h2 idsR false)) ?_
    have hset : setFirst h1.objs.length ((h2.table.length : Nat) : Int) (h2.addNodeC idsR false) = .ok ((),
        { h2.addNodeC idsR false with
          lists := (h2.addNodeC idsR false).lists.set h1.lists.length (((h2.table.length : Nat) : Int) :: is1) }) := by
      refine (tm_bind_ok (childrenRef_run hoN rfl)).trans ?_
      refine (tm_bind_ok (readList_run hlN)).trans ?_
      rfl
    refine Settles.step (fun _ => hset) ?_
    have e3 := (eA.trans e2).trans (ext_addNodeC h2 idsR false)
    have e4 := e3.write hlen1 (((h2.table.length : Nat) : Int) :: is1)
    refine Settles.step (fun _ => childId_run (e4.objs _ _ hoc) rfl (e4.lists _ _ hlc) (i := 0) rfl) ?_
    have hne : ¬ h1.lists.length = h2.lists.length := by omega
    have hlen2 : h1.lists.length < (h2.addNodeC idsR false).lists.length := some_lt hlN
    have hadd := addToFirstChild_plain (h := { h2.addNodeC idsR false with
          lists := (h2.addNodeC idsR false).lists.set h1.lists.length (((h2.table.length : Nat) : Int) :: is1) })
      (r := h1.objs.length) (m := h2.table.length) (ids' := idsR) (rest := is1) (j : Int) hoN rfl
      (by simp [hlen2]) (addNodeC_table h2 idsR false) (addNodeC_obj h2 idsR false) rfl
      (by
        have := addNodeC_list h2 idsR false
        simp [List.getElem?_set, hne, this])
    refine Settles.step (fun _ => hadd) ?_
    refine Settles.step (a := ((h2.table.length : Nat) : Int))
      (fun _ => childId_run hoN rfl (xs := ((h2.table.length : Nat) : Int) :: is1) ?_ rfl) ?_
    · have : ¬ h2.lists.length = h1.lists.length := by omega
      simp [List.getElem?_set, this, hlen2]
    · have e5 := e4.write (a := h2.lists.length) (by omega) (idsR ++ [(j : Int)])
      refine hb.run (e5.saves _) ?_ ?_ (by simp)
      · have := len_of (eA.trans e2).table
        omega
      · have hf2 : ReadsP h2 Every (fun m => m ≠ h1.lists.length ∧ m < h2.lists.length) f (j : Int) :=
          (hrf.readsP (P := Every) (L := fun m => m ≠ h1.lists.length ∧ m < h2.lists.length) (fun _ _ => trivial)
            (fun m hm => by omega) f).ext (eA.trans e2) f
        have hsR : ReadsPL h2 Every (fun m => m ≠ h1.lists.length ∧ m < h2.lists.length)
            (if r.terminal then [r] else r.copy.parts) idsR :=
          hs2.bound (fun _ _ h => h) (fun m hm h => ⟨h, hm⟩)
        have hone : ReadsPL h2 Every (fun m => m ≠ h1.lists.length ∧ m < h2.lists.length) [f] [(j : Int)] := ⟨_, [], rfl, hf2, rfl⟩
        have hall := (((hsR.append hone).ext (ext_addNodeC h2 idsR false)).write (a := h1.lists.length) (fun h => h.1 rfl)
          (((h2.table.length : Nat) : Int) :: is1)).write (a := h2.lists.length) (fun h => Nat.lt_irrefl _ h.2) (idsR ++ [(j : Int)])
        exact ⟨h2.table.length, h2.objs.length, h2.lists.length, [], -1, idsR ++ [(j : Int)], rfl, addNodeC_table h2 idsR false,
          addNodeC_obj h2 idsR false, by simp [SemTree.addNodeC], hall.reads _⟩
  · have h0 : f.terminal = false := by simpa using h0
    simp only [h0, Bool.false_eq_true, if_false]
    exact Settles.pure ⟨.refl _ h, rfl⟩

end GB
