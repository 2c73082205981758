import Verif.Proofs.DeltaHeap
import Verif.Spec.Stages

/-
The calls of the delta stage that only read the heap.
-/

namespace GB

/-- Does the word relate? -/
def wordRelates (w : Word) : Bool := w.2.relates

theorem relates_eq (t : TokInfo) : decide (t.pos ∈ relPos) = t.relates := by
  simp [relPos, TokInfo.relates, Bool.or_assoc]

/-- `all` over the children of a node, of a test on their words. -/
theorem allM_kids {h : SemTree} {Ψ : World} {f : Nat → Int → TM Bool} {p : Word → Bool} {n : Nat} : {is : List Int} →
    {lss : List (List Word)} → Ψ.Kids n is lss →
    (∀ i ls, Ψ.Child n i ls → Settles (fun k => f k i) h (fun b h' => b = ls.all p ∧ h' = h)) →
    Settles (fun k => TM.allM (f k) is) h (fun b h' => b = lss.flatten.all p ∧ h' = h)
  | [], lss, hk, _ => by
    cases (show lss = [] from hk)
    exact Settles.pure ⟨rfl, rfl⟩
  | i :: is, lss, hk, hf => by
    obtain ⟨ls, lss', rfl, hc, hk⟩ := hk
    refine Settles.bind (hf i ls hc) ?_
    rintro b h1 ⟨hb, rfl⟩
    cases b with
    | true =>
      refine (allM_kids hk hf).mono ?_
      rintro b h2 ⟨rfl, rfl⟩
      exact ⟨by simp [← hb], rfl⟩
    | false => exact Settles.pure ⟨by simp [← hb], rfl⟩

theorem isRel_settles {h : SemTree} {Ψ : World} (hw : WF h Ψ) : (n : Nat) → {i : Int} → {ls : List Word} →
    Ψ.Child n i ls → Settles (fun k => isRel k i) h (fun b h' => b = ls.all wordRelates ∧ h' = h)
  | 0, _, _, hc => by
    obtain ⟨_, _, _, _, h0⟩ := hc
    omega
  | n + 1, i, ls, hc => by
    obtain ⟨m, ρ, rfl, hm, hlt⟩ := hc
    obtain ⟨r, e, ht, ho, hi, hbody⟩ := hw.good m ls ρ hm
    refine Settles.succ (fun k => by rw [isRel]) ?_
    refine Settles.step (fun _ => treeGet_run ht) ?_
    refine Settles.step (fun _ => deref_run ho) ?_
    rcases hbody with ⟨tok, hb, hls⟩ | ⟨l, lids, lid, c, ids, lss, hb, hown, hl, hne, hk, hls⟩
    · simp only [hb]
      exact Settles.pure ⟨by simp [hls, wordRelates, relates_eq], rfl⟩
    · simp only [hb]
      refine Settles.step (fun _ => readList_run hl) ?_
      subst hls
      refine allM_kids (hk.le (.refl Ψ) (show ρ ≤ n by omega)) ?_
      intro i ls hc
      exact isRel_settles hw n hc

/-- The reference leads to a visible element. -/
def Seen (h : SemTree) (Ψ : World) (n : Nat) (r : Nat) : Prop :=
  ∃ m ls ρ, h.table[m]? = some r ∧ Ψ.ty m = some (ls, ρ) ∧ ρ < n

/-- What a visible element is. -/
theorem Seen.cases {h : SemTree} {Ψ : World} (hw : WF h Ψ) {n r : Nat} (hs : Seen h Ψ n r) : ∃ e, h.objs[r]? = some e ∧
    ((∃ tok, e.body = .leaf tok) ∨ (∃ l lids lid c ids lss ρ, e.body = .node l lids lid c ∧ h.lists[l]? = some ids ∧ ids ≠ [] ∧
      Ψ.Kids ρ ids lss ∧ ρ < n)) := by
  obtain ⟨m, ls, ρ, ht, hm, hlt⟩ := hs
  obtain ⟨r', e, ht', ho, hi, hbody⟩ := hw.good m ls ρ hm
  obtain rfl := some_eq ht ht'
  rcases hbody with ⟨tok, hb, _⟩ | ⟨l, lids, lid, c, ids, lss, hb, hown, hl, hne, hk, hls⟩
  · exact ⟨e, ho, .inl ⟨tok, hb⟩⟩
  · exact ⟨e, ho, .inr ⟨l, lids, lid, c, ids, lss, ρ, hb, hl, hne.1, hk, hlt⟩⟩

theorem Seen.of_child {h : SemTree} {Ψ : World} (hw : WF h Ψ) {n : Nat} {i : Int} {ls : List Word} (hc : Ψ.Child n i ls) :
    ∃ r, treeGet i h = .ok (r, h) ∧ Seen h Ψ n r := by
  obtain ⟨m, ρ, rfl, hm, hlt⟩ := hc
  obtain ⟨r, e, ht, _⟩ := hw.good m ls ρ hm
  exact ⟨r, treeGet_run ht, m, ls, ρ, ht, hm, hlt⟩

theorem Seen.of_kids {h : SemTree} {Ψ : World} (hw : WF h Ψ) {n : Nat} {is : List Int} {lss : List (List Word)}
    (hk : Ψ.Kids n is lss) {i : Int} (hi : i ∈ is) : ∃ r, treeGet i h = .ok (r, h) ∧ Seen h Ψ n r := by
  obtain ⟨ls, hc⟩ := hk.mem i hi
  exact Seen.of_child hw hc

theorem KidRefs.seen {h : SemTree} {Ψ : World} {n : Nat} {rs : List Nat} {lss : List (List Word)} (hk : KidRefs h Ψ n rs lss)
    {r : Nat} (hr : r ∈ rs) : Seen h Ψ n r := by
  obtain ⟨ls, m, ρ, h1, h2, h3⟩ := hk.mem r hr
  exact ⟨m, ls, ρ, h1, h2, h3⟩

theorem children_kids {h : SemTree} {Ψ : World} (hw : WF h Ψ) {r l n : Nat} {e : Elem} {ids : List Int} {lids : List Nat}
    {lid : Int} {c : Bool} {lss : List (List Word)} (ho : h.objs[r]? = some e) (hb : e.body = .node l lids lid c)
    (hl : h.lists[l]? = some ids) (hk : Ψ.Kids n ids lss) : ∃ rs, children r h = .ok (rs, h) ∧ ∀ q ∈ rs, Seen h Ψ n q := by
  obtain ⟨rs, h1, h2⟩ := kidRefs_run hw hk
  exact ⟨rs, (tm_bind_ok (childrenIds_run ho hb hl)).trans h1, fun q hq => h2.seen hq⟩

theorem flatLeafs_settles {h : SemTree} {Ψ : World} (hw : WF h Ψ) : (n : Nat) → {r : Nat} → Seen h Ψ n r →
    Settles (fun k => flatLeafs k r) h (fun _ h' => h' = h)
  | 0, _, hs => by
    obtain ⟨_, _, _, _, _, h0⟩ := hs
    omega
  | n + 1, r, hs => by
    obtain ⟨e, ho, hb | hb⟩ := hs.cases hw
    · obtain ⟨tok, hb⟩ := hb
      refine Settles.succ (fun k => by rw [flatLeafs]) ?_
      refine Settles.step (fun _ => deref_run ho) ?_
      simp only [hb]
      exact Settles.pure rfl
    · obtain ⟨l, lids, lid, c, ids, lss, ρ, hb, hl, hne, hk, hlt⟩ := hb
      obtain ⟨rs, hrs, hseen⟩ := children_kids hw ho hb hl (hk.le (.refl Ψ) (show ρ ≤ n by omega))
      refine Settles.succ (fun k => by rw [flatLeafs]) ?_
      refine Settles.step (fun _ => deref_run ho) ?_
      simp only [hb]
      refine Settles.step (fun _ => hrs) ?_
      refine Settles.bind (Settles.mapM (I := fun _ _ h' => h' = h) rs [] [] h rfl ?_) ?_
      · rintro done x ys h1 hx rfl
        exact flatLeafs_settles hw n (hseen x hx)
      · rintro parts h1 rfl
        exact Settles.pure rfl

theorem elemEq_settles {h : SemTree} {Ψ : World} (hw : WF h Ψ) {n' : Nat} : (n : Nat) → {a b : Nat} → Seen h Ψ n a →
    Seen h Ψ n' b → Settles (fun k => elemEq k a b) h (fun _ h' => h' = h)
  | 0, _, _, hs, _ => by
    obtain ⟨_, _, _, _, _, h0⟩ := hs
    omega
  | n + 1, a, b, ha, hb => by
    obtain ⟨e, ho, he⟩ := ha.cases hw
    obtain ⟨f, hp, hf⟩ := hb.cases hw
    refine Settles.succ (fun k => by rw [elemEq]) ?_
    refine Settles.step (fun _ => deref_run ho) ?_
    refine Settles.step (fun _ => deref_run hp) ?_
    rcases he with ⟨tok, he⟩ | ⟨l, lids, lid, c, ids, lss, ρ, he, hl, hne, hk, hlt⟩
    · rcases hf with ⟨tok', hf⟩ | ⟨l', lids', lid', c', ids', lss', ρ', hf, hl', hne', hk', hlt'⟩
      · simp only [he, hf]; exact Settles.pure rfl
      · simp only [he, hf]; exact Settles.pure rfl
    · rcases hf with ⟨tok', hf⟩ | ⟨l', lids', lid', c', ids', lss', ρ', hf, hl', hne', hk', hlt'⟩
      · simp only [he, hf]; exact Settles.pure rfl
      · simp only [he, hf]
        obtain ⟨rs, hrs, hseen⟩ := children_kids hw ho he hl (hk.le (.refl Ψ) (show ρ ≤ n by omega))
        obtain ⟨qs, hqs, hseen'⟩ := children_kids hw hp hf hl' (hk'.le (.refl Ψ) (show ρ' ≤ n' by omega))
        refine Settles.step (fun _ => hrs) ?_
        refine Settles.step (fun _ => hqs) ?_
        refine Settles.ite (fun _ => Settles.pure rfl) (fun _ => ?_)
        refine Settles.allM _ ?_
        intro p hp
        have := List.of_mem_zip hp
        exact elemEq_settles hw n (hseen _ this.1) (hseen' _ this.2)

theorem isPartOfRel_settles {h : SemTree} {Ψ : World} (hw : WF h Ψ) {n n' a b : Nat} (ha : Seen h Ψ n a)
    (hb : Seen h Ψ n' b) : Settles (fun k => isPartOfRel k a b) h (fun _ h' => h' = h) := by
  refine Settles.bind (flatLeafs_settles hw n ha) ?_
  rintro _ h1 rfl
  refine Settles.bind (flatLeafs_settles hw n' hb) ?_
  rintro _ h2 rfl
  exact Settles.pure rfl

/-- The arity of a node is at most the number of its children. -/
theorem arity_node {h : SemTree} {r l : Nat} {e : Elem} {ids : List Int} {lids : List Nat} {lid : Int} {c : Bool}
    (ho : h.objs[r]? = some e) (hb : e.body = .node l lids lid c) (hl : h.lists[l]? = some ids) :
    arity r h = .ok ((if c then 1 else ids.length), h) := by
  simp only [arity, tm_bind, deref_run ho, hb]
  cases c with
  | true => rfl
  | false =>
    simp only [Bool.false_eq_true, if_false, tm_bind, readList_run hl]
    rfl

theorem arity_leaf {h : SemTree} {r : Nat} {e : Elem} {tok : TokInfo}
    (ho : h.objs[r]? = some e) (hb : e.body = .leaf tok) : arity r h = .ok (1, h) := by
  simp only [arity, tm_bind, deref_run ho, hb]
  rfl

theorem isDirectlyUnder_settles {h : SemTree} {Ψ : World} (hw : WF h Ψ) {np nc parent child : Nat} (hp : Seen h Ψ np parent)
    (hc : Seen h Ψ nc child) : (n : Nat) → {node : Nat} → Seen h Ψ n node →
    Settles (fun k => isDirectlyUnder k node parent child) h (fun _ h' => h' = h)
  | 0, _, hs => by
    obtain ⟨_, _, _, _, _, h0⟩ := hs
    omega
  | n + 1, node, hs => by
    obtain ⟨e, ho, hb | hb⟩ := hs.cases hw
    · obtain ⟨tok, hb⟩ := hb
      refine Settles.succ (fun k => by rw [isDirectlyUnder]) ?_
      refine Settles.step (fun _ => arity_leaf ho hb) ?_
      exact Settles.pure rfl
    · obtain ⟨l, lids, lid, c, ids, lss, ρ, hb, hl, hne, hk, hlt⟩ := hb
      refine Settles.succ (fun k => by rw [isDirectlyUnder]) ?_
      refine Settles.step (fun _ => arity_node ho hb hl) ?_
      refine Settles.ite (fun _ => Settles.pure rfl) (fun _ => ?_)
      have hk := hk.le (.refl Ψ) (show ρ ≤ n by omega)
      obtain ⟨i, is, rfl⟩ : ∃ i is, ids = i :: is := by
        cases ids with
        | nil => exact absurd rfl hne
        | cons i is => exact ⟨i, is, rfl⟩
      refine Settles.step (fun _ => childId_run ho hb hl (i := 0) (y := i) rfl) ?_
      obtain ⟨q, hq, hsq⟩ := Seen.of_kids hw hk (i := i) (by simp)
      refine Settles.step (fun _ => hq) ?_
      refine Settles.step (fun _ => childrenIds_run ho hb hl) ?_
      refine Settles.bind (P := fun _ h' => h' = h) ?_ ?_
      · refine Settles.bind (isPartOfRel_settles hw hsq hp) ?_
        rintro b h1 rfl
        refine Settles.ite (fun _ => ?_) (fun _ => Settles.pure rfl)
        refine Settles.anyM _ ?_
        intro j hj
        obtain ⟨q', hq', hsq'⟩ := Seen.of_kids hw hk (i := j) (by simpa using Or.inr hj)
        refine Settles.step (fun _ => hq') ?_
        exact elemEq_settles hw n hsq' hc
      · rintro b h1 rfl
        refine Settles.ite (fun _ => Settles.pure rfl) (fun _ => ?_)
        refine Settles.anyM _ ?_
        intro j hj
        obtain ⟨q', hq', hsq'⟩ := Seen.of_kids hw hk (i := j) (by simpa using Or.inr hj)
        refine Settles.step (fun _ => hq') ?_
        exact isDirectlyUnder_settles hw hp hc n hsq'

/-- A node that is not visible, but whose children are. -/
def Hid (h : SemTree) (Ψ : World) (r : Nat) (ids : List Int) (lss : List (List Word)) : Prop :=
  ∃ w e l lids lid c n, h.table[w]? = some r ∧ h.objs[r]? = some e ∧ e.id = w ∧ e.body = .node l lids lid c ∧
    h.lists[l]? = some ids ∧ ids ≠ [] ∧ Ψ.ty w = none ∧ Ψ.Kids n ids lss

theorem Hid.moves {h h' : SemTree} {Ψ Ψ' : World} {r : Nat} {ids : List Int} {lss : List (List Word)}
    (hh : Hid h Ψ r ids lss) (s : Moves h Ψ h' Ψ') : Hid h' Ψ' r ids lss := by
  obtain ⟨w, e, l, lids, lid, c, n, ht, ho, hi, hb, hl, hne, hw, hk⟩ := hh
  exact ⟨w, e, l, lids, lid, c, n, s.table w r ht, s.frozen w r e ht ho hi hw, hi, hb, s.lists l ids hl, hne,
    s.hidden (some_lt ht) hw, hk.le s.le (Nat.le_refl _)⟩

/-- A candidate: a visible leaf, or a node that is not visible; with these words. -/
def Cand (h : SemTree) (Ψ : World) (r : Nat) (ls : List Word) : Prop :=
  (∃ m ρ e, h.table[m]? = some r ∧ h.objs[r]? = some e ∧ e.id = m ∧ e.isLeaf = true ∧ Ψ.ty m = some (ls, ρ)) ∨
    (∃ ids lss, Hid h Ψ r ids lss ∧ Ψ.Wide ids ∧ ls = lss.flatten)

theorem Cand.moves {h h' : SemTree} {Ψ Ψ' : World} {r : Nat} {ls : List Word} (hc : Cand h Ψ r ls)
    (s : Moves h Ψ h' Ψ') : Cand h' Ψ' r ls := by
  rcases hc with ⟨m, ρ, e, ht, ho, hi, hb, hm⟩ | ⟨ids, lss, hh, hwd, hls⟩
  · exact .inl ⟨m, ρ, e, s.table m r ht, s.leaf r e ho hb, hi, hb, s.le.ty _ _ hm⟩
  · exact .inr ⟨ids, lss, hh.moves s, hwd.le s.le, hls⟩

theorem getChild_kids {h : SemTree} {Ψ : World} (hw : WF h Ψ) {r l n : Nat} {e : Elem} {ids : List Int} {lids : List Nat}
    {lid : Int} {c : Bool} {lss : List (List Word)} (ho : h.objs[r]? = some e) (hb : e.body = .node l lids lid c)
    (hl : h.lists[l]? = some ids) (hk : Ψ.Kids n ids lss) {i : Nat} (hi : i < ids.length) :
    ∃ q, getChild r i h = .ok (q, h) ∧ Seen h Ψ n q := by
  obtain ⟨q, hq, hs⟩ := Seen.of_kids hw hk (i := ids[i]) (by simp)
  exact ⟨q, (tm_bind_ok (childId_run ho hb hl (by simp [hi]))).trans hq, hs⟩

theorem nodeFitLoop_settles {h : SemTree} {Ψ : World} (hw : WF h Ψ) {node original rel l l' n n' no : Nat} {e e' : Elem}
    {ids ids' : List Int} {lids lids' : List Nat} {lid lid' : Int} {c c' : Bool} {lss lss' : List (List Word)}
    (ho : h.objs[node]? = some e) (hb : e.body = .node l lids lid c) (hl : h.lists[l]? = some ids) (hk : Ψ.Kids n ids lss)
    (ho' : h.objs[rel]? = some e') (hb' : e'.body = .node l' lids' lid' c') (hl' : h.lists[l']? = some ids')
    (hk' : Ψ.Kids n' ids' lss') (hs : Seen h Ψ no original) : (m i : Nat) → (m ≠ 0 → i + m ≤ ids'.length) →
    (m ≠ 0 → i + m + 2 ≤ ids.length) → Settles (fun k => nodeFitLoop k node original rel i m) h (fun _ h' => h' = h)
  | 0, i, _, _ => Settles.pure rfl
  | m + 1, i, h1, h2 => by
    have h1 := h1 (by omega)
    have h2 := h2 (by omega)
    obtain ⟨q1, hq1, hs1⟩ := getChild_kids hw ho' hb' hl' hk' (i := i) (by omega)
    obtain ⟨q2, hq2, hs2⟩ := getChild_kids hw ho hb hl hk (i := i + 1) (by omega)
    obtain ⟨q3, hq3, hs3⟩ := getChild_kids hw ho hb hl hk (i := i + 2) (by omega)
    refine Settles.step (fun _ => hq1) ?_
    refine Settles.step (fun _ => hq2) ?_
    refine Settles.bind (P := fun _ h' => h' = h) ?_ ?_
    · refine Settles.ite (fun _ => ?_) (fun _ => Settles.pure rfl)
      refine Settles.bind (isDirectlyUnder_settles hw hs1 hs2 no hs) ?_
      rintro b h1 rfl
      exact Settles.ite (fun _ => Settles.pure rfl) (fun _ => Settles.pure rfl)
    · rintro f1 h1 rfl
      refine Settles.step (fun _ => hq3) ?_
      refine Settles.bind (P := fun _ h' => h' = h1) ?_ ?_
      · refine Settles.bind (isDirectlyUnder_settles hw hs1 hs3 no hs) ?_
        rintro b h1 rfl
        exact Settles.ite (fun _ => Settles.pure rfl) (fun _ => Settles.pure rfl)
      · rintro f2 h2 rfl
        refine Settles.bind (nodeFitLoop_settles hw ho hb hl hk ho' hb' hl' hk' hs m (i + 1) (by omega) (by omega)) ?_
        rintro rest h3 rfl
        exact Settles.pure rfl

/-- The fit of a candidate: a number, whatever the candidate. -/
theorem nodeFit_settles {h : SemTree} {Ψ : World} (hw : WF h Ψ) {node original no : Nat} {ls : List Word}
    (hc : Cand h Ψ node ls) (hs : Seen h Ψ no original) :
    Settles (fun k => nodeFit k node original) h (fun _ h' => h' = h) := by
  rcases hc with ⟨m, ρ, e, ht, ho, hi, hb, hm⟩ | ⟨ids, lss, ⟨w, e, l, lids, lid, c, n, ht, ho, hi, hb, hl, hne, hwn, hk⟩, _, hls⟩
  · refine Settles.step (fun _ => deref_run ho) ?_
    refine Settles.ite (fun _ => Settles.pure rfl) (fun h0 => absurd hb h0)
  · refine Settles.step (fun _ => deref_run ho) ?_
    refine Settles.ite (fun h0 => by simp [Elem.isLeaf, hb] at h0) (fun _ => ?_)
    obtain ⟨i, is, rfl⟩ : ∃ i is, ids = i :: is := by
      cases ids with
      | nil => exact absurd rfl hne
      | cons i is => exact ⟨i, is, rfl⟩
    refine Settles.step (fun _ => childId_run ho hb hl (i := 0) (y := i) rfl) ?_
    obtain ⟨li, hci⟩ := hk.mem i (by simp)
    refine Settles.bind (isRel_settles hw n hci) ?_
    rintro b h1 ⟨_, rfl⟩
    refine Settles.ite (fun _ => Settles.pure rfl) (fun _ => ?_)
    refine Settles.step (fun _ => childId_run ho hb hl (i := 0) (y := i) rfl) ?_
    obtain ⟨q, hq, hsq⟩ := Seen.of_child hw hci
    refine Settles.step (fun _ => hq) ?_
    obtain ⟨e', ho', hb' | hb'⟩ := hsq.cases hw
    · obtain ⟨tok, hb'⟩ := hb'
      refine Settles.step (fun _ => arity_leaf ho' hb') ?_
      refine Settles.step (fun _ => childrenIds_run ho hb hl) ?_
      refine Settles.step (fun _ => deref_run ho') ?_
      simp only [Elem.isTerminal, hb', if_true]
      exact Settles.pure rfl
    · obtain ⟨l', lids', lid', c', ids', lss', ρ', hb', hl', hne', hk', hlt'⟩ := hb'
      refine Settles.step (fun _ => arity_node ho' hb' hl') ?_
      refine Settles.step (fun _ => childrenIds_run ho hb hl) ?_
      refine Settles.step (fun _ => deref_run ho') ?_
      refine Settles.ite (fun _ => Settles.pure rfl) (fun hterm => ?_)
      have hc' : c' = false := by simpa [Elem.isTerminal, hb'] using hterm
      subst hc'
      refine Settles.step (fun _ => arity_node ho hb hl) ?_
      refine Settles.bind (nodeFitLoop_settles hw ho hb hl hk ho' hb' hl' hk' hs _ 0 ?_ ?_) ?_
      · simp only [Bool.false_eq_true, if_false]
        omega
      · cases c
        · simp only [Bool.false_eq_true, if_false]
          omega
        · simp only [Bool.false_eq_true, if_false, if_true]
          omega
      · rintro f h2 rfl
        exact Settles.pure rfl

end GB
