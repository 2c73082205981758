import Verif.Proofs.TreeHeap
import Verif.Spec.Alpha

/-
The steps of the alpha stage on the heap.
-/

namespace GB

/-- Outside `F` nothing changed. -/
structure Keeps (h h' : SemTree) (F : List Loc) : Prop where
  agree : ∀ x : Loc, x.valid h → x ∉ F → Agree h h' x
  grow : ∀ x : Loc, x.valid h → x.valid h'
  root : h'.rootId = h.rootId

/-- The places of `F'` are places of `F` or were not in use. -/
def Within (h : SemTree) (F F' : List Loc) : Prop := ∀ x ∈ F', x ∈ F ∨ ¬ x.valid h

theorem agree_refl (h : SemTree) (x : Loc) : Agree h h x := by cases x <;> rfl

theorem agree_trans {h h1 h2 : SemTree} {x : Loc} (a : Agree h h1 x) (b : Agree h1 h2 x) : Agree h h2 x := by
  cases x <;> simp only [Agree] at * <;> rw [b, a]

theorem Keeps.refl (h : SemTree) : Keeps h h [] := ⟨fun x _ _ => agree_refl h x, fun _ hx => hx, rfl⟩

theorem Keeps.trans {h h1 h2 : SemTree} {F G H : List Loc} (a : Keeps h h1 F) (b : Keeps h1 h2 G)
    (hF : ∀ x ∈ F, x ∈ H) (hG : Within h H G) : Keeps h h2 H :=
  ⟨fun x hx hn => agree_trans (a.agree x hx (fun hf => hn (hF x hf)))
    (b.agree x (a.grow x hx) (fun hg => by
      rcases hG x hg with h3 | h3
      · exact hn h3
      · exact h3 hx)),
   fun x hx => b.grow x (a.grow x hx), b.root.trans a.root⟩

theorem Keeps.mono {h h1 : SemTree} {F G : List Loc} (a : Keeps h h1 F) (hF : ∀ x ∈ F, x ∈ G) : Keeps h h1 G :=
  ⟨fun x hx hn => a.agree x hx (fun hf => hn (hF x hf)), a.grow, a.root⟩

theorem Keeps.rep {h h1 : SemTree} {F G : List Loc} {t : STree} {i : Int} (a : Keeps h h1 F) (hr : Rep h t i G)
    (hd : ∀ x ∈ G, x ∉ F) : Rep h1 t i G :=
  hr.frame t (fun x hx => a.agree x (hr.valid t x hx) (hd x hx))

theorem Keeps.reps {h h1 : SemTree} {F G : List Loc} {ts : List STree} {is : List Int} (a : Keeps h h1 F)
    (hr : Reps h ts is G) (hd : ∀ x ∈ G, x ∉ F) : Reps h1 ts is G :=
  Reps.frame ts hr (fun x hx => a.agree x (Reps.valid ts hr x hx) (hd x hx))

theorem Within.trans {h h1 : SemTree} {F G H : List Loc} (a : Within h F G) (b : Within h1 G H)
    (g : ∀ x : Loc, x.valid h → x.valid h1) : Within h F H := fun x hx => by
  rcases b x hx with h2 | h2
  · exact a x h2
  · exact .inr (fun hv => h2 (g x hv))

/-! ### What single operations keep -/

theorem keeps_addLeaf (h : SemTree) (tok : TokInfo) : Keeps h (h.addLeaf tok) [] := by
  refine ⟨fun x hx _ => ?_, fun x hx => ?_, rfl⟩
  · cases x <;> simp only [Loc.valid] at hx <;> simp [Agree, SemTree.addLeaf, List.getElem?_append_left hx]
  · cases x <;> simp only [Loc.valid] at hx <;> simp [Loc.valid, SemTree.addLeaf] <;> omega

theorem keeps_addNode (h : SemTree) (ids : List Int) : Keeps h (h.addNode ids) [] := by
  refine ⟨fun x hx _ => ?_, fun x hx => ?_, rfl⟩
  · cases x <;> simp only [Loc.valid] at hx <;> simp [Agree, SemTree.addNode, List.getElem?_append_left hx]
  · cases x <;> simp only [Loc.valid] at hx <;> simp [Loc.valid, SemTree.addNode] <;> omega

theorem keeps_addNodeWith (h : SemTree) (l : Nat) : Keeps h (h.addNodeWith l) [] := by
  refine ⟨fun x hx _ => ?_, fun x hx => ?_, rfl⟩
  · cases x <;> simp only [Loc.valid] at hx <;> simp [Agree, SemTree.addNodeWith, List.getElem?_append_left hx]
  · cases x <;> simp only [Loc.valid] at hx <;> simp [Loc.valid, SemTree.addNodeWith] <;> omega

theorem keeps_write (h : SemTree) (l : Nat) (xs : List Int) :
    Keeps h { h with lists := h.lists.set l xs } [.lst l] := by
  refine ⟨fun x hx hn => ?_, fun x hx => ?_, rfl⟩
  · cases x with
    | lst m =>
      have : l ≠ m := fun e => hn (by simp [e])
      simp [Agree, List.getElem?_set_ne this]
    | _ => simp [Agree]
  · cases x <;> simpa [Loc.valid] using hx

theorem keeps_setObj (h : SemTree) (r : Nat) (e : Elem) :
    Keeps h { h with objs := h.objs.set r e } [.obj r] := by
  refine ⟨fun x hx hn => ?_, fun x hx => ?_, rfl⟩
  · cases x with
    | obj m =>
      have : r ≠ m := fun e => hn (by simp [e])
      simp [Agree, List.getElem?_set_ne this]
    | _ => simp [Agree]
  · cases x <;> simpa [Loc.valid] using hx

theorem keeps_encl (h : SemTree) (r n : Nat) (e : Elem) : Keeps h (h.encl r n e) [.id n, .obj r] := by
  refine ⟨fun x hx hn => ?_, fun x hx => ?_, rfl⟩
  · cases x with
    | id m =>
      have : n ≠ m := fun e => hn (by simp [e])
      simp only [Loc.valid] at hx
      simp [Agree, SemTree.encl, List.getElem?_set_ne this, List.getElem?_append_left hx]
    | obj m =>
      have h1 : r ≠ m := fun e => hn (by simp [e])
      simp only [Loc.valid] at hx
      simp only [Agree, SemTree.encl]
      rw [List.getElem?_append_left (by simpa using hx), List.getElem?_set_ne h1]
    | lst m =>
      simp only [Loc.valid] at hx
      simp [Agree, SemTree.encl, List.getElem?_append_left hx]
  · cases x <;> simp only [Loc.valid] at hx <;> simp [Loc.valid, SemTree.encl] <;> omega

/-! ### Layers and elements under construction -/

/-- A layer node with its gap. -/
def LRep (h : SemTree) (L : Layer) (lid : Nat) (F : List Loc) : Prop :=
  ∃ (r l : Nat) (i : Int) (is : List Int) (F1 F2 : List Loc), h.table[lid]? = some r ∧
    h.objs[r]? = some ⟨lid, none, .node l [] (-1) false⟩ ∧ h.lists[l]? = some (i :: -1 :: is) ∧ Rep h L.1 i F1 ∧
    Reps h L.2 is F2 ∧ F = .id lid :: .obj r :: .lst l :: (F1 ++ F2)

/-- Several layers. -/
def LReps (h : SemTree) : List Layer → List Nat → List Loc → Prop
  | [], ids, F => ids = [] ∧ F = []
  | L :: Ls, ids, F => ∃ i is F1 F2, ids = i :: is ∧ LRep h L i F1 ∧ LReps h Ls is F2 ∧ F = F1 ++ F2

theorem LRep.frame {h h' : SemTree} {L : Layer} {i : Nat} {F : List Loc} (hr : LRep h L i F)
    (hf : ∀ x ∈ F, Agree h h' x) : LRep h' L i F := by
  obtain ⟨r, l, j, is, F1, F2, ht, ho, hl, h1, h2, rfl⟩ := hr
  refine ⟨r, l, j, is, F1, F2, ?_, ?_, ?_, h1.frame _ fun x hx => hf x (by simp [hx]),
    Reps.frame _ h2 fun x hx => hf x (by simp [hx]), rfl⟩
  · rw [hf (.id i) (by simp)]; exact ht
  · rw [hf (.obj r) (by simp)]; exact ho
  · rw [hf (.lst l) (by simp)]; exact hl

theorem LRep.valid {h : SemTree} {L : Layer} {i : Nat} {F : List Loc} (hr : LRep h L i F) : ∀ x ∈ F, x.valid h := by
  obtain ⟨r, l, j, is, F1, F2, ht, ho, hl, h1, h2, rfl⟩ := hr
  intro x hx
  simp only [List.mem_cons, List.mem_append] at hx
  rcases hx with rfl | rfl | rfl | hx | hx
  · exact some_lt ht
  · exact some_lt ho
  · exact some_lt hl
  · exact h1.valid _ x hx
  · exact Reps.valid _ h2 x hx

theorem LReps.frame {h h' : SemTree} : {Ls : List Layer} → {is : List Nat} → {F : List Loc} → LReps h Ls is F →
    (∀ x ∈ F, Agree h h' x) → LReps h' Ls is F
  | [], _, _, hr, _ => hr
  | L :: Ls, is, F, hr, hf => by
    obtain ⟨i, is', F1, F2, rfl, h1, h2, rfl⟩ := hr
    exact ⟨i, is', F1, F2, rfl, h1.frame fun x hx => hf x (by simp [hx]), h2.frame fun x hx => hf x (by simp [hx]), rfl⟩

theorem LReps.valid {h : SemTree} : {Ls : List Layer} → {is : List Nat} → {F : List Loc} → LReps h Ls is F →
    ∀ x ∈ F, x.valid h
  | [], _, _, hr => by obtain ⟨_, rfl⟩ := hr; intro x hx; cases hx
  | L :: Ls, is, F, hr => by
    obtain ⟨i, is', F1, F2, rfl, h1, h2, rfl⟩ := hr
    intro x hx
    rcases List.mem_append.mp hx with hx | hx
    · exact h1.valid x hx
    · exact h2.valid x hx

theorem LReps.append {h : SemTree} : {Ls Ms : List Layer} → {is js : List Nat} → {F G : List Loc} → LReps h Ls is F →
    LReps h Ms js G → LReps h (Ls ++ Ms) (is ++ js) (F ++ G)
  | [], Ms, is, js, F, G, h1, h2 => by
    obtain ⟨rfl, rfl⟩ := h1
    exact h2
  | L :: Ls, Ms, is, js, F, G, h1, h2 => by
    obtain ⟨i, is', F1, F2, rfl, ha, hb, rfl⟩ := h1
    exact ⟨i, is' ++ js, F1, F2 ++ G, rfl, ha, hb.append h2, by simp⟩

/-- An element under construction: a tree and its layers. -/
def Own (h : SemTree) (e : Nat) (t : STree) (Ls : List Layer) (F : List Loc) : Prop := match t with
  | .leaf ns tok => Ls = [] ∧ Rep h (.leaf ns tok) (e : Int) F
  | .node ns c ts => ∃ (r l : Nat) (ids : List Int) (lids : List Nat) (F1 F2 : List Loc), h.table[e]? = some r ∧
      h.objs[r]? = some ⟨e, ns, .node l lids (-1) c⟩ ∧ h.lists[l]? = some ids ∧ Reps h ts ids F1 ∧
      LReps h Ls lids F2 ∧ F = .id e :: .obj r :: .lst l :: (F1 ++ F2)

theorem own_nil {h : SemTree} {e : Nat} {t : STree} {F : List Loc} : Own h e t [] F ↔ Rep h t (e : Int) F := by
  cases t with
  | leaf ns tok => simp [Own]
  | node ns c ts =>
    simp only [Own, Rep, LReps]
    constructor
    · rintro ⟨r, l, ids, lids, F1, F2, ht, ho, hl, h1, ⟨rfl, rfl⟩, rfl⟩
      exact ⟨e, r, l, ids, F1, rfl, ht, ho, hl, h1, by simp⟩
    · rintro ⟨n, r, l, ids, Fs, hi, ht, ho, hl, h1, rfl⟩
      have : e = n := by omega
      subst this
      exact ⟨r, l, ids, [], Fs, [], ht, ho, hl, h1, ⟨rfl, rfl⟩, by simp⟩

theorem Own.frame {h h' : SemTree} {e : Nat} {t : STree} {Ls : List Layer} {F : List Loc} (hr : Own h e t Ls F)
    (hf : ∀ x ∈ F, Agree h h' x) : Own h' e t Ls F := by
  cases t with
  | leaf ns tok => exact ⟨hr.1, hr.2.frame _ hf⟩
  | node ns c ts =>
    obtain ⟨r, l, ids, lids, F1, F2, ht, ho, hl, h1, h2, rfl⟩ := hr
    refine ⟨r, l, ids, lids, F1, F2, ?_, ?_, ?_, Reps.frame _ h1 fun x hx => hf x (by simp [hx]),
      h2.frame fun x hx => hf x (by simp [hx]), rfl⟩
    · rw [hf (.id e) (by simp)]; exact ht
    · rw [hf (.obj r) (by simp)]; exact ho
    · rw [hf (.lst l) (by simp)]; exact hl

theorem Own.valid {h : SemTree} {e : Nat} {t : STree} {Ls : List Layer} {F : List Loc} (hr : Own h e t Ls F) :
    ∀ x ∈ F, x.valid h := by
  cases t with
  | leaf ns tok => exact hr.2.valid _
  | node ns c ts =>
    obtain ⟨r, l, ids, lids, F1, F2, ht, ho, hl, h1, h2, rfl⟩ := hr
    intro x hx
    simp only [List.mem_cons, List.mem_append] at hx
    rcases hx with rfl | rfl | rfl | hx | hx
    · exact some_lt ht
    · exact some_lt ho
    · exact some_lt hl
    · exact Reps.valid _ h1 x hx
    · exact h2.valid x hx

theorem Own.keeps {h h' : SemTree} {e : Nat} {t : STree} {Ls : List Layer} {F G : List Loc} (hr : Own h e t Ls F)
    (k : Keeps h h' G) (hd : ∀ x ∈ F, x ∉ G) : Own h' e t Ls F :=
  hr.frame fun x hx => k.agree x (hr.valid x hx) (hd x hx)

theorem Own.entry {h : SemTree} {e : Nat} {t : STree} {Ls : List Layer} {F : List Loc} (hr : Own h e t Ls F) :
    ∃ r x, h.table[e]? = some r ∧ h.objs[r]? = some x ∧ x.id = e ∧ x.isNode = t.isNode ∧ Loc.id e ∈ F ∧ Loc.obj r ∈ F := by
  cases t with
  | leaf ns tok =>
    obtain ⟨_, n, r, hi, ht, ho, rfl⟩ := hr
    have : e = n := by omega
    subst this
    exact ⟨r, _, ht, ho, rfl, rfl, by simp, by simp⟩
  | node ns c ts =>
    obtain ⟨r, l, ids, lids, F1, F2, ht, ho, hl, h1, h2, rfl⟩ := hr
    exact ⟨r, _, ht, ho, rfl, rfl, by simp, by simp⟩


/-! ### Adding a child -/

theorem some_eq {α : Type} {o : Option α} {x y : α} (a : o = some x) (b : o = some y) : x = y :=
  Option.some.inj (a.symm.trans b)

theorem nodup_of {A B : List Loc} (ha : A.Nodup) (hb : B.Nodup) (hd : ∀ x ∈ A, x ∉ B) : (A ++ B).Nodup := by
  rw [List.nodup_append]
  exact ⟨ha, hb, fun a h1 b h2 e => hd a h1 (e ▸ h2)⟩

theorem nodup_split {A B : List Loc} (h : (A ++ B).Nodup) : A.Nodup ∧ B.Nodup ∧ ∀ x ∈ A, x ∉ B := by
  rw [List.nodup_append] at h
  exact ⟨h.1, h.2.1, fun x h1 h2 => h.2.2 x h1 x h2 rfl⟩

/-- The heap after a leaf `x` with id `e` at `r` is enclosed, seen as an element under construction. -/
theorem enclose_leaf {h : SemTree} {e : Nat} {ns : Option Str} {tok : TokInfo} {F : List Loc}
    (hr : Rep h (.leaf ns tok) (e : Int) F) (hF : F.Nodup) :
    ∃ r h' F' r', h.table[e]? = some r ∧ enclose r h = .ok (r', h') ∧ h'.table[e]? = some r' ∧
      Own h' e (.node none false [.leaf ns tok]) [] F' ∧ F'.Nodup ∧ Keeps h h' F ∧ Within h F F' := by
  obtain ⟨n, r, hi, ht, ho, rfl⟩ := hr
  have : e = n := by omega
  subst this
  have hen := some_lt ht
  have hrn := some_lt ho
  refine ⟨r, h.encl r e ⟨e, ns, .leaf tok⟩,
    [.id e, .obj h.objs.length, .lst h.lists.length, .id h.table.length, .obj r], h.objs.length, ht,
    enclose_run ho rfl, ?_, ?_, ?_, keeps_encl h r e _, ?_⟩
  · simp only [SemTree.encl]
    rw [List.getElem?_set_self (by simp; omega)]
  · refine ⟨h.objs.length, h.lists.length, [(h.table.length : Int)], [], [.id h.table.length, .obj r], [], ?_, ?_, ?_,
      Reps.one ⟨h.table.length, r, rfl, ?_, ?_, rfl⟩, ⟨rfl, rfl⟩, rfl⟩
    · simp only [SemTree.encl]
      rw [List.getElem?_set_self (by simp; omega)]
    · simp [SemTree.encl]
    · simp [SemTree.encl]
    · have : e ≠ h.table.length := by omega
      simp [SemTree.encl, this]
    · simp only [SemTree.encl]
      rw [List.getElem?_append_left (by simpa using hrn)]
      simp [hrn]
  · simp; omega
  · intro x hx
    simp only [List.mem_cons, List.not_mem_nil, or_false] at hx
    rcases hx with rfl | rfl | rfl | rfl | rfl <;> simp [Loc.valid]

theorem addChild_node {h : SemTree} {e r : Nat} {ns : Option Str} {b : Bool} {ts : List STree} {Ls : List Layer}
    {c : STree} {i : Int} {F G : List Loc} (ho : Own h e (.node ns b ts) Ls F) (hc : Rep h c i G)
    (hn : (F ++ G).Nodup) (ht : h.table[e]? = some r) :
    ∃ h' F', addChild r i h = .ok ((), h') ∧ Own h' e (.node ns b (ts ++ [c])) Ls F' ∧ F'.Nodup ∧
      Keeps h h' (F ++ G) ∧ Within h (F ++ G) F' := by
  obtain ⟨r', l, ids, lids, F1, F2, ht', ho', hl, h1, h2, rfl⟩ := ho
  obtain rfl : r' = r := by rw [ht] at ht'; injection ht' with e; exact e.symm
  have hll := some_lt hl
  have key := keeps_write h l (ids ++ [i])
  obtain ⟨hnF, hnG, hd⟩ := nodup_split hn
  simp only [List.nodup_cons, List.mem_cons, List.mem_append, not_or] at hnF
  refine ⟨{ h with lists := h.lists.set l (ids ++ [i]) }, .id e :: .obj r' :: .lst l :: (F1 ++ G ++ F2), ?_, ?_, ?_, ?_, ?_⟩
  · simp [addChild, tm_bind, deref_run ho', Elem.isLeaf, tm_pure, childrenRef_run ho' rfl, readList_run hl, writeList_run]
  · refine ⟨r', l, ids ++ [i], lids, F1 ++ G, F2, ht', ho', by simp [hll], ?_, ?_, rfl⟩
    · refine Reps.append (key.reps h1 ?_) (Reps.one (key.rep hc ?_))
      · intro x hx hm
        simp only [List.mem_cons, List.not_mem_nil, or_false] at hm
        subst hm
        exact hnF.2.2.1.1 hx
      · intro x hx hm
        simp only [List.mem_cons, List.not_mem_nil, or_false] at hm
        subst hm
        exact hd _ (by simp) hx
    · refine h2.frame fun x hx => key.agree x (h2.valid x hx) ?_
      intro hm
      simp only [List.mem_cons, List.not_mem_nil, or_false] at hm
      subst hm
      exact hnF.2.2.1.2 hx
  · refine (List.Perm.nodup_iff ?_).mpr hn
    simp only [List.cons_append, List.append_assoc]
    exact .cons _ (.cons _ (.cons _ (.append_left _ List.perm_append_comm)))
  · exact key.mono (by simp)
  · intro x hx
    left
    simp only [List.mem_cons, List.mem_append] at hx ⊢
    grind


/-- What every step of the construction gives: the run, the new element, no sharing, and what else changed. -/
structure LStep (h : SemTree) (e : Nat) (t : STree) (Ls : List Layer) (F : List Loc) (h' : SemTree) (F' : List Loc) :
    Prop where
  own : Own h' e t Ls F'
  nodup : F'.Nodup
  keeps : Keeps h h' F
  within : Within h F F'

theorem LStep.trans {h h1 h2 : SemTree} {e e' : Nat} {t t' : STree} {Ls Ls' : List Layer} {F G F1 F2 : List Loc}
    (a : LStep h e t Ls F h1 F1) (b : LStep h1 e' t' Ls' (F1 ++ G) h2 F2) :
    LStep h e' t' Ls' (F ++ G) h2 F2 := by
  refine ⟨b.own, b.nodup, a.keeps.trans b.keeps (by simp +contextual) ?_, ?_⟩
  · intro x hx
    rcases List.mem_append.mp hx with hx | hx
    · rcases a.within x hx with h3 | h3
      · left; simp [h3]
      · exact .inr h3
    · left; simp [hx]
  · intro x hx
    rcases b.within x hx with h3 | h3
    · rcases List.mem_append.mp h3 with hx | hx
      · rcases a.within x hx with h3 | h3
        · left; simp [h3]
        · exact .inr h3
      · left; simp [hx]
    · exact .inr (fun hv => h3 (a.keeps.grow x hv))

/-- A part that was disjoint stays disjoint. -/
theorem LStep.nodup_append {h h1 : SemTree} {e : Nat} {t : STree} {Ls : List Layer} {F G F1 : List Loc}
    (a : LStep h e t Ls F h1 F1) (hn : (F ++ G).Nodup) (hv : ∀ x ∈ G, x.valid h) : (F1 ++ G).Nodup := by
  obtain ⟨h1', h2, h3⟩ := nodup_split hn
  refine nodup_of a.nodup h2 fun x hx hg => ?_
  rcases a.within x hx with h4 | h4
  · exact h3 x h4 hg
  · exact h4 (hv x hg)

theorem LStep.other {h h1 : SemTree} {e : Nat} {t u : STree} {Ls : List Layer} {F G F1 : List Loc} {i : Int}
    (a : LStep h e t Ls F h1 F1) (hn : (F ++ G).Nodup) (hr : Rep h u i G) : Rep h1 u i G :=
  a.keeps.rep hr (fun x hx hf => (nodup_split hn).2.2 x hf hx)

theorem LStep.otherOwn {h h1 : SemTree} {e e' : Nat} {t u : STree} {Ls Ms : List Layer} {F G F1 : List Loc}
    (a : LStep h e t Ls F h1 F1) (hn : (F ++ G).Nodup) (hr : Own h e' u Ms G) : Own h1 e' u Ms G :=
  hr.keeps a.keeps (fun x hx hf => (nodup_split hn).2.2 x hf hx)

/-- A leaf is enclosed first. -/
def asNode (r : Nat) : TM Nat := do
  if (← deref r).isLeaf then enclose r else TM.pure r

theorem asNode_node {h : SemTree} {e r : Nat} {ns : Option Str} {b : Bool} {ts : List STree} {Ls : List Layer}
    {F : List Loc} (ho : Own h e (.node ns b ts) Ls F) (ht : h.table[e]? = some r) : asNode r h = .ok (r, h) := by
  obtain ⟨r2, x, ht2, hx, _, hnode, _, _⟩ := ho.entry
  obtain rfl : r2 = r := by rw [ht] at ht2; injection ht2 with e; exact e.symm
  have hxl : x.isLeaf = false := by simpa [Elem.isNode, STree.isNode] using hnode
  simp [asNode, tm_bind, deref_run hx, hxl, tm_pure]

/-- An element as a node: it is unchanged or a leaf is enclosed. -/
theorem asNode_rep {h : SemTree} {e r : Nat} {t : STree} {Ls : List Layer} {F : List Loc} (ho : Own h e t Ls F)
    (hn : F.Nodup) (ht : h.table[e]? = some r) :
    ∃ r1 h1 F1, asNode r h = .ok (r1, h1) ∧ h1.table[e]? = some r1 ∧ asNode r1 h1 = .ok (r1, h1) ∧
      LStep h e t.touch Ls F h1 F1 := by
  cases t with
  | node ns b ts =>
    exact ⟨r, h, F, asNode_node ho ht, ht, asNode_node ho ht, ho, hn, (Keeps.refl h).mono (by simp), fun x hx => .inl hx⟩
  | leaf ns tok =>
    obtain ⟨rfl, hr⟩ := ho
    obtain ⟨r0, h1, F1, r1, ht0, he, ht1, ho1, hn1, hk1, hw1⟩ := enclose_leaf hr hn
    obtain rfl : r0 = r := by rw [ht] at ht0; injection ht0 with e; exact e.symm
    refine ⟨r1, h1, F1, ?_, ht1, asNode_node ho1 ht1, ho1, hn1, hk1, hw1⟩
    obtain ⟨n, r', hi, htn, hob, _⟩ := hr
    obtain rfl : e = n := by omega
    obtain rfl : r' = r0 := by rw [ht] at htn; injection htn with e; exact e.symm
    simp [asNode, tm_bind, deref_run hob, Elem.isLeaf, he]

theorem addChild_rep {h : SemTree} {e r : Nat} {t : STree} {Ls : List Layer}
    {c : STree} {i : Int} {F G : List Loc} (ho : Own h e t Ls F) (hc : Rep h c i G)
    (hn : (F ++ G).Nodup) (ht : h.table[e]? = some r) :
    ∃ h' F', addChild r i h = .ok ((), h') ∧ LStep h e (t.addChild c) Ls (F ++ G) h' F' := by
  obtain ⟨r1, h1, F1, ha, ht1, ha1, s1⟩ := asNode_rep ho (nodup_split hn).1 ht
  have hc1 := s1.other hn hc
  have hn2 := s1.nodup_append hn (hc.valid _)
  have e1 : addChild r i h = addChild r1 i h1 := by
    change (asNode r >>= _) h = (asNode r1 >>= _) h1
    rw [tm_bind_ok ha, tm_bind_ok ha1]
  rw [e1]
  cases t with
  | node ns b ts =>
    obtain ⟨h', F', h2, h3, h4, h5, h6⟩ := addChild_node s1.own hc1 hn2 ht1
    exact ⟨h', F', h2, s1.trans ⟨h3, h4, h5, h6⟩⟩
  | leaf ns tok =>
    obtain ⟨h', F', h2, h3, h4, h5, h6⟩ := addChild_node s1.own hc1 hn2 ht1
    exact ⟨h', F', h2, s1.trans ⟨h3, h4, h5, h6⟩⟩


/-! ### Adding to the first child -/

/-- Enclosing an element. -/
theorem enclose_rep {h : SemTree} {n : Nat} {f : STree} {F : List Loc} (hr : Rep h f (n : Int) F) (hF : F.Nodup) :
    ∃ r h' F' r', h.table[n]? = some r ∧ Loc.obj r ∈ F ∧ enclose r h = .ok (r', h') ∧ h'.table[n]? = some r' ∧
      (∃ x, h'.objs[r']? = some x ∧ x.id = n) ∧ h'.lists.length = h.lists.length + 1 ∧
      Rep h' (.node none false [f]) (n : Int) F' ∧ F'.Nodup ∧ Keeps h h' [.id n, .obj r] ∧ Within h F F' := by
  obtain ⟨n', r, hi, ht, hm1, hm2, x, hx, hid, _, _⟩ := hr.entry
  obtain rfl : n = n' := by omega
  have hen := some_lt ht
  have hrn := some_lt hx
  have key := keeps_encl h r n x
  have hnew : (h.encl r n x).objs[r]? = some { x with id := h.table.length } := by
    simp only [SemTree.encl]
    rw [List.getElem?_append_left (by simpa using hrn)]
    simp [hrn]
  have htab : (h.encl r n x).table[h.table.length]? = some r := by
    have : n ≠ h.table.length := by omega
    simp [SemTree.encl, this]
  have hin : ∃ F1, Rep (h.encl r n x) f (h.table.length : Int) (.id h.table.length :: .obj r :: F1) ∧
      F = .id n :: .obj r :: F1 := by
    cases f with
    | leaf ns tok =>
      obtain ⟨n', r', hi, ht', ho, rfl⟩ := hr
      obtain rfl : n = n' := by omega
      obtain rfl : r' = r := by rw [ht] at ht'; injection ht' with e; exact e.symm
      obtain rfl := some_eq ho hx
      exact ⟨[], ⟨h.table.length, r', rfl, htab, hnew, rfl⟩, rfl⟩
    | node ns c ts =>
      obtain ⟨n', r', l, ids, Fs, hi, ht', ho, hl, hs, rfl⟩ := hr
      obtain rfl : n = n' := by omega
      obtain rfl : r' = r := by rw [ht] at ht'; injection ht' with e; exact e.symm
      obtain rfl := some_eq ho hx
      refine ⟨.lst l :: Fs, ⟨h.table.length, r', l, ids, Fs, rfl, htab, hnew, ?_, key.reps hs ?_, rfl⟩, rfl⟩
      · have := some_lt hl
        simp [SemTree.encl, List.getElem?_append_left this, hl]
      · simp only [List.nodup_cons, List.mem_cons, not_or] at hF
        intro y hy hm
        simp only [List.mem_cons, List.not_mem_nil, or_false] at hm
        rcases hm with rfl | rfl
        · exact hF.1.2.2 hy
        · exact hF.2.1.2 hy
  obtain ⟨F1, hin, rfl⟩ := hin
  have hv := hr.valid
  refine ⟨r, h.encl r n x, .id n :: .obj h.objs.length :: .lst h.lists.length :: .id h.table.length :: .obj r :: F1,
    h.objs.length, ht, hm2, enclose_run hx hid, ?_, ?_, ?_, ?_, ?_, key, ?_⟩
  · simp only [SemTree.encl]
    rw [List.getElem?_set_self (by simp; omega)]
  · exact ⟨_, by simp [SemTree.encl]; rfl, rfl⟩
  · simp [SemTree.encl]
  · refine ⟨n, h.objs.length, h.lists.length, [(h.table.length : Int)], _, rfl, ?_, ?_, ?_, Reps.one hin, rfl⟩
    · simp only [SemTree.encl]
      rw [List.getElem?_set_self (by simp; omega)]
    · simp [SemTree.encl]
    · simp [SemTree.encl]
  · have v1 : ∀ y ∈ F1, y.valid h := fun y hy => hv y (by simp [hy])
    have o1 : Loc.obj h.objs.length ∉ F1 := fun hm => by have := v1 _ hm; simp [Loc.valid] at this
    have o2 : Loc.lst h.lists.length ∉ F1 := fun hm => by have := v1 _ hm; simp [Loc.valid] at this
    have o3 : Loc.id h.table.length ∉ F1 := fun hm => by have := v1 _ hm; simp [Loc.valid] at this
    simp only [List.nodup_cons, List.mem_cons, not_or] at hF ⊢
    refine ⟨⟨by simp, by simp, ?_, by simp, hF.1.2⟩, ⟨by simp, by simp, ?_, o1⟩, ⟨by simp, by simp, o2⟩, ⟨by simp, o3⟩, hF.2.1, hF.2.2⟩
    · simp; omega
    · simp; omega
  · intro y hy
    simp only [List.mem_cons] at hy ⊢
    rcases hy with rfl | rfl | rfl | rfl | rfl | hy
    · simp
    · simp [Loc.valid]
    · simp [Loc.valid]
    · simp [Loc.valid]
    · simp
    · simp [hy]

/-- A new child before or after the children of a node. -/
def placeIds (pos : Position) (ids : List Int) (i : Int) : List Int := if pos = .right then ids ++ [i] else i :: ids

theorem write_node {h : SemTree} {n : Nat} {ns : Option Str} {b : Bool} {us : List STree} {c : STree} {i : Int}
    {F G : List Loc} (pos : Position) (hr : Rep h (.node ns b us) (n : Int) F) (hc : Rep h c i G)
    (hn : (F ++ G).Nodup) :
    ∃ r x l ids F', h.table[n]? = some r ∧ h.objs[r]? = some x ∧ x.body = .node l [] (-1) b ∧ h.lists[l]? = some ids ∧
      Loc.lst l ∈ F ∧
      Rep { h with lists := h.lists.set l (placeIds pos ids i) } (.node ns b (place pos us c)) (n : Int) F' ∧
      F'.Nodup ∧ (∀ x ∈ F', x ∈ F ++ G) := by
  obtain ⟨n', r, l, ids, Fs, hi, ht, ho, hl, hs, rfl⟩ := hr
  obtain rfl : n = n' := by omega
  have hll := some_lt hl
  have key := keeps_write h l (placeIds pos ids i)
  obtain ⟨hnF, hnG, hd⟩ := nodup_split hn
  simp only [List.nodup_cons, List.mem_cons, not_or] at hnF
  have hs' := key.reps hs (fun x hx hm => by
    simp only [List.mem_cons, List.not_mem_nil, or_false] at hm; subst hm; exact hnF.2.2.1 hx)
  have hc' := key.rep hc (fun x hx hm => by
    simp only [List.mem_cons, List.not_mem_nil, or_false] at hm; subst hm; exact hd _ (by simp) hx)
  cases pos with
  | right =>
    refine ⟨r, _, l, ids, .id n :: .obj r :: .lst l :: (Fs ++ G), ht, ho, rfl, hl, by simp, ?_, ?_, ?_⟩
    · exact ⟨n, r, l, ids ++ [i], Fs ++ G, rfl, ht, ho, by simp [placeIds, hll], hs'.append (Reps.one hc'), rfl⟩
    · exact hn
    · simp
  | left =>
    refine ⟨r, _, l, ids, .id n :: .obj r :: .lst l :: (G ++ Fs), ht, ho, rfl, hl, by simp, ?_, ?_, ?_⟩
    · exact ⟨n, r, l, i :: ids, G ++ Fs, rfl, ht, ho, by simp [placeIds, hll], Reps.cons hc' hs', rfl⟩
    · refine (List.Perm.nodup_iff ?_).mpr hn
      exact .cons _ (.cons _ (.cons _ List.perm_append_comm))
    · intro x hx
      simp only [List.cons_append, List.mem_cons, List.mem_append] at hx ⊢
      grind


/-- An element under construction that is a node with a first child, taken apart. -/
structure Parts (h : SemTree) (e : Nat) (ns : Option Str) (b : Bool) (f : STree) (ts : List STree) (Ls : List Layer)
    (r l n : Nat) (is : List Int) (lids : List Nat) (Ff Ft FL : List Loc) : Prop where
  entry : h.table[e]? = some r
  obj : h.objs[r]? = some ⟨e, ns, .node l lids (-1) b⟩
  lst : h.lists[l]? = some ((n : Int) :: is)
  first : Rep h f (n : Int) Ff
  rest : Reps h ts is Ft
  layers : LReps h Ls lids FL
  nodup : (Ff ++ (Loc.id e :: .obj r :: .lst l :: (Ft ++ FL))).Nodup

theorem Own.parts {h : SemTree} {e : Nat} {ns : Option Str} {b : Bool} {f : STree} {ts : List STree} {Ls : List Layer}
    {F : List Loc} (ho : Own h e (.node ns b (f :: ts)) Ls F) (hn : F.Nodup) :
    ∃ r l n is lids Ff Ft FL, Parts h e ns b f ts Ls r l n is lids Ff Ft FL ∧
      List.Perm F (Ff ++ (Loc.id e :: .obj r :: .lst l :: (Ft ++ FL))) := by
  obtain ⟨r, l, ids, lids, F1, F2, ht, ho, hl, h1, h2, rfl⟩ := ho
  obtain ⟨i, is, Ff, Ft, rfl, hf, hs, rfl⟩ := h1
  obtain ⟨n, r', rfl, hrest⟩ := hf.entry
  have hp : List.Perm (Loc.id e :: .obj r :: .lst l :: (Ff ++ Ft ++ F2))
      (Ff ++ (Loc.id e :: .obj r :: .lst l :: (Ft ++ F2))) := by
    refine List.Perm.trans ?_ List.perm_append_comm
    simp only [List.append_assoc, List.cons_append]
    refine .cons _ (.cons _ (.cons _ ?_))
    refine List.Perm.trans List.perm_append_comm ?_
    simp
  exact ⟨r, l, n, is, lids, Ff, Ft, F2, ⟨ht, ho, hl, hf, hs, h2, hp.nodup_iff.mp hn⟩, hp⟩

theorem Parts.own {h : SemTree} {e : Nat} {ns : Option Str} {b : Bool} {f : STree} {ts : List STree} {Ls : List Layer}
    {r l n : Nat} {is : List Int} {lids : List Nat} {Ff Ft FL : List Loc}
    (p : Parts h e ns b f ts Ls r l n is lids Ff Ft FL) :
    ∃ F, Own h e (.node ns b (f :: ts)) Ls F ∧ F.Nodup ∧ List.Perm F (Ff ++ (Loc.id e :: .obj r :: .lst l :: (Ft ++ FL))) := by
  have hp : List.Perm (Loc.id e :: .obj r :: .lst l :: (Ff ++ Ft ++ FL))
      (Ff ++ (Loc.id e :: .obj r :: .lst l :: (Ft ++ FL))) := by
    refine List.Perm.trans ?_ List.perm_append_comm
    simp only [List.append_assoc, List.cons_append]
    refine .cons _ (.cons _ (.cons _ ?_))
    refine List.Perm.trans List.perm_append_comm ?_
    simp
  exact ⟨_, ⟨r, l, _, lids, Ff ++ Ft, FL, p.entry, p.obj, p.lst, ⟨_, _, Ff, Ft, rfl, p.first, p.rest, rfl⟩, p.layers, rfl⟩,
    hp.nodup_iff.mpr p.nodup, hp⟩

theorem Parts.valid {h : SemTree} {e : Nat} {ns : Option Str} {b : Bool} {f : STree} {ts : List STree} {Ls : List Layer}
    {r l n : Nat} {is : List Int} {lids : List Nat} {Ff Ft FL : List Loc}
    (p : Parts h e ns b f ts Ls r l n is lids Ff Ft FL) :
    ∀ x ∈ Loc.id e :: .obj r :: .lst l :: (Ft ++ FL), x.valid h := by
  intro x hx
  simp only [List.mem_cons, List.mem_append] at hx
  rcases hx with rfl | rfl | rfl | hx | hx
  · exact some_lt p.entry
  · exact some_lt p.obj
  · exact some_lt p.lst
  · exact Reps.valid _ p.rest x hx
  · exact p.layers.valid x hx

/-- The first child is replaced. -/
theorem Parts.replace {h h' : SemTree} {e : Nat} {ns : Option Str} {b : Bool} {f f' : STree} {ts : List STree}
    {Ls : List Layer} {r l n : Nat} {is : List Int} {lids : List Nat} {Ff Ff' Ft FL K : List Loc}
    (p : Parts h e ns b f ts Ls r l n is lids Ff Ft FL) (hk : Keeps h h' K)
    (hK : ∀ x ∈ K, x ∉ Loc.id e :: .obj r :: .lst l :: (Ft ++ FL)) (hf : Rep h' f' (n : Int) Ff')
    (hn : (Ff' ++ (Loc.id e :: .obj r :: .lst l :: (Ft ++ FL))).Nodup) :
    Parts h' e ns b f' ts Ls r l n is lids Ff' Ft FL := by
  have hag : ∀ x ∈ Loc.id e :: .obj r :: .lst l :: (Ft ++ FL), Agree h h' x := fun x hx =>
    hk.agree x (p.valid x hx) (fun h1 => hK x h1 hx)
  refine ⟨?_, ?_, ?_, hf, Reps.frame _ p.rest fun x hx => hag x (by simp [hx]),
    p.layers.frame fun x hx => hag x (by simp [hx]), hn⟩
  · rw [hag (.id e) (by simp)]; exact p.entry
  · rw [hag (.obj r) (by simp)]; exact p.obj
  · rw [hag (.lst l) (by simp)]; exact p.lst


theorem LStep.mono {h h' : SemTree} {e : Nat} {t : STree} {Ls : List Layer} {F H F' : List Loc}
    (a : LStep h e t Ls F h' F') (hs : ∀ x ∈ F, x ∈ H) : LStep h e t Ls H h' F' :=
  ⟨a.own, a.nodup, a.keeps.mono hs, fun x hx => (a.within x hx).imp_left (hs x)⟩

theorem getChild_run {h : SemTree} {r : Nat} {x : Elem} {l : Nat} {lids : List Nat} {lid : Int} {c : Bool}
    {xs : List Int} {i n r' : Nat} (e : h.objs[r]? = some x) (hb : x.body = .node l lids lid c)
    (hl : h.lists[l]? = some xs) (hi : xs[i]? = some (n : Int)) (ht : h.table[n]? = some r') :
    getChild r i h = .ok (r', h) := by
  simp [getChild, tm_bind, childId_run e hb hl hi, treeGet_run ht]

/-- The last part of `add_to_first_child`. -/
def addIn (r : Nat) (id : Int) (pos : Position) : TM Unit := do
  let c' ← getChild r 0
  let l ← childrenRef c'
  let xs ← readList l
  if pos = .right then writeList l (xs ++ [id]) else writeList l (id :: xs)

theorem addIn_rep {h : SemTree} {e : Nat} {ns ns' : Option Str} {b b' : Bool} {us ts : List STree}
    {Ls : List Layer} {r l n : Nat} {is : List Int} {lids : List Nat} {Ff Ft FL G : List Loc} {c : STree} {i : Int}
    (pos : Position) (p : Parts h e ns b (.node ns' b' us) ts Ls r l n is lids Ff Ft FL) (hc : Rep h c i G)
    (hn : ((Ff ++ (Loc.id e :: .obj r :: .lst l :: (Ft ++ FL))) ++ G).Nodup) :
    ∃ h' F', addIn r i pos h = .ok ((), h') ∧ LStep h e (.node ns b (.node ns' b' (place pos us c) :: ts)) Ls
      ((Ff ++ (Loc.id e :: .obj r :: .lst l :: (Ft ++ FL))) ++ G) h' F' ∧ h'.table[e]? = some r := by
  have hnG : (Ff ++ G).Nodup := by
    obtain ⟨h1, h2, h3⟩ := nodup_split hn
    exact nodup_of (nodup_split h1).1 h2 (fun x hx => h3 x (by simp [hx]))
  obtain ⟨r2, x, l2, ids, F', ht2, hx2, hb2, hl2, hm, hrep, hnd, hsub⟩ := write_node pos p.first hc hnG
  have key := keeps_write h l2 (placeIds pos ids i)
  have hd : ∀ y ∈ Ff ++ G, y ∉ Loc.id e :: .obj r :: .lst l :: (Ft ++ FL) := by
    obtain ⟨h1, h2, h3⟩ := nodup_split hn
    intro y hy hy2
    rcases List.mem_append.mp hy with hy | hy
    · exact (nodup_split h1).2.2 y hy hy2
    · exact h3 y (by rw [List.mem_append]; exact .inr hy2) hy
  have p' := p.replace (f' := .node ns' b' (place pos us c)) (Ff' := F') key
    (fun y hy => by
      simp only [List.mem_cons, List.not_mem_nil, or_false] at hy
      subst hy
      exact hd _ (by simp [hm])) hrep
    (nodup_of hnd (nodup_split p.nodup).2.1 (fun y hy => hd y (hsub y hy)))
  obtain ⟨F2, ho, hn2, hp⟩ := p'.own
  refine ⟨_, F2, ?_, ⟨ho, hn2, key.mono ?_, ?_⟩, p.entry⟩
  · have hg : getChild r 0 h = .ok (r2, h) := getChild_run p.obj rfl p.lst (by simp) ht2
    cases pos <;>
    simp [addIn, tm_bind, hg, childrenRef_run hx2 hb2, readList_run hl2, placeIds, writeList_run]
  · intro y hy
    simp only [List.mem_cons, List.not_mem_nil, or_false] at hy
    subst hy
    simp [hm]
  · intro y hy
    left
    have := hp.mem_iff.mp hy
    rcases List.mem_append.mp this with h1 | h1
    · rcases List.mem_append.mp (hsub y h1) with h2 | h2 <;> simp [h2]
    · simp only [List.mem_append]
      exact .inl (.inr (by simpa using h1))

theorem lists_same {h : SemTree} {l : Nat} {xs : List Int} (hl : h.lists[l]? = some xs) :
    { h with lists := h.lists.set l xs } = h := by
  obtain ⟨h1, h2⟩ := List.getElem?_eq_some_iff.mp hl
  have : h.lists.set l xs = h.lists := by rw [← h2]; exact List.set_getElem_self h1
  rw [this]

theorem addFirst_node {h : SemTree} {e r : Nat} {ns : Option Str} {b : Bool} {f : STree} {ts : List STree}
    {Ls : List Layer} {c : STree} {i : Int} {F G : List Loc} (pos : Position)
    (ho : Own h e (.node ns b (f :: ts)) Ls F) (hc : Rep h c i G) (hn : (F ++ G).Nodup)
    (ht : h.table[e]? = some r) :
    ∃ h' F', addToFirstChildNode r i pos h = .ok ((), h') ∧
      LStep h e (.node ns b (f.join c pos :: ts)) Ls (F ++ G) h' F' ∧ h'.table[e]? = some r := by
  obtain ⟨hnF, hnG, hd⟩ := nodup_split hn
  obtain ⟨r0, l, n, is, lids, Ff, Ft, FL, p, hp⟩ := ho.parts hnF
  obtain rfl := some_eq ht p.entry
  have hpn : ((Ff ++ (Loc.id e :: .obj r :: .lst l :: (Ft ++ FL))) ++ G).Nodup :=
    nodup_of p.nodup hnG (fun x hx => hd x (hp.mem_iff.mpr hx))
  have hsub : ∀ x ∈ (Ff ++ (Loc.id e :: .obj r :: .lst l :: (Ft ++ FL))) ++ G, x ∈ F ++ G := by
    intro x hx
    rcases List.mem_append.mp hx with hx | hx
    · exact List.mem_append.mpr (.inl (hp.mem_iff.mpr hx))
    · exact List.mem_append.mpr (.inr hx)
  obtain ⟨n', rf, hni, htf, _, _, xf, hxf, hidf, _, htermf⟩ := p.first.entry
  obtain rfl : n = n' := by omega
  have hg0 : getChild r 0 h = .ok (rf, h) := getChild_run p.obj rfl p.lst (by simp) htf
  by_cases hterm : f.terminal = true
  · -- the first child is enclosed
    obtain ⟨r1, h1, F1, r2, ht1, hm1, he1, ht2, ⟨x2, hx2, hid2⟩, hlen, hrep1, hnd1, hk1, hw1⟩ :=
      enclose_rep p.first (nodup_split p.nodup).1
    obtain rfl := some_eq htf ht1
    have hdis := (nodup_split p.nodup).2.2
    have hidm : Loc.id n ∈ Ff := by
      obtain ⟨n', _, hni, _, hm, _⟩ := p.first.entry
      obtain rfl : n = n' := by omega
      exact hm
    have p1 := p.replace (f' := .node none false [f]) (Ff' := F1) hk1
      (fun y hy => by
        simp only [List.mem_cons, List.not_mem_nil, or_false] at hy
        rcases hy with rfl | rfl
        · exact hdis _ hidm
        · exact hdis _ hm1) hrep1
      (nodup_of hnd1 (nodup_split p.nodup).2.1 (fun y hy => by
        rcases hw1 y hy with h2 | h2
        · exact hdis y h2
        · exact fun h3 => h2 (p.valid y h3)))
    have hc1 : Rep h1 c i G := hk1.rep hc (fun y hy hm => by
      simp only [List.mem_cons, List.not_mem_nil, or_false] at hm
      have : y ∈ Ff := by rcases hm with rfl | rfl <;> assumption
      exact (nodup_split hpn).2.2 y (by simp [this]) hy)
    have hn1 : ((F1 ++ (Loc.id e :: .obj r :: .lst l :: (Ft ++ FL))) ++ G).Nodup := by
      refine nodup_of p1.nodup hnG (fun y hy hg => ?_)
      rcases List.mem_append.mp hy with h3 | h3
      · rcases hw1 y h3 with h4 | h4
        · exact (nodup_split hpn).2.2 y (by simp [h4]) hg
        · exact h4 (hc.valid _ y hg)
      · exact (nodup_split hpn).2.2 y (by rw [List.mem_append]; exact .inr h3) hg
    obtain ⟨h2, F2, hrun, st, hent⟩ := addIn_rep pos p1 hc1 hn1
    have hjoin : f.join c pos = .node none false (place pos [f] c) := by
      cases f with
      | leaf _ _ => rfl
      | node ns' b' us =>
        have hb : b' = true := hterm
        subst hb
        rfl
    refine ⟨h2, F2, ?_, ?_, hent⟩
    · have hset : setChild r 0 (n : Int) h1 = .ok ((), h1) := by
        have : (((n : Int) :: is).set 0 (n : Int)) = (n : Int) :: is := rfl
        simp [setChild, tm_bind, childrenRef_run p1.obj rfl, readList_run p1.lst, writeList_run, this, lists_same p1.lst]
      have htr : xf.isTerminal = true := htermf.trans hterm
      simp only [addToFirstChildNode, tm_bind, childrenIds_run p.obj rfl p.lst, hg0, deref_run hxf, htr, if_true, he1,
        elemId_run hx2, hid2, hset, reduceIte]
      exact hrun
    · rw [hjoin]
      refine ⟨st.own, st.nodup, ?_, ?_⟩
      · refine hk1.trans st.keeps (fun y hy => ?_) (fun y hy => ?_)
        · simp only [List.mem_cons, List.not_mem_nil, or_false] at hy
          have : y ∈ Ff := by rcases hy with rfl | rfl <;> assumption
          exact hsub y (by simp [this])
        · rcases List.mem_append.mp hy with h3 | h3
          · rcases List.mem_append.mp h3 with h4 | h4
            · rcases hw1 y h4 with h5 | h5
              · exact .inl (hsub y (by simp [h5]))
              · exact .inr h5
            · exact .inl (hsub y (by rw [List.mem_append, List.mem_append]; exact .inl (.inr h4)))
          · exact .inl (hsub y (by simp [h3]))
      · intro y hy
        rcases st.within y hy with hy | hy
        · rcases List.mem_append.mp hy with h3 | h3
          · rcases List.mem_append.mp h3 with h4 | h4
            · rcases hw1 y h4 with h5 | h5
              · exact .inl (hsub y (by simp [h5]))
              · exact .inr h5
            · exact .inl (hsub y (by rw [List.mem_append, List.mem_append]; exact .inl (.inr h4)))
          · exact .inl (hsub y (by simp [h3]))
        · exact .inr (fun hv => hy (hk1.grow y hv))
  · cases f with
    | leaf _ _ => exact absurd rfl hterm
    | node ns' b' us =>
      have hb : b' = false := by simpa [STree.terminal] using hterm
      subst hb
      obtain ⟨h2, F2, hrun, st, hent⟩ := addIn_rep pos p hc hpn
      refine ⟨h2, F2, ?_, st.mono hsub, hent⟩
      have htr : xf.isTerminal = false := htermf
      simp only [addToFirstChildNode, tm_bind, childrenIds_run p.obj rfl p.lst, hg0, deref_run hxf, htr]
      exact hrun

theorem addFirst_rep {h : SemTree} {e r : Nat} {t : STree} {Ls : List Layer} {c : STree} {i : Int} {F G : List Loc}
    (pos : Position) (ho : Own h e t Ls F) (hc : Rep h c i G) (hn : (F ++ G).Nodup) (ht : h.table[e]? = some r)
    (hne : ∀ ns b, t ≠ .node ns b []) :
    ∃ h' F', addToFirstChild r i pos h = .ok ((), h') ∧ LStep h e (t.addFirst c pos) Ls (F ++ G) h' F' := by
  obtain ⟨r1, h1, F1, ha, ht1, ha1, s1⟩ := asNode_rep ho (nodup_split hn).1 ht
  have hc1 := s1.other hn hc
  have hn2 := s1.nodup_append hn (hc.valid _)
  have e1 : addToFirstChild r i pos h = addToFirstChildNode r1 i pos h1 := by
    change (asNode r >>= _) h = _
    rw [tm_bind_ok ha]
  rw [e1]
  cases t with
  | node ns b ts =>
    cases ts with
    | nil => exact absurd rfl (hne ns b)
    | cons f ts =>
      obtain ⟨h', F', h2, st, _⟩ := addFirst_node pos s1.own hc1 hn2 ht1
      exact ⟨h', F', h2, s1.trans st⟩
  | leaf ns tok =>
    obtain ⟨h', F', h2, st, _⟩ := addFirst_node pos s1.own hc1 hn2 ht1
    exact ⟨h', F', h2, s1.trans st⟩

end GB
