import Verif.Proofs.Row
import Verif.Spec.Match
import Verif.Model.HyperGraph

/-! The abstract store, its concretisation, and the queries on it. -/

set_option linter.unusedSectionVars false

namespace GB

variable {F : Type} [PyFloat F] [DecidableEq F] {V : Val F → Prop}

/-- A known vertex. -/
structure VEnt (F : Type) where
  v : Val F
  deg : Int
  ts : Int

/-- Abstract store: present edges and known vertices. -/
structure Abs (F : Type) where
  edges : List (Val F)
  verts : List (VEnt F)

/-- The vertex row of a vertex. -/
def VEnt.row (r : VEnt F) : VRow := ⟨edge2str r.v, r.deg, r.ts⟩

/-- The tables representing an abstract store. -/
def Abs.conc (A : Abs F) : DB :=
  ⟨A.verts.map VEnt.row, A.edges.flatMap fun e => rowsOf e.elems⟩

/-- Well-formedness of an abstract store. -/
structure AbsOk (V : Val F → Prop) (A : Abs F) : Prop where
  nodup : A.edges.Nodup
  over : ∀ e ∈ A.edges, EdgeOver V e
  keys : (A.verts.map VEnt.v).Nodup
  wf : ∀ r ∈ A.verts, WfVal r.v

/-! ### generic -/

theorem mapE_spec {α β : Type} {f : α → Except PyErr β} {xs : List α}
    (h : ∀ x ∈ xs, ∃ y, f x = .ok y) :
    ∃ ys, mapE f xs = .ok ys ∧ ∀ y, y ∈ ys ↔ ∃ x ∈ xs, f x = .ok y := by
  induction xs with
  | nil => exact ⟨[], rfl, by simp⟩
  | cons x xs ih =>
    obtain ⟨ys, hys, hm⟩ := ih (fun z hz => h z (by simp [hz]))
    obtain ⟨y, hy⟩ := h x (by simp)
    refine ⟨y :: ys, ?_, ?_⟩
    · rw [mapE, hy, hys]; rfl
    · intro z
      simp only [List.mem_cons, hm, exists_eq_or_imp, hy]
      constructor
      · rintro (rfl | h)
        · exact .inl rfl
        · exact .inr h
      · rintro (h | h)
        · exact .inl (by simpa using h.symm)
        · exact .inr h

theorem filterE_spec {α : Type} {p : α → Except PyErr Bool} {q : α → Bool} {xs : List α}
    (h : ∀ x ∈ xs, p x = .ok (q x)) : filterE p xs = .ok (xs.filter q) := by
  induction xs with
  | nil => rfl
  | cons x xs ih =>
    rw [filterE, h x (by simp), ih (fun y hy => h y (by simp [hy]))]
    cases hq : q x <;> simp [hq, bind, Except.bind]

/-! ### last characters -/

theorem hasSucc_of_lt {s : Str} {c : Char} (h : s.getLast? = some c) (hc : c.toNat < 0xd7ff) :
    HasSucc s := ⟨c, h, .inl (by omega)⟩

theorem hasSucc_digits {s : Str} (hne : s ≠ []) (h : ∀ c ∈ s, isDigit c = true ∨ c = '-' ∨ c = '.') :
    HasSucc s := by
  cases hl : s.getLast? with
  | none => simp at hl; exact absurd hl hne
  | some c =>
    apply hasSucc_of_lt hl
    rcases h c (List.mem_of_getLast? hl) with h | rfl | rfl
    · simp [isDigit] at h; omega
    · decide
    · decide

theorem looksDec_chars {s : Str} (h : LooksDec s) : ∀ c ∈ s, isDigit c = true ∨ c = '-' ∨ c = '.' := by
  obtain ⟨sgn, ds, fs, hs, hd, hf, rfl⟩ := h
  rw [isDigits_iff, List.all_eq_true] at hd hf
  intro c hc
  simp only [List.mem_append, List.mem_singleton] at hc
  rcases hc with ((hc | hc) | rfl) | hc
  · rcases hs with rfl | rfl
    · simp at hc
    · simp at hc; subst hc; exact .inr (.inl rfl)
  · exact .inl (hd c hc)
  · exact .inr (.inr rfl)
  · exact .inl (hf c hc)

theorem hasSucc_edge2str (hV : Vocab V) {v : Val F} (h : V v) : HasSucc (edge2str v) := by
  have hw := hV.wf v h
  have hl := hV.last v h
  cases hw with
  | @str s hs =>
    rw [edge2str]
    obtain ⟨c, hc⟩ : ∃ c, s.getLast? = some c := by
      cases hc : s.getLast? with
      | none => simp at hc; exact absurd hc hs.ne
      | some c => exact ⟨c, rfl⟩
    obtain ⟨s', rfl⟩ := List.getLast?_eq_some_iff.1 hc
    refine ⟨c, hc, ?_⟩
    have h1 : c.toNat ≠ 0x10FFFF := fun h' => hl ⟨s', c, rfl, .inl h'⟩
    have h2 : c.toNat ≠ 0xD7FF := fun h' => hl ⟨s', c, rfl, .inr h'⟩
    have hv : c.toNat.isValidChar := c.valid
    unfold Nat.isValidChar at hv ⊢
    omega
  | int =>
    rw [edge2str]
    apply hasSucc_digits (intStr_ne _)
    intro c hc
    rcases intStr_chars _ c hc with h | h
    · exact .inl h
    · exact .inr (.inl h)
  | flt hx =>
    rw [edge2str]
    exact hasSucc_digits (CleanAtom.float _).ne (looksDec_chars hx)
  | tup =>
    refine ⟨')', ?_, by decide⟩
    rw [edge2str, List.getLast?_append]
    rfl

theorem edge2str_ne' {v : Val F} (h : WfVal v) : edge2str v ≠ [] := edge2str_ne h

theorem hasSucc_nodes2str (hV : Vocab V) {xs : List (Val F)} (hne : xs ≠ []) (h : ∀ x ∈ xs, V x) :
    HasSucc (nodes2str xs) := by
  have hx : xs = xs.dropLast ++ [xs.getLast hne] := (List.dropLast_concat_getLast hne).symm
  have hl := hasSucc_edge2str hV (h _ (List.getLast_mem hne))
  have hone : nodes2str [xs.getLast hne] = edge2str (xs.getLast hne) := by
    simp [nodes2str, nodeStrs, pyJoin]
  obtain ⟨c, hc, hv⟩ := hl
  refine ⟨c, ?_, hv⟩
  rw [hx]
  by_cases hd : xs.dropLast = []
  · rw [hd, List.nil_append, hone]; exact hc
  · rw [nodes2str_append hd (by simp), hone, List.getLast?_append, hc]; rfl

/-! ### matching -/

theorem V_ne_none (hV : Vocab V) {v : Val F} (h : V v) : v ≠ .none := by
  rintro rfl
  have := hV.wf _ h
  cases this

theorem matchElems_iff (hV : Vocab V) {es ps : List (Val F)} (hlen : es.length = ps.length)
    (he : ∀ x ∈ es, V x) (hp : ∀ p ∈ ps, p = .none ∨ V p) :
    matchElems es ps = true ↔ Matches ps es := by
  induction es generalizing ps with
  | nil =>
    cases ps with
    | nil => simp [matchElems, Matches]
    | cons => simp at hlen
  | cons e es ih =>
    cases ps with
    | nil => simp at hlen
    | cons p ps =>
      simp only [List.length_cons, Nat.add_right_cancel_iff] at hlen
      rw [matchElems, Matches, Bool.and_eq_true, ih hlen (fun x hx => he x (by simp [hx]))
        (fun x hx => hp x (by simp [hx]))]
      apply and_congr _ Iff.rfl
      have hve := he e (by simp)
      rcases hp p (by simp) with rfl | hvp
      · simp [Val.isNone]
      · have hn := V_ne_none hV hvp
        have hin : p.isNone = false := by cases p <;> simp_all [Val.isNone]
        simp only [hin, Bool.false_or, hn, false_or]
        constructor
        · exact hV.eq p e hvp hve
        · rintro rfl; exact pyEq_refl (hV.wf _ hvp)

theorem Matches.length {ps es : List (Val F)} (h : Matches ps es) : ps.length = es.length := by
  induction ps generalizing es with
  | nil => cases es <;> simp_all [Matches]
  | cons p ps ih =>
    cases es with
    | nil => simp [Matches] at h
    | cons e es => simp [ih h.2]

/-- Matching is decidable. -/
instance decMatches : (ps es : List (Val F)) → Decidable (Matches ps es)
  | [], [] => .isTrue trivial
  | p :: ps, x :: xs =>
    have := decMatches ps xs
    inferInstanceAs (Decidable ((p = .none ∨ p = x) ∧ Matches ps xs))
  | [], _ :: _ => .isFalse id
  | _ :: _, [] => .isFalse id

theorem edgeMatches_eq (hV : Vocab V) {e : Val F} (he : EdgeOver V e) {b : Bool} {ps : List (Val F)}
    (hp : ∀ p ∈ ps, p = .none ∨ V p) :
    edgeMatchesPattern e (.seq b ps) = .ok (decide (Matches ps e.elems)) := by
  obtain ⟨h, t, rfl, ht, hh, hx⟩ := he
  show edgeMatchesPattern (.tup (h :: t)) (.seq b ps) = .ok (decide (Matches ps (h :: t)))
  have hun : edgeMatchesPattern (.tup (h :: t)) (.seq b ps) =
      if (h :: t).length ≠ ps.length then .ok false else .ok (matchElems (h :: t) ps) := rfl
  rw [hun]
  by_cases hl : (h :: t).length = ps.length
  · rw [if_neg (by simpa using hl)]
    congr 1
    rw [Bool.eq_iff_iff, matchElems_iff hV hl hx hp]
    simp
  · have : ¬ Matches ps (h :: t) := fun h' => hl h'.length.symm
    rw [if_pos hl]
    simp [this]

/-- the non-wildcard nodes of a matching pattern can be moved to the front -/
theorem Matches.perm {ps es : List (Val F)} (h : Matches ps es) (hn : ∀ x ∈ es, x ≠ .none) :
    ∃ rest, (ps.filter (fun n => !n.isNone) ++ rest).Perm es := by
  induction ps generalizing es with
  | nil =>
    cases es with
    | nil => exact ⟨[], by simp⟩
    | cons => simp [Matches] at h
  | cons p ps ih =>
    cases es with
    | nil => simp [Matches] at h
    | cons e es =>
      obtain ⟨h1, h2⟩ := h
      obtain ⟨rest, hr⟩ := ih h2 (fun x hx => hn x (by simp [hx]))
      by_cases hp : p = .none
      · subst hp
        refine ⟨e :: rest, ?_⟩
        simp only [Val.isNone, Bool.not_true, Bool.false_eq_true, not_false_eq_true,
          List.filter_cons_of_neg]
        exact List.perm_middle.trans (hr.cons e)
      · have : p = e := by rcases h1 with h1 | h1; exact absurd h1 hp; exact h1
        subst this
        have hin : p.isNone = false := by cases p <;> simp_all [Val.isNone]
        refine ⟨rest, ?_⟩
        simp only [hin, Bool.not_false, List.filter_cons_of_pos, List.cons_append]
        exact hr.cons p

theorem Matches.self_iff {ps es : List (Val F)} (hp : ∀ p ∈ ps, p ≠ .none) :
    Matches ps es ↔ ps = es := by
  induction ps generalizing es with
  | nil => cases es <;> simp [Matches]
  | cons p ps ih =>
    cases es with
    | nil => simp [Matches]
    | cons e es =>
      rw [Matches, ih (fun x hx => hp x (by simp [hx]))]
      simp [hp p (by simp)]

/-! ### decoding ranges of rows -/

theorem mem_conc_perms {A : Abs F} {r : Str} :
    r ∈ A.conc.perms ↔ ∃ e ∈ A.edges, ∃ n, n < factorial e.elems.length ∧ r = rowOf e.elems n := by
  simp only [Abs.conc, List.mem_flatMap, mem_rowsOf]

/-- Any text range starting with an atom decodes exactly to the edges having a row in it. -/
theorem cur2edges_range (hV : Vocab V) {A : Abs F} (hA : AbsOk V A) {c : Char} {s : Str}
    (hc : c ≠ '(') :
    ∃ ds, cur2edges (A.conc.perms.filter fun r => (c :: s).isPrefixOf r) = .ok ds ∧ ds.Nodup ∧
      ∀ e, e ∈ ds ↔ e ∈ A.edges ∧ ∃ n, n < factorial e.elems.length ∧ (c :: s) <+: rowOf e.elems n := by
  have hdec : ∀ e ∈ A.edges, ∀ n, n < factorial e.elems.length → (c :: s) <+: rowOf e.elems n →
      decodeRow (rowOf e.elems n) = .ok e := by
    intro e he n hn hpre
    obtain ⟨h, t, rfl, ht, hh, hx⟩ := hA.over e he
    have hperm := permN_perm hn
    cases hp : permN (Val.tup (h :: t)).elems n with
    | nil =>
      rw [hp] at hperm
      have := List.nil_perm.1 hperm
      simp [Val.elems] at this
    | cons x r =>
      have hxw : WfVal x := hV.wf x (hx x (hperm.subset (by simp [hp])))
      have hxa : x.isAtom = true := by
        rw [rowOf, hp] at hpre
        exact atom_of_prefix hxw hc hpre
      exact decodeRow_rowOf (fun y hy => hV.wf y (hx y hy)) hh ht hn hp hxa
  have hrow : ∀ r ∈ A.conc.perms.filter (fun r => (c :: s).isPrefixOf r), ∃ e ∈ A.edges, ∃ n,
      n < factorial e.elems.length ∧ r = rowOf e.elems n ∧ (c :: s) <+: rowOf e.elems n := by
    intro r hr
    rw [List.mem_filter, mem_conc_perms, List.isPrefixOf_iff_prefix] at hr
    obtain ⟨⟨e, he, n, hn, rfl⟩, hp⟩ := hr
    exact ⟨e, he, n, hn, rfl, hp⟩
  obtain ⟨ys, hys, hm⟩ := mapE_spec (f := decodeRow (F := F))
    (xs := A.conc.perms.filter (fun r => (c :: s).isPrefixOf r)) (by
      intro r hr
      obtain ⟨e, he, n, hn, rfl, hp⟩ := hrow r hr
      exact ⟨e, hdec e he n hn hp⟩)
  have hmem : ∀ e, e ∈ ys ↔ e ∈ A.edges ∧ ∃ n, n < factorial e.elems.length ∧
      (c :: s) <+: rowOf e.elems n := by
    intro e
    rw [hm]
    constructor
    · rintro ⟨r, hr, hd⟩
      obtain ⟨e', he', n, hn, rfl, hp⟩ := hrow r hr
      rw [hdec e' he' n hn hp] at hd
      simp at hd; subst hd
      exact ⟨he', n, hn, hp⟩
    · rintro ⟨he, n, hn, hp⟩
      refine ⟨rowOf e.elems n, ?_, hdec e he n hn hp⟩
      rw [List.mem_filter, mem_conc_perms, List.isPrefixOf_iff_prefix]
      exact ⟨⟨e, he, n, hn, rfl⟩, hp⟩
  refine ⟨pySet ys, ?_, ?_, ?_⟩
  · rw [cur2edges, hys]; rfl
  · apply pySet_nodup
    intro a ha
    exact pyEq_refl ((hA.over a ((hmem a).1 ha).1).wf hV)
  · intro e
    rw [mem_pySet, hmem]
    intro a ha b hb
    exact (hA.over a ((hmem a).1 ha).1).pyEq_eq hV (hA.over b ((hmem b).1 hb).1)

theorem exists_permN {α : Type} {l p : List α} (h : p.Perm l) :
    ∃ n, n < factorial l.length ∧ permN l n = p := by
  have := mem_permutations.2 h
  obtain ⟨n, hn, rfl⟩ := List.mem_iff_getElem.1 this
  refine ⟨n, by rwa [permutations_length] at hn, ?_⟩
  rw [permN, List.getElem?_eq_getElem hn]; rfl

end GB
