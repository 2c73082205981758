import Verif.Proofs.Edge
import Verif.Proofs.Perm
import Verif.Proofs.Range
import Verif.Spec.Vocab

/-! Rows of the permutations table. -/

set_option linter.unusedSectionVars false

namespace GB

variable {F : Type} [PyFloat F]

/-- The `n`-th permutation. -/
def permN {α : Type} (l : List α) (n : Nat) : List α := (permutations l)[n]?.getD []

theorem nthperm_permN {α : Type} {l : List α} {n : Nat} (h : n < factorial l.length) :
    nthperm l n = .ok (permN l n) := by
  obtain ⟨p, h1, h2⟩ := nthperm_ok h
  rw [h1, permN, h2]; rfl

theorem permN_perm {α : Type} {l : List α} {n : Nat} (h : n < factorial l.length) :
    (permN l n).Perm l := nthperm_perm (nthperm_permN h)

/-- Text of row number `n` of an edge with elements `es`. -/
def rowOf (es : List (Val F)) (n : Nat) : Str := nodes2str (permN es n ++ [.int n])

/-- All rows of an edge. -/
def rowsOf (es : List (Val F)) : List Str := (List.range (factorial es.length)).map (rowOf es)

theorem nodes2str_snoc {xs : List (Val F)} (h : xs ≠ []) (n : Nat) :
    nodes2str (xs ++ [.int n]) = pyJoin (lit " ") (xs.map edge2str) ++ lit " " ++ natStr n := by
  unfold nodes2str
  rw [nodeStrs_eq_map, List.map_append, pyJoin_append (by simpa using h) (by simp)]
  rfl

theorem permStr_eq {es : List (Val F)} (hne : es ≠ []) {n : Nat} (h : n < factorial es.length) :
    permStr es n = .ok (rowOf es n) := by
  have hp := permN_perm h
  have : permN es n ≠ [] := by
    intro h'; rw [h'] at hp; exact hne (List.nil_perm.1 hp)
  simp only [permStr, nthperm_permN h, bind, Except.bind, rowOf, nodes2str_snoc this]

theorem rowOf_inj {es es' : List (Val F)} (he : ∀ x ∈ es, WfVal x) (he' : ∀ x ∈ es', WfVal x)
    {n n' : Nat} (hn : n < factorial es.length) (hn' : n' < factorial es'.length)
    (h : rowOf es n = rowOf es' n') : es = es' ∧ n = n' := by
  have hp := permN_perm hn
  have hp' := permN_perm hn'
  have := nodes2str_inj (xs := permN es n ++ [Val.int (n : Int)])
    (ys := permN es' n' ++ [Val.int (n' : Int)]) ?_ ?_ h
  · have h2 := List.append_inj' this rfl
    have hnn : n = n' := by
      have := h2.2
      simp at this
      omega
    subst hnn
    have u1 := unpermutate_nthperm hn (nthperm_permN hn)
    have u2 := unpermutate_nthperm hn' (nthperm_permN hn')
    rw [h2.1, u2] at u1
    simp at u1
    exact ⟨u1.symm, rfl⟩
  · intro x hx
    simp only [List.mem_append, List.mem_singleton] at hx
    rcases hx with hx | rfl
    · exact he x (hp.subset hx)
    · exact .int
  · intro x hx
    simp only [List.mem_append, List.mem_singleton] at hx
    rcases hx with hx | rfl
    · exact he' x (hp'.subset hx)
    · exact .int

theorem rowsOf_nodup {es : List (Val F)} (he : ∀ x ∈ es, WfVal x) : (rowsOf es).Nodup := by
  unfold rowsOf
  rw [List.Nodup, List.pairwise_map]
  apply List.Pairwise.imp_of_mem (R := (· ≠ ·)) _ List.nodup_range
  intro a b ha hb hab h
  exact hab (rowOf_inj he he (by simpa using ha) (by simpa using hb) h).2

theorem mem_rowsOf {es : List (Val F)} {r : Str} :
    r ∈ rowsOf es ↔ ∃ n, n < factorial es.length ∧ r = rowOf es n := by
  simp [rowsOf, eq_comm]

/-- A row decodes to its edge if the permutation starts with an atom (and so does the edge). -/
theorem decodeRow_rowOf {h : Val F} {t : List (Val F)} {n : Nat} (hw : ∀ x ∈ h :: t, WfVal x)
    (hh : h.isAtom = true) (ht : t ≠ []) (hn : n < factorial (h :: t).length)
    {x : Val F} {r : List (Val F)} (hp : permN (h :: t) n = x :: r) (hx : x.isAtom = true) :
    decodeRow (rowOf (h :: t) n) = .ok (.tup (h :: t)) := by
  have hperm := permN_perm hn
  have hwp : ∀ y ∈ x :: (r ++ [.int n]), WfVal y := by
    intro y hy
    rw [← List.cons_append, ← hp, List.mem_append, List.mem_singleton] at hy
    rcases hy with hy | rfl
    · exact hw y (hperm.subset hy)
    · exact .int
  have hrow : rowOf (h :: t) n = nodes2str (x :: (r ++ [.int n])) := by
    rw [rowOf, hp, List.cons_append]
  have htok : (x :: (r ++ [Val.int (F := F) n])).map edge2str
      = (permN (h :: t) n).map edge2str ++ [natStr n] := by
    rw [hp]; simp [edge2str, intStr]
  unfold decodeRow
  rw [hrow, splitEdgeStr_nodes hwp hx, htok]
  simp only [bind, Except.bind, List.getLast?_append, List.getLast?_singleton, Option.some_or,
    pyInt_natStr, List.dropLast_concat]
  have hu : unpermutate ((permN (h :: t) n).map edge2str) n = .ok ((h :: t).map edge2str) := by
    apply unpermutate_nthperm (by simpa using hn)
    rw [nthperm_map, nthperm_permN hn]; rfl
  rw [hu]
  have := str2edge_nodes2str hw hh ht
  rw [nodes2str, nodeStrs_eq_map] at this
  exact this

/-! ### text prefixes -/

theorem nodes2str_append {xs ys : List (Val F)} (hx : xs ≠ []) (hy : ys ≠ []) :
    nodes2str (xs ++ ys) = nodes2str xs ++ lit " " ++ nodes2str ys := by
  unfold nodes2str
  rw [nodeStrs_eq_map, List.map_append, pyJoin_append (by simpa using hx) (by simpa using hy),
    nodeStrs_eq_map, nodeStrs_eq_map]

theorem nodes2str_prefix {xs ys : List (Val F)} (hx : xs ≠ []) (hy : ys ≠ []) :
    nodes2str xs <+: nodes2str (xs ++ ys) := by
  rw [nodes2str_append hx hy, List.append_assoc]
  exact List.prefix_append _ _

/-- If a text not starting with '(' is a prefix of joined texts, the first value is an atom. -/
theorem atom_of_prefix {x : Val F} {xs : List (Val F)} {c : Char} {s : Str} (hx : WfVal x)
    (hc : c ≠ '(') (h : (c :: s) <+: nodes2str (x :: xs)) : x.isAtom = true := by
  rcases isAtom_cases hx with ha | ⟨ys, rfl⟩
  · exact ha
  · exfalso
    obtain ⟨s', hs'⟩ := nodes2str_cons_head (xs := xs) (x := Val.tup ys) (c := '(')
      (s := pyJoin (lit " ") (nodeStrs ys) ++ [')']) rfl
    rw [hs', List.cons_prefix_cons] at h
    exact hc h.1

theorem noSpace_prefix {a b r : Str} (ha : ∀ c ∈ a, isSpace c = false)
    (h : a <+: b ++ lit " " ++ r) : a <+: b := by
  rw [List.append_assoc] at h
  rcases List.prefix_or_prefix_of_prefix h (List.prefix_append b (lit " " ++ r)) with h' | h'
  · exact h'
  · obtain ⟨d, rfl⟩ := h'
    rw [List.prefix_append_right_inj] at h
    cases d with
    | nil => simp
    | cons c d =>
      have hc : c = ' ' := by
        have : (c :: d) <+: (' ' :: r) := h
        rw [List.cons_prefix_cons] at this
        exact this.1
      have := ha c (by simp)
      subst hc
      exact absurd this (by decide)

/-- "`a` followed by a blank" is a prefix of "`b` followed by a blank" only for equal words. -/
theorem word_prefix {a b r : Str} (ha : ∀ c ∈ a, isSpace c = false) (hb : ∀ c ∈ b, isSpace c = false) :
    (a ++ lit " ") <+: (b ++ lit " " ++ r) ↔ a = b := by
  constructor
  · intro h
    have h1 := noSpace_prefix ha ((List.prefix_append _ _).trans h)
    obtain ⟨d, rfl⟩ := h1
    cases d with
    | nil => simp
    | cons c d =>
      rw [List.append_assoc, List.append_assoc, List.prefix_append_right_inj] at h
      have : (' ' :: ([] : Str)) <+: (c :: (d ++ (lit " " ++ r))) := h
      rw [List.cons_prefix_cons] at this
      have hc := hb c (by simp)
      rw [← this.1] at hc
      exact absurd hc (by decide)
  · rintro rfl
    exact List.prefix_append _ _

/-! ### Python equality on a vocabulary -/

theorem pyEqs_refl {xs : List (Val F)} (h : ∀ x ∈ xs, pyEq x x = true) : pyEqs xs xs = true := by
  induction xs with
  | nil => simp [pyEqs]
  | cons x xs ih => simp [pyEqs, h x (by simp), ih (fun y hy => h y (by simp [hy]))]

theorem pyEq_refl {v : Val F} (h : WfVal v) : pyEq v v = true := by
  induction h with
  | str h => simp [pyEq]
  | int => simp [pyEq]
  | flt h => rw [pyEq]; exact PyFloat.feq_refl _ (tokenType_of_looksDec h)
  | tup h2 hx ih => rw [pyEq]; simp [pyEqs_refl ih]

variable {V : Val F → Prop}

theorem pyEqs_eq (hV : Vocab V) {xs ys : List (Val F)} (hx : ∀ x ∈ xs, V x) (hy : ∀ y ∈ ys, V y)
    (h : pyEqs xs ys = true) : xs = ys := by
  induction xs generalizing ys with
  | nil => cases ys with
    | nil => rfl
    | cons => simp [pyEqs] at h
  | cons x xs ih => cases ys with
    | nil => simp [pyEqs] at h
    | cons y ys =>
      simp only [pyEqs, Bool.and_eq_true] at h
      rw [hV.eq x y (hx x (by simp)) (hy y (by simp)) h.1,
        ih (fun z hz => hx z (by simp [hz])) (fun z hz => hy z (by simp [hz])) h.2]

theorem EdgeOver.wf (hV : Vocab V) {e : Val F} (h : EdgeOver V e) : WfVal e := by
  obtain ⟨h, t, rfl, ht, _, hx⟩ := h
  refine .tup ?_ (fun x hxm => hV.wf x (hx x hxm))
  cases t with
  | nil => contradiction
  | cons => simp

theorem EdgeOver.pyEq_eq (hV : Vocab V) {e e' : Val F} (h : EdgeOver V e) (h' : EdgeOver V e')
    (he : pyEq e e' = true) : e = e' := by
  obtain ⟨h, t, rfl, _, _, hx⟩ := h
  obtain ⟨h', t', rfl, _, _, hx'⟩ := h'
  simp only [pyEq, Bool.and_eq_true] at he
  rw [pyEqs_eq hV hx hx' he.2]

theorem EdgeOver.tup_elems {e : Val F} (h : EdgeOver V e) : e = .tup e.elems := by
  obtain ⟨h, t, rfl, _⟩ := h
  rfl

theorem EdgeOver.elems_ne {e : Val F} (h : EdgeOver V e) : e.elems ≠ [] := by
  obtain ⟨h, t, rfl, _⟩ := h
  simp [Val.elems]

theorem EdgeOver.mem {e : Val F} (h : EdgeOver V e) : ∀ x ∈ e.elems, V x := by
  obtain ⟨h, t, rfl, _, _, hx⟩ := h
  exact hx

theorem EdgeOver.not_none {e : Val F} (h : EdgeOver V e) : e ≠ .none := by
  obtain ⟨h, t, rfl, _⟩ := h
  simp

theorem EdgeOver.eq_of_elems {e e' : Val F} (h : EdgeOver V e) (h' : EdgeOver V e')
    (he : e.elems = e'.elems) : e = e' := by
  rw [h.tup_elems, h'.tup_elems, he]

/-! ### sets -/

theorem mem_pySet {l : List (Val F)} (hl : ∀ a ∈ l, ∀ b ∈ l, pyEq a b = true → a = b) (x : Val F) :
    x ∈ pySet l ↔ x ∈ l := by
  induction l with
  | nil => simp [pySet]
  | cons y ys ih =>
    have ih' := ih (fun a ha b hb => hl a (by simp [ha]) b (by simp [hb]))
    simp only [pySet, List.mem_cons, List.mem_filter, ih']
    constructor
    · rintro (h | ⟨h, _⟩)
      · exact .inl h
      · exact .inr h
    · rintro (h | h)
      · exact .inl h
      · by_cases he : pyEq y x = true
        · exact .inl (hl y (by simp) x (by simp [h]) he).symm
        · exact .inr ⟨h, by simpa using he⟩

theorem pySet_nodup {l : List (Val F)} (hl : ∀ a ∈ l, pyEq a a = true) : (pySet l).Nodup := by
  induction l with
  | nil => simp [pySet]
  | cons y ys ih =>
    have ih' := ih (fun a ha => hl a (by simp [ha]))
    rw [pySet, List.nodup_cons]
    refine ⟨?_, ih'.filter _⟩
    intro h
    have := (List.mem_filter.1 h).2
    simp [hl y (by simp)] at this

end GB
