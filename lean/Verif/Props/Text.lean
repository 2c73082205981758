import Verif.Proofs.Parse
import Verif.Spec.Witness

/-!
Properties C01-C05 and C46: the text notation of edges (gb/hypergraph/edge.py).
-/

namespace GB

variable {F : Type} [PyFloat F]

/-! ### C01 -/

/-- C01: parsing the printed text of any well-formed edge (or symbol) gives it back. -/
theorem C01_roundtrip (v : Val F) (h : WfVal v) : str2edge (edge2str v) = .ok v :=
  str2edge_edge2str h

/-- C01 for the text without the outer parentheses (as used for rows of the index): the elements of
an edge, whose first element is a symbol or number. -/
theorem C01_roundtrip_nodes (x : Val F) (xs : List (Val F)) (hx : ∀ y ∈ x :: xs, WfVal y) (hne : xs ≠ [])
    (ha : x.isAtom = true) : str2edge (nodes2str (x :: xs)) = .ok (.tup (x :: xs)) :=
  str2edge_nodes2str hx ha hne

/-- A nested edge with symbols, integers and floats. -/
def exNested : HVal :=
  .tup [sy "size", .tup [sy "graph/1", .int 7, .tup [sy "~is/7", fl (-5)]], .int (-3), .tup [sy "sky", .int 12]]

example : WfVal exNested := wfVal_half (by decide +kernel)
example : edge2str exNested = lit "(size (graph/1 7 (~is/7 -2.5)) -3 (sky 12))" := by decide +kernel

/-! ### C02 -/

/-- C02: two well-formed values that print alike are the same. -/
theorem C02_text_injective (v w : Val F) (hv : WfVal v) (hw : WfVal w) (h : edge2str v = edge2str w) : v = w :=
  edge2str_inj hv hw h

/-- C02 without outer parentheses. -/
theorem C02_nodes_injective (xs ys : List (Val F)) (hx : ∀ x ∈ xs, WfVal x) (hy : ∀ y ∈ ys, WfVal y)
    (h : nodes2str xs = nodes2str ys) : xs = ys :=
  nodes2str_inj hx hy h

example : WfVal exNested ∧ WfVal (.tup [sy "a", .tup [sy "b", sy "c"]] : HVal) ∧
    edge2str exNested ≠ edge2str (.tup [sy "a", .tup [sy "b", sy "c"]] : HVal) :=
  ⟨wfVal_half (by decide +kernel), wfVal_half (by decide +kernel), by decide +kernel⟩

/-! ### C03 -/

/-- C03: the tokens of the text of an edge are the texts of its elements. -/
theorem C03_split_edge (xs : List (Val F)) (hx : ∀ x ∈ xs, WfVal x) :
    splitEdgeStr (edge2str (.tup xs)) = .ok (xs.map edge2str) :=
  splitEdgeStr_tup hx

/-- C03 without the outer parentheses, when the first element is not an edge. -/
theorem C03_split_nodes (x : Val F) (xs : List (Val F)) (hx : ∀ y ∈ x :: xs, WfVal y) (ha : x.isAtom = true) :
    splitEdgeStr (nodes2str (x :: xs)) = .ok ((x :: xs).map edge2str) :=
  splitEdgeStr_nodes hx ha

example : splitEdgeStr (edge2str exNested) =
    .ok [lit "size", lit "(graph/1 7 (~is/7 -2.5))", lit "-3", lit "(sky 12)"] := by decide +kernel

/-- C03: the restriction is necessary: without outer parentheses, a first element that is an edge is
torn apart. -/
theorem C03_nodes_edge_first_false :
    ¬ ∀ (x : HVal) (xs : List HVal), (∀ y ∈ x :: xs, WfVal y) →
      splitEdgeStr (nodes2str (x :: xs)) = .ok ((x :: xs).map edge2str) := by
  intro h
  have := h (.tup [sy "a", sy "b"]) [sy "c"] (by
    intro y hy
    simp only [List.mem_cons, List.not_mem_nil, or_false] at hy
    rcases hy with rfl | rfl
    · exact wfVal_half (by decide +kernel)
    · exact wfVal_half (by decide +kernel))
  revert this
  decide +kernel

/-! ### C04 -/

/-- C04: on any string the parser returns a value, or raises IndexError or ValueError; in particular
it never runs out of its recursion budget. -/
theorem C04_parser_total (s : Str) :
    (∃ v : Val F, str2edge s = .ok v) ∨ (str2edge s : Except PyErr (Val F)) = .error .indexError ∨
      (str2edge s : Except PyErr (Val F)) = .error .valueError := by
  cases h : (str2edge s : Except PyErr (Val F)) with
  | ok v => exact .inl ⟨v, rfl⟩
  | error e =>
    rcases str2edge_err (F := F) _ s (Nat.le_refl _) e h with rfl | rfl
    · exact .inr (.inl rfl)
    · exact .inr (.inr rfl)

/-- C04: the budget is an artefact of the model: `str2edge` satisfies the recursion equations of the
code (edge.py:78-89, 121-128), and every recursive call is on a strictly shorter string or is made
once, from the top. -/
theorem C04_recursion (s : Str) : (str2edge s : Except PyErr (Val F)) = (do
    let tokens ← splitEdgeStr s
    let elements ← mapE (fun token => match token with
      | [] => .error .indexError
      | c :: t => if c = '(' then str2edge (c :: t) else parsedAtom (c :: t)) tokens
    packEdge elements) := str2edge_eq s

/-- C04: the argument of a recursive call is shorter than the caller's parenthesised argument. -/
theorem C04_decreasing (s : Str) (ts : List Str) (h : splitEdgeStr s = .ok ts) :
    ∀ t ∈ ts, t.length ≤ s.length ∧ (s.head? = some '(' → t.length + 1 ≤ s.length) :=
  splitEdgeStr_length h

/-- All three outcomes occur. -/
example : str2edge (lit "((a b) c)") = .ok (.tup [.tup [sy "a", sy "b"], sy "c"]) ∧
    (str2edge (lit "(())") : Except PyErr HVal) = .error .indexError ∧
    (str2edge (lit "(a -)") : Except PyErr HVal) = .error .valueError := by decide +kernel

/-! ### C05 -/

/-- C05: a token is read as an integer iff it has the form `-?[0-9]*`. -/
theorem C05_integer (s : Str) : tokenType s = .integer ↔ LooksInt s := tokenType_integer_iff s

/-- C05: a token is read as a float iff it has the form `-?[0-9]*\.[0-9]*`. -/
theorem C05_double (s : Str) : tokenType s = .double ↔ LooksDec s := tokenType_double_iff s

/-- C05: everything else is a symbol. -/
theorem C05_string (s : Str) : tokenType s = .string ↔ ¬ LooksInt s ∧ ¬ LooksDec s := tokenType_string_iff s

/-- C05: a printed integer is read back as the same integer. -/
theorem C05_int_roundtrip (i : Int) : tokenType (intStr i) = .integer ∧ pyInt (intStr i) = .ok i :=
  ⟨(C05_integer _).2 (looksInt_intStr i), pyInt_intStr i⟩

example : tokenType (lit "-12") = .integer ∧ tokenType (lit "-1.5") = .double ∧ tokenType (lit "1-2") = .string ∧
    tokenType (lit "1.2.3") = .string ∧ tokenType (lit "1e16") = .string ∧ tokenType [] = .integer := by decide +kernel

/-! ### C46 -/

theorem splitLoop_clean {ts : List Str} (h : ∀ t ∈ ts, CleanAtom t) : splitLoop none 0 ts = .ok ts := by
  induction ts with
  | nil => rfl
  | cons t ts ih =>
    have ht := h t (by simp)
    have ho := openPars_render (p := ⟨0, t, 0⟩) ht
    have hc := closePars_render (p := ⟨0, t, 0⟩) ht
    have hr : (Piece.render ⟨0, t, 0⟩) = t := by simp [Piece.render]
    rw [hr] at ho hc
    rw [splitLoop_cons, ho, hc]
    simp [bind, Except.bind, pend, ih (fun x hx => h x (by simp [hx]))]

theorem edge2str_strs (xs : List Str) :
    edge2str (.tup (xs.map .str) : Val F) = lit "(" ++ pyJoin (lit " ") xs ++ lit ")" := by
  show lit "(" ++ pyJoin (lit " ") (nodeStrs (xs.map (.str : Str → Val F))) ++ lit ")" = _
  rw [nodeStrs_eq_map, List.map_map]
  congr 3
  have : (edge2str ∘ (Val.str : Str → Val F)) = id := rfl
  rw [this, List.map_id]

theorem splitEdgeStr_paren (s : Str) : splitEdgeStr (lit "(" ++ s ++ lit ")") = splitLoop none 0 (pySplit s) := by
  show splitLoop none 0 (pySplit (s ++ lit ")").dropLast) = _
  congr 2
  exact List.dropLast_concat

theorem mapE_strw_paren {ts : List Str} {x : Val F} (hm : mapE parsedToken ts = .ok [x])
    (hx : ∃ b xs, x = .seq b xs) : strw x + 1 ≤ nbs ts := by
  cases ts with
  | nil => simp [mapE] at hm
  | cons t ts =>
    rw [mapE] at hm
    cases hp : (parsedToken t : Except PyErr (Val F)) with
    | error e => simp [hp, bind, Except.bind] at hm
    | ok v =>
      cases hm' : mapE (parsedToken (F := F)) ts with
      | error e => simp [hp, hm', bind, Except.bind] at hm
      | ok ws =>
        simp only [hp, hm', bind, Except.bind] at hm
        have hw := Except.ok.inj hm
        simp only [List.cons.injEq] at hw
        obtain ⟨rfl, rfl⟩ := hw
        have h1 : strw v + 1 ≤ nb t := by
          unfold parsedToken at hp
          split at hp
          · simp at hp
          · split at hp
            · rename_i hc
              exact (str2edge_strw _ v hp).2 (by simp [hc])
            · exfalso
              obtain ⟨b, xs, rfl⟩ := hx
              unfold parsedAtom at hp
              split at hp
              · simp at hp
              · rename_i c t' _ _ _
                cases hpi : pyInt (c :: t') with
                | error e => simp [hpi, bind, Except.bind] at hp
                | ok i => simp [hpi, bind, Except.bind] at hp
              · rename_i c t' _ _ _
                cases hpi : (pyFloatParse (c :: t') : Except PyErr F) with
                | error e => simp [hpi, bind, Except.bind] at hp
                | ok i => simp [hpi, bind, Except.bind] at hp
        simp only [nbs, List.map_cons, List.sum_cons]
        omega

/-- C46: an edge made of whitespace-free strings reads back as itself exactly when every one of them
is well-formed: non-empty, not starting with '(' or ending with ')', not looking like a number. -/
theorem C46_symbols_exact (xs : List Str) (h2 : 2 ≤ xs.length) (hsp : ∀ x ∈ xs, ∀ c ∈ x, isSpace c = false) :
    (str2edge (edge2str (.tup (xs.map .str) : Val F)) : Except PyErr (Val F)) = .ok (.tup (xs.map .str)) ↔ ∀ x ∈ xs, WfStr x := by
  constructor
  · intro h
    rw [str2edge_eq, edge2str_strs] at h
    unfold str2edgeWith at h
    rw [splitEdgeStr_paren, pySplit_join_noSpace hsp] at h
    cases hsl : splitLoop none 0 (xs.filter fun p => !p.isEmpty) with
    | error e => simp [hsl, bind, Except.bind] at h
    | ok ts =>
      simp only [hsl, bind, Except.bind] at h
      cases hm : mapE (parsedToken (F := F)) ts with
      | error e => simp [hm] at h
      | ok vs =>
        simp only [hm] at h
        obtain ⟨hcount, hall⟩ := splitLoop_count hsl
        have hfl := List.length_filter_le (fun p : Str => !p.isEmpty) xs
        have hvs : vs = xs.map .str := by
          unfold packEdge at h
          split at h
          · simp at h
          · rename_i x
            exfalso
            have hx := Except.ok.inj h
            have hw := mapE_strw_paren hm (by rw [hx]; exact ⟨_, _, rfl⟩)
            rw [hx] at hw
            have h3 := splitLoop_nb hsl
            have h4 : nbs (xs.filter fun p => !p.isEmpty) ≤ nbs xs := by
              unfold nbs
              clear h3 h hm hsl hcount hall hfl h2 hsp hx hw
              induction xs with
              | nil => simp
              | cons x xs ih =>
                simp only [List.filter_cons]
                split <;> simp <;> omega
            have h5 : strw (.tup (xs.map .str) : Val F) = nbs xs := strws_strs xs
            simp only [curNb] at h3
            omega
          · exact Val.seq.inj (Except.ok.inj h) |>.2
        subst hvs
        obtain ⟨hl, hi⟩ := mapE_inj_str hm
        have hfe : (xs.filter fun p => !p.isEmpty) = xs := by
          apply List.filter_eq_self.2
          have : (xs.filter fun p => !p.isEmpty).length = xs.length := by omega
          exact List.length_filter_eq_length_iff.1 this
        rw [hfe] at hcount hall
        obtain ⟨rfl, hbal⟩ := hall rfl rfl hl
        intro x hx
        obtain ⟨i, hi', rfl⟩ := List.getElem_of_mem hx
        obtain ⟨p1, p2, p3, p4⟩ := parsedToken_self (F := F) (hsp _ hx) (hi i hi' hi')
        obtain ⟨n, ho, hc⟩ := hbal _ hx
        have := openPars_zero ho p2
        subst this
        exact ⟨p1, hsp _ hx, p2, closePars_zero hc, p3, p4⟩
  · intro h
    exact str2edge_edge2str (.tup (by simpa using h2) (by
      intro v hv
      obtain ⟨x, hx, rfl⟩ := List.mem_map.1 hv
      exact .str (h x hx)))


/-- Both sides of the equivalence occur. -/
example : (2 ≤ [lit "is/7", lit "sky"].length ∧ ∀ x ∈ [lit "is/7", lit "sky"], WfStr x) ∧
    ¬ ∀ x ∈ [lit "is/7", lit "42"], WfStr x := by
  refine ⟨⟨by simp, ?_⟩, ?_⟩
  · intro x hx
    simp only [List.mem_cons, List.not_mem_nil, or_false] at hx
    rcases hx with rfl | rfl <;> exact wfStr_of (by decide +kernel)
  · intro h
    have := wfStr_iff.1 (h (lit "42") (by simp))
    revert this; decide +kernel

/-- C46: whitespace-freeness cannot be dropped from the equivalence: a symbol that contains a blank may
read back as itself as an element of an edge although it is not well-formed. -/
theorem C46_whitespace_exception :
    ∃ x : Str, ¬ WfStr x ∧
      str2edge (edge2str (.tup [sy "r", .str x] : HVal)) = .ok (.tup [sy "r", .str x]) := by
  refine ⟨lit "x) (y", ?_, by decide +kernel⟩
  intro h
  have := h.noSpace ' ' (by decide +kernel)
  revert this; decide +kernel

/-- C46: a float as an edge element reads back as itself exactly when Python prints it in plain
decimal notation (so not `1e+16`, `inf` or `nan`). -/
theorem C46_floats_exact (r : Str) (hr : WfStr r) (x : F) :
    str2edge (edge2str (.tup [.str r, .flt x])) = .ok (.tup [.str r, .flt x]) ↔ PlainFloat x := by
  constructor
  · intro h
    have hcr := CleanAtom.of_wfStr hr
    have hcx := CleanAtom.float x
    have htxt : edge2str (.tup [.str r, .flt x] : Val F) = lit "(" ++ pyJoin (lit " ") [r, PyFloat.repr x] ++ lit ")" := rfl
    rw [str2edge_eq, htxt] at h
    unfold str2edgeWith at h
    have hsp : pySplit (pyJoin (lit " ") [r, PyFloat.repr x]) = [r, PyFloat.repr x] := by
      apply pySplit_join
      intro p hp
      simp only [List.mem_cons, List.not_mem_nil, or_false] at hp
      rcases hp with rfl | rfl
      · exact ⟨hcr.ne, hcr.noSpace⟩
      · exact ⟨hcx.ne, hcx.noSpace⟩
    rw [splitEdgeStr_paren, hsp, splitLoop_clean (by
      intro t ht
      simp only [List.mem_cons, List.not_mem_nil, or_false] at ht
      rcases ht with rfl | rfl <;> assumption)] at h
    simp only [bind, Except.bind, mapE] at h
    cases hp1 : (parsedToken r : Except PyErr (Val F)) with
    | error e => simp [hp1] at h
    | ok v1 =>
      cases hp2 : (parsedToken (PyFloat.repr x) : Except PyErr (Val F)) with
      | error e => simp [hp1, hp2] at h
      | ok v2 =>
        simp only [hp1, hp2, packEdge] at h
        have h' := (Val.seq.inj (Except.ok.inj h)).2
        simp only [List.cons.injEq, and_true] at h'
        obtain ⟨rfl, rfl⟩ := h'
        unfold parsedToken at hp2
        split at hp2
        · simp at hp2
        · rename_i c t heq
          split at hp2
          · rename_i hc
            subst hc
            have := hcx.noOpen
            rw [heq] at this
            simp at this
          · unfold parsedAtom at hp2
            split at hp2
            · simp at hp2
            · cases hpi : pyInt (c :: t) with
              | error e => simp [hpi, bind, Except.bind] at hp2
              | ok i => simp [hpi, bind, Except.bind] at hp2
            · rename_i ht
              rw [← heq, tokenType_double_iff] at ht
              exact ht
  · intro h
    exact str2edge_edge2str (.tup (by simp) (by
      intro v hv
      simp only [List.mem_cons, List.not_mem_nil, or_false] at hv
      rcases hv with rfl | rfl
      · exact .str hr
      · exact .flt h))

/-- C46: a one-element edge comes back as its element. -/
theorem C46_one_element (v : Val F) (h : WfVal v) : str2edge (edge2str (.tup [v])) = .ok v := by
  have hs := splitEdgeStr_tup (xs := [v]) (by simpa using h)
  rw [str2edge_eq]
  unfold str2edgeWith
  rw [hs]
  have hp := parsedTokenF_eq (F := F) (Nat.le_refl (edge2str v).length)
  have h2 := parsedTokenF_edge2str (F := F) h (edge2str v).length (Nat.le_refl _)
  simp only [bind, Except.bind, mapE, List.map_cons, List.map_nil]
  rw [← hp, h2]
  rfl

/-- C46: the empty edge cannot be read back at all. -/
theorem C46_empty_edge : (str2edge (edge2str (.tup [] : Val F)) : Except PyErr (Val F)) = .error .indexError := rfl

/-- C46: what happens to the symbols that look like numbers. -/
example : str2edge (edge2str (.tup [sy "n", sy "42"] : HVal)) = .ok (.tup [sy "n", .int 42]) ∧
    str2edge (edge2str (.tup [sy "n", sy "1.5"] : HVal)) = .ok (.tup [sy "n", fl 3]) ∧
    (str2edge (edge2str (.tup [sy "n", sy "-"] : HVal)) : Except PyErr HVal) = .error .valueError ∧
    (str2edge (edge2str (.tup [sy "n", sy "."] : HVal)) : Except PyErr HVal) = .error .valueError := by decide +kernel

end GB
