import Verif.Proofs.View

/-! Rows whose first element is an edge: how the code misreads them. -/

set_option linter.unusedSectionVars false

namespace GB

variable {F : Type} [PyFloat F] [DecidableEq F] {V : Val F → Prop}

/-! ### splitting at blanks -/

theorem pySplitAux_trail (s cur : Str) : pySplitAux cur (s ++ lit " ") = pySplitAux cur s := by
  induction s generalizing cur with
  | nil =>
    have hsp : isSpace ' ' = true := by decide
    show pySplitAux cur (' ' :: []) = pySplitAux cur []
    conv => lhs; rw [pySplitAux, if_pos hsp]
    cases cur <;> simp [pySplitAux]
  | cons c s ih => simp only [List.cons_append, pySplitAux, ih]

theorem pySplitAux_append (s t cur : Str) :
    pySplitAux cur (s ++ lit " " ++ t) = pySplitAux cur s ++ pySplit t := by
  induction s generalizing cur with
  | nil =>
    have hsp : isSpace ' ' = true := by decide
    show pySplitAux cur (' ' :: t) = pySplitAux cur [] ++ pySplit t
    conv => lhs; rw [pySplitAux, if_pos hsp]
    cases cur <;> simp [pySplitAux, pySplit]
  | cons c s ih =>
    simp only [List.cons_append, pySplitAux, ih]
    split
    · split <;> simp
    · rfl

theorem pySplit_append (s t : Str) : pySplit (s ++ lit " " ++ t) = pySplit s ++ pySplit t :=
  pySplitAux_append s t []

theorem pySplit_pieces {v : Val F} (h : WfVal v) : pySplit (edge2str v) = (pieces v).map Piece.render := by
  rw [edge2str_eq_pieces h, pySplit_join]
  intro p hp
  obtain ⟨q, hq, rfl⟩ := List.mem_map.1 hp
  exact render_clean (pieces_clean h q hq)

/-! ### the tokenizer on lists of values followed by more -/

theorem splitLoop_values_rest {xs : List (Val F)} (hx : ∀ x ∈ xs, WfVal x) (rest : List Str) :
    splitLoop none 0 ((piecesL xs).map Piece.render ++ rest) =
      (do let r ← splitLoop none 0 rest; .ok (xs.map edge2str ++ r)) := by
  induction xs with
  | nil =>
    simp only [piecesL, List.map_nil, List.nil_append]
    cases splitLoop none 0 rest <;> rfl
  | cons x xs ih =>
    have hwx := hx x (by simp)
    obtain ⟨h0, _, hmid⟩ := pieces_depth hwx
    have ho : OneToken 0 (pieces x) := by
      apply oneToken_of_take (pieces_ne hwx) (by simpa using h0)
      intro n h1 h2
      simpa using hmid n h1 h2
    rw [piecesL, List.map_append, List.append_assoc, splitLoop_oneToken (pieces_clean hwx) ho,
      ih (fun y hy => hx y (by simp [hy]))]
    cases splitLoop none 0 rest <;> simp [bind, Except.bind, accTok, edge2str_eq_pieces hwx]

/-- If the depth never returns to zero nothing is produced. -/
theorem splitLoop_never {ps : List Piece} {cur : Option Str} {d : Int} (hc : ∀ p ∈ ps, CleanAtom p.atom)
    (h : ∀ n, 0 < n → n ≤ ps.length → d + dsum (ps.take n) ≠ 0) :
    splitLoop cur d (ps.map Piece.render) = .ok [] := by
  induction ps generalizing cur d with
  | nil => simp [splitLoop]
  | cons p ps ih =>
    have hp := hc p (by simp)
    have hd : ∀ l, dsum (p :: l) = p.delta + dsum l := by intro l; simp [dsum]
    have h1 : d + (p.op : Int) - p.cl ≠ 0 := by
      have := h 1 (by omega) (by simp)
      simp [dsum, Piece.delta] at this
      omega
    simp only [List.map_cons, splitLoop, openPars_render hp, closePars_render hp]
    simp only [bind, Except.bind, if_neg h1]
    apply ih (fun q hq => hc q (by simp [hq]))
    intro n hn hn2
    have := h (n + 1) (by omega) (by simp; omega)
    rw [List.take_succ_cons, hd] at this
    simp only [Piece.delta] at this
    omega

/-- The pieces of an atom. -/
theorem pieces_atom {v : Val F} (ha : v.isAtom = true) : pieces v = [⟨0, atomStr v, 0⟩] := by
  cases v <;> simp_all [Val.isAtom, pieces, atomStr]

theorem dsum_atoms {xs : List (Val F)} (h : ∀ x ∈ xs, x.isAtom = true) (n : Nat) :
    dsum ((piecesL xs).take n) = 0 := by
  induction xs generalizing n with
  | nil => simp [piecesL, dsum]
  | cons x xs ih =>
    rw [piecesL, pieces_atom (h x (by simp))]
    cases n with
    | zero => simp [dsum]
    | succ n =>
      have := ih (fun y hy => h y (by simp [hy])) n
      simp only [List.singleton_append, List.take_succ_cons]
      simp only [dsum, List.map_cons, List.sum_cons, Piece.delta] at this ⊢
      omega

/-! ### the integer at the end -/

theorem pyInt_not {y : Val F} (hy : WfVal y) (hi : ∀ i, y ≠ .int i)
    (hp : ∀ t, y = .str t → t.head? ≠ some '+') : ∃ er, pyInt (edge2str y) = .error er := by
  have key : ∀ s : Str, s ≠ [] → ¬ LooksInt s → s.head? ≠ some '+' → ∃ er, pyInt s = .error er := by
    intro s hne hn hpl
    cases s with
    | nil => contradiction
    | cons c t =>
      by_cases hm : c = '-'
      · subst hm
        refine ⟨.valueError, ?_⟩
        have : t.all isDigit = false ∨ t = [] := by
          by_cases ht : t.all isDigit = true
          · exfalso
            apply hn
            exact ⟨['-'], t, .inr rfl, (isDigits_iff t).2 ht, rfl⟩
          · exact .inl (by simpa using ht)
        have hpn : parseNat t = .error .valueError := by
          unfold parseNat
          rcases this with h | rfl
          · simp [h]
          · rfl
        show (do let n ← parseNat t; Except.ok (-(n : Int))) = _
        rw [hpn]; rfl
      · have hcp : c ≠ '+' := by simpa using hpl
        refine ⟨.valueError, ?_⟩
        have hall : (c :: t).all isDigit = false := by
          cases hh : (c :: t).all isDigit with
          | false => rfl
          | true => exact absurd ⟨[], c :: t, .inl rfl, (isDigits_iff _).2 hh, rfl⟩ hn
        have hpn : parseNat (c :: t) = .error .valueError := by
          unfold parseNat
          simp only [hall, Bool.and_false, Bool.false_eq_true, if_false]
        have : pyInt (c :: t) = (do let n ← parseNat (c :: t); Except.ok (n : Int)) := by
          unfold pyInt
          split
          · rename_i h; simp at h; exact absurd h.1 hm
          · rename_i h; simp at h; exact absurd h.1 hcp
          · rfl
        rw [this, hpn]; rfl
  cases hy with
  | str h => exact key _ h.ne h.notInt (hp _ rfl)
  | int => exact absurd rfl (hi _)
  | flt h =>
    apply key _ (CleanAtom.float _).ne
    · intro hl
      have h1 := (tokenType_integer_iff _).2 hl
      have h2 := (tokenType_double_iff _).2 h
      rw [h1] at h2
      simp at h2
    · obtain ⟨sgn, ds, fs, hs, hd, hf, hr⟩ := h
      rw [hr]
      intro hh
      rcases hs with rfl | rfl
      · cases ds with
        | nil => simp at hh
        | cons d ds =>
          have := (hd d (by simp)).1
          simp at hh
          subst hh
          exact absurd this (by decide)
      · simp at hh
  | @tup xs h2 hx =>
    refine ⟨.valueError, ?_⟩
    have hpn : ∀ t, parseNat ('(' :: t) = .error .valueError := by
      intro t
      unfold parseNat
      rw [List.all_cons]
      have : isDigit '(' = false := by decide
      rw [this]
      simp
    show pyInt ('(' :: (pyJoin (lit " ") (nodeStrs xs) ++ lit ")")) = _
    show (do let n ← parseNat ('(' :: _); Except.ok (n : Int)) = _
    rw [hpn]; rfl

/-! ### decoding a row that begins with an edge -/

theorem decodeRow_edge_first {init : List (Val F)} {y z : Val F} {as : List (Val F)} {n : Nat}
    (hi : ∀ x ∈ init, WfVal x) (hy : WfVal y) (hz : WfVal z) (has : ∀ a ∈ as, WfVal a ∧ a.isAtom = true)
    (hint : ∃ er, pyInt (edge2str y) = .error er) :
    ∃ er, (decodeRow (nodes2str (.tup (init ++ [y, z]) :: as ++ [.int n])) : Except PyErr (Val F)) = .error er := by
  have hxs : ∀ x ∈ init ++ [y, z], WfVal x := by
    intro x hx
    simp only [List.mem_append, List.mem_cons, List.not_mem_nil, or_false] at hx
    rcases hx with h | rfl | rfl
    · exact hi x h
    · exact hy
    · exact hz
  have hiy : ∀ x ∈ init ++ [y], WfVal x := fun x hx => hxs x (by
    simp only [List.mem_append, List.mem_cons, List.not_mem_nil, or_false] at hx ⊢
    rcases hx with h | h
    · exact .inl h
    · exact .inr (.inl h))
  have hasw : ∀ a ∈ as, WfVal a := fun a ha => (has a ha).1
  have hpl : piecesL (init ++ [y, z]) = piecesL (init ++ [y]) ++ pieces z := by
    have : ∀ (a b : List (Val F)), piecesL (a ++ b) = piecesL a ++ piecesL b := by
      intro a b
      induction a with
      | nil => rfl
      | cons x a ih => simp only [List.cons_append, piecesL, ih, List.append_assoc]
    rw [this, this]
    simp [piecesL]
  -- the text without its first character
  have hedge : edge2str (.tup (init ++ [y, z]) : Val F) =
      '(' :: pyJoin (lit " ") ((closeLast (piecesL (init ++ [y, z]))).map Piece.render) := by
    have h := join_closeLast (ps := piecesL (init ++ [y, z])) (piecesL_ne hxs (by simp))
    rw [← nodes2str_eq_pieces hxs] at h
    rw [h]
    rfl
  have hrow : nodes2str (.tup (init ++ [y, z]) :: as ++ [.int n]) = '(' ::
      (pyJoin (lit " ") ((closeLast (piecesL (init ++ [y, z])) ++ piecesL as).map Piece.render)
        ++ lit " " ++ natStr n) := by
    have h1 : nodes2str (.tup (init ++ [y, z]) :: as ++ [.int n]) =
        nodes2str (.tup (init ++ [y, z]) :: as) ++ lit " " ++ natStr n := by
      rw [nodes2str_snoc (xs := .tup (init ++ [y, z]) :: as) (by simp) n, nodes2str, nodeStrs_eq_map]
    rw [h1]
    have h2 : nodes2str (.tup (init ++ [y, z]) :: as) = '(' ::
        pyJoin (lit " ") ((closeLast (piecesL (init ++ [y, z])) ++ piecesL as).map Piece.render) := by
      cases as with
      | nil =>
        rw [show nodes2str [.tup (init ++ [y, z])] = edge2str (.tup (init ++ [y, z]) : Val F) by
          simp [nodes2str, nodeStrs, pyJoin], hedge]
        simp [piecesL]
      | cons a as =>
        rw [nodes2str_cons (by simp), hedge, List.map_append,
          pyJoin_append (by simpa using closeLast_ne (piecesL_ne hxs (by simp)))
            (by simpa using piecesL_ne hasw (by simp)), nodes2str_eq_pieces hasw]
        simp
    rw [h2]
    simp
  have hclean : ∀ p ∈ closeLast (piecesL (init ++ [y, z])) ++ piecesL as, CleanAtom p.atom := by
    intro p hp
    rcases List.mem_append.1 hp with h | h
    · exact mem_closeLast (P := fun p => CleanAtom p.atom) (piecesL_clean hxs) (fun p hp => hp) p h
    · exact piecesL_clean hasw p h
  -- the digits left at the end
  have hdl : ((pyJoin (lit " ") ((closeLast (piecesL (init ++ [y, z])) ++ piecesL as).map Piece.render)
        ++ lit " " ++ natStr n)).dropLast =
      pyJoin (lit " ") ((closeLast (piecesL (init ++ [y, z])) ++ piecesL as).map Piece.render)
        ++ lit " " ++ (natStr n).dropLast := by
    rw [List.dropLast_append_of_ne_nil (natStr_ne n)]
  have hend : ∃ ds : List (Piece), pySplit (natStr n).dropLast = ds.map Piece.render ∧
      (∀ p ∈ ds, CleanAtom p.atom) ∧ ∀ k, dsum (ds.take k) = 0 := by
    cases hd : (natStr n).dropLast with
    | nil => exact ⟨[], rfl, by simp, by simp [dsum]⟩
    | cons c t =>
      have hdig : ∀ x ∈ c :: t, isDigit x = true := by
        intro x hx
        rw [← hd] at hx
        exact List.all_eq_true.1 (natStr_digits n) x (List.dropLast_subset _ hx)
      refine ⟨[⟨0, c :: t, 0⟩], ?_, ?_, ?_⟩
      · have := pySplit_join (ps := [c :: t]) (by
          intro p hp
          simp at hp; subst hp
          exact ⟨by simp, fun x hx => isDigit_not_space (hdig x hx)⟩)
        simpa [pyJoin, Piece.render] using this
      · intro p hp
        simp at hp; subst hp
        exact CleanAtom.of_looks (fun x hx => .inl (hdig x hx)) (by simp)
      · intro k; cases k <;> simp [dsum, Piece.delta]
  obtain ⟨ds, hds, hdc, hdz⟩ := hend
  have hsplit : splitEdgeStr (nodes2str (.tup (init ++ [y, z]) :: as ++ [.int n])) =
      .ok ((init ++ [y]).map edge2str) := by
    rw [hrow, splitEdgeStr, if_pos rfl, hdl, pySplit_append, pySplit_join (by
      intro p hp
      obtain ⟨q, hq, rfl⟩ := List.mem_map.1 hp
      exact render_clean (hclean q hq)), hds, hpl, closeLast_append (pieces_ne hz), List.append_assoc,
      List.map_append, List.append_assoc, ← List.map_append, splitLoop_values_rest hiy]
    rw [splitLoop_never]
    · simp [bind, Except.bind]
    · intro p hp
      rcases List.mem_append.1 hp with h | h
      · rcases List.mem_append.1 h with h | h
        · exact mem_closeLast (P := fun p => CleanAtom p.atom) (pieces_clean hz) (fun p hp => hp) p h
        · exact piecesL_clean hasw p h
      · exact hdc p h
    · intro k hk _
      obtain ⟨h0, hge, hmid⟩ := pieces_depth hz
      rw [List.append_assoc, List.take_append, dsum_append, closeLast_length, List.take_append, dsum_append,
        dsum_atoms (fun a ha => (has a ha).2), hdz]
      by_cases hlt : k < (pieces z).length
      · rw [take_closeLast hlt]
        have := hmid k hk hlt
        omega
      · rw [List.take_of_length_le (by rw [closeLast_length]; omega), dsum_closeLast (pieces_ne hz), h0]
        omega
  obtain ⟨er, her⟩ := hint
  refine ⟨er, ?_⟩
  unfold decodeRow
  rw [hsplit]
  simp only [List.map_append, List.map_cons, List.map_nil]
  show (match (init.map edge2str ++ [edge2str y]).getLast? with
    | none => Except.error PyErr.indexError
    | some last => _) = _
  rw [List.getLast?_concat]
  show (do let nper ← pyInt (edge2str y); _) = _
  rw [her]
  rfl

theorem mapE_fails {α β : Type} {f : α → Except PyErr β} {xs : List α} {x : α} (hx : x ∈ xs) {er : PyErr}
    (h : f x = .error er) : ∃ er', mapE f xs = .error er' := by
  induction xs with
  | nil => simp at hx
  | cons y ys ih =>
    rw [mapE]
    cases hy : f y with
    | error e => exact ⟨e, rfl⟩
    | ok b =>
      have : x ∈ ys := by
        rcases List.mem_cons.1 hx with rfl | h'
        · rw [h] at hy; simp at hy
        · exact h'
      obtain ⟨er', h'⟩ := ih this
      exact ⟨er', by rw [h']; rfl⟩

/-! ### rows whose first element is a given value -/

/-- The text of `c` and a blank at the start of a row means that `c` is its first element. -/
theorem first_of_prefix {c x : Val F} {xs : List (Val F)} (hc : WfVal c) (hx : ∀ y ∈ x :: xs, WfVal y)
    (h : (edge2str c ++ lit " ") <+: nodes2str (x :: xs)) : x = c := by
  obtain ⟨t, ht⟩ := h
  have h1 := tokens_nodes2str hx
  rw [← ht, pySplit_append, pySplit_pieces hc] at h1
  obtain ⟨h0, _, hmid⟩ := pieces_depth hc
  have ho : OneToken 0 (pieces c) := by
    apply oneToken_of_take (pieces_ne hc) (by simpa using h0)
    intro n h1 h2
    simpa using hmid n h1 h2
  rw [splitLoop_oneToken (pieces_clean hc) ho] at h1
  cases hr : splitLoop none 0 (pySplit t) with
  | error e => rw [hr] at h1; simp [bind, Except.bind] at h1
  | ok r =>
    rw [hr] at h1
    simp only [bind, Except.bind, accTok, Except.ok.injEq, List.map_cons, List.cons.injEq] at h1
    rw [← edge2str_eq_pieces hc] at h1
    exact edge2str_inj (hx x (by simp)) hc h1.1.symm

end GB
