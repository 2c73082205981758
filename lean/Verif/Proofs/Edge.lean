import Verif.Proofs.Str
import Verif.Model.Edge

namespace GB

variable {F : Type} [PyFloat F]

/-! ### atom texts -/

/-- What the tokenizer needs to know about the text of an atom. -/
structure CleanAtom (a : Str) : Prop where
  ne : a ≠ []
  noSpace : ∀ c ∈ a, isSpace c = false
  noOpen : a.head? ≠ some '('
  noClose : a.getLast? ≠ some ')'

theorem CleanAtom.of_wfStr {s : Str} (h : WfStr s) : CleanAtom s := ⟨h.ne, h.noSpace, h.noOpen, h.noClose⟩

theorem CleanAtom.of_looks {s : Str} (h : ∀ c ∈ s, isDigit c = true ∨ c = '-' ∨ c = '.') (hne : s ≠ []) :
    CleanAtom s := by
  have hp : ∀ c ∈ s, c ≠ '(' ∧ c ≠ ')' := by
    intro c hc
    rcases h c hc with h | rfl | rfl
    · constructor <;> (rintro rfl; simp [isDigit] at h)
    · decide
    · decide
  refine ⟨hne, ?_, ?_, ?_⟩
  · intro c hc
    rcases h c hc with h | rfl | rfl
    · exact isDigit_not_space h
    · decide
    · decide
  · intro h'
    exact (hp _ (List.mem_of_head? h')).1 rfl
  · intro h'
    exact (hp _ (List.mem_of_getLast? h')).2 rfl

theorem intStr_chars (i : Int) : ∀ c ∈ intStr i, isDigit c = true ∨ c = '-' := by
  intro c hc
  have hd : ∀ n, ∀ c ∈ natStr n, isDigit c = true := fun n => List.all_eq_true.1 (natStr_digits n)
  cases i with
  | ofNat n => exact .inl (hd n c hc)
  | negSucc n =>
    simp only [intStr, List.mem_cons] at hc
    rcases hc with rfl | hc
    · exact .inr rfl
    · exact .inl (hd _ c hc)

theorem intStr_ne (i : Int) : intStr i ≠ [] := by
  cases i with
  | ofNat n => exact natStr_ne n
  | negSucc n => simp [intStr]

theorem CleanAtom.intStr (i : Int) : CleanAtom (intStr i) := by
  apply CleanAtom.of_looks _ (intStr_ne i)
  intro c hc
  rcases intStr_chars i c hc with h | h
  · exact .inl h
  · exact .inr (.inl h)

theorem CleanAtom.float (x : F) : CleanAtom (PyFloat.repr x) := by
  obtain ⟨h1, h2⟩ := PyFloat.repr_clean x
  refine ⟨h1, fun c hc => (h2 c hc).1, ?_, ?_⟩
  · intro h'; exact (h2 _ (List.mem_of_head? h')).2.1 rfl
  · intro h'; exact (h2 _ (List.mem_of_getLast? h')).2.2 rfl

theorem edge2str_atom {v : Val F} (h : v.isAtom = true) : edge2str v = atomStr v := by
  cases v <;> simp_all [Val.isAtom, edge2str, atomStr]

theorem cleanAtom_of_wf {v : Val F} (h : WfVal v) (ha : v.isAtom = true) : CleanAtom (atomStr v) := by
  cases h with
  | str h => exact .of_wfStr h
  | int => exact .intStr _
  | flt h => exact .float _
  | tup h1 h2 => simp [Val.isAtom] at ha

/-! ### pieces: maximal blank-free parts of a text -/

/-- A blank-free part of an edge text: opening parentheses, atom, closing parentheses. -/
structure Piece where
  op : Nat
  atom : Str
  cl : Nat

/-- Text of a piece. -/
def Piece.render (p : Piece) : Str :=
  List.replicate p.op '(' ++ p.atom ++ List.replicate p.cl ')'

/-- Change of nesting depth over a piece. -/
def Piece.delta (p : Piece) : Int := p.op - p.cl

/-- One more '(' in front. -/
def openFirst : List Piece → List Piece
  | [] => []
  | p :: ps => { p with op := p.op + 1 } :: ps

/-- One more ')' at the end. -/
def closeLast : List Piece → List Piece
  | [] => []
  | [p] => [{ p with cl := p.cl + 1 }]
  | p :: q :: ps => p :: closeLast (q :: ps)

mutual
/-- The pieces of the text of a value. -/
def pieces : Val F → List Piece
  | .seq _ xs => openFirst (closeLast (piecesL xs))
  | .str s => [⟨0, s, 0⟩]
  | .int i => [⟨0, intStr i, 0⟩]
  | .flt x => [⟨0, PyFloat.repr x, 0⟩]
  | .none => [⟨0, lit "None", 0⟩]
/-- The pieces of the texts of a list of values. -/
def piecesL : List (Val F) → List Piece
  | [] => []
  | x :: xs => pieces x ++ piecesL xs
end

theorem closeLast_append {xs ys : List Piece} (h : ys ≠ []) :
    closeLast (xs ++ ys) = xs ++ closeLast ys := by
  induction xs with
  | nil => rfl
  | cons x xs ih =>
    cases hxy : xs ++ ys with
    | nil => simp at hxy; exact absurd hxy.2 h
    | cons z zs =>
      rw [hxy] at ih
      simp only [List.cons_append, hxy, closeLast, ih]

theorem closeLast_ne {xs : List Piece} (h : xs ≠ []) : closeLast xs ≠ [] := by
  cases xs with
  | nil => contradiction
  | cons x xs => cases xs <;> simp [closeLast]

theorem openFirst_ne {xs : List Piece} (h : xs ≠ []) : openFirst xs ≠ [] := by
  cases xs with
  | nil => contradiction
  | cons x xs => simp [openFirst]

theorem closeLast_length (xs : List Piece) : (closeLast xs).length = xs.length := by
  induction xs with
  | nil => rfl
  | cons x xs ih => cases xs with
    | nil => rfl
    | cons y ys => simp only [closeLast, List.length_cons] at ih ⊢; omega

theorem openFirst_length (xs : List Piece) : (openFirst xs).length = xs.length := by
  cases xs <;> rfl

theorem closeLast_dropLast_getLast (xs : List Piece) (p : Piece) :
    closeLast (xs ++ [p]) = xs ++ [{ p with cl := p.cl + 1 }] := by
  rw [closeLast_append (by simp)]; rfl

theorem join_openFirst {ps : List Piece} (h : ps ≠ []) :
    pyJoin (lit " ") ((openFirst ps).map Piece.render) = '(' :: pyJoin (lit " ") (ps.map Piece.render) := by
  cases ps with
  | nil => contradiction
  | cons p ps =>
    have : ({ p with op := p.op + 1 } : Piece).render = ['('] ++ p.render := by
      simp [Piece.render, List.replicate_succ]
    simp only [openFirst, List.map_cons, this, pyJoin_cons_head]
    rfl

theorem join_closeLast {ps : List Piece} (h : ps ≠ []) :
    pyJoin (lit " ") ((closeLast ps).map Piece.render) = pyJoin (lit " ") (ps.map Piece.render) ++ [')'] := by
  have hps : ps = ps.dropLast ++ [ps.getLast h] := (List.dropLast_concat_getLast h).symm
  rw [hps, closeLast_dropLast_getLast]
  have : ({ ps.getLast h with cl := (ps.getLast h).cl + 1 } : Piece).render
      = (ps.getLast h).render ++ [')'] := by
    simp [Piece.render, List.replicate_succ']
  rw [List.map_append, List.map_cons, List.map_nil, this, pyJoin_concat_last]
  simp

/-- Values all of whose sequences are non-empty. -/
theorem pieces_ne {v : Val F} (h : WfVal v) : pieces v ≠ [] := by
  induction h with
  | str h => simp [pieces]
  | int => simp [pieces]
  | flt => simp [pieces]
  | @tup xs h2 hx ih =>
    cases xs with
    | nil => simp at h2
    | cons x xs =>
      have := ih x (by simp)
      have hne : piecesL (x :: xs) ≠ [] := by simp [piecesL, this]
      exact openFirst_ne (closeLast_ne hne)

theorem piecesL_ne {xs : List (Val F)} (hx : ∀ x ∈ xs, WfVal x) (h : xs ≠ []) : piecesL xs ≠ [] := by
  cases xs with
  | nil => contradiction
  | cons x xs => simp [piecesL, pieces_ne (hx x (by simp))]

theorem nodeStrs_eq_map (xs : List (Val F)) : nodeStrs xs = xs.map edge2str := by
  induction xs with
  | nil => rfl
  | cons x xs ih => simp [nodeStrs, ih]

/-- joins of lists of values, given it for each member -/
theorem join_piecesL {xs : List (Val F)} (hx : ∀ x ∈ xs, WfVal x)
    (ih : ∀ x ∈ xs, edge2str x = pyJoin (lit " ") ((pieces x).map Piece.render)) :
    pyJoin (lit " ") (nodeStrs xs) = pyJoin (lit " ") ((piecesL xs).map Piece.render) := by
  induction xs with
  | nil => rfl
  | cons x xs ih' =>
    have hx' : ∀ y ∈ xs, WfVal y := fun y hy => hx y (by simp [hy])
    have := ih' hx' (fun y hy => ih y (by simp [hy]))
    simp only [nodeStrs, piecesL, List.map_append]
    cases xs with
    | nil => simp [nodeStrs, piecesL, pyJoin, ih x (by simp)]
    | cons y ys =>
      rw [pyJoin_cons (by simp [nodeStrs]), this, ih x (by simp), pyJoin_append]
      · simpa using pieces_ne (hx x (by simp))
      · simpa using piecesL_ne hx' (by simp)

theorem edge2str_eq_pieces {v : Val F} (h : WfVal v) :
    edge2str v = pyJoin (lit " ") ((pieces v).map Piece.render) := by
  induction h with
  | str h => simp [edge2str, pieces, pyJoin, Piece.render]
  | int => simp [edge2str, pieces, pyJoin, Piece.render]
  | flt => simp [edge2str, pieces, pyJoin, Piece.render]
  | @tup xs h2 hx ih =>
    have hne : xs ≠ [] := by rintro rfl; simp at h2
    have hp := piecesL_ne hx hne
    rw [edge2str, pieces, join_openFirst (closeLast_ne hp), join_closeLast hp, join_piecesL hx ih]
    simp only [List.append_assoc]
    rfl

theorem nodes2str_eq_pieces {xs : List (Val F)} (hx : ∀ x ∈ xs, WfVal x) :
    nodes2str xs = pyJoin (lit " ") ((piecesL xs).map Piece.render) :=
  join_piecesL hx (fun x h => edge2str_eq_pieces (hx x h))

/-! ### cleanliness of pieces -/

theorem mem_openFirst {ps : List Piece} {P : Piece → Prop} (h : ∀ p ∈ ps, P p)
    (hop : ∀ p, P p → P { p with op := p.op + 1 }) : ∀ p ∈ openFirst ps, P p := by
  cases ps with
  | nil => simp [openFirst]
  | cons q ps =>
    intro p hp
    simp only [openFirst, List.mem_cons] at hp
    rcases hp with rfl | hp
    · exact hop _ (h q (by simp))
    · exact h p (by simp [hp])

theorem mem_closeLast {ps : List Piece} {P : Piece → Prop} (h : ∀ p ∈ ps, P p)
    (hcl : ∀ p, P p → P { p with cl := p.cl + 1 }) : ∀ p ∈ closeLast ps, P p := by
  induction ps with
  | nil => simp [closeLast]
  | cons q ps ih =>
    cases ps with
    | nil =>
      intro p hp
      simp only [closeLast, List.mem_singleton] at hp
      subst hp
      exact hcl _ (h q (by simp))
    | cons r rs =>
      intro p hp
      simp only [closeLast, List.mem_cons] at hp
      rcases hp with rfl | hp
      · exact h _ (by simp)
      · exact ih (fun p hp => h p (by simp [hp])) p hp

theorem mem_piecesL {xs : List (Val F)} {p : Piece} : p ∈ piecesL xs ↔ ∃ x ∈ xs, p ∈ pieces x := by
  induction xs with
  | nil => simp [piecesL]
  | cons x xs ih => simp [piecesL, ih]

theorem pieces_clean {v : Val F} (h : WfVal v) : ∀ p ∈ pieces v, CleanAtom p.atom := by
  induction h with
  | str h => simpa [pieces] using CleanAtom.of_wfStr h
  | int => simpa [pieces] using CleanAtom.intStr _
  | flt => simpa [pieces] using CleanAtom.float _
  | @tup xs h2 hx ih =>
    rw [pieces]
    apply mem_openFirst (P := fun p => CleanAtom p.atom) _ (fun p hp => hp)
    apply mem_closeLast (P := fun p => CleanAtom p.atom) _ (fun p hp => hp)
    intro p hp
    obtain ⟨x, hx', hp⟩ := mem_piecesL.1 hp
    exact ih x hx' p hp

theorem piecesL_clean {xs : List (Val F)} (hx : ∀ x ∈ xs, WfVal x) :
    ∀ p ∈ piecesL xs, CleanAtom p.atom := by
  intro p hp
  obtain ⟨x, hx', hp⟩ := mem_piecesL.1 hp
  exact pieces_clean (hx x hx') p hp

theorem render_clean {p : Piece} (h : CleanAtom p.atom) :
    p.render ≠ [] ∧ ∀ c ∈ p.render, isSpace c = false := by
  constructor
  · simp [Piece.render, h.ne]
  · intro c hc
    simp only [Piece.render, List.mem_append, List.mem_replicate] at hc
    rcases hc with (⟨_, rfl⟩ | hc) | ⟨_, rfl⟩
    · decide
    · exact h.noSpace c hc
    · decide

theorem openPars_replicate (n : Nat) (s : Str) :
    openPars (List.replicate n '(' ++ s) = (openPars s).map (· + n) := by
  induction n with
  | zero => cases h : openPars s <;> simp [h, Except.map]
  | succ n ih =>
    simp only [List.replicate_succ, List.cons_append, openPars, if_true, ih]
    cases openPars s <;> simp [Except.map, bind, Except.bind]; omega

theorem closeParsRev_replicate (n : Nat) (s : Str) :
    closeParsRev (List.replicate n ')' ++ s) = (closeParsRev s).map (· + n) := by
  induction n with
  | zero => cases h : closeParsRev s <;> simp [h, Except.map]
  | succ n ih =>
    simp only [List.replicate_succ, List.cons_append, closeParsRev, if_true, ih]
    cases closeParsRev s <;> simp [Except.map, bind, Except.bind]; omega

theorem openPars_render {p : Piece} (h : CleanAtom p.atom) : openPars p.render = .ok p.op := by
  unfold Piece.render
  rw [List.append_assoc, openPars_replicate]
  have hne := h.ne
  have ho := h.noOpen
  cases ha : p.atom with
  | nil => exact absurd ha hne
  | cons c a =>
    rw [ha] at ho
    have : c ≠ '(' := by simpa using ho
    simp [openPars, this, Except.map]

theorem closePars_render {p : Piece} (h : CleanAtom p.atom) : closePars p.render = .ok p.cl := by
  unfold Piece.render closePars
  rw [List.reverse_append, List.reverse_append, List.reverse_replicate, closeParsRev_replicate]
  have hne := h.ne
  have ho := h.noClose
  rw [← List.head?_reverse] at ho
  cases ha : p.atom.reverse with
  | nil => simp at ha; exact absurd ha hne
  | cons c a =>
    rw [ha] at ho
    have : c ≠ ')' := by simpa using ho
    simp [closeParsRev, this, Except.map]

/-! ### nesting depth along the pieces of a value -/

/-- Total depth change of a list of pieces. -/
def dsum (ps : List Piece) : Int := (ps.map Piece.delta).sum

theorem dsum_append (a b : List Piece) : dsum (a ++ b) = dsum a + dsum b := by
  simp [dsum]

theorem dsum_closeLast {ps : List Piece} (h : ps ≠ []) : dsum (closeLast ps) = dsum ps - 1 := by
  have hps : ps = ps.dropLast ++ [ps.getLast h] := (List.dropLast_concat_getLast h).symm
  rw [hps, closeLast_dropLast_getLast, dsum_append, dsum_append]
  simp [dsum, Piece.delta]; omega

theorem dsum_openFirst {ps : List Piece} (h : ps ≠ []) : dsum (openFirst ps) = dsum ps + 1 := by
  cases ps with
  | nil => contradiction
  | cons p ps => simp [openFirst, dsum, Piece.delta]; omega

theorem take_closeLast {ps : List Piece} {n : Nat} (h : n < ps.length) :
    (closeLast ps).take n = ps.take n := by
  have hne : ps ≠ [] := by rintro rfl; simp at h
  have hps : ps = ps.dropLast ++ [ps.getLast hne] := (List.dropLast_concat_getLast hne).symm
  have hl : n ≤ ps.dropLast.length := by simp; omega
  rw [hps, closeLast_dropLast_getLast, List.take_append_of_le_length hl,
    List.take_append_of_le_length hl]

theorem take_openFirst {ps : List Piece} {n : Nat} (h : 0 < n) :
    (openFirst ps).take n = openFirst (ps.take n) := by
  cases ps with
  | nil => simp [openFirst]
  | cons p ps =>
    cases n with
    | zero => omega
    | succ n => simp [openFirst]

/-- prefix depths of a list of values never go below the start, and end at it -/
theorem dsum_piecesL {xs : List (Val F)}
    (h : ∀ x ∈ xs, dsum (pieces x) = 0 ∧ ∀ n, 0 ≤ dsum ((pieces x).take n)) :
    dsum (piecesL xs) = 0 ∧ ∀ n, 0 ≤ dsum ((piecesL xs).take n) := by
  induction xs with
  | nil => simp [piecesL, dsum]
  | cons x xs ih =>
    have ih' := ih (fun y hy => h y (by simp [hy]))
    have hx := h x (by simp)
    constructor
    · simp [piecesL, dsum_append, hx.1, ih'.1]
    · intro n
      rw [piecesL, List.take_append, dsum_append]
      have := hx.2 n
      have := ih'.2 (n - (pieces x).length)
      omega

theorem pieces_depth {v : Val F} (h : WfVal v) :
    dsum (pieces v) = 0 ∧ (∀ n, 0 ≤ dsum ((pieces v).take n)) ∧
    (∀ n, 0 < n → n < (pieces v).length → 1 ≤ dsum ((pieces v).take n)) := by
  have atomCase : ∀ a : Str, dsum [⟨0, a, 0⟩] = 0 ∧ (∀ n, 0 ≤ dsum (([⟨0, a, 0⟩] : List Piece).take n)) ∧
      (∀ n, 0 < n → n < ([⟨0, a, 0⟩] : List Piece).length → 1 ≤ dsum (([⟨0, a, 0⟩] : List Piece).take n)) := by
    intro a
    refine ⟨by simp [dsum, Piece.delta], ?_, ?_⟩
    · intro n; cases n <;> simp [dsum, Piece.delta]
    · intro n h1 h2; simp at h2; omega
  induction h with
  | str h => simpa only [pieces] using atomCase _
  | int => simpa only [pieces] using atomCase _
  | flt => simpa only [pieces] using atomCase _
  | @tup xs h2 hx ih =>
    have hne : xs ≠ [] := by rintro rfl; simp at h2
    have hp := piecesL_ne hx hne
    obtain ⟨h0, hge⟩ := dsum_piecesL (fun x hx => ⟨(ih x hx).1, (ih x hx).2.1⟩)
    have hlen : (pieces (.seq false xs)).length = (piecesL xs).length := by
      rw [pieces, openFirst_length, closeLast_length]
    have htot : dsum (pieces (.seq false xs)) = 0 := by
      rw [pieces, dsum_openFirst (closeLast_ne hp), dsum_closeLast hp, h0]; omega
    have hmid : ∀ n, 0 < n → n < (pieces (.seq false xs)).length →
        1 ≤ dsum ((pieces (.seq false xs)).take n) := by
      intro n h1 h2
      rw [hlen] at h2
      rw [pieces, take_openFirst h1, take_closeLast h2, dsum_openFirst]
      · have := hge n; omega
      · intro h'
        rw [List.take_eq_nil_iff] at h'
        rcases h' with rfl | h'
        · omega
        · exact hp h'
    refine ⟨htot, ?_, hmid⟩
    intro n
    by_cases h1 : n = 0
    · subst h1; simp [dsum]
    · by_cases h2 : n < (pieces (.seq false xs)).length
      · have := hmid n (by omega) h2
        show 0 ≤ dsum (List.take n (pieces (.seq false xs)))
        omega
      · show 0 ≤ dsum (List.take n (pieces (.seq false xs)))
        rw [List.take_of_length_le (by omega), htot]; omega

/-! ### the tokenizer loop -/

/-- A run of pieces forming one token, starting at depth `d`. -/
def OneToken : Int → List Piece → Prop
  | _, [] => False
  | d, [p] => d + p.delta = 0
  | d, p :: q :: ps => d + p.delta ≠ 0 ∧ OneToken (d + p.delta) (q :: ps)

theorem oneToken_of_take {ps : List Piece} {d : Int} (hne : ps ≠ []) (h0 : d + dsum ps = 0)
    (hpos : ∀ n, 0 < n → n < ps.length → 1 ≤ d + dsum (ps.take n)) : OneToken d ps := by
  induction ps generalizing d with
  | nil => contradiction
  | cons p ps ih =>
    cases ps with
    | nil => simpa [OneToken, dsum] using h0
    | cons q qs =>
      have hd : ∀ l, dsum (p :: l) = p.delta + dsum l := by intro l; simp [dsum]
      refine ⟨?_, ih (by simp) ?_ ?_⟩
      · have := hpos 1 (by omega) (by simp)
        simp [dsum] at this
        omega
      · rw [hd] at h0; omega
      · intro n h1 h2
        have := hpos (n + 1) (by omega) (by simp at h2 ⊢; omega)
        rw [List.take_succ_cons, hd] at this
        omega

/-- The text accumulated in `curtok`. -/
def accTok : Option Str → List Str → Str
  | none, ps => pyJoin (lit " ") ps
  | some t, ps => t ++ lit " " ++ pyJoin (lit " ") ps

theorem splitLoop_oneToken {ps : List Piece} {cur : Option Str} {d : Int} {rest : List Str}
    (hc : ∀ p ∈ ps, CleanAtom p.atom) (h : OneToken d ps) :
    splitLoop cur d (ps.map Piece.render ++ rest) =
      (do let r ← splitLoop none 0 rest; .ok (accTok cur (ps.map Piece.render) :: r)) := by
  induction ps generalizing cur d with
  | nil => exact absurd h (by simp [OneToken])
  | cons p ps ih =>
    have hp := hc p (by simp)
    cases ps with
    | nil =>
      have hd : d + (p.op : Int) - p.cl = 0 := by
        have : d + p.delta = 0 := h
        simp only [Piece.delta] at this; omega
      simp only [List.map_cons, List.map_nil, List.cons_append, List.nil_append, splitLoop,
        openPars_render hp, closePars_render hp]
      simp only [bind, Except.bind, hd, if_true]
      cases cur <;> simp [accTok, pyJoin]
    | cons q qs =>
      obtain ⟨h1, h2⟩ := h
      have hd : d + (p.op : Int) - p.cl ≠ 0 := by
        simp only [Piece.delta] at h1; omega
      have hd' : d + (p.op : Int) - p.cl = d + p.delta := by simp only [Piece.delta]; omega
      rw [List.map_cons, List.cons_append]
      simp only [splitLoop, openPars_render hp, closePars_render hp]
      simp only [bind, Except.bind, if_neg hd]
      rw [hd', ih (fun p hp => hc p (by simp [hp])) h2]
      cases cur <;> simp [accTok, pyJoin, bind, Except.bind]

theorem splitLoop_values {xs : List (Val F)} (hx : ∀ x ∈ xs, WfVal x) :
    splitLoop none 0 ((piecesL xs).map Piece.render) = .ok (xs.map edge2str) := by
  induction xs with
  | nil => simp [piecesL, splitLoop]
  | cons x xs ih =>
    have hwx := hx x (by simp)
    obtain ⟨h0, _, hmid⟩ := pieces_depth hwx
    have ho : OneToken 0 (pieces x) := by
      apply oneToken_of_take (pieces_ne hwx) (by simpa using h0)
      intro n h1 h2
      simpa using hmid n h1 h2
    rw [piecesL, List.map_append, splitLoop_oneToken (pieces_clean hwx) ho,
      ih (fun y hy => hx y (by simp [hy]))]
    simp [bind, Except.bind, accTok, edge2str_eq_pieces hwx]

/-- Tokenizing the joined texts of values gives the texts back. -/
theorem tokens_nodes2str {xs : List (Val F)} (hx : ∀ x ∈ xs, WfVal x) :
    splitLoop none 0 (pySplit (nodes2str xs)) = .ok (xs.map edge2str) := by
  rw [nodes2str_eq_pieces hx, pySplit_join, splitLoop_values hx]
  intro p hp
  obtain ⟨q, hq, rfl⟩ := List.mem_map.1 hp
  exact render_clean (piecesL_clean hx q hq)

/-! ### first characters -/

theorem edge2str_ne {v : Val F} (h : WfVal v) : edge2str v ≠ [] := by
  cases h with
  | str h => exact h.ne
  | int => exact intStr_ne _
  | flt => exact (CleanAtom.float _).ne
  | tup => simp [edge2str]

theorem edge2str_head_atom {v : Val F} (h : WfVal v) (ha : v.isAtom = true) :
    ∃ c s, edge2str v = c :: s ∧ c ≠ '(' := by
  have hc := cleanAtom_of_wf h ha
  rw [edge2str_atom ha]
  cases hs : atomStr v with
  | nil => exact absurd hs hc.ne
  | cons c s =>
    refine ⟨c, s, rfl, ?_⟩
    have := hc.noOpen
    rw [hs] at this
    simpa using this

theorem nodes2str_cons_head {x : Val F} {xs : List (Val F)} {c : Char} {s : Str}
    (h : edge2str x = c :: s) : ∃ s', nodes2str (x :: xs) = c :: s' := by
  unfold nodes2str
  cases xs with
  | nil => exact ⟨s, by simp [nodeStrs, pyJoin, h]⟩
  | cons y ys =>
    refine ⟨s ++ lit " " ++ pyJoin (lit " ") (nodeStrs (y :: ys)), ?_⟩
    rw [nodeStrs, pyJoin_cons (by simp [nodeStrs]), h]
    rfl

theorem splitEdgeStr_nodes {x : Val F} {xs : List (Val F)} (hx : ∀ y ∈ x :: xs, WfVal y)
    (ha : x.isAtom = true) :
    splitEdgeStr (nodes2str (x :: xs)) = .ok ((x :: xs).map edge2str) := by
  obtain ⟨c, s, hs, hc⟩ := edge2str_head_atom (hx x (by simp)) ha
  obtain ⟨s', hs'⟩ := nodes2str_cons_head (xs := xs) hs
  have := tokens_nodes2str hx
  rw [hs'] at this ⊢
  rw [splitEdgeStr, if_neg hc, this]

theorem splitEdgeStr_tup {xs : List (Val F)} (hx : ∀ y ∈ xs, WfVal y) :
    splitEdgeStr (edge2str (.tup xs)) = .ok (xs.map edge2str) := by
  have := tokens_nodes2str hx
  show splitEdgeStr ('(' :: (pyJoin (lit " ") (nodeStrs xs) ++ [')'])) = _
  rw [splitEdgeStr, if_pos rfl, List.dropLast_concat]
  exact this

theorem mapE_ok {α β : Type} {f : α → Except PyErr β} {g : α → β} {xs : List α}
    (h : ∀ x ∈ xs, f x = .ok (g x)) : mapE f xs = .ok (xs.map g) := by
  induction xs with
  | nil => rfl
  | cons x xs ih =>
    rw [mapE, h x (by simp), ih (fun y hy => h y (by simp [hy]))]
    rfl

theorem mapE_map {α β γ : Type} (f : β → Except PyErr γ) (g : α → β) (xs : List α) :
    mapE f (xs.map g) = mapE (fun x => f (g x)) xs := by
  induction xs with
  | nil => rfl
  | cons x xs ih => simp [mapE, ih]

theorem packEdge_ge2 {xs : List (Val F)} (h : 2 ≤ xs.length) : packEdge xs = .ok (.tup xs) := by
  match xs, h with
  | [], h => simp at h
  | [_], h => simp at h
  | _ :: _ :: _, _ => rfl

theorem parsedAtom_atomStr {v : Val F} (h : WfVal v) (ha : v.isAtom = true) :
    parsedAtom (atomStr v) = .ok v := by
  cases h with
  | str h =>
    have : tokenType _ = .string := (tokenType_string_iff _).2 ⟨h.notInt, h.notDec⟩
    simp [parsedAtom, atomStr, this]
  | @int i =>
    have : tokenType (intStr i) = .integer := tokenType_of_looksInt (looksInt_intStr i)
    simp [parsedAtom, atomStr, this, pyInt_intStr, bind, Except.bind]
  | @flt x h =>
    have ht : tokenType (PyFloat.repr x) = .double := tokenType_of_looksDec h
    simp [parsedAtom, atomStr, ht, pyFloatParse, PyFloat.parse_repr x ht, bind, Except.bind]
  | tup => simp [Val.isAtom] at ha

theorem parsedTokenF_atom {v : Val F} (h : WfVal v) (ha : v.isAtom = true) (k : Nat) :
    parsedTokenF k (edge2str v) = .ok v := by
  obtain ⟨c, s, hs, hc⟩ := edge2str_head_atom h ha
  have hp := parsedAtom_atomStr h ha
  rw [← edge2str_atom ha] at hp
  rw [hs] at hp ⊢
  cases k <;> simp [parsedTokenF, hc, hp]

theorem length_le_join {x : Str} {xs : List Str} (h : x ∈ xs) :
    x.length ≤ (pyJoin (lit " ") xs).length := by
  induction xs with
  | nil => simp at h
  | cons y ys ih =>
    cases ys with
    | nil => simp at h; simp [pyJoin, h]
    | cons z zs =>
      rw [pyJoin_cons (by simp)]
      simp only [List.mem_cons] at h ih
      simp only [List.length_append]
      rcases h with rfl | h
      · omega
      · have := ih (by simpa using h); omega

theorem length_elem_lt {x : Val F} {xs : List (Val F)} {b : Bool} (h : x ∈ xs) :
    (edge2str x).length + 2 ≤ (edge2str (.seq b xs)).length := by
  have : edge2str x ∈ nodeStrs xs := by
    rw [nodeStrs_eq_map]; exact List.mem_map_of_mem h
  have := length_le_join this
  have h2 : (edge2str (.seq b xs)).length = (pyJoin (lit " ") (nodeStrs xs)).length + 2 := by
    show ('(' :: (pyJoin (lit " ") (nodeStrs xs)) ++ [')']).length = _
    simp
  omega

theorem isAtom_cases {v : Val F} (h : WfVal v) : v.isAtom = true ∨ ∃ xs, v = .tup xs := by
  cases h with
  | str h => exact .inl rfl
  | int => exact .inl rfl
  | flt => exact .inl rfl
  | tup => exact .inr ⟨_, rfl⟩

theorem parsedTokenF_edge2str {v : Val F} (h : WfVal v) :
    ∀ k, (edge2str v).length ≤ k → parsedTokenF k (edge2str v) = .ok v := by
  induction h with
  | str h => exact fun k _ => parsedTokenF_atom (.str h) rfl k
  | int => exact fun k _ => parsedTokenF_atom .int rfl k
  | flt h => exact fun k _ => parsedTokenF_atom (.flt h) rfl k
  | @tup xs h2 hx ih =>
    intro k hk
    cases k with
    | zero =>
      simp [edge2str] at hk
    | succ k =>
      have hsplit := splitEdgeStr_tup hx
      have hform : edge2str (.tup xs) = '(' :: (pyJoin (lit " ") (nodeStrs xs) ++ [')']) := rfl
      rw [hform, parsedTokenF, if_pos rfl, ← hform, str2edgeWith, hsplit]
      simp only [bind, Except.bind]
      rw [mapE_map, mapE_ok (g := id)]
      · simpa using packEdge_ge2 h2
      · intro x hxm
        apply ih x hxm
        have := length_elem_lt (b := false) hxm
        simp only [Val.tup] at hk
        omega

/-- Parsing the text of a well-formed value gives the value back. -/
theorem str2edge_edge2str {v : Val F} (h : WfVal v) : str2edge (edge2str v) = .ok v := by
  rcases isAtom_cases h with ha | ⟨xs, rfl⟩
  · unfold str2edge str2edgeWith
    have : edge2str v = nodes2str [v] := by simp [nodes2str, nodeStrs, pyJoin]
    have h2 := splitEdgeStr_nodes (x := v) (xs := []) (by simpa using h) ha
    rw [← this] at h2
    rw [h2]
    simp only [bind, Except.bind, List.map_cons, List.map_nil, mapE, parsedTokenF_atom h ha]
    rfl
  · have hk := parsedTokenF_edge2str h ((edge2str (.tup xs)).length + 1) (by omega)
    have hform : edge2str (.tup xs) = '(' :: (pyJoin (lit " ") (nodeStrs xs) ++ [')']) := rfl
    rw [hform, parsedTokenF, if_pos rfl, ← hform] at hk
    exact hk

/-- Parsing the joined texts (no outer parentheses) of at least two values starting with an atom. -/
theorem str2edge_nodes2str {x : Val F} {xs : List (Val F)} (hx : ∀ y ∈ x :: xs, WfVal y)
    (ha : x.isAtom = true) (hne : xs ≠ []) :
    str2edge (nodes2str (x :: xs)) = .ok (.tup (x :: xs)) := by
  unfold str2edge str2edgeWith
  rw [splitEdgeStr_nodes hx ha]
  simp only [bind, Except.bind]
  rw [mapE_map, mapE_ok (g := id)]
  · rw [List.map_id]
    apply packEdge_ge2
    cases xs with
    | nil => contradiction
    | cons y ys => simp
  · intro y hy
    apply parsedTokenF_edge2str (hx y hy)
    apply length_le_join
    rw [nodeStrs_eq_map]
    exact List.mem_map_of_mem hy

theorem edge2str_inj {v w : Val F} (hv : WfVal v) (hw : WfVal w) (h : edge2str v = edge2str w) :
    v = w := by
  have h1 := str2edge_edge2str hv
  rw [h, str2edge_edge2str hw] at h1
  simpa using h1.symm

theorem map_edge2str_inj {xs ys : List (Val F)} (hx : ∀ x ∈ xs, WfVal x) (hy : ∀ y ∈ ys, WfVal y)
    (h : xs.map edge2str = ys.map edge2str) : xs = ys := by
  induction xs generalizing ys with
  | nil => simpa using h.symm
  | cons x xs ih =>
    cases ys with
    | nil => simp at h
    | cons y ys =>
      simp only [List.map_cons, List.cons.injEq] at h
      rw [edge2str_inj (hx x (by simp)) (hy y (by simp)) h.1,
        ih (fun z hz => hx z (by simp [hz])) (fun z hz => hy z (by simp [hz])) h.2]

theorem nodes2str_inj {xs ys : List (Val F)} (hx : ∀ x ∈ xs, WfVal x) (hy : ∀ y ∈ ys, WfVal y)
    (h : nodes2str xs = nodes2str ys) : xs = ys := by
  have h1 := tokens_nodes2str hx
  rw [h, tokens_nodes2str hy] at h1
  exact map_edge2str_inj hx hy (by simpa using h1.symm)

end GB
