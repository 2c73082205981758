import Verif.Proofs.Junk
import Verif.Proofs.MyQuery
import Verif.Proofs.Parse
import Verif.Spec.AtomCount

/-! What is read back from a row that begins with an edge is always smaller than the edge the row stands for. -/

set_option linter.unusedSectionVars false

namespace GB

variable {F : Type} [PyFloat F] [DecidableEq F] {V : Val F → Prop}

/-! ### the number of words -/

/-- Number of words of a text. -/
def words (s : Str) : Nat := (pySplit s).length

theorem pySplitAux_ne {s cur cur' : Str} (h : cur ≠ []) (h' : cur' ≠ []) :
    (pySplitAux cur s).length = (pySplitAux cur' s).length := by
  induction s generalizing cur cur' with
  | nil => cases cur <;> cases cur' <;> simp_all [pySplitAux]
  | cons c s ih =>
    simp only [pySplitAux]
    split
    · cases cur <;> cases cur' <;> simp_all
    · exact ih (by simp) (by simp)

theorem pySplitAux_le (s cur : Str) : (pySplitAux [] s).length ≤ (pySplitAux cur s).length := by
  cases cur with
  | nil => exact Nat.le_refl _
  | cons a cur =>
    cases s with
    | nil => simp [pySplitAux]
    | cons c s =>
      simp only [pySplitAux]
      split
      · simp
      · exact Nat.le_of_eq (pySplitAux_ne (by simp) (by simp))

theorem words_cons (c : Char) (s : Str) : words s ≤ words (c :: s) := by
  unfold words pySplit
  conv => rhs; rw [pySplitAux]
  split
  · simp
  · exact pySplitAux_le _ _

theorem pySplitAux_snoc (s cur : Str) (c : Char) :
    (pySplitAux cur s).length ≤ (pySplitAux cur (s ++ [c])).length := by
  induction s generalizing cur with
  | nil =>
    simp only [List.nil_append, pySplitAux]
    split <;> split <;> simp_all
  | cons a s ih =>
    simp only [List.cons_append, pySplitAux]
    split
    · split
      · exact ih _
      · simpa using ih []
    · exact ih _

theorem words_dropLast (s : Str) : words s.dropLast ≤ words s := by
  by_cases h : s = []
  · subst h; simp
  · conv => rhs; rw [← List.dropLast_concat_getLast h]
    exact pySplitAux_snoc _ _ _

theorem words_join (ts : List Str) : words (pyJoin (lit " ") ts) = (ts.map words).sum := by
  induction ts with
  | nil => rfl
  | cons t ts ih =>
    cases ts with
    | nil => simp [pyJoin]
    | cons u ts =>
      rw [pyJoin, words, pySplit_append, List.length_append]
      simp only [words] at ih ⊢
      rw [ih]
      simp [words]

theorem pySplitAux_word_mem {s cur : Str} (hcur : ∀ c ∈ cur, isSpace c = false) :
    ∀ w ∈ pySplitAux cur s, w ≠ [] ∧ ∀ c ∈ w, isSpace c = false := by
  induction s generalizing cur with
  | nil =>
    intro w hw
    simp only [pySplitAux] at hw
    split at hw
    · simp at hw
    · rename_i h
      simp at hw; subst hw
      exact ⟨by intro h'; simp [h'] at h, hcur⟩
  | cons a s ih =>
    intro w hw
    simp only [pySplitAux] at hw
    split at hw
    · split at hw
      · exact ih (by simp) w hw
      · rename_i h
        rcases List.mem_cons.1 hw with rfl | hw
        · exact ⟨by intro h'; simp [h'] at h, hcur⟩
        · exact ih (by simp) w hw
    · rename_i h
      refine ih ?_ w hw
      intro c hc
      rcases List.mem_append.1 hc with hc | hc
      · exact hcur c hc
      · simp at hc; subst hc; simpa using h

theorem pySplit_word_mem {s : Str} : ∀ w ∈ pySplit s, w ≠ [] ∧ ∀ c ∈ w, isSpace c = false :=
  pySplitAux_word_mem (by simp)

theorem words_group {g : List Str} (hg : ∀ w ∈ g, w ≠ [] ∧ ∀ c ∈ w, isSpace c = false) :
    words (pyJoin (lit " ") g) = g.length := by
  rw [words, pySplit_join hg]

/-! ### the tokenizer groups words -/

/-- Change of depth over a word. -/
def wdepth (w : Str) : Int := match openPars w, closePars w with
  | .ok o, .ok c => (o : Int) - c
  | _, _ => 0

theorem pyJoin_snoc {ws : List Str} (h : ws ≠ []) (t : Str) :
    pyJoin (lit " ") (ws ++ [t]) = pyJoin (lit " ") ws ++ lit " " ++ t := by
  rw [pyJoin_append h (by simp)]
  simp [pyJoin]

/-- The words pending. -/
def curOf (ws : List Str) : Option Str := if ws = [] then none else some (pyJoin (lit " ") ws)

theorem pend_curOf (ws : List Str) (t : Str) : pend (curOf ws) t = pyJoin (lit " ") (ws ++ [t]) := by
  unfold curOf
  split
  · rename_i h; subst h; simp [pend, pyJoin]
  · rename_i h; rw [pyJoin_snoc h]; rfl

theorem splitLoop_groups {ws stoks ts : List Str} {d : Int} (hd : ws = [] → d = 0)
    (h : splitLoop (curOf ws) d stoks = .ok ts) :
    ∃ (gs : List (List Str)) (rest : List Str), ts = gs.map (pyJoin (lit " ")) ∧ gs.flatten ++ rest = ws ++ stoks ∧ (∀ g ∈ gs, g ≠ []) ∧
      (d + (stoks.map wdepth).sum ≠ 0 → rest ≠ []) := by
  induction stoks generalizing ws d ts with
  | nil =>
    simp only [splitLoop, Except.ok.injEq] at h
    subst h
    refine ⟨[], ws, rfl, by simp, by simp, ?_⟩
    intro h0 hw
    exact h0 (by simp [hd hw])
  | cons tok stoks ih =>
    rw [splitLoop_cons] at h
    cases ho : openPars tok with
    | error e => simp [ho, bind, Except.bind] at h
    | ok o =>
      cases hc : closePars tok with
      | error e => simp [ho, hc, bind, Except.bind] at h
      | ok c =>
        have hw : wdepth tok = (o : Int) - c := by simp [wdepth, ho, hc]
        simp only [ho, hc, bind, Except.bind] at h
        rw [pend_curOf] at h
        split at h
        · rename_i hz
          cases hr : splitLoop none (d + o - c) stoks with
          | error e => simp [hr] at h
          | ok rest =>
            simp only [hr, Except.ok.injEq] at h
            subst h
            obtain ⟨gs, r, h1, h2, h3, h4⟩ := ih (ws := []) (fun _ => hz) hr
            refine ⟨(ws ++ [tok]) :: gs, r, by simp [h1], ?_, ?_, ?_⟩
            · simp only [List.nil_append] at h2
              simp [h2]
            · intro g hg
              rcases List.mem_cons.1 hg with rfl | hg
              · simp
              · exact h3 g hg
            · intro h0
              apply h4
              simp only [List.map_cons, List.sum_cons, hw] at h0
              omega
        · have hcur : curOf (ws ++ [tok]) = some (pyJoin (lit " ") (ws ++ [tok])) := by simp [curOf]
          rw [← hcur] at h
          obtain ⟨gs, r, h1, h2, h3, h4⟩ := ih (ws := ws ++ [tok]) (by simp) h
          refine ⟨gs, r, h1, by simpa using h2, h3, ?_⟩
          intro h0
          apply h4
          simp only [List.map_cons, List.sum_cons, hw] at h0
          omega

theorem sum_words_groups {gs : List (List Str)} (h : ∀ g ∈ gs, ∀ w ∈ g, w ≠ [] ∧ ∀ c ∈ w, isSpace c = false) :
    ((gs.map (pyJoin (lit " "))).map words).sum = gs.flatten.length := by
  induction gs with
  | nil => rfl
  | cons g gs ih =>
    simp only [List.map_cons, List.sum_cons, List.flatten_cons, List.length_append]
    rw [ih (fun g' hg' => h g' (by simp [hg'])), words_group (h g (by simp))]

/-- The tokens of a text consist of its words. -/
theorem splitLoop_words {s : Str} {ts : List Str} (h : splitLoop none 0 (pySplit s) = .ok ts) :
    (∀ t ∈ ts, 1 ≤ words t) ∧ (ts.map words).sum ≤ words s ∧
      (((pySplit s).map wdepth).sum ≠ 0 → (ts.map words).sum < words s) := by
  obtain ⟨gs, rest, h1, h2, h3, h4⟩ := splitLoop_groups (ws := []) (fun _ => rfl) h
  simp only [List.nil_append] at h2
  have hw : ∀ g ∈ gs, ∀ w ∈ g, w ≠ [] ∧ ∀ c ∈ w, isSpace c = false := by
    intro g hg w hw
    apply pySplit_word_mem (s := s)
    rw [← h2]
    exact List.mem_append.2 (.inl (List.mem_flatten.2 ⟨g, hg, hw⟩))
  have hlen : words s = gs.flatten.length + rest.length := by
    rw [words, ← h2, List.length_append]
  refine ⟨?_, ?_, ?_⟩
  · intro t ht
    rw [h1] at ht
    obtain ⟨g, hg, rfl⟩ := List.mem_map.1 ht
    rw [words_group (hw g hg)]
    exact List.length_pos_iff.2 (h3 g hg)
  · rw [h1, sum_words_groups hw, hlen]; omega
  · intro h0
    have : 0 < rest.length := List.length_pos_iff.2 (h4 (by simpa using h0))
    rw [h1, sum_words_groups hw, hlen]; omega

/-! ### the number of atoms of what is read -/

theorem atomCountL_append (xs ys : List (Val F)) : atomCountL (xs ++ ys) = atomCountL xs + atomCountL ys := by
  induction xs with
  | nil => simp [atomCountL]
  | cons x xs ih => simp only [List.cons_append, atomCountL, ih]; omega

theorem atomCountL_perm {xs ys : List (Val F)} (h : xs.Perm ys) : atomCountL xs = atomCountL ys := by
  induction h with
  | nil => rfl
  | cons x _ ih => simp only [atomCountL, ih]
  | swap x y l => simp only [atomCountL]; omega
  | trans _ _ h1 h2 => exact h1.trans h2

theorem parsedAtom_atomCount {t : Str} {v : Val F} (h : parsedAtom t = .ok v) : atomCount v = 1 := by
  unfold parsedAtom at h
  split at h
  · simp at h; subst h; rfl
  · cases hi : pyInt t with
    | error e => simp [hi, bind, Except.bind] at h
    | ok i => simp [hi, bind, Except.bind] at h; subst h; rfl
  · cases hi : (pyFloatParse t : Except PyErr F) with
    | error e => simp [hi, bind, Except.bind] at h
    | ok i => simp [hi, bind, Except.bind] at h; subst h; rfl

theorem mapE_atomCount {f : Str → Except PyErr (Val F)} {ts : List Str} {vs : List (Val F)}
    (hf : ∀ t ∈ ts, ∀ v, f t = .ok v → atomCount v ≤ words t) (h : mapE f ts = .ok vs) :
    atomCountL vs ≤ (ts.map words).sum := by
  induction ts generalizing vs with
  | nil => simp [mapE] at h; subst h; simp [atomCountL]
  | cons t ts ih =>
    rw [mapE] at h
    cases ht : f t with
    | error e => simp [ht, bind, Except.bind] at h
    | ok v =>
      cases hr : mapE f ts with
      | error e => simp [ht, hr, bind, Except.bind] at h
      | ok ws =>
        simp only [ht, hr, bind, Except.bind, Except.ok.injEq] at h
        subst h
        have h1 := hf t (by simp) v ht
        have h2 := ih (fun u hu => hf u (by simp [hu])) hr
        simp only [atomCountL, List.map_cons, List.sum_cons]
        omega

theorem splitEdgeStr_words {s : Str} {ts : List Str} (h : splitEdgeStr s = .ok ts) :
    (∀ t ∈ ts, 1 ≤ words t) ∧ (ts.map words).sum ≤ words s := by
  unfold splitEdgeStr at h
  cases s with
  | nil => simp at h
  | cons c rest =>
    simp only at h
    split at h
    · obtain ⟨h1, h2, _⟩ := splitLoop_words h
      exact ⟨h1, Nat.le_trans h2 (Nat.le_trans (words_dropLast _) (words_cons _ _))⟩
    · obtain ⟨h1, h2, _⟩ := splitLoop_words h
      exact ⟨h1, h2⟩

theorem str2edgeWith_atomCount {f : Str → Except PyErr (Val F)}
    (hf : ∀ t v, 1 ≤ words t → f t = .ok v → atomCount v ≤ words t) {s : Str} {v : Val F}
    (h : str2edgeWith f s = .ok v) : atomCount v ≤ words s := by
  unfold str2edgeWith at h
  cases ht : splitEdgeStr s with
  | error e => simp [ht, bind, Except.bind] at h
  | ok ts =>
    cases hm : mapE f ts with
    | error e => simp [ht, hm, bind, Except.bind] at h
    | ok vs =>
      simp only [ht, hm, bind, Except.bind] at h
      obtain ⟨h1, h2⟩ := splitEdgeStr_words ht
      have h3 := mapE_atomCount (fun t ht' v hv => hf t v (h1 t ht') hv) hm
      have : atomCount v = atomCountL vs := by
        match vs, h with
        | [], h => simp [packEdge] at h
        | [x], h => simp [packEdge] at h; subst h; simp [atomCountL]
        | x :: y :: zs, h => simp [packEdge] at h; subst h; simp [atomCount]
      omega

theorem parsedTokenF_atomCount (k : Nat) : ∀ (t : Str) (v : Val F), 1 ≤ words t → parsedTokenF k t = .ok v →
    atomCount v ≤ words t := by
  induction k with
  | zero =>
    intro t v hw h
    cases t with
    | nil => simp [parsedTokenF] at h
    | cons c t =>
      simp only [parsedTokenF] at h
      split at h
      · simp at h
      · rw [parsedAtom_atomCount h]; exact hw
  | succ k ih =>
    intro t v hw h
    cases t with
    | nil => simp [parsedTokenF] at h
    | cons c t =>
      simp only [parsedTokenF] at h
      split at h
      · exact str2edgeWith_atomCount ih h
      · rw [parsedAtom_atomCount h]; exact hw

/-- What is read from a text has at most as many atoms as the text has words. -/
theorem str2edge_atomCount {s : Str} {v : Val F} (h : str2edge s = .ok v) : atomCount v ≤ words s :=
  str2edgeWith_atomCount (parsedTokenF_atomCount _) h

theorem pieces_atomCount (v : Val F) : (pieces v).length = atomCount v := by
  have key : ∀ n, ∀ v : Val F, sizeOf v ≤ n → (pieces v).length = atomCount v := by
    intro n
    induction n with
    | zero => intro v hv; cases v <;> simp at hv <;> omega
    | succ n ih =>
      intro v hv
      cases v with
      | seq b xs =>
        rw [pieces, openFirst_length, closeLast_length, atomCount]
        have hx : ∀ x ∈ xs, (pieces x).length = atomCount x := by
          intro x hx
          apply ih
          have := List.sizeOf_lt_of_mem hx
          simp at hv
          omega
        clear hv
        induction xs with
        | nil => rfl
        | cons x xs ih2 =>
          rw [piecesL, atomCountL, List.length_append, hx x (by simp), ih2 (fun y hy => hx y (by simp [hy]))]
      | _ => rfl
  exact key _ v (Nat.le_refl _)

theorem piecesL_atomCount (xs : List (Val F)) : (piecesL xs).length = atomCountL xs := by
  induction xs with
  | nil => rfl
  | cons x xs ih => rw [piecesL, atomCountL, List.length_append, pieces_atomCount, ih]

/-! ### un-permuting does not add words -/

/-- Sum over the filled slots. -/
def slotSum (f : Str → Nat) (res : List (Option Str)) : Nat := (res.map fun o => (o.map f).getD 0).sum

theorem slotSum_set (f : Str → Nat) (res : List (Option Str)) (i : Nat) (t : Str) :
    slotSum f (res.set i (some t)) ≤ slotSum f res + f t := by
  induction res generalizing i with
  | nil => simp [slotSum]
  | cons o res ih =>
    cases i with
    | zero => simp only [slotSum, List.set_cons_zero, List.map_cons, List.sum_cons, Option.map_some, Option.getD_some]; omega
    | succ i =>
      have := ih i
      simp only [slotSum, List.set_cons_succ, List.map_cons, List.sum_cons] at this ⊢
      omega

theorem unpermLoop_sum (f : Str → Nat) {tokens : List Str} {pos : Nat} {res res' : List (Option Str)} {is : List Nat}
    (h : unpermLoop tokens pos res is = .ok res') :
    slotSum f res' ≤ slotSum f res + ((tokens.drop pos).map f).sum := by
  induction is generalizing pos res with
  | nil => simp [unpermLoop] at h; subst h; omega
  | cons i is ih =>
    simp only [unpermLoop] at h
    split at h
    · simp at h
    · rename_i t ht
      have h1 := ih h
      have h2 := slotSum_set f res i t
      obtain ⟨hlt, heq⟩ := List.getElem?_eq_some_iff.1 ht
      have h3 : tokens.drop pos = t :: tokens.drop (pos + 1) := by
        rw [List.drop_eq_getElem_cons hlt, heq]
      rw [h3, List.map_cons, List.sum_cons]
      omega

theorem mapE_slots (f : Str → Nat) {g : Option Str → Except PyErr Str} (hg : ∀ t, g (some t) = .ok t)
    (hn : ∃ e, g none = .error e) {res : List (Option Str)} {ts : List Str} (h : mapE g res = .ok ts) :
    (ts.map f).sum ≤ slotSum f res := by
  induction res generalizing ts with
  | nil => simp [mapE] at h; subst h; simp [slotSum]
  | cons o res ih =>
    rw [mapE] at h
    cases o with
    | none =>
      obtain ⟨e, he⟩ := hn
      simp [he, bind, Except.bind] at h
    | some t =>
      cases hr : mapE g res with
      | error e => simp [hg, hr, bind, Except.bind] at h
      | ok us =>
        simp only [hg, hr, bind, Except.bind, Except.ok.injEq] at h
        subst h
        have := ih hr
        simp only [slotSum, List.map_cons, List.sum_cons, Option.map_some, Option.getD_some] at this ⊢
        omega

theorem unpermutate_sum (f : Str → Nat) {tokens ts : List Str} {n : Int} (h : unpermutate tokens n = .ok ts) :
    (ts.map f).sum ≤ (tokens.map f).sum := by
  unfold unpermutate at h
  cases hi : nthperm (List.range tokens.length) n with
  | error e => simp [hi, bind, Except.bind] at h
  | ok is =>
    cases hl : unpermLoop tokens 0 (List.replicate tokens.length none) is with
    | error e => simp [hi, hl, bind, Except.bind] at h
    | ok res =>
      simp only [hi, hl, bind, Except.bind] at h
      have h1 := unpermLoop_sum f hl
      have h0 : slotSum f (List.replicate tokens.length none) = 0 := by
        simp [slotSum]
      rw [h0, List.drop_zero] at h1
      have h2 : (ts.map f).sum ≤ slotSum f res := by
        exact mapE_slots f (fun _ => rfl) ⟨_, rfl⟩ h
      omega

/-! ### rows that begin with an edge -/

theorem wdepth_render {p : Piece} (h : CleanAtom p.atom) : wdepth p.render = p.delta := by
  simp [wdepth, openPars_render h, closePars_render h, Piece.delta]

theorem wdepth_sum {ps : List Piece} (h : ∀ p ∈ ps, CleanAtom p.atom) :
    ((ps.map Piece.render).map wdepth).sum = dsum ps := by
  induction ps with
  | nil => rfl
  | cons p ps ih =>
    simp only [List.map_cons, List.sum_cons, dsum]
    rw [ih (fun q hq => h q (by simp [hq])), wdepth_render (h p (by simp))]
    rfl

/-- The words of a row that begins with an edge, without its first and last character. -/
theorem row_strip {xs as : List (Val F)} {n : Nat} (hxs : ∀ x ∈ xs, WfVal x) (hne : xs ≠ [])
    (has : ∀ a ∈ as, WfVal a) : ∃ T ps, nodes2str (.tup xs :: as ++ [.int n]) = '(' :: T ∧
      pySplit T.dropLast = ps.map Piece.render ∧ (∀ p ∈ ps, CleanAtom p.atom) ∧ dsum ps = -1 ∧
      ps.length ≤ atomCountL (.tup xs :: as) + 1 := by
  have hedge : edge2str (.tup xs : Val F) = '(' :: pyJoin (lit " ") ((closeLast (piecesL xs)).map Piece.render) := by
    have h := join_closeLast (ps := piecesL xs) (piecesL_ne hxs hne)
    rw [← nodes2str_eq_pieces hxs] at h
    rw [h]
    rfl
  have hrow : nodes2str (.tup xs :: as ++ [.int n]) = '(' ::
      (pyJoin (lit " ") ((closeLast (piecesL xs) ++ piecesL as).map Piece.render) ++ lit " " ++ natStr n) := by
    have h1 : nodes2str (.tup xs :: as ++ [.int n]) = nodes2str (.tup xs :: as) ++ lit " " ++ natStr n := by
      rw [nodes2str_snoc (xs := .tup xs :: as) (by simp) n, nodes2str, nodeStrs_eq_map]
    rw [h1]
    have h2 : nodes2str (.tup xs :: as) = '(' ::
        pyJoin (lit " ") ((closeLast (piecesL xs) ++ piecesL as).map Piece.render) := by
      cases as with
      | nil =>
        rw [show nodes2str [.tup xs] = edge2str (.tup xs : Val F) by simp [nodes2str, nodeStrs, pyJoin], hedge]
        simp [piecesL]
      | cons a as =>
        rw [nodes2str_cons (by simp), hedge, List.map_append,
          pyJoin_append (by simpa using closeLast_ne (piecesL_ne hxs hne))
            (by simpa using piecesL_ne has (by simp)), nodes2str_eq_pieces has]
        simp
    rw [h2]
    simp
  have hclean : ∀ p ∈ closeLast (piecesL xs) ++ piecesL as, CleanAtom p.atom := by
    intro p hp
    rcases List.mem_append.1 hp with h | h
    · exact mem_closeLast (P := fun p => CleanAtom p.atom) (piecesL_clean hxs) (fun p hp => hp) p h
    · exact piecesL_clean has p h
  have hend : ∃ ds : List (Piece), pySplit (natStr n).dropLast = ds.map Piece.render ∧
      (∀ p ∈ ds, CleanAtom p.atom) ∧ dsum ds = 0 ∧ ds.length ≤ 1 := by
    cases hd : (natStr n).dropLast with
    | nil => exact ⟨[], rfl, by simp, by simp [dsum], by simp⟩
    | cons c t =>
      have hdig : ∀ x ∈ c :: t, isDigit x = true := by
        intro x hx
        rw [← hd] at hx
        exact List.all_eq_true.1 (natStr_digits n) x (List.dropLast_subset _ hx)
      refine ⟨[⟨0, c :: t, 0⟩], ?_, ?_, by simp [dsum, Piece.delta], by simp⟩
      · have := pySplit_join (ps := [c :: t]) (by
          intro p hp
          simp at hp; subst hp
          exact ⟨by simp, fun x hx => isDigit_not_space (hdig x hx)⟩)
        simpa [pyJoin, Piece.render] using this
      · intro p hp
        simp at hp; subst hp
        exact CleanAtom.of_looks (fun x hx => .inl (hdig x hx)) (by simp)
  obtain ⟨ds, hds, hdc, hdz, hdl⟩ := hend
  refine ⟨_, closeLast (piecesL xs) ++ piecesL as ++ ds, hrow, ?_, ?_, ?_, ?_⟩
  · rw [List.dropLast_append_of_ne_nil (natStr_ne n), pySplit_append, pySplit_join (by
      intro p hp
      obtain ⟨q, hq, rfl⟩ := List.mem_map.1 hp
      exact render_clean (hclean q hq)), hds, ← List.map_append]
  · intro p hp
    rcases List.mem_append.1 hp with h | h
    · exact hclean p h
    · exact hdc p h
  · have hz : ∀ l : List (Val F), (∀ x ∈ l, WfVal x) → dsum (piecesL l) = 0 := fun l hl =>
      (dsum_piecesL (fun x hx => ⟨(pieces_depth (hl x hx)).1, (pieces_depth (hl x hx)).2.1⟩)).1
    rw [dsum_append, dsum_append, dsum_closeLast (piecesL_ne hxs hne), hz xs hxs, hz as has, hdz]
    rfl
  · rw [List.length_append, List.length_append, closeLast_length, piecesL_atomCount, piecesL_atomCount]
    simp only [atomCountL, atomCount]
    omega

/-- What is read back from a row that begins with an edge has fewer atoms than the edge that was stored. -/
theorem decodeRow_smaller {xs as : List (Val F)} {n : Nat} (hxs : ∀ x ∈ xs, WfVal x) (hne : xs ≠ [])
    (has : ∀ a ∈ as, WfVal a) {v : Val F} (h : decodeRow (nodes2str (.tup xs :: as ++ [.int n])) = .ok v) :
    atomCount v < atomCountL (.tup xs :: as) := by
  obtain ⟨T, ps, hT, hps, hcl, hd, hlen⟩ := row_strip (n := n) hxs hne has
  rw [hT] at h
  unfold decodeRow at h
  cases hs : splitEdgeStr ('(' :: T) with
  | error e => simp [hs, bind, Except.bind] at h
  | ok ts =>
    simp only [hs, bind, Except.bind] at h
    have hsl : splitLoop none 0 (pySplit T.dropLast) = .ok ts := by
      simpa [splitEdgeStr] using hs
    obtain ⟨h1, _, h3⟩ := splitLoop_words hsl
    have h4 := h3 (by rw [hps, wdepth_sum hcl, hd]; omega)
    have h5 : words T.dropLast = ps.length := by rw [words, hps, List.length_map]
    cases hl : ts.getLast? with
    | none => simp [hl] at h
    | some last =>
      simp only [hl] at h
      cases hi : pyInt last with
      | error e => simp [hi] at h
      | ok k =>
        simp only [hi] at h
        cases hu : unpermutate ts.dropLast k with
        | error e => simp [hu] at h
        | ok us =>
          simp only [hu] at h
          have h6 := str2edge_atomCount h
          rw [words_join] at h6
          have h7 := unpermutate_sum words hu
          have hne : ts ≠ [] := by rintro rfl; simp at hl
          have h8 : (ts.map words).sum = (ts.dropLast.map words).sum + words last := by
            have := List.dropLast_concat_getLast hne
            have hla : ts.getLast hne = last := by
              rw [List.getLast?_eq_some_getLast hne] at hl; simpa using hl
            conv => lhs; rw [← this, hla]
            simp
          have h9 : 1 ≤ words last := h1 last (List.mem_of_getLast? hl)
          omega

/-! ### equal values have equally many atoms -/

theorem atomCount_eq {v w : Val F} (h : pyEq v w = true) : atomCount v = atomCount w := by
  have key : ∀ n, (∀ v w : Val F, sizeOf v ≤ n → pyEq v w = true → atomCount v = atomCount w) ∧
      (∀ vs ws : List (Val F), sizeOf vs ≤ n → pyEqs vs ws = true → atomCountL vs = atomCountL ws) := by
    intro n
    induction n with
    | zero =>
      refine ⟨?_, ?_⟩
      · intro v w hv; cases v <;> simp at hv <;> omega
      · intro vs ws hv; cases vs <;> simp at hv <;> omega
    | succ n ih =>
      refine ⟨?_, ?_⟩
      · intro v w hv h
        cases v <;> cases w <;> simp only [pyEq, Bool.false_eq_true] at h <;> try rfl
        rename_i b xs c ys
        simp only [Bool.and_eq_true] at h
        rw [atomCount, atomCount]
        exact ih.2 xs ys (by simp at hv; omega) h.2
      · intro vs ws hv h
        cases vs with
        | nil => cases ws <;> simp [pyEqs] at h; rfl
        | cons v vs =>
          cases ws with
          | nil => simp [pyEqs] at h
          | cons w ws =>
            simp only [pyEqs, Bool.and_eq_true] at h
            simp at hv
            rw [atomCountL, atomCountL, ih.1 v w (by omega) h.1, ih.2 vs ws (by omega) h.2]
  exact (key _).1 v w (Nat.le_refl _) h

/-! ### texts that are no integers -/

theorem parseNat_notDigit {t : Str} {c : Char} (hc : c ∈ t) (h : isDigit c = false) :
    parseNat t = .error .valueError := by
  unfold parseNat
  have : t.all isDigit = false := by
    rw [List.all_eq_false]
    exact ⟨c, hc, by simp [h]⟩
  simp [this]

theorem pyInt_notText {t : Str} (h : NotIntText t) : pyInt t = .error .valueError := by
  obtain ⟨c, hc, _, hd, hp, hm, _⟩ := h
  unfold pyInt
  split
  · rename_i s
    have : c ∈ s := by
      rcases List.mem_cons.1 hc with h | h
      · exact absurd h hm
      · exact h
    rw [parseNat_notDigit this hd]; rfl
  · rename_i s
    have : c ∈ s := by
      rcases List.mem_cons.1 hc with h | h
      · exact absurd h hp
      · exact h
    rw [parseNat_notDigit this hd]; rfl
  · rw [parseNat_notDigit hc hd]; rfl

/-- A value that is no integer, and no symbol that could be read as one. -/
theorem pyInt_notVal {y : Val F} (hy : WfVal y) (hi : ∀ i, y ≠ .int i) (hp : ∀ t, y = .str t → NotIntText t) :
    ∃ er, pyInt (edge2str y) = .error er := by
  cases y with
  | str t => exact ⟨_, pyInt_notText (hp t rfl)⟩
  | int i => exact absurd rfl (hi i)
  | _ => exact pyInt_not hy hi (by intro t ht; simp at ht)

/-! ### rows found by the text of an edge -/

/-- If the text of an edge is the start of a row then it is the start of the text of the row's first element. -/
theorem text_of_prefix {c x : Val F} {xs : List (Val F)} (hc : WfVal c) (hs : c.isSeq = true)
    (hx : ∀ y ∈ x :: xs, WfVal y) (h : edge2str c <+: nodes2str (x :: xs)) : edge2str c <+: edge2str x := by
  cases xs with
  | nil => simpa [nodes2str, nodeStrs, pyJoin] using h
  | cons y ys =>
    rw [nodes2str_cons (by simp)] at h
    rw [List.append_assoc] at h
    rcases List.prefix_or_prefix_of_prefix h (List.prefix_append (edge2str x) _) with h' | h'
    · exact h'
    · obtain ⟨u, hu⟩ := h'
      cases u with
      | nil => rw [← hu]; simp
      | cons a u =>
        exfalso
        rw [← hu, List.prefix_append_right_inj] at h
        have ha : a = ' ' := by
          obtain ⟨w, hw⟩ := h
          simp only [lit, List.cons_append] at hw
          have := (List.cons.inj hw).1
          exact this
        subst ha
        have hxw := hx x (by simp)
        have h1 : edge2str x ++ lit " " ++ u = edge2str c := by rw [← hu]; simp [lit]
        have h2 : (pieces c).map Piece.render = (pieces x).map Piece.render ++ pySplit u := by
          rw [← pySplit_pieces hc, ← h1, pySplit_append, pySplit_pieces hxw]
        obtain ⟨h0, _, hmid⟩ := pieces_depth hc
        obtain ⟨g0, _, _⟩ := pieces_depth hxw
        have hlen : (pieces c).length = (pieces x).length + (pySplit u).length := by
          have := congrArg List.length h2
          simpa using this
        have htake : ((pieces c).take (pieces x).length).map Piece.render = (pieces x).map Piece.render := by
          rw [List.map_take, h2, List.take_append_of_le_length (by simp), List.take_of_length_le (by simp)]
        have hsum : dsum ((pieces c).take (pieces x).length) = 0 := by
          rw [← wdepth_sum (fun p hp => pieces_clean hc p (List.mem_of_mem_take hp)), htake,
            wdepth_sum (pieces_clean hxw), g0]
        have hpos : 0 < (pieces x).length := List.length_pos_iff.2 (pieces_ne hxw)
        have hnil : pySplit u = [] := by
          rcases Nat.lt_or_ge (pieces x).length (pieces c).length with hlt | hge
          · have := hmid _ hpos hlt; omega
          · exact List.eq_nil_of_length_eq_zero (by omega)
        have hxc : edge2str x = edge2str c := by
          rw [edge2str_eq_pieces hxw, edge2str_eq_pieces hc, h2, hnil, List.append_nil]
        rw [hxc] at h1
        have := congrArg List.length h1
        simp [lit] at this

theorem mapE_mem {α β : Type} {f : α → Except PyErr β} {xs : List α} {ys : List β} (h : mapE f xs = .ok ys) {y : β}
    (hy : y ∈ ys) : ∃ x ∈ xs, f x = .ok y := by
  induction xs generalizing ys with
  | nil => simp [mapE] at h; subst h; simp at hy
  | cons x xs ih =>
    rw [mapE] at h
    cases hx : f x with
    | error e => simp [hx, bind, Except.bind] at h
    | ok z =>
      cases hr : mapE f xs with
      | error e => simp [hx, hr, bind, Except.bind] at h
      | ok zs =>
        simp only [hx, hr, bind, Except.bind, Except.ok.injEq] at h
        subst h
        rcases List.mem_cons.1 hy with rfl | hy
        · exact ⟨x, by simp, hx⟩
        · obtain ⟨w, hw, hw'⟩ := ih hr hy
          exact ⟨w, by simp [hw], hw'⟩

theorem filterE_sub {α : Type} {p : α → Except PyErr Bool} {xs ys : List α} (h : filterE p xs = .ok ys) {y : α}
    (hy : y ∈ ys) : y ∈ xs := by
  induction xs generalizing ys with
  | nil => simp [filterE] at h; subst h; simp at hy
  | cons x xs ih =>
    rw [filterE] at h
    cases hx : p x with
    | error e => simp [hx, bind, Except.bind] at h
    | ok b =>
      cases hr : filterE p xs with
      | error e => simp [hx, hr, bind, Except.bind] at h
      | ok zs =>
        simp only [hx, hr, bind, Except.bind, Except.ok.injEq] at h
        subst h
        split at hy
        · rcases List.mem_cons.1 hy with rfl | hy
          · simp
          · simp [ih hr hy]
        · simp [ih hr hy]

theorem nodes2str_first (x : Val F) (xs : List (Val F)) : edge2str x <+: nodes2str (x :: xs) := by
  cases xs with
  | nil => simp [nodes2str, nodeStrs, pyJoin]
  | cons y ys =>
    rw [nodes2str_cons (by simp), List.append_assoc]
    exact List.prefix_append _ _

theorem exists_largest {α : Type} (f : α → Nat) {p : α → Prop} {l : List α} (h : ∃ x ∈ l, p x) :
    ∃ x ∈ l, p x ∧ ∀ y ∈ l, p y → f y ≤ f x := by
  induction l with
  | nil => simp at h
  | cons a l ih =>
    by_cases hl : ∃ x ∈ l, p x
    · obtain ⟨x, hx, hp, hm⟩ := ih hl
      by_cases hpa : p a ∧ f x < f a
      · refine ⟨a, by simp, hpa.1, ?_⟩
        intro y hy hpy
        rcases List.mem_cons.1 hy with rfl | hy
        · exact Nat.le_refl _
        · have := hm y hy hpy; omega
      · refine ⟨x, by simp [hx], hp, ?_⟩
        intro y hy hpy
        rcases List.mem_cons.1 hy with rfl | hy
        · rcases Nat.lt_or_ge (f x) (f y) with h' | h'
          · exact absurd ⟨hpy, h'⟩ hpa
          · exact h'
        · exact hm y hy hpy
    · obtain ⟨x, hx, hp⟩ := h
      rcases List.mem_cons.1 hx with rfl | hx
      · refine ⟨x, by simp, hp, ?_⟩
        intro y hy hpy
        rcases List.mem_cons.1 hy with rfl | hy
        · exact Nat.le_refl _
        · exact absurd ⟨y, hy, hpy⟩ hl
      · exact absurd ⟨x, hx, hp⟩ hl

end GB
