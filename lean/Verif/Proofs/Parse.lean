import Verif.Proofs.Edge

/-! Termination, error and length facts about the parser. -/

namespace GB

variable {F : Type} [PyFloat F]

/-! ### splitting -/

/-- Length of the join with single blanks. -/
def jlen (xs : List Str) : Nat := (pyJoin (lit " ") xs).length

theorem jlen_nil : jlen [] = 0 := rfl

theorem jlen_cons (x : Str) (xs : List Str) : x.length ≤ jlen (x :: xs) ∧ jlen xs ≤ jlen (x :: xs) ∧
    jlen (x :: xs) ≤ x.length + 1 + jlen xs := by
  cases xs with
  | nil => simp [jlen, pyJoin]
  | cons y ys => simp [jlen, pyJoin, lit]; omega

theorem jlen_cons' (x : Str) {xs : List Str} (h : xs ≠ []) : jlen (x :: xs) = x.length + 1 + jlen xs := by
  unfold jlen
  rw [pyJoin_cons h]
  simp [lit]; omega

theorem pySplitAux_jlen (s cur : Str) : jlen (pySplitAux cur s) ≤ cur.length + s.length := by
  induction s generalizing cur with
  | nil =>
    unfold pySplitAux
    split
    · simp [jlen_nil]
    · simp [jlen, pyJoin]
  | cons c s ih =>
    unfold pySplitAux
    split
    · split
      · have := ih []
        simp at this ⊢; omega
      · have h1 := (jlen_cons cur (pySplitAux [] s)).2.2
        have := ih []
        simp at this ⊢; omega
    · have := ih (cur ++ [c])
      simp at this ⊢; omega

theorem pySplit_jlen (s : Str) : jlen (pySplit s) ≤ s.length := by
  have := pySplitAux_jlen s []
  simp only [List.length_nil, Nat.zero_add] at this
  exact this

/-- The pending token extended by a word. -/
def pend (cur : Option Str) (tok : Str) : Str := match cur with
  | none => tok
  | some t => t ++ lit " " ++ tok

theorem splitLoop_cons (cur : Option Str) (depth : Int) (tok : Str) (stoks : List Str) :
    splitLoop cur depth (tok :: stoks) = (do
      let o ← openPars tok
      let c ← closePars tok
      if depth + o - c = 0 then
        let rest ← splitLoop none (depth + o - c) stoks
        .ok ((pend cur tok) :: rest)
      else splitLoop (some (pend cur tok)) (depth + o - c) stoks) := by
  cases cur <;> rfl

/-- Length of the pending token. -/
def curLen : Option Str → Nat
  | none => 0
  | some t => t.length + 1

theorem splitLoop_length {cur : Option Str} {d : Int} {stoks ts : List Str}
    (h : splitLoop cur d stoks = .ok ts) : ∀ t ∈ ts, t.length ≤ curLen cur + jlen stoks := by
  induction stoks generalizing cur d ts with
  | nil => cases cur <;> simp [splitLoop] at h <;> subst h <;> simp
  | cons tok stoks ih =>
    rw [splitLoop_cons] at h
    cases ho : openPars tok with
    | error e => simp [ho, bind, Except.bind] at h
    | ok o =>
      cases hc : closePars tok with
      | error e => simp [ho, hc, bind, Except.bind] at h
      | ok c =>
        simp only [ho, hc, bind, Except.bind] at h
        obtain ⟨j1, j2, j3⟩ := jlen_cons tok stoks
        have hcur : ∀ t, (pend cur tok) = t →
            t.length ≤ curLen cur + tok.length := by
          intro t ht
          subst ht
          cases cur <;> simp [curLen, lit, pend] ; omega
        split at h
        · cases hr : splitLoop none (d + o - c) stoks with
          | error e => simp [hr] at h
          | ok rest =>
            simp only [hr] at h
            have h' := Except.ok.inj h
            subst h'
            intro t ht
            rcases List.mem_cons.1 ht with rfl | ht
            · have := hcur _ rfl
              omega
            · have := ih hr t ht
              simp only [curLen] at this
              omega
        · intro t ht
          have hlt := ih h t ht
          simp only [curLen] at hlt
          by_cases hne : stoks = []
          · subst hne
            simp [splitLoop] at h
            subst h; simp at ht
          · have := hcur _ rfl
            have := jlen_cons' tok hne
            omega

theorem splitEdgeStr_length {s : Str} {ts : List Str} (h : splitEdgeStr s = .ok ts) :
    ∀ t ∈ ts, t.length ≤ s.length ∧ (s.head? = some '(' → t.length + 1 ≤ s.length) := by
  intro t ht
  unfold splitEdgeStr at h
  cases s with
  | nil => simp at h
  | cons c rest =>
    simp only at h
    by_cases hc : c = '('
    · rw [if_pos hc] at h
      have := splitLoop_length h t ht
      have h2 := pySplit_jlen rest.dropLast
      simp only [curLen, List.length_dropLast, List.length_cons] at *
      constructor
      · omega
      · intro _; omega
    · rw [if_neg hc] at h
      have := splitLoop_length h t ht
      have h2 := pySplit_jlen (c :: rest)
      simp only [curLen] at *
      exact ⟨by omega, by simp [hc]⟩

theorem mapE_congr {α β : Type} {f g : α → Except PyErr β} {xs : List α} (h : ∀ x ∈ xs, f x = g x) :
    mapE f xs = mapE g xs := by
  induction xs with
  | nil => rfl
  | cons x xs ih =>
    rw [mapE, mapE, h x (by simp), ih (fun y hy => h y (by simp [hy]))]

/-- More budget than the length changes nothing. -/
theorem parsedTokenF_stable (n : Nat) : ∀ (t : Str) (k : Nat), t.length ≤ n → t.length ≤ k →
    (parsedTokenF k t : Except PyErr (Val F)) = parsedTokenF t.length t := by
  induction n with
  | zero =>
    intro t k h1 h2
    have : t = [] := by cases t <;> simp_all
    subst this
    cases k <;> rfl
  | succ n ih =>
    intro t k h1 h2
    match t, k with
    | [], k => cases k <;> rfl
    | c :: t, 0 => simp at h2
    | c :: t, k + 1 =>
      show (if c = '(' then _ else _) = (if c = '(' then _ else _)
      by_cases hc : c = '('
      · rw [if_pos hc, if_pos hc]
        unfold str2edgeWith
        cases hs : splitEdgeStr (c :: t) with
        | error e => rfl
        | ok ts =>
          simp only [bind, Except.bind]
          rw [mapE_congr (f := parsedTokenF k) (g := parsedTokenF t.length)]
          intro x hx
          have := (splitEdgeStr_length hs x hx).2 (by simp [hc])
          simp only [List.length_cons] at this h1 h2
          rw [ih x k (by omega) (by omega), ih x t.length (by omega) (by omega)]
      · rw [if_neg hc, if_neg hc]

/-- `parsed_token`, the recursive call being a call of `str2edge`. -/
def parsedToken (token : Str) : Except PyErr (Val F) :=
  match token with
  | [] => .error .indexError
  | c :: t => if c = '(' then str2edge (c :: t) else parsedAtom (c :: t)

theorem parsedTokenF_eq {k : Nat} {t : Str} (h : t.length ≤ k) :
    (parsedTokenF k t : Except PyErr (Val F)) = parsedToken t := by
  match t, k with
  | [], k => cases k <;> rfl
  | c :: t, 0 => simp at h
  | c :: t, k + 1 =>
    show (if c = '(' then _ else _) = (if c = '(' then _ else _)
    by_cases hc : c = '('
    · rw [if_pos hc, if_pos hc]
      unfold str2edge str2edgeWith
      cases hs : splitEdgeStr (c :: t) with
      | error e => rfl
      | ok ts =>
        simp only [bind, Except.bind]
        rw [mapE_congr (f := parsedTokenF k) (g := parsedTokenF (c :: t).length)]
        intro x hx
        have := (splitEdgeStr_length hs x hx).2 (by simp [hc])
        simp only [List.length_cons] at this h
        rw [parsedTokenF_stable x.length x k (by omega) (by omega),
          parsedTokenF_stable x.length x (c :: t).length (by omega) (by simp only [List.length_cons]; omega)]
    · rw [if_neg hc, if_neg hc]

theorem str2edge_eq (s : Str) : (str2edge s : Except PyErr (Val F)) = str2edgeWith parsedToken s := by
  unfold str2edge str2edgeWith
  cases hs : splitEdgeStr s with
  | error e => rfl
  | ok ts =>
    simp only [bind, Except.bind]
    rw [mapE_congr]
    intro x hx
    exact parsedTokenF_eq (splitEdgeStr_length hs x hx).1

/-! ### errors -/

/-- The two exceptions parsing can raise. -/
def ParseErr (e : PyErr) : Prop := e = .indexError ∨ e = .valueError

theorem openPars_err {s : Str} {e : PyErr} (h : openPars s = .error e) : e = .indexError := by
  induction s with
  | nil => simp [openPars] at h; exact h.symm
  | cons c s ih =>
    rw [openPars] at h
    split at h
    · cases ho : openPars s with
      | error e' =>
        simp only [ho, bind, Except.bind] at h
        have := Except.error.inj h
        subst this
        exact ih ho
      | ok n => simp [ho, bind, Except.bind] at h
    · simp at h

theorem closeParsRev_err {s : Str} {e : PyErr} (h : closeParsRev s = .error e) : e = .indexError := by
  induction s with
  | nil => simp [closeParsRev] at h; exact h.symm
  | cons c s ih =>
    rw [closeParsRev] at h
    split at h
    · cases ho : closeParsRev s with
      | error e' =>
        simp only [ho, bind, Except.bind] at h
        have := Except.error.inj h
        subst this
        exact ih ho
      | ok n => simp [ho, bind, Except.bind] at h
    · simp at h

theorem splitLoop_err {cur : Option Str} {d : Int} {stoks : List Str} {e : PyErr}
    (h : splitLoop cur d stoks = .error e) : e = .indexError := by
  induction stoks generalizing cur d with
  | nil => simp [splitLoop] at h
  | cons tok stoks ih =>
    rw [splitLoop_cons] at h
    cases ho : openPars tok with
    | error e' =>
      simp only [ho, bind, Except.bind] at h
      cases Except.error.inj h
      exact openPars_err ho
    | ok o =>
      cases hc : closePars tok with
      | error e' =>
        simp only [ho, hc, bind, Except.bind] at h
        cases Except.error.inj h
        exact closeParsRev_err hc
      | ok c =>
        simp only [ho, hc, bind, Except.bind] at h
        split at h
        · cases hr : splitLoop none (d + o - c) stoks with
          | error e' =>
            simp only [hr] at h
            cases Except.error.inj h
            exact ih hr
          | ok rest => simp [hr] at h
        · exact ih h

theorem splitEdgeStr_err {s : Str} {e : PyErr} (h : splitEdgeStr s = .error e) : e = .indexError := by
  unfold splitEdgeStr at h
  cases s with
  | nil => simp at h; exact h.symm
  | cons c rest =>
    simp only at h
    split at h <;> exact splitLoop_err h

theorem mapE_err {α β : Type} {f : α → Except PyErr β} {xs : List α} {e : PyErr} (h : mapE f xs = .error e) :
    ∃ x ∈ xs, f x = .error e := by
  induction xs with
  | nil => simp [mapE] at h
  | cons x xs ih =>
    rw [mapE] at h
    cases hf : f x with
    | error e' =>
      simp only [hf, bind, Except.bind] at h
      cases Except.error.inj h
      exact ⟨x, by simp, hf⟩
    | ok y =>
      cases hm : mapE f xs with
      | error e' =>
        simp only [hf, hm, bind, Except.bind] at h
        cases Except.error.inj h
        obtain ⟨z, hz, hfz⟩ := ih hm
        exact ⟨z, by simp [hz], hfz⟩
      | ok ys => simp [hf, hm, bind, Except.bind] at h

theorem parseNat_err {s : Str} {e : PyErr} (h : parseNat s = .error e) : e = .valueError := by
  unfold parseNat at h
  split at h
  · simp at h
  · exact (Except.error.inj h).symm

theorem pyInt_err {s : Str} {e : PyErr} (h : pyInt s = .error e) : e = .valueError := by
  unfold pyInt at h
  split at h
  all_goals
    rename_i s'
    first
      | (cases hp : parseNat s' with
         | error e' =>
           simp only [hp, bind, Except.bind] at h
           cases Except.error.inj h
           exact parseNat_err hp
         | ok n => simp [hp, bind, Except.bind] at h)
      | (cases hp : parseNat s with
         | error e' =>
           simp only [hp, bind, Except.bind] at h
           cases Except.error.inj h
           exact parseNat_err hp
         | ok n => simp [hp, bind, Except.bind] at h)

theorem parsedAtom_err {s : Str} {e : PyErr} (h : (parsedAtom s : Except PyErr (Val F)) = .error e) :
    e = .valueError := by
  unfold parsedAtom at h
  split at h
  · simp at h
  · cases hp : pyInt s with
    | error e' =>
      simp only [hp, bind, Except.bind] at h
      cases Except.error.inj h
      exact pyInt_err hp
    | ok n => simp [hp, bind, Except.bind] at h
  · cases hp : (pyFloatParse s : Except PyErr F) with
    | error e' =>
      simp only [hp, bind, Except.bind] at h
      cases Except.error.inj h
      unfold pyFloatParse at hp
      split at hp
      · simp at hp
      · exact (Except.error.inj hp).symm
    | ok n => simp [hp, bind, Except.bind] at h

theorem packEdge_err {xs : List (Val F)} {e : PyErr} (h : packEdge xs = .error e) : e = .indexError := by
  unfold packEdge at h
  split at h <;> simp at h
  exact h.symm

theorem str2edge_err (n : Nat) : ∀ (s : Str), s.length ≤ n → ∀ e, (str2edge s : Except PyErr (Val F)) = .error e →
    ParseErr e := by
  have key : ∀ (s : Str) (hrec : ∀ t : Str, t.length ≤ s.length → (s.head? = some '(' → t.length < s.length) →
      t.head? = some '(' → ∀ e, (str2edge t : Except PyErr (Val F)) = .error e → ParseErr e),
      ∀ e, (str2edge s : Except PyErr (Val F)) = .error e → ParseErr e := by
    intro s hrec e he
    rw [str2edge_eq] at he
    unfold str2edgeWith at he
    cases hs : splitEdgeStr s with
    | error e' =>
      simp only [hs, bind, Except.bind] at he
      cases Except.error.inj he
      exact .inl (splitEdgeStr_err hs)
    | ok ts =>
      simp only [hs, bind, Except.bind] at he
      cases hm : mapE (parsedToken (F := F)) ts with
      | error e' =>
        simp only [hm] at he
        cases Except.error.inj he
        obtain ⟨t, ht, hpt⟩ := mapE_err hm
        obtain ⟨h1, h2⟩ := splitEdgeStr_length hs t ht
        unfold parsedToken at hpt
        split at hpt
        · exact .inl (Except.error.inj hpt).symm
        · rename_i c t'
          split at hpt
          · rename_i hc
            exact hrec _ h1 (fun h => h2 h) (by simp [hc]) _ hpt
          · exact .inr (parsedAtom_err hpt)
      | ok vs =>
        simp only [hm] at he
        exact .inl (packEdge_err he)
  have main : ∀ (n : Nat) (s : Str), s.head? = some '(' → s.length ≤ n → ∀ e,
      (str2edge s : Except PyErr (Val F)) = .error e → ParseErr e := by
    intro n
    induction n with
    | zero =>
      intro s hh hl
      cases s <;> simp at hh hl
    | succ n ih =>
      intro s hh hl
      apply key s
      intro t _ h2 hth
      exact ih t hth (by have := h2 hh; omega)
  intro s _ 
  apply key s
  intro t _ _ hth
  exact main t.length t hth (Nat.le_refl _)

/-! ### blank-free texts -/

theorem pySplitAux_noSpace (s cur : Str) (h : ∀ c ∈ s, isSpace c = false) :
    pySplitAux cur s = if (cur ++ s).isEmpty then [] else [cur ++ s] := by
  have := pySplitAux_word h cur []
  simp only [List.append_nil] at this
  rw [this, pySplitAux]

theorem pySplit_noSpace {s : Str} (h : ∀ c ∈ s, isSpace c = false) :
    pySplit s = if s.isEmpty then [] else [s] := by
  exact pySplitAux_noSpace s [] h

theorem pySplit_join_noSpace {ps : List Str} (h : ∀ p ∈ ps, ∀ c ∈ p, isSpace c = false) :
    pySplit (pyJoin (lit " ") ps) = ps.filter fun p => !p.isEmpty := by
  unfold pySplit
  induction ps with
  | nil => rfl
  | cons p ps ih =>
    have hp := h p (by simp)
    have ih' := ih (fun q hq => h q (by simp [hq]))
    cases ps with
    | nil =>
      show pySplitAux [] p = _
      rw [pySplitAux_noSpace p [] hp]
      cases p <;> simp
    | cons q qs =>
      rw [pyJoin_cons (by simp), List.append_assoc, pySplitAux_word hp]
      show pySplitAux ([] ++ p) (' ' :: pyJoin (lit " ") (q :: qs)) = _
      rw [pySplitAux, if_pos (by decide)]
      rw [ih']
      cases p <;> simp

/-- What a single blank-free token parses to is never an edge, and a string only if it is shorter
(when parenthesised) or the token itself. -/
theorem str2edge_noSpace (n : Nat) : ∀ (s : Str), s.length ≤ n → (∀ c ∈ s, isSpace c = false) →
    s.head? = some '(' → ∀ v : Val F, str2edge s = .ok v →
    (∀ b xs, v ≠ .seq b xs) ∧ ∀ t, v = .str t → t.length < s.length := by
  induction n with
  | zero =>
    intro s hl _ hh
    cases s <;> simp at hl hh
  | succ n ih =>
    intro s hl hsp hh v hv
    cases s with
    | nil => simp at hh
    | cons c rest =>
      have hc : c = '(' := by simpa using hh
      subst hc
      rw [str2edge_eq] at hv
      unfold str2edgeWith splitEdgeStr at hv
      simp only [if_true] at hv
      have hsp' : ∀ c ∈ rest.dropLast, isSpace c = false :=
        fun c hc => hsp c (by simp [List.dropLast_subset _ hc])
      rw [pySplit_noSpace hsp'] at hv
      by_cases hemp : rest.dropLast.isEmpty = true
      · rw [if_pos hemp] at hv
        simp [splitLoop, bind, Except.bind, mapE, packEdge] at hv
      · rw [if_neg hemp] at hv
        cases hsl : splitLoop none 0 [rest.dropLast] with
        | error e => simp [hsl, bind, Except.bind] at hv
        | ok ts =>
          have hts : ts = [] ∨ ts = [rest.dropLast] := by
            rw [splitLoop_cons] at hsl
            cases ho : openPars rest.dropLast with
            | error e => simp [ho, bind, Except.bind] at hsl
            | ok o =>
              cases hcl : closePars rest.dropLast with
              | error e => simp [ho, hcl, bind, Except.bind] at hsl
              | ok cl =>
                simp only [ho, hcl, bind, Except.bind, splitLoop] at hsl
                split at hsl
                · exact .inr (Except.ok.inj hsl).symm
                · exact .inl (Except.ok.inj hsl).symm
          rcases hts with rfl | rfl
          · simp [hsl, bind, Except.bind, mapE, packEdge] at hv
          · simp only [hsl, bind, Except.bind, mapE] at hv
            cases hp : (parsedToken rest.dropLast : Except PyErr (Val F)) with
            | error e => simp [hp] at hv
            | ok w =>
              simp only [hp, packEdge] at hv
              have hv' := Except.ok.inj hv
              subst hv'
              unfold parsedToken at hp
              split at hp
              · simp at hp
              · rename_i c' t' heq
                have hlen : (c' :: t').length < rest.length + 1 := by
                  rw [← heq]; simp [List.length_dropLast]; omega
                split at hp
                · rename_i hc'
                  obtain ⟨h1, h2⟩ := ih (c' :: t') (by simp only [List.length_cons] at hl hlen ⊢; omega)
                    (by rw [← heq]; exact hsp') (by simp [hc']) w hp
                  refine ⟨h1, fun t ht => ?_⟩
                  have := h2 t ht
                  simp only [List.length_cons] at this hlen ⊢
                  omega
                · unfold parsedAtom at hp
                  split at hp
                  · have := Except.ok.inj hp
                    subst this
                    refine ⟨by simp, fun t ht => ?_⟩
                    simp only [Val.str.injEq] at ht
                    subst ht
                    simpa using hlen
                  · cases hpi : pyInt (c' :: t') with
                    | error e => simp [hpi, bind, Except.bind] at hp
                    | ok i =>
                      simp only [hpi, bind, Except.bind] at hp
                      have := Except.ok.inj hp
                      subst this
                      simp
                  · cases hpi : (pyFloatParse (c' :: t') : Except PyErr F) with
                    | error e => simp [hpi, bind, Except.bind] at hp
                    | ok i =>
                      simp only [hpi, bind, Except.bind] at hp
                      have := Except.ok.inj hp
                      subst this
                      simp

/-- A blank-free token that parses to itself does not start with a parenthesis and does not look
like a number. -/
theorem parsedToken_self {s : Str} (hsp : ∀ c ∈ s, isSpace c = false)
    (h : (parsedToken s : Except PyErr (Val F)) = .ok (.str s)) :
    s ≠ [] ∧ s.head? ≠ some '(' ∧ ¬ LooksInt s ∧ ¬ LooksDec s := by
  unfold parsedToken at h
  split at h
  · simp at h
  · rename_i c t
    split at h
    · rename_i hc
      have := (str2edge_noSpace (F := F) _ _ (Nat.le_refl _) hsp (by simp [hc]) _ h).2 _ rfl
      omega
    · rename_i hc
      refine ⟨by simp, by simp [hc], ?_⟩
      rw [← tokenType_string_iff]
      unfold parsedAtom at h
      split at h
      · assumption
      · cases hpi : pyInt (c :: t) with
        | error e => simp [hpi, bind, Except.bind] at h
        | ok i => simp [hpi, bind, Except.bind] at h
      · cases hpi : (pyFloatParse (c :: t) : Except PyErr F) with
        | error e => simp [hpi, bind, Except.bind] at h
        | ok i => simp [hpi, bind, Except.bind] at h

/-- The tokenizer returns at most as many tokens as there are words; if as many, then the words
themselves, each with balanced boundary parentheses. -/
theorem splitLoop_count {d : Int} {cur : Option Str} {stoks ts : List Str}
    (h : splitLoop cur d stoks = .ok ts) :
    ts.length ≤ stoks.length ∧ (cur = none → d = 0 → ts.length = stoks.length →
      ts = stoks ∧ ∀ t ∈ ts, ∃ n, openPars t = .ok n ∧ closePars t = .ok n) := by
  induction stoks generalizing cur d ts with
  | nil => cases cur <;> simp [splitLoop] at h <;> subst h <;> simp
  | cons tok stoks ih =>
    rw [splitLoop_cons] at h
    cases ho : openPars tok with
    | error e => simp [ho, bind, Except.bind] at h
    | ok o =>
      cases hc : closePars tok with
      | error e => simp [ho, hc, bind, Except.bind] at h
      | ok c =>
        simp only [ho, hc, bind, Except.bind] at h
        split at h
        · rename_i hd
          cases hr : splitLoop none (d + o - c) stoks with
          | error e => simp [hr] at h
          | ok rest =>
            simp only [hr] at h
            have h' := Except.ok.inj h
            subst h'
            obtain ⟨h1, h2⟩ := ih hr
            refine ⟨by simp; exact h1, ?_⟩
            rintro rfl hd0 hlen
            obtain ⟨h3, h4⟩ := h2 rfl hd (by simpa using hlen)
            refine ⟨by rw [h3]; rfl, ?_⟩
            intro t ht
            rcases List.mem_cons.1 ht with rfl | ht
            · exact ⟨o, ho, by rw [hc]; congr 1; omega⟩
            · exact h4 t ht
        · obtain ⟨h1, _⟩ := ih h
          refine ⟨by simp; omega, ?_⟩
          intro _ _ hlen
          simp at hlen; omega

theorem closePars_zero {s : Str} (h : closePars s = .ok 0) : s.getLast? ≠ some ')' := by
  unfold closePars at h
  rw [← List.head?_reverse]
  cases hr : s.reverse with
  | nil => simp
  | cons c t =>
    rw [hr, closeParsRev] at h
    split at h
    · cases hcl : closeParsRev t with
      | error e => simp [hcl, bind, Except.bind] at h
      | ok n => simp [hcl, bind, Except.bind] at h
    · rename_i hc; simp [hc]

theorem openPars_zero {s : Str} {n : Nat} (h : openPars s = .ok n) (hh : s.head? ≠ some '(') : n = 0 := by
  cases s with
  | nil => simp [openPars] at h
  | cons c t =>
    have : c ≠ '(' := by simpa using hh
    rw [openPars, if_neg this] at h
    exact (Except.ok.inj h).symm

theorem mapE_inj_str {ts : List Str} {xs : List Str}
    (h : mapE (parsedToken (F := F)) ts = .ok (xs.map .str)) :
    ts.length = xs.length ∧ ∀ i (h1 : i < ts.length) (h2 : i < xs.length),
      (parsedToken ts[i] : Except PyErr (Val F)) = .ok (.str xs[i]) := by
  induction ts generalizing xs with
  | nil =>
    cases xs with
    | nil => simp
    | cons x xs => simp [mapE] at h
  | cons t ts ih =>
    rw [mapE] at h
    cases hp : (parsedToken t : Except PyErr (Val F)) with
    | error e => simp [hp, bind, Except.bind] at h
    | ok v =>
      cases hm : mapE (parsedToken (F := F)) ts with
      | error e => simp [hp, hm, bind, Except.bind] at h
      | ok vs =>
        simp only [hp, hm, bind, Except.bind] at h
        have h' := Except.ok.inj h
        cases xs with
        | nil => simp at h'
        | cons x xs =>
          simp only [List.map_cons, List.cons.injEq] at h'
          obtain ⟨rfl, rfl⟩ := h'
          obtain ⟨h1, h2⟩ := ih hm
          refine ⟨by simp [h1], ?_⟩
          intro i hi1 hi2
          cases i with
          | zero => simpa using hp
          | succ i => simpa using h2 i (by simpa using hi1) (by simpa using hi2)

/-! ### non-blank characters are not multiplied -/

/-- Number of non-blank characters. -/
def nb (s : Str) : Nat := s.countP fun c => !isSpace c

/-- Total number of non-blank characters. -/
def nbs (xs : List Str) : Nat := (xs.map nb).sum

theorem nb_append (s t : Str) : nb (s ++ t) = nb s + nb t := by simp [nb]

theorem pySplitAux_nb (s cur : Str) : nbs (pySplitAux cur s) = nb cur + nb s := by
  induction s generalizing cur with
  | nil =>
    unfold pySplitAux
    split
    · rename_i h
      have : cur = [] := by simpa using h
      subst this; simp [nb, nbs]
    · simp [nb, nbs]
  | cons c s ih =>
    unfold pySplitAux
    split
    · rename_i hc
      have h1 : nb (c :: s) = nb s := by simp [nb, hc]
      split
      · rename_i h
        have : cur = [] := by simpa using h
        subst this; rw [ih, h1]
      · show nb cur + nbs (pySplitAux [] s) = _
        rw [ih, h1]; simp [nb]
    · rename_i hc
      rw [ih, nb_append]
      have h1 : nb (c :: s) = nb [c] + nb s := nb_append [c] s
      rw [h1]; omega

theorem pySplit_nb (s : Str) : nbs (pySplit s) = nb s := by
  have := pySplitAux_nb s []
  rw [pySplit, this]
  simp [nb]

/-- Non-blank characters of the pending token. -/
def curNb : Option Str → Nat
  | none => 0
  | some t => nb t

theorem splitLoop_nb {cur : Option Str} {d : Int} {stoks ts : List Str}
    (h : splitLoop cur d stoks = .ok ts) : nbs ts ≤ curNb cur + nbs stoks := by
  induction stoks generalizing cur d ts with
  | nil => cases cur <;> simp [splitLoop] at h <;> subst h <;> simp [nbs]
  | cons tok stoks ih =>
    rw [splitLoop_cons] at h
    cases ho : openPars tok with
    | error e => simp [ho, bind, Except.bind] at h
    | ok o =>
      cases hc : closePars tok with
      | error e => simp [ho, hc, bind, Except.bind] at h
      | ok c =>
        simp only [ho, hc, bind, Except.bind] at h
        have hcur : nb (pend cur tok) = curNb cur + nb tok := by
          cases cur with
          | none => simp [curNb, pend]
          | some t =>
            show nb (t ++ lit " " ++ tok) = nb t + nb tok
            rw [nb_append, nb_append]
            have : nb (lit " ") = 0 := by decide
            omega
        have hsum : nbs (tok :: stoks) = nb tok + nbs stoks := by simp [nbs]
        split at h
        · cases hr : splitLoop none (d + o - c) stoks with
          | error e => simp [hr] at h
          | ok rest =>
            simp only [hr] at h
            have h' := Except.ok.inj h
            subst h'
            have := ih hr
            simp only [curNb] at this
            have h2 : nbs ((pend cur tok) :: rest) =
              nb (pend cur tok) + nbs rest := by simp [nbs]
            rw [h2, hcur, hsum]
            omega
        · have := ih h
          simp only [curNb] at this
          rw [hcur] at this
          omega

theorem splitEdgeStr_nb {s : Str} {ts : List Str} (h : splitEdgeStr s = .ok ts) :
    nbs ts ≤ nb s ∧ (s.head? = some '(' → nbs ts + 1 ≤ nb s) := by
  unfold splitEdgeStr at h
  cases s with
  | nil => simp at h
  | cons c rest =>
    simp only at h
    by_cases hc : c = '('
    · rw [if_pos hc] at h
      have h1 := splitLoop_nb h
      rw [pySplit_nb] at h1
      simp only [curNb] at h1
      have h2 : nb rest.dropLast ≤ nb rest := by
        unfold nb
        exact List.Sublist.countP_le (List.dropLast_sublist rest)
      have h3 : nb (c :: rest) = nb rest + 1 := by
        subst hc
        simp [nb, show isSpace '(' = false from by decide]
      constructor
      · omega
      · intro _; omega
    · rw [if_neg hc] at h
      have h1 := splitLoop_nb h
      rw [pySplit_nb] at h1
      simp only [curNb] at h1
      exact ⟨by omega, by simp [hc]⟩

mutual
/-- Non-blank characters of the symbols in a value. -/
def strw : Val F → Nat
  | .str s => nb s
  | .seq _ xs => strws xs
  | _ => 0
/-- ... in all values. -/
def strws : List (Val F) → Nat
  | [] => 0
  | x :: xs => strw x + strws xs
end

theorem parsedAtom_strw {s : Str} {v : Val F} (h : parsedAtom s = .ok v) : strw v ≤ nb s := by
  unfold parsedAtom at h
  split at h
  · cases Except.ok.inj h; simp [strw]
  · cases hpi : pyInt s with
    | error e => simp [hpi, bind, Except.bind] at h
    | ok i =>
      simp only [hpi, bind, Except.bind] at h
      cases Except.ok.inj h; simp [strw]
  · cases hpi : (pyFloatParse s : Except PyErr F) with
    | error e => simp [hpi, bind, Except.bind] at h
    | ok i =>
      simp only [hpi, bind, Except.bind] at h
      cases Except.ok.inj h; simp [strw]

theorem mapE_strw {f : Str → Except PyErr (Val F)} {ts : List Str} {vs : List (Val F)}
    (hf : ∀ t ∈ ts, ∀ v, f t = .ok v → strw v ≤ nb t) (h : mapE f ts = .ok vs) : strws vs ≤ nbs ts := by
  induction ts generalizing vs with
  | nil => simp [mapE] at h; subst h; simp [strws]
  | cons t ts ih =>
    rw [mapE] at h
    cases hp : f t with
    | error e => simp [hp, bind, Except.bind] at h
    | ok v =>
      cases hm : mapE f ts with
      | error e => simp [hp, hm, bind, Except.bind] at h
      | ok ws =>
        simp only [hp, hm, bind, Except.bind] at h
        cases Except.ok.inj h
        have h1 := hf t (by simp) v hp
        have h2 := ih (fun t' ht' => hf t' (by simp [ht'])) hm
        have h3 : nbs (t :: ts) = nb t + nbs ts := by simp [nbs]
        rw [strws, h3]; omega

theorem packEdge_strw {vs : List (Val F)} {v : Val F} (h : packEdge vs = .ok v) : strw v = strws vs := by
  unfold packEdge at h
  split at h
  · simp at h
  · cases Except.ok.inj h; simp [strws]
  · cases Except.ok.inj h; simp [strw]

/-- The symbols of a parsed value have no more non-blank characters than the text, and fewer if the
text is parenthesised. -/
theorem str2edge_strw (s : Str) (v : Val F) (h : str2edge s = .ok v) :
    strw v ≤ nb s ∧ (s.head? = some '(' → strw v + 1 ≤ nb s) := by
  have key : ∀ (s : Str) (v : Val F), (∀ t : Str, (s.head? = some '(' → t.length < s.length) →
      t.head? = some '(' → ∀ w : Val F, str2edge t = .ok w → strw w ≤ nb t) → str2edge s = .ok v →
      strw v ≤ nb s ∧ (s.head? = some '(' → strw v + 1 ≤ nb s) := by
    intro s v hrec he
    rw [str2edge_eq] at he
    unfold str2edgeWith at he
    cases hs : splitEdgeStr s with
    | error e' => simp [hs, bind, Except.bind] at he
    | ok ts =>
      simp only [hs, bind, Except.bind] at he
      cases hm : mapE (parsedToken (F := F)) ts with
      | error e' => simp [hm] at he
      | ok vs =>
        simp only [hm] at he
        have h1 : strws vs ≤ nbs ts := by
          refine mapE_strw ?_ hm
          intro t ht w hw
          unfold parsedToken at hw
          split at hw
          · simp at hw
          · split at hw
            · rename_i hc
              exact hrec _ (fun hh => (splitEdgeStr_length hs _ ht).2 hh) (by simp [hc]) w hw
            · exact parsedAtom_strw hw
        rw [packEdge_strw he]
        obtain ⟨h2, h3⟩ := splitEdgeStr_nb hs
        exact ⟨by omega, fun hh => by have := h3 hh; omega⟩
  have main : ∀ (n : Nat) (s : Str) (v : Val F), s.head? = some '(' → s.length ≤ n → str2edge s = .ok v →
      strw v ≤ nb s := by
    intro n
    induction n with
    | zero =>
      intro s v hh hl
      cases s <;> simp at hh hl
    | succ n ih =>
      intro s v hh hl he
      refine (key s v ?_ he).1
      intro t h2 hth w hw
      exact ih t w hth (by have := h2 hh; omega) hw
  refine key s v ?_ h
  intro t _ hth w hw
  exact main t.length t w hth (Nat.le_refl _) hw

theorem strws_strs (xs : List Str) : strws (xs.map (.str : Str → Val F)) = nbs xs := by
  induction xs with
  | nil => rfl
  | cons x xs ih =>
    show strw (.str x : Val F) + strws (xs.map (.str : Str → Val F)) = _
    rw [ih]; simp [nbs, strw]

end GB
