import Verif.Model.Frames
import Verif.Spec.Frames
import Verif.Proofs.Hist
import Verif.Proofs.Parse

/-! Printing and parsing with a limited stack. -/

set_option linter.unusedSectionVars false

namespace GB

variable {F : Type} [PyFloat F]

/-! ### nesting -/

theorem depth_atom {v : Val F} (h : v.isAtom = true) : v.depth = 0 := by
  cases v <;> simp_all [Val.isAtom, Val.depth]

theorem depth_le_depths {x : Val F} {xs : List (Val F)} (h : x ∈ xs) : x.depth ≤ depths xs := by
  induction xs with
  | nil => simp at h
  | cons y ys ih =>
    rw [depths]
    rcases List.mem_cons.1 h with rfl | h
    · omega
    · have := ih h; omega

theorem depths_le {xs : List (Val F)} {d : Nat} (h : ∀ x ∈ xs, x.depth ≤ d) : depths xs ≤ d := by
  induction xs with
  | nil => simp [depths]
  | cons y ys ih =>
    rw [depths]
    have h1 := h y (by simp)
    have h2 := ih fun x hx => h x (by simp [hx])
    omega

theorem exists_deepest {xs : List (Val F)} (hne : xs ≠ []) : ∃ x ∈ xs, x.depth = depths xs := by
  induction xs with
  | nil => contradiction
  | cons y ys ih =>
    rw [depths]
    by_cases hy : ys = []
    · subst hy
      exact ⟨y, by simp, by simp [depths]⟩
    · obtain ⟨x, hx, he⟩ := ih hy
      by_cases hle : depths ys ≤ y.depth
      · exact ⟨y, by simp, by omega⟩
      · exact ⟨x, by simp [hx], by omega⟩

theorem depths_perm {xs ys : List (Val F)} (h : xs.Perm ys) : depths xs = depths ys := by
  apply Nat.le_antisymm
  · exact depths_le fun x hx => depth_le_depths (h.subset hx)
  · exact depths_le fun x hx => depth_le_depths (h.symm.subset hx)

theorem depth_tup (xs : List (Val F)) : (Val.tup xs).depth = depths xs + 1 := by
  rw [Val.tup, Val.depth]

/-! ### mapE with one possible error -/

theorem mapE_all_or {α β : Type} {f : α → Except PyErr β} {g : α → β} {e : PyErr} {xs : List α}
    (h : ∀ x ∈ xs, f x = .ok (g x) ∨ f x = .error e) :
    mapE f xs = .ok (xs.map g) ∨ mapE f xs = .error e := by
  induction xs with
  | nil => exact .inl rfl
  | cons x xs ih =>
    rcases h x (by simp) with h1 | h1
    · rcases ih (fun y hy => h y (by simp [hy])) with h2 | h2
      · left; rw [mapE, h1, h2]; rfl
      · right; rw [mapE, h1, h2]; rfl
    · right; rw [mapE, h1]; rfl

theorem mapE_some_error {α β : Type} {f : α → Except PyErr β} {g : α → β} {e : PyErr} {xs : List α}
    (h : ∀ x ∈ xs, f x = .ok (g x) ∨ f x = .error e) (hx : ∃ x ∈ xs, f x = .error e) : mapE f xs = .error e := by
  induction xs with
  | nil => simp at hx
  | cons x xs ih =>
    rcases h x (by simp) with h1 | h1
    · have hx' : ∃ x ∈ xs, f x = .error e := by
        obtain ⟨y, hy, he⟩ := hx
        rcases List.mem_cons.1 hy with rfl | hy
        · rw [h1] at he; simp at he
        · exact ⟨y, hy, he⟩
      rw [mapE, h1, ih (fun y hy => h y (by simp [hy])) hx']; rfl
    · rw [mapE, h1]; rfl

/-! ### printing -/

theorem isEdgeR_eq {k : Nat} (h : 1 ≤ k) (v : Val F) : isEdgeR k v = .ok v.isSeq := by
  cases k with
  | zero => omega
  | succ k => rfl

theorem nodes2strR_eq {k : Nat} (hk : 1 ≤ k) {xs : List (Val F)}
    (h : ∀ x ∈ xs, x.isSeq = true → edge2strR k x = .ok (edge2str x)) :
    nodes2strR (k + 1) xs = .ok (nodes2str xs) := by
  rw [nodes2strR, mapE_ok (g := edge2str)]
  · rw [nodes2str, nodeStrs_eq_map]; rfl
  · intro x hx
    rw [isEdgeR_eq hk]
    cases hb : x.isSeq with
    | true => simpa [bind, Except.bind] using h x hx hb
    | false =>
      cases x <;> simp_all [Val.isSeq, bind, Except.bind, edge2str, atomStr]

/-- Enough frames to print. -/
theorem edge2strR_enough (k : Nat) : ∀ v : Val F, 2 ≤ k → 2 * v.depth + 1 ≤ k → edge2strR k v = .ok (edge2str v) := by
  induction k using Nat.strongRecOn with
  | _ k ih =>
    intro v h2 hk
    match k, h2 with
    | k + 2, _ =>
      cases v with
      | seq b xs =>
        rw [edge2strR, isEdgeR_eq (by omega)]
        have hd : (Val.seq b xs).depth = depths xs + 1 := by rw [Val.depth]
        match k with
        | 0 => rw [hd] at hk; omega
        | k + 1 =>
          have : nodes2strR (k + 1 + 1) xs = .ok (nodes2str xs) := by
            apply nodes2strR_eq (by omega)
            intro x hx hs
            have hx' := depth_le_depths hx
            have : 1 ≤ x.depth := by cases x <;> simp_all [Val.isSeq, Val.depth]
            exact ih (k + 1) (by omega) x (by omega) (by omega)
          simp only [bind, Except.bind, this]
          rfl
      | str s => rfl
      | int i => rfl
      | flt x => rfl
      | none => rfl

/-- Enough frames to print a list of nodes. -/
theorem nodes2strR_enough {k : Nat} {xs : List (Val F)} (hk : 2 * depths xs + 2 ≤ k) :
    nodes2strR k xs = .ok (nodes2str xs) := by
  match k, hk with
  | k + 1, hk =>
    apply nodes2strR_eq (by omega)
    intro x hx hs
    have hx' := depth_le_depths hx
    have : 1 ≤ x.depth := by cases x <;> simp_all [Val.isSeq, Val.depth]
    exact edge2strR_enough k x (by omega) (by omega)

/-- With fewer frames there is one possible error. -/
theorem edge2strR_or (k : Nat) : ∀ v : Val F, edge2strR k v = .ok (edge2str v) ∨ edge2strR k v = .error .recursionError := by
  induction k using Nat.strongRecOn with
  | _ k ih =>
    intro v
    match k with
    | 0 => exact .inr (by rw [edge2strR])
    | 1 => exact .inr (by cases v <;> rfl)
    | k + 2 =>
      cases v with
      | seq b xs =>
        rw [edge2strR, isEdgeR_eq (by omega)]
        have hn : nodes2strR (k + 1) xs = .ok (nodes2str xs) ∨ nodes2strR (k + 1) xs = .error .recursionError := by
          rw [nodes2strR]
          have := mapE_all_or (f := fun x => do
            let b ← isEdgeR k x
            if b then edge2strR k x else .ok (atomStr x)) (g := edge2str) (e := .recursionError) (xs := xs) (by
              intro x hx
              cases k with
              | zero => exact .inr rfl
              | succ k =>
                rw [isEdgeR_eq (by omega)]
                cases hb : x.isSeq with
                | true => simpa [bind, Except.bind] using ih (k + 1) (by omega) x
                | false => left; cases x <;> simp_all [Val.isSeq, bind, Except.bind, edge2str, atomStr])
          rcases this with h | h
          · left; rw [h, nodes2str, nodeStrs_eq_map]; rfl
          · right; rw [h]; rfl
        rcases hn with h | h
        · left; simp only [bind, Except.bind, h]; rfl
        · right; simp only [bind, Except.bind, h]
      | str s => exact .inl rfl
      | int i => exact .inl rfl
      | flt x => exact .inl rfl
      | none => exact .inl rfl

/-- Too few frames to print. -/
theorem edge2strR_few (k : Nat) : ∀ v : Val F, WfVal v → (k < 2 ∨ k < 2 * v.depth + 1) →
    edge2strR k v = .error .recursionError := by
  induction k using Nat.strongRecOn with
  | _ k ih =>
    intro v hw hk
    match k with
    | 0 => rw [edge2strR]
    | 1 => cases v <;> rfl
    | k + 2 =>
      have hk : k + 2 < 2 * v.depth + 1 := by omega
      cases hw with
      | @tup xs h2 hx =>
        rw [depth_tup] at hk
        rw [Val.tup, edge2strR, isEdgeR_eq (by omega)]
        have hne : xs ≠ [] := by rintro rfl; simp at h2
        have hn : nodes2strR (k + 1) xs = .error .recursionError := by
          rw [nodes2strR]
          have := mapE_some_error (f := fun x => do
            let b ← isEdgeR k x
            if b then edge2strR k x else .ok (atomStr x)) (g := edge2str) (e := .recursionError) (xs := xs) (by
              intro x hx
              cases k with
              | zero => exact .inr rfl
              | succ k =>
                rw [isEdgeR_eq (by omega)]
                cases hb : x.isSeq with
                | true => simpa [bind, Except.bind] using edge2strR_or (k + 1) x
                | false => left; cases x <;> simp_all [Val.isSeq, bind, Except.bind, edge2str, atomStr]) (by
              obtain ⟨x, hxm, hxd⟩ := exists_deepest hne
              refine ⟨x, hxm, ?_⟩
              cases k with
              | zero => rfl
              | succ k =>
                rw [isEdgeR_eq (by omega)]
                have hs : x.isSeq = true := by
                  cases hb : x.isSeq with
                  | true => rfl
                  | false =>
                    have : x.depth = 0 := by cases x <;> simp_all [Val.isSeq, Val.depth]
                    omega
                simp only [bind, Except.bind, hs, if_true]
                exact ih (k + 1) (by omega) x (hx x hxm) (by omega))
          rw [this]; rfl
        simp only [bind, Except.bind, hn]
      | str h => simp [Val.depth] at hk
      | int => simp [Val.depth] at hk
      | flt h => simp [Val.depth] at hk

/-- Too few frames to print a list of nodes. -/
theorem nodes2strR_few {k : Nat} {xs : List (Val F)} (hw : ∀ x ∈ xs, WfVal x) (hne : xs ≠ []) (hk : k < 2 * depths xs + 2) :
    nodes2strR k xs = .error .recursionError := by
  match k with
  | 0 => rw [nodes2strR]
  | k + 1 =>
    rw [nodes2strR]
    have := mapE_some_error (f := fun x => do
      let b ← isEdgeR k x
      if b then edge2strR k x else .ok (atomStr x)) (g := edge2str) (e := .recursionError) (xs := xs) (by
        intro x hx
        cases k with
        | zero => exact .inr rfl
        | succ k =>
          rw [isEdgeR_eq (by omega)]
          cases hb : x.isSeq with
          | true => simpa [bind, Except.bind] using edge2strR_or (k + 1) x
          | false => left; cases x <;> simp_all [Val.isSeq, bind, Except.bind, edge2str, atomStr]) (by
        obtain ⟨x, hxm, hxd⟩ := exists_deepest hne
        refine ⟨x, hxm, ?_⟩
        cases k with
        | zero => rfl
        | succ k =>
          rw [isEdgeR_eq (by omega)]
          have hs : x.isSeq = true := by
            cases hb : x.isSeq with
            | true => rfl
            | false =>
              have : x.depth = 0 := by cases x <;> simp_all [Val.isSeq, Val.depth]
              omega
          simp only [bind, Except.bind, hs, if_true]
          exact edge2strR_few (k + 1) x (hw x hxm) (by omega))
    rw [this]; rfl

/-! ### splitting -/

theorem splitLoopR_cons (k : Nat) (cur : Option Str) (depth : Int) (tok : Str) (stoks : List Str) :
    splitLoopR k cur depth (tok :: stoks) = (do
      let o ← openParsR k tok
      let c ← closeParsR k tok
      if depth + o - c = 0 then
        let rest ← splitLoopR k none (depth + o - c) stoks
        .ok ((pend cur tok) :: rest)
      else splitLoopR k (some (pend cur tok)) (depth + o - c) stoks) := by
  cases cur <;> rfl

theorem splitLoopR_eq {k : Nat} (hk : 1 ≤ k) (cur : Option Str) (d : Int) (ts : List Str) :
    splitLoopR k cur d ts = splitLoop cur d ts := by
  match k, hk with
  | k + 1, _ =>
    induction ts generalizing cur d with
    | nil => rfl
    | cons t ts ih =>
      rw [splitLoopR_cons, splitLoop_cons]
      simp only [openParsR, closeParsR, enter, ih]

theorem splitEdgeStrR_eq {k : Nat} (hk : 2 ≤ k) (s : Str) : splitEdgeStrR k s = splitEdgeStr s := by
  match k, hk with
  | k + 2, _ =>
    unfold splitEdgeStrR splitEdgeStr
    cases s with
    | nil => rfl
    | cons c s =>
      simp only [enter, splitLoopR_eq (show 1 ≤ k + 1 by omega)]

theorem splitLoopR_zero {cur : Option Str} {d : Int} {ts rs : List Str} (h : splitLoop cur d ts = .ok rs) (hne : rs ≠ []) :
    splitLoopR 0 cur d ts = .error .recursionError := by
  cases ts with
  | nil => rw [splitLoop] at h; cases h; exact absurd rfl hne
  | cons t ts => rw [splitLoopR_cons]; rfl

theorem splitEdgeStrR_few {k : Nat} (hk : k < 2) {s : Str} {ts : List Str} (h : splitEdgeStr s = .ok ts) (hne : ts ≠ []) :
    splitEdgeStrR k s = .error .recursionError := by
  match k, hk with
  | 0, _ => rfl
  | 1, _ =>
    unfold splitEdgeStrR
    unfold splitEdgeStr at h
    cases s with
    | nil => simp at h
    | cons c s =>
      simp only [enter]
      simp only at h
      split at h
      · rename_i hc; rw [if_pos hc]; exact splitLoopR_zero h hne
      · rename_i hc; rw [if_neg hc]; exact splitLoopR_zero h hne

/-! ### parsing -/

/-- `str2edge` on a text with known tokens. -/
theorem str2edgeR_tokens {k : Nat} {s : Str} {xs : List (Val F)} (hne : xs ≠ []) (hs : splitEdgeStr s = .ok (xs.map edge2str))
    (h : ∀ x ∈ xs, ∀ k, parsedTokenR k (edge2str x) = if 3 * x.depth + 2 ≤ k then .ok x else .error .recursionError) :
    str2edgeR k s = if 3 * depths xs + 4 ≤ k then packEdge xs else .error .recursionError := by
  match k with
  | 0 => rw [str2edgeR, if_neg (by omega)]
  | k + 1 =>
    rw [str2edgeR]
    by_cases hk : k < 2
    · rw [splitEdgeStrR_few hk hs (by simpa using hne), if_neg (by omega)]; rfl
    · rw [splitEdgeStrR_eq (by omega), hs]
      match k, hk with
      | k + 1, hk =>
        simp only [bind, Except.bind]
        rw [tokensR, mapE_map]
        by_cases hd : 3 * depths xs + 4 ≤ k + 1 + 1
        · rw [if_pos hd, mapE_ok (g := id)]
          · simp
          · intro x hx
            have := depth_le_depths hx
            rw [h x hx, if_pos (by omega)]; rfl
        · rw [if_neg hd, mapE_some_error (g := id) (e := .recursionError)]
          · intro x hx
            rw [h x hx]
            split
            · exact .inl rfl
            · exact .inr rfl
          · obtain ⟨x, hx, hxd⟩ := exists_deepest hne
            exact ⟨x, hx, by rw [h x hx, if_neg (by omega)]⟩
      | 0, hk => exact absurd (by omega : (0:Nat) < 2) hk

theorem parsedTokenR_atom {v : Val F} (h : WfVal v) (ha : v.isAtom = true) (k : Nat) :
    parsedTokenR k (edge2str v) = if 2 ≤ k then .ok v else .error .recursionError := by
  obtain ⟨c, s, hs, hc⟩ := edge2str_head_atom h ha
  have hp := parsedAtom_atomStr h ha
  rw [← edge2str_atom ha] at hp
  rw [hs] at hp ⊢
  match k with
  | 0 => rw [parsedTokenR, if_neg (by omega)]
  | 1 => rw [parsedTokenR]; simp only [if_neg hc]; rfl
  | k + 2 => rw [parsedTokenR]; simp only [if_neg hc, parsedAtomR, enter, hp]; rw [if_pos (by omega)]

/-- Frames needed by `parsed_token`. -/
theorem parsedTokenR_edge2str {v : Val F} (h : WfVal v) : ∀ k,
    parsedTokenR k (edge2str v) = if 3 * v.depth + 2 ≤ k then .ok v else .error .recursionError := by
  induction h with
  | str h => intro k; rw [parsedTokenR_atom (.str h) rfl, depth_atom rfl]
  | int => intro k; rw [parsedTokenR_atom .int rfl, depth_atom rfl]
  | flt h => intro k; rw [parsedTokenR_atom (.flt h) rfl, depth_atom rfl]
  | @tup xs h2 hx ih =>
    intro k
    have hne : xs ≠ [] := by rintro rfl; simp at h2
    have hform : edge2str (.tup xs) = '(' :: (pyJoin (lit " ") (nodeStrs xs) ++ [')']) := rfl
    match k with
    | 0 => rw [parsedTokenR, if_neg (by omega)]
    | k + 1 =>
      rw [hform, parsedTokenR]
      simp only [if_pos]
      rw [← hform, str2edgeR_tokens hne (splitEdgeStr_tup hx) ih, packEdge_ge2 h2, depth_tup]
      by_cases hk : 3 * depths xs + 4 ≤ k
      · rw [if_pos hk, if_pos (by omega)]
      · rw [if_neg hk, if_neg (by omega)]

/-- Frames needed to parse the text of a value. -/
theorem str2edgeR_edge2str {v : Val F} (h : WfVal v) (k : Nat) :
    str2edgeR k (edge2str v) = if 3 * (max v.depth 1) + 1 ≤ k then .ok v else .error .recursionError := by
  rcases isAtom_cases h with ha | ⟨xs, rfl⟩
  · have : edge2str v = nodes2str [v] := by simp [nodes2str, nodeStrs, pyJoin]
    have h2 := splitEdgeStr_nodes (x := v) (xs := []) (by simpa using h) ha
    rw [← this] at h2
    rw [str2edgeR_tokens (xs := [v]) (by simp) (by simpa using h2) (by
      intro x hx k
      rw [List.mem_singleton.1 hx]
      exact parsedTokenR_edge2str h k)]
    have hd : depths [v] = 0 := by simp [depths, depth_atom ha]
    rw [hd, depth_atom ha]
    by_cases hk : 4 ≤ k
    · rw [if_pos (by omega), if_pos (by omega)]; rfl
    · rw [if_neg (by omega), if_neg (by omega)]
  · cases h with
    | tup h2 hx =>
      have hne : xs ≠ [] := by rintro rfl; simp at h2
      rw [str2edgeR_tokens hne (splitEdgeStr_tup hx) (fun x hxm k => parsedTokenR_edge2str (hx x hxm) k), packEdge_ge2 h2,
        depth_tup]
      by_cases hk : 3 * depths xs + 4 ≤ k
      · rw [if_pos (by omega), if_pos (by omega)]
      · rw [if_neg (by omega), if_neg (by omega)]

/-- Frames needed to parse the text of an edge without its parentheses. -/
theorem str2edgeR_nodes2str {x : Val F} {xs : List (Val F)} (hx : ∀ y ∈ x :: xs, WfVal y)
    (ha : x.isAtom = true) (hne : xs ≠ []) (k : Nat) :
    str2edgeR k (nodes2str (x :: xs)) =
      if 3 * (Val.tup (x :: xs)).depth + 1 ≤ k then .ok (.tup (x :: xs)) else .error .recursionError := by
  rw [str2edgeR_tokens (by simp) (splitEdgeStr_nodes hx ha) (fun y hy k => parsedTokenR_edge2str (hx y hy) k), depth_tup,
    packEdge_ge2 (by cases xs with
      | nil => contradiction
      | cons y ys => simp)]
  by_cases hk : 3 * depths (x :: xs) + 4 ≤ k
  · rw [if_pos (by omega), if_pos (by omega)]
  · rw [if_neg (by omega), if_neg (by omega)]

/-! ### permutations -/

theorem nthpermR_eq {α : Type} {k : Nat} (hk : 2 ≤ k) (l : List α) (n : Int) : nthpermR k l n = nthperm l n := by
  match k, hk with
  | k + 2, _ => rfl

theorem unpermutateR_eq {α : Type} {k : Nat} (hk : 3 ≤ k) (l : List α) (n : Int) : unpermutateR k l n = unpermutate l n := by
  match k, hk with
  | k + 3, _ =>
    unfold unpermutateR unpermutate
    simp only [enter, nthpermR_eq (show 2 ≤ k + 2 by omega)]
    rfl

theorem unpermutateR_few {α : Type} {k : Nat} (hk : k < 3) (l : List α) (n : Int) :
    unpermutateR k l n = .error .recursionError := by
  match k, hk with
  | 0, _ => rfl
  | 1, _ => rfl
  | 2, _ => rfl

theorem permStrR_eq {k : Nat} {edge : List (Val F)} (hk : 3 ≤ k) (hd : 2 * depths edge + 2 ≤ k) (n : Nat) :
    permStrR k edge n = permStr edge n := by
  unfold permStrR permStr
  rw [nthpermR_eq (by omega)]
  cases hp : nthperm edge n with
  | error e => rfl
  | ok p =>
    match k, hk with
    | k + 3, hk =>
      simp only [bind, Except.bind, enter]
      rw [mapE_ok (g := edge2str)]
      intro x hx
      have hsub : x ∈ edge := (nthperm_perm hp).subset hx
      have := depth_le_depths hsub
      exact edge2strR_enough _ x (by omega) (by omega)

/-- Frames needed to decode a row. -/
theorem decodeRowR_rowOf {h : Val F} {t : List (Val F)} {n : Nat} (hw : ∀ x ∈ h :: t, WfVal x)
    (hh : h.isAtom = true) (ht : t ≠ []) (hn : n < factorial (h :: t).length)
    {x : Val F} {r : List (Val F)} (hp : permN (h :: t) n = x :: r) (hx : x.isAtom = true) (k : Nat) :
    decodeRowR k (rowOf (h :: t) n) =
      if 3 * (Val.tup (h :: t)).depth + 1 ≤ k then .ok (.tup (h :: t)) else .error .recursionError := by
  have hperm := permN_perm hn
  have hwp : ∀ y ∈ x :: (r ++ [.int n]), WfVal y := by
    intro y hy
    rw [← List.cons_append, ← hp, List.mem_append, List.mem_singleton] at hy
    rcases hy with hy | rfl
    · exact hw y (hperm.subset hy)
    · exact .int
  have hrow : rowOf (h :: t) n = nodes2str (x :: (r ++ [.int n])) := by
    rw [rowOf, hp, List.cons_append]
  have htok : (x :: (r ++ [Val.int (F := F) n])).map edge2str
      = (permN (h :: t) n).map edge2str ++ [natStr n] := by
    rw [hp]; simp [edge2str, intStr]
  have hsplit := splitEdgeStr_nodes hwp hx
  have hpos : 1 ≤ (Val.tup (h :: t)).depth := by rw [depth_tup]; omega
  unfold decodeRowR
  by_cases hk2 : k < 2
  · rw [hrow, splitEdgeStrR_few hk2 hsplit (by simp), if_neg (by omega)]; rfl
  · rw [hrow, splitEdgeStrR_eq (by omega), hsplit, htok]
    simp only [bind, Except.bind, List.getLast?_append, List.getLast?_singleton, Option.some_or,
      pyInt_natStr, List.dropLast_concat]
    by_cases hk3 : k < 3
    · rw [unpermutateR_few hk3, if_neg (by omega)]
    · rw [unpermutateR_eq (by omega)]
      have hu : unpermutate ((permN (h :: t) n).map edge2str) n = .ok ((h :: t).map edge2str) := by
        apply unpermutate_nthperm (by simpa using hn)
        rw [nthperm_map, nthperm_permN hn]; rfl
      rw [hu]
      have := str2edgeR_nodes2str hw hh ht k
      rw [nodes2str, nodeStrs_eq_map] at this
      exact this

end GB
