import Verif.Proofs.Symbol
import Verif.Spec.Witness

/-!
Properties C06-C09: symbols (gb/hypergraph/symbol.py) and negation (also gb/hypergraph/edge.py).
-/

namespace GB

variable {F : Type} [PyFloat F]

/-! ### C06 -/

/-- C06: `negative` undoes itself on a non-empty symbol exactly when that is not doubly negated and
not the bare negation sign. -/
theorem C06_involution (s : Str) (hne : s ≠ []) :
    (symNegative s).bind symNegative = .ok s ↔ ¬ (lit "~~" <+: s) ∧ s ≠ lit "~" := by
  match s, hne with
  | [c], _ =>
    by_cases hc : c = '~'
    · subst hc
      decide
    · have h2 : [c] ≠ lit "~" := by simp [lit, hc]
      have h3 : ¬ (lit "~~" <+: [c]) := fun h => by have := h.length_le; simp [lit] at this
      simp only [h3, h2, not_false_eq_true, ne_eq, and_self, iff_true]
      simp [symNegative, symIsNegative, hc, bind, Except.bind]
  | c :: d :: s, _ =>
    have h2 : c :: d :: s ≠ lit "~" := by simp [lit]
    have h3 : (lit "~~" <+: c :: d :: s) ↔ c = '~' ∧ d = '~' := by
      simp only [lit, String.toList]
      show ['~', '~'] <+: c :: d :: s ↔ _
      rw [List.cons_prefix_cons, List.cons_prefix_cons]
      simp [eq_comm]
    rw [h3]
    simp only [h2, ne_eq, not_false_eq_true, and_true]
    by_cases hc : c = '~'
    · subst hc
      by_cases hd : d = '~'
      · subst hd
        simp [symNegative, symIsNegative, bind, Except.bind]
        intro h
        have := congrArg List.length h
        simp only [List.length_cons] at this
        omega
      · simp [symNegative, symIsNegative, hd, bind, Except.bind]
    · simp [symNegative, symIsNegative, hc, bind, Except.bind]

/-- C06: for the same symbols, `negative` flips `is_negative`. -/
theorem C06_flips (s : Str) (hne : s ≠ []) (h1 : ¬ (lit "~~" <+: s)) (h2 : s ≠ lit "~") :
    ∃ t b, symNegative s = .ok t ∧ symIsNegative s = .ok b ∧ symIsNegative t = .ok (!b) := by
  cases s with
  | nil => contradiction
  | cons c s =>
    by_cases hc : c = '~'
    · subst hc
      cases s with
      | nil => exact absurd rfl h2
      | cons d s =>
        have hd : d ≠ '~' := by
          rintro rfl
          exact h1 ⟨s, rfl⟩
        exact ⟨d :: s, true, by simp [symNegative, symIsNegative, bind, Except.bind], by simp [symIsNegative],
          by simp [symIsNegative, hd]⟩
    · exact ⟨'~' :: c :: s, false, by simp [symNegative, symIsNegative, hc, bind, Except.bind],
        by simp [symIsNegative, hc], by simp [symIsNegative]⟩

/-- C06: negating a symbol that is not negative always gives a negative one, whose negation is the
original symbol (this is the way the code base uses it). -/
theorem C06_of_positive (s : Str) (hne : s ≠ []) (hp : s.head? ≠ some '~') :
    symNegative s = .ok ('~' :: s) ∧ symNegative ('~' :: s) = .ok s := by
  cases s with
  | nil => contradiction
  | cons c s =>
    have hc : c ≠ '~' := by simpa using hp
    exact ⟨by simp [symNegative, symIsNegative, hc, bind, Except.bind],
      by simp [symNegative, symIsNegative, bind, Except.bind]⟩

/-- C06 for edges: negation changes only the first element, and is undone by itself under the same
condition on that element. -/
theorem C06_edges (r : Str) (rest : List (Val F)) (hne : r ≠ []) :
    (edgeNegative (.tup (.str r :: rest))).bind edgeNegative = .ok (.tup (.str r :: rest)) ↔
      ¬ (lit "~~" <+: r) ∧ r ≠ lit "~" := by
  rw [← C06_involution r hne]
  have e : ∀ (s : Str), edgeNegative (.tup (.str s :: rest) : Val F) =
      (symNegative s).bind fun s' => .ok (.tup (.str s' :: rest)) := by
    intro s
    cases s with
    | nil => rfl
    | cons c s =>
      show (Except.bind (symNegative (c :: s)) fun s' => Except.ok (Val.str s')).bind _ = _
      cases symNegative (c :: s) <;> rfl
  rw [e]
  cases h : symNegative r with
  | error er => simp [Except.bind]
  | ok t =>
    show edgeNegative (.tup (.str t :: rest)) = _ ↔ symNegative t = _
    rw [e]
    cases h2 : symNegative t with
    | error er => simp [Except.bind]
    | ok u => simp [Except.bind]

/-- C06, edges whose first element is an edge of two or more elements: `negative` raises `TypeError`, unless the inner edge
begins with the bare negation sign; then that sign is dropped, and negating again does not bring it back. -/
theorem C06_edge_first (x y : Val F) (xs rest : List (Val F)) :
    edgeNegative (.tup (.tup (x :: y :: xs) :: rest)) =
      if pyEq x (.str (lit "~")) then .ok (.tup (.tup (y :: xs) :: rest)) else .error .typeError := by
  show (Except.bind (valNegative (.tup (x :: y :: xs))) fun h' => Except.ok (Val.tup (h' :: rest))) = _
  show (Except.bind (if pyEq x (.str (lit "~")) = true then _ else _) _) = _
  split <;> rfl

/-- C06: negating an edge that begins with a number raises `TypeError`. -/
theorem C06_number_first (n : Val F) (hn : (∃ i, n = .int i) ∨ ∃ x, n = .flt x) (rest : List (Val F)) :
    edgeNegative (.tup (n :: rest)) = .error .typeError := by
  rcases hn with ⟨i, rfl⟩ | ⟨x, rfl⟩ <;> rfl

/-- C06 for edges: `is_negative` of an edge is that of its first element. -/
theorem C06_edge_isNegative (r : Str) (rest : List (Val F)) :
    edgeIsNegative (.tup (.str r :: rest) : Val F) = symIsNegative r := by
  cases r with
  | nil => rfl
  | cons c s =>
    show Except.ok (pyEq (Val.str [c] : Val F) (.str (lit "~"))) = Except.ok (decide (c = '~'))
    simp only [pyEq, lit]
    congr 1
    by_cases hc : c = '~' <;> simp [hc]

example : lit "is/1" ≠ [] ∧ ¬ (lit "~~" <+: lit "is/1") ∧ lit "is/1" ≠ lit "~" := by decide
example : symNegative (lit "is/1") = .ok (lit "~is/1") := by decide
/-- The exceptions: the double negation loses its sign, the bare sign raises. -/
example : (symNegative (lit "~~is")).bind symNegative = .ok (lit "is") ∧
    (symNegative (lit "~")).bind symNegative = .error .indexError := by decide

/-! ### C07 -/

/-- `s` is a concept symbol: not a URL. -/
def IsConcept (s : Str) : Prop := ¬ (lit "http://" <+: s) ∧ ¬ (lit "https://" <+: s)

theorem take_eq_iff_prefix (p s : Str) : s.take p.length = p ↔ p <+: s := by
  rw [List.prefix_iff_eq_take]
  exact eq_comm

theorem symType_concept_iff (s : Str) : symType (.str s : Val F) = .concept ↔ IsConcept s := by
  unfold symType IsConcept
  have h1 := take_eq_iff_prefix (lit "http://") s
  have h2 := take_eq_iff_prefix (lit "https://") s
  have e1 : (lit "http://").length = 7 := rfl
  have e2 : (lit "https://").length = 8 := rfl
  rw [e1] at h1
  rw [e2] at h2
  simp only [← h1, ← h2]
  by_cases a : s.take 7 = lit "http://"
  · simp [a]
  · by_cases b : s.take 8 = lit "https://" <;> simp [a, b]

theorem symParts_concept {s : Str} (h : IsConcept s) : symParts (.str s : Val F) = (splitOnChar '/' s).map .str := by
  unfold symParts
  rw [(symType_concept_iff s).2 h]

/-- C07: the parts of a concept are slash-free strings whose join is the concept. -/
theorem C07_build_parts (s : Str) (h : IsConcept s) :
    ∃ ps : List Str, symParts (.str s : Val F) = ps.map .str ∧ ps ≠ [] ∧ (∀ p ∈ ps, '/' ∉ p) ∧ symBuild ps = s :=
  ⟨splitOnChar '/' s, symParts_concept h, splitOnChar_ne _ _, splitOnChar_mem_free s [] (by simp),
    join_splitOnChar '/' s⟩

/-- C07: building a concept from slash-free strings and taking its parts gives them back. -/
theorem C07_parts_build (ps : List Str) (hne : ps ≠ []) (h : ∀ p ∈ ps, '/' ∉ p) (hc : IsConcept (symBuild ps)) :
    symParts (.str (symBuild ps) : Val F) = ps.map .str := by
  rw [symParts_concept hc]
  congr 1
  exact splitOnChar_join hne h

/-- C07: `root` is the first part, `nspace` the second, if any. -/
theorem C07_root_nspace (p : Str) (ps : List Str) (h : ∀ q ∈ p :: ps, '/' ∉ q) (hc : IsConcept (symBuild (p :: ps))) :
    symRoot (.str (symBuild (p :: ps)) : Val F) = .ok (.str p) ∧
    symNspace (.str (symBuild (p :: ps)) : Val F) = ps.head?.map .str := by
  have hp := C07_parts_build (F := F) (p :: ps) (by simp) h hc
  constructor
  · unfold symRoot; rw [hp]; rfl
  · unfold symNspace; rw [hp]
    cases ps <;> rfl

/-- C07: a concept is its own root exactly when it has no slash. -/
theorem C07_is_root (s : Str) (h : IsConcept s) : symIsRoot (.str s : Val F) = .ok (decide ('/' ∉ s)) := by
  unfold symIsRoot symRoot
  rw [symParts_concept h]
  cases hs : splitOnChar '/' s with
  | nil => exact absurd hs (splitOnChar_ne _ _)
  | cons p ps =>
    show Except.ok (pyEq (Val.str s : Val F) (.str p)) = _
    congr 1
    by_cases hf : '/' ∈ s
    · simp only [hf, not_true_eq_false, decide_false]
      simp only [pyEq, beq_eq_false_iff_ne]
      rintro rfl
      exact splitOnChar_mem_free (d := '/') s [] (by simp) s (by rw [← splitOnChar, hs]; simp) hf
    · rw [splitOnChar_of_free hf] at hs
      obtain ⟨rfl, rfl⟩ := List.cons.inj hs
      simp [pyEq, hf]

/-- C07: URLs and numbers have a single part, are their own root and have no namespace. -/
theorem C07_atoms (v : Val F) (h : (∃ s, v = .str s ∧ ¬ IsConcept s) ∨ (∃ i, v = .int i) ∨ (∃ x, v = .flt x)) :
    symParts v = [v] ∧ symRoot v = .ok v ∧ symNspace v = none := by
  have hp : symParts v = [v] := by
    rcases h with ⟨s, rfl, hs⟩ | ⟨i, rfl⟩ | ⟨x, rfl⟩
    · unfold symParts
      have : symType (.str s : Val F) ≠ .concept := fun h => hs ((symType_concept_iff s).1 h)
      split
      · rename_i h1 h2; exact absurd h1 this
      · rfl
    · rfl
    · rfl
  refine ⟨hp, ?_, ?_⟩
  · unfold symRoot; rw [hp]
  · unfold symNspace; rw [hp]

example : IsConcept (lit "graphbrain/1") ∧ ¬ IsConcept (lit "http://a/b") ∧
    IsConcept (symBuild [lit "graphbrain", lit "1", lit "x"]) := by
  simp only [IsConcept]; decide +kernel
example : symParts (sy "graphbrain/1/x") = [sy "graphbrain", sy "1", sy "x"] := by decide +kernel

/-- C07: the condition that the parts do not form a URL is needed. -/
theorem C07_url_exception : ∃ ps : List Str, ps ≠ [] ∧ (∀ p ∈ ps, '/' ∉ p) ∧
    symParts (.str (symBuild ps) : HVal) ≠ ps.map .str :=
  ⟨[lit "http:", [], lit "x"], by simp, by decide +kernel, by decide +kernel⟩

/-! ### C08 -/

/-- C08: whatever the input (and whatever lower-casing does), the symbol contains no slash, blank or
parenthesis. -/
theorem C08_separator_free (lower : Str → Str) (s : Str) :
    ∀ c ∈ str2symbol lower s, c ≠ '/' ∧ c ≠ ' ' ∧ c ≠ '(' ∧ c ≠ ')' := by
  intro c hc
  unfold str2symbol at hc
  rcases mem_replaceChar hc with ⟨hc, h4⟩ | rfl
  · rcases mem_replaceChar hc with ⟨hc, h3⟩ | rfl
    · rcases mem_replaceChar hc with ⟨hc, h2⟩ | rfl
      · rcases mem_replaceChar hc with ⟨hc, h1⟩ | rfl
        · exact ⟨h1, h2, h3, h4⟩
        · decide
      · decide
    · decide
  · decide

/-- C08: it keeps the length, and changes only separators of the lower-cased text. -/
theorem C08_pointwise (lower : Str → Str) (s : Str) :
    str2symbol lower s = (lower s).map fun c => if c = '/' ∨ c = ' ' ∨ c = '(' ∨ c = ')' then '_' else c := by
  unfold str2symbol replaceChar
  simp only [List.map_map]
  apply List.map_congr_left
  intro c _
  simp only [Function.comp]
  by_cases h1 : c = '/'
  · simp [h1]
  · by_cases h2 : c = ' '
    · simp [h2]
    · by_cases h3 : c = '('
      · simp [h3]
      · by_cases h4 : c = ')' <;> simp [h1, h2, h3, h4]

/-- C08: the result is its own root. -/
theorem C08_own_root (lower : Str → Str) (s : Str) :
    symIsRoot (.str (str2symbol lower s) : Val F) = .ok true ∧
    symRoot (.str (str2symbol lower s) : Val F) = .ok (.str (str2symbol lower s)) := by
  have hfree : '/' ∉ str2symbol lower s := fun h => (C08_separator_free lower s _ h).1 rfl
  have hc : IsConcept (str2symbol lower s) := by
    constructor
    · intro h; exact hfree (h.subset (by decide))
    · intro h; exact hfree (h.subset (by decide))
  constructor
  · rw [C07_is_root _ hc]; simp [hfree]
  · have := (C07_root_nspace (F := F) (str2symbol lower s) [] (by simpa using hfree) hc).1
    exact this

/-- C08: converting twice is converting once, provided lower-casing leaves alone any text made of
underscores and characters it produces itself. -/
theorem C08_idempotent (lower : Str → Str)
    (hl : ∀ t : Str, (∀ c ∈ t, c = '_' ∨ ∃ s, c ∈ lower s) → lower t = t) (s : Str) :
    str2symbol lower (str2symbol lower s) = str2symbol lower s := by
  have hfix : lower (str2symbol lower s) = str2symbol lower s := by
    apply hl
    intro c hc
    rw [C08_pointwise] at hc
    obtain ⟨d, hd, rfl⟩ := List.mem_map.1 hc
    split
    · exact .inl rfl
    · exact .inr ⟨s, hd⟩
  have hu : str2symbol lower (str2symbol lower s) = replaceChar ')' '_' (replaceChar '(' '_'
      (replaceChar ' ' '_' (replaceChar '/' '_' (lower (str2symbol lower s))))) := rfl
  rw [hu, hfix]
  have hf := C08_separator_free lower s
  rw [replaceChar_free (fun h => (hf _ h).1 rfl), replaceChar_free (fun h => (hf _ h).2.1 rfl),
    replaceChar_free (fun h => (hf _ h).2.2.1 rfl), replaceChar_free (fun h => (hf _ h).2.2.2 rfl)]

/-- ASCII lower-casing. -/
def asciiLower (s : Str) : Str := s.map fun c => if 'A' ≤ c ∧ c ≤ 'Z' then Char.ofNat (c.toNat + 32) else c

theorem asciiLower_mem {s : Str} {c : Char} (h : c ∈ asciiLower s) : ¬ ('A' ≤ c ∧ c ≤ 'Z') := by
  unfold asciiLower at h
  obtain ⟨d, hd, rfl⟩ := List.mem_map.1 h
  have e : ∀ c d : Char, c ≤ d ↔ c.toNat ≤ d.toNat := fun c d => by
    rw [Char.le_def, UInt32.le_iff_toNat_le]; rfl
  simp only [e]
  have hA : ('A' : Char).toNat = 65 := rfl
  have hZ : ('Z' : Char).toNat = 90 := rfl
  split
  · rename_i hh
    rw [hA, hZ] at *
    rw [toNat_ofNat_lt (by omega)]
    omega
  · assumption

/-- The hypothesis on lower-casing can be met. -/
example : ∀ t : Str, (∀ c ∈ t, c = '_' ∨ ∃ s, c ∈ asciiLower s) → asciiLower t = t := by
  intro t h
  conv => lhs; unfold asciiLower
  conv => rhs; rw [← List.map_id t]
  apply List.map_congr_left
  intro c hc
  have : ¬ ('A' ≤ c ∧ c ≤ 'Z') := by
    rcases h c hc with rfl | ⟨s, hs⟩
    · decide
    · exact asciiLower_mem hs
  simp [this]

example : str2symbol asciiLower (lit "New York (NY/US)") = lit "new_york__ny_us_" := by decide +kernel

/-- C08: but other white space survives, so the result need not be usable as an edge element. -/
theorem C08_not_safe : ∃ s : Str, ¬ WfStr (str2symbol asciiLower s) ∧ s ≠ [] := by
  refine ⟨lit "a\tb", ?_, by decide⟩
  intro h
  have := h.noSpace '\t' (by decide)
  revert this; decide

/-! ### C09 -/

/-- The hash value: `h := 31 * (h + ord(c))` over the characters, starting from 1125899906842597
(`hashInit`), in unbounded arithmetic. -/
def hashValue (s : Str) : Nat := s.foldl (fun h c => 31 * (h + c.toNat)) hashInit

theorem hashStep_mod (h : Nat) (c : Char) : hashStep (h % two64) c = (31 * (h + c.toNat)) % two64 := by
  unfold hashStep
  rw [Nat.mod_add_mod, Nat.mul_mod_mod]

theorem hash_fold (s : Str) (h : Nat) :
    s.foldl hashStep (h % two64) = (s.foldl (fun h c => 31 * (h + c.toNat)) h) % two64 := by
  induction s generalizing h with
  | nil => rfl
  | cons c s ih => rw [List.foldl_cons, List.foldl_cons, hashStep_mod, ih]

theorem two64_eq : (2 ^ 64 : Nat) = two64 := by simp [two64]

theorem hashed_eq (s : Str) : hashed s = hexStrAux 15 (hashValue s % two64) := by
  have h0 : hashInit % two64 = hashInit := Nat.mod_eq_of_lt (by simp [hashInit, two64])
  have h1 := hash_fold s hashInit
  rw [h0] at h1
  unfold hashed hexStr hashValue
  rw [h1]

/-- C09: the hash code is the 64-bit truncation of the hash value, in hexadecimal: 1 to 16 digits,
no leading zero (except for the value 0). -/
theorem C09_hashed (s : Str) :
    hexVal (hashed s) = hashValue s % 2 ^ 64 ∧ 1 ≤ (hashed s).length ∧ (hashed s).length ≤ 16 ∧
    (hashValue s % 2 ^ 64 ≠ 0 → (hashed s).head? ≠ some '0') ∧
    ∀ c ∈ hashed s, ('0' ≤ c ∧ c ≤ '9') ∨ ('a' ≤ c ∧ c ≤ 'f') := by
  have e := hashed_eq s
  have hlt : hashValue s % two64 < 16 ^ (15 + 1) := by
    rw [← two64_eq, show (16 : Nat) ^ (15 + 1) = 2 ^ 64 from by simp]
    exact Nat.mod_lt _ (by simp)
  obtain ⟨h1, h2, h3, h4, h5⟩ := hexStrAux_spec 15 _ hlt
  rw [e, two64_eq]
  refine ⟨h1, h2, h3, fun hne => h4 (by omega), ?_⟩
  intro c hc
  obtain ⟨m, rfl⟩ := h5 c hc
  exact hexDigit_class m

/-- C09: two texts have the same hash code exactly when their hash values agree modulo 2^64. -/
theorem C09_hashed_eq_iff (s t : Str) : hashed s = hashed t ↔ hashValue s % 2 ^ 64 = hashValue t % 2 ^ 64 := by
  constructor
  · intro h
    rw [← (C09_hashed s).1, ← (C09_hashed t).1, h]
  · intro h
    rw [hashed_eq, hashed_eq, ← two64_eq, h]

/-- C09: a new meaning of a root is a symbol with that root and a namespace; whatever was drawn at
random. -/
theorem C09_new_meaning (r pre rnd : Str) (hr : '/' ∉ r) (hp : '/' ∉ pre) :
    newMeaning (F := F) r pre rnd = .ok (r ++ lit "/" ++ pre ++ hashed rnd) ∧
    symRoot (.str (r ++ lit "/" ++ pre ++ hashed rnd) : Val F) = .ok (.str r) ∧
    symNspace (.str (r ++ lit "/" ++ pre ++ hashed rnd) : Val F) = some (.str (pre ++ hashed rnd)) := by
  have hhash : '/' ∉ hashed rnd := by
    intro h
    rcases (C09_hashed rnd).2.2.2.2 _ h with h | h <;> exact absurd h (by decide)
  have hcr : IsConcept r :=
    ⟨fun h => hr (h.subset (by decide)), fun h => hr (h.subset (by decide))⟩
  have hb : symBuild [r, pre ++ hashed rnd] = r ++ lit "/" ++ pre ++ hashed rnd := by
    simp [symBuild, pyJoin]
  have hcount : (r ++ lit "/" ++ pre ++ hashed rnd).count '/' = 1 := by
    rw [List.count_append, List.count_append, List.count_append, List.count_eq_zero.2 hr,
      List.count_eq_zero.2 hp, List.count_eq_zero.2 hhash]
    rfl
  have hc : IsConcept (symBuild [r, pre ++ hashed rnd]) := by
    rw [hb]
    constructor
    · intro h
      have h1 := h.sublist.count_le '/'
      have h2 : (lit "http://").count '/' = 2 := by decide
      omega
    · intro h
      have h1 := h.sublist.count_le '/'
      have h2 : (lit "https://").count '/' = 2 := by decide
      omega
  have hq : ∀ q ∈ [r, pre ++ hashed rnd], '/' ∉ q := by
    intro q hq
    simp only [List.mem_cons, List.not_mem_nil, or_false] at hq
    rcases hq with rfl | rfl
    · exact hr
    · simp [hp, hhash]
  obtain ⟨h1, h2⟩ := C07_root_nspace (F := F) r [pre ++ hashed rnd] hq hc
  rw [hb] at h1 h2
  refine ⟨?_, h1, h2⟩
  unfold newMeaning
  rw [C07_is_root r hcr]
  simp only [bind, Except.bind, hr, not_false_eq_true, decide_true, if_true]
  rw [hb]

/-- C09: and it is safe as an edge element if the root and the prefix are. -/
theorem C09_new_meaning_safe (r pre rnd : Str) (hne : r ≠ []) (h1 : ∀ c ∈ r, isSpace c = false)
    (h2 : r.head? ≠ some '(') (h3 : ∀ c ∈ pre, isSpace c = false) :
    WfStr (r ++ lit "/" ++ pre ++ hashed rnd) := by
  obtain ⟨_, hlen, _, _, hcl⟩ := C09_hashed rnd
  have hhne : hashed rnd ≠ [] := by intro h; rw [h] at hlen; simp at hlen
  have e : ∀ c d : Char, c ≤ d ↔ c.toNat ≤ d.toNat := fun c d => by
    rw [Char.le_def, UInt32.le_iff_toNat_le]; rfl
  have hsp : ∀ c ∈ hashed rnd, isSpace c = false ∧ c ≠ ')' := by
    intro c hc
    have := hcl c hc
    simp only [e] at this
    have h0 : ('0' : Char).toNat = 48 := rfl
    have h9 : ('9' : Char).toNat = 57 := rfl
    have ha : ('a' : Char).toNat = 97 := rfl
    have hf : ('f' : Char).toNat = 102 := rfl
    constructor
    · simp only [isSpace, Bool.or_eq_false_iff, Bool.and_eq_false_iff, decide_eq_false_iff_not,
        beq_eq_false_iff_ne]
      omega
    · rintro rfl
      have : (')' : Char).toNat = 41 := rfl
      omega
  have hslash : '/' ∈ r ++ lit "/" ++ pre ++ hashed rnd := by simp [lit]
  refine ⟨by simp [hne], ?_, ?_, ?_, ?_, ?_⟩
  · intro c hc
    simp only [List.mem_append, lit] at hc
    rcases hc with ((hc | hc) | hc) | hc
    · exact h1 c hc
    · have : c = '/' := by simpa using hc
      subst this; decide
    · exact h3 c hc
    · exact (hsp c hc).1
  · cases r with
    | nil => contradiction
    | cons c r => simpa using h2
  · intro h
    rw [List.getLast?_append] at h
    have hl := List.getLast?_eq_some_getLast hhne
    rw [hl] at h
    have h : (hashed rnd).getLast? = some ')' := by rw [hl]; simpa using h
    exact (hsp _ (List.mem_of_getLast? h)).2 rfl
  · rintro ⟨sgn, ds, hs, hd, heq⟩
    rw [heq] at hslash
    rcases List.mem_append.1 hslash with h | h
    · rcases hs with rfl | rfl <;> simp at h
    · exact absurd (hd _ h) (by decide)
  · rintro ⟨sgn, ds, fs, hs, hd, hf, heq⟩
    rw [heq] at hslash
    simp only [List.mem_append] at hslash
    rcases hslash with ((h | h) | h) | h
    · rcases hs with rfl | rfl <;> simp at h
    · exact absurd (hd _ h) (by decide)
    · simp at h
    · exact absurd (hf _ h) (by decide)

/-- C09: a symbol that already has a namespace is left alone. -/
theorem C09_new_meaning_nonroot (s pre rnd : Str) (hc : IsConcept s) (hs : '/' ∈ s) :
    newMeaning (F := F) s pre rnd = .ok s := by
  unfold newMeaning
  rw [C07_is_root s hc]
  simp [bind, Except.bind, hs]

example : hashed [] = lit "3ffffffffffe5" ∧ newMeaning (F := Half) (lit "sky") (lit "wn.") [] = .ok (lit "sky/wn.3ffffffffffe5") := by
  decide +kernel

end GB
