import Verif.Proofs.CollRun
import Verif.Props.MySql

/-
Property C77: the collation of the MySQL tables, which compares texts without regard to case and accents.  For texts in
printable ASCII without capitals it makes no difference; it does for the others.
-/

set_option linter.unusedSectionVars false

namespace GB

variable {F : Type} [PyFloat F] [DecidableEq F] {V : Val F → Prop} {w : Char → Nat}

/-! ### lower case ASCII suits the collation -/

theorem GeneralOnAscii.cases (hG : GeneralOnAscii w) {c : Char} (hc : c.toNat < 128) :
    (97 ≤ c.toNat ∧ c.toNat ≤ 122 ∧ w c = c.toNat - 32) ∨ ((c.toNat < 97 ∨ 122 < c.toNat) ∧ w c = c.toNat) := by
  have h := hG c hc
  by_cases h1 : 97 ≤ c.toNat ∧ c.toNat ≤ 122
  · rw [if_pos h1] at h; exact .inl ⟨h1.1, h1.2, h⟩
  · rw [if_neg h1] at h; exact .inr ⟨by omega, h⟩

theorem GeneralOnAscii.apt (hG : GeneralOnAscii w) : Apt w LowerChar where
  space := by decide
  opens := by decide
  closes := by decide
  digit := by
    intro c hc
    simp only [isDigit, Bool.and_eq_true, decide_eq_true_eq] at hc
    have h1 : 48 ≤ c.toNat := hc.1
    have h2 : c.toNat ≤ 57 := hc.2
    exact ⟨by omega, by omega, by omega⟩
  inj := by
    rintro a b ⟨a1, a2, a3⟩ ⟨b1, b2, b3⟩ h
    apply Char.toNat_inj.1
    rcases hG.cases (c := a) (by omega) with ⟨_, _, ha⟩ | ⟨_, ha⟩ <;>
      rcases hG.cases (c := b) (by omega) with ⟨_, _, hb⟩ | ⟨_, hb⟩ <;> omega
  above := by
    rintro c ⟨c1, c2, c3⟩
    have hs : w ' ' = 32 := hG ' ' (by decide)
    rcases hG.cases (c := c) (by omega) with ⟨_, _, hc⟩ | ⟨_, hc⟩ <;> omega

/-- The ranges that end in a character other than `z` and the backquote are exact. -/
theorem GeneralOnAscii.sharp (hG : GeneralOnAscii w) {c : Char} (hc : LowerChar c) (h1 : c ≠ 'z') (h2 : c ≠ '`') :
    Sharp w LowerChar c := by
  obtain ⟨c1, c2, c3⟩ := hc
  have n1 : c.toNat ≠ 122 := fun h => h1 (Char.toNat_inj.1 h)
  have n2 : c.toNat ≠ 96 := fun h => h2 (Char.toNat_inj.1 h)
  intro c' hc'
  have hwc := hG.cases (c := c) (by omega)
  have hwc' := hG.cases (c := c') (by omega)
  refine ⟨by omega, ?_⟩
  rintro d ⟨d1, d2, d3⟩ g1 g2
  apply Char.toNat_inj.1
  have hwd := hG.cases (c := d) (by omega)
  omega

theorem GeneralOnAscii.wide (hG : GeneralOnAscii w) {c : Char} (hc : LowerChar c) (h2 : c ≠ '`') : Wide w c := by
  obtain ⟨c1, c2, c3⟩ := hc
  have n2 : c.toNat ≠ 96 := fun h => h2 (Char.toNat_inj.1 h)
  intro c' hc'
  have hwc := hG.cases (c := c) (by omega)
  have hwc' := hG.cases (c := c') (by omega)
  have ho : w '(' = 40 := hG '(' (by decide)
  refine ⟨by omega, fun g1 g2 => ?_⟩
  apply Char.toNat_inj.1
  show c.toNat = 40
  omega

theorem LowerVocab.suits (hG : GeneralOnAscii w) (hL : LowerVocab V) : Suits w LowerChar V where
  apt := hG.apt
  slash := by decide
  sharpSpace := hG.sharp (by decide) (by decide) (by decide)
  sharpSlash := hG.sharp (by decide) (by decide) (by decide)
  chars := hL.lower
  wide := by
    intro v hv c hc
    exact hG.wide (hL.lower v hv c (List.mem_of_getLast? hc)) fun h => hL.last v hv (h ▸ hc)

theorem Prim.Plain.clear (hG : GeneralOnAscii w) (hL : LowerVocab V) (hV : Vocab V) {p : Prim F} (hp : p.Over V)
    (h : p.Plain) : p.Clear w LowerChar := by
  cases p with
  | removeByPattern ps =>
    intro c hc
    obtain ⟨h1, -, -, -, -⟩ := pattern_key (hL.suits hG) hV hp
    refine hG.sharp (h1 c (List.mem_of_getLast? hc)) (fun hz => h (show (patStart ps).getLast? = some 'z' from hz ▸ hc)) ?_
    rintro rfl
    obtain ⟨pre, c0, post, hps, hpre, hca⟩ := PatternOver.first hp
    have hne : ps.filter (fun n => !n.isNone) ≠ [] := by rw [hps, filter_first hpre hca]; simp
    have hnV : ∀ x ∈ ps.filter (fun n => !n.isNone), V x := by
      intro x hx
      rw [List.mem_filter] at hx
      rcases PatternOver.over hp x hx.1 with rfl | h
      · simp [Val.isNone] at hx
      · exact h
    rw [patStart, last_nodes_wf hne fun x hx => hV.wf x (hnV x hx)] at hc
    exact hL.last _ (hnV _ (List.getLast_mem hne)) hc
  | query q =>
    cases q with
    | symbolsWithRoot r => exact h
    | _ => trivial
  | _ => trivial

theorem Op.Plain.clear (hG : GeneralOnAscii w) (hL : LowerVocab V) (hV : Vocab V) {op : Op F} (hop : op.Over V)
    (h : op.Plain) : op.Clear w LowerChar := by
  cases op with
  | prim p => exact Prim.Plain.clear hG hL hV hop h
  | batch ps => exact fun p hp => Prim.Plain.clear hG hL hV (hop p hp) (h p hp)
  | degree v => exact h
  | timestamp v => exact h
  | _ => trivial

theorem Neat.empty (S : Char → Prop) (k : Nat) : Neat S k DB.empty :=
  ⟨fun r hr => by simp [DB.empty] at hr, fun r hr => by simp [DB.empty] at hr⟩

/-! ### histories over lower case ASCII -/

/-- C77: if all texts are printable ASCII without capitals, none ending in a backquote, then a history that fits the
keys of the server (`Smooth`, see C68) has under the collation the same results, and leaves the same tables, commit by
commit, as on a database that compares exactly. -/
theorem C77_same (hG : GeneralOnAscii w) (hV : Vocab V) (hL : LowerVocab V) (k : Nat) (ops : List (Op F))
    (hops : ∀ op ∈ ops, op.Over V) (hpl : ∀ op ∈ ops, op.Plain) (auto : Bool)
    (h : Smooth k Spec.empty Tally.empty (ops.flatMap Op.steps)) :
    coRunOps w k ops (St.new auto) = runOps ops (St.new auto) :=
  (coRunOps_same (hL.suits hG) hV ops hops (fun op ho => Op.Plain.clear hG hL hV (hops op ho) (hpl op ho))
    (Sees.new auto) rfl (Spec.Room.empty k) (Neat.empty _ k) h).1

/-- C77: after such a history, `exists`, `star`, `symbols_with_root`, `degree` and `timestamp` return under the
collation what they return by exact comparison; `pattern2edges` and `sources` return the same sets. -/
theorem C77_reads (hG : GeneralOnAscii w) (hV : Vocab V) (hL : LowerVocab V) (k : Nat) (ops : List (Op F))
    (hops : ∀ op ∈ ops, op.Over V) (hpl : ∀ op ∈ ops, op.Plain) (auto : Bool)
    (h : Smooth k Spec.empty Tally.empty (ops.flatMap Op.steps)) :
    let s := (coRunOps w k ops (St.new auto)).2
    (∀ e, EdgeOver V e → (coExists w e s).1 = (existsM e s).1) ∧
    (∀ c, V c → c.isAtom = true → (coStar w c s).1 = (hgStar c s).1) ∧
    (∀ root : Str, (∀ c ∈ root, LowerChar c) → (coSymbolsWithRoot w root s).1 = (hgSymbolsWithRoot root s).1) ∧
    (∀ v : Val F, WfVal v → (∀ c ∈ edge2str v, LowerChar c) → (coDegree w v s).1 = (hgDegree v s).1 ∧
      (coTimestamp w v s).1 = (hgTimestamp v s).1) ∧
    (∀ ps, PatternOver V ps → ∃ r1 r2, (coPattern2edges w (.tup ps) s).1 = .ok r1 ∧
      (pattern2edges (.tup ps) s).1 = .ok r2 ∧ r1.Nodup ∧ r2.Nodup ∧ ∀ e, e ∈ r1 ↔ e ∈ r2) ∧
    (∀ e, V (.str (lit "src/1")) → V e → ∃ r1 r2, (coSources w e s).1 = .ok r1 ∧
      (hgSources e s).1 = .ok r2 ∧ ∀ x, x ∈ r1 ↔ x ∈ r2) := by
  intro s
  have hS := hL.suits hG
  have hcl : ∀ op ∈ ops, op.Clear w LowerChar := fun op ho => Op.Plain.clear hG hL hV (hops op ho) (hpl op ho)
  obtain ⟨h1, h2⟩ := coRunOps_same hS hV ops hops hcl (Sees.new auto) rfl (Spec.Room.empty k) (Neat.empty _ k) h
  have hs : s = (runOps ops (St.new auto)).2 := by show (coRunOps w k ops (St.new auto)).2 = _; rw [h1]
  clear_value s
  subst hs
  obtain ⟨s, A, hAf⟩ := after_exists hV ops hops auto
  rw [hAf.run] at h2 ⊢
  have hA := hAf.ok
  have hw := hAf.work
  have hu : s.usable := St.usable_of_none hAf.idle
  have hR : RowsOk V s.work.perms := by rw [hw]; exact rowsOk_conc hA
  refine ⟨?_, ?_, ?_, ?_, ?_, ?_⟩
  · intro e he
    show (coExists w e s).1 = (existsM e s).1
    rw [coExists_run hS hV hA he hu hw, existsM_run hV hA he hu hw]
  · intro c hc hca
    show (coStar w c s).1 = (hgStar c s).1
    rw [coStar_same hS hV hc hca hR]
  · intro root hr
    show (coSymbolsWithRoot w root s).1 = (hgSymbolsWithRoot root s).1
    rw [coSymbols_same hS hr hR]
  · intro v hv hlv
    have ht : TidyText LowerChar (edge2str v) := ⟨hlv, last_val hv⟩
    show (coDegree w v s).1 = (hgDegree v s).1 ∧ (coTimestamp w v s).1 = (hgTimestamp v s).1
    rw [coDegree_same hG.apt ht h2, coTimestamp_same hG.apt ht h2]
    exact ⟨rfl, rfl⟩
  · intro ps hp
    obtain ⟨r1, e1, n1, m1⟩ := coPattern_run hS hV hA (b := false) hp hu hw
    obtain ⟨r2, e2, n2, m2⟩ := pattern2edges_run hV hA (b := false) hp hu hw
    refine ⟨r1, r2, ?_, ?_, n1, n2, fun e => (m1 e).trans (m2 e).symm⟩
    · show (coPattern2edges w (.seq false ps) s).1 = _
      rw [e1]
    · show (pattern2edges (.seq false ps) s).1 = _
      rw [e2]
  · intro e hc he
    obtain ⟨r1, r2, e1, e2, hm⟩ := coSources_run hS hV hA hc he hu hw
    refine ⟨r1, r2, ?_, ?_, hm⟩
    · show (coSources w e s).1 = _
      rw [e1]
    · show (hgSources e s).1 = _
      rw [e2]

/-! ### other texts -/

/-- Only the weights of a text matter. -/
theorem padLt_map {s s' t t' : Str} (h1 : s.map w = s'.map w) (h2 : t.map w = t'.map w) :
    padLt w s t = padLt w s' t' := by
  have hB : ∀ {t t' : Str}, t.map w = t'.map w → padBelow w t = padBelow w t' := by
    intro t
    induction t with
    | nil => intro t' h; cases t' with | nil => rfl | cons _ _ => simp at h
    | cons a t ih =>
      intro t' h
      cases t' with
      | nil => simp at h
      | cons b t' =>
        simp only [List.map_cons, List.cons.injEq] at h
        rw [padBelow, padBelow, h.1, ih h.2]
  have hA : ∀ {t t' : Str}, t.map w = t'.map w → padAbove w t = padAbove w t' := by
    intro t
    induction t with
    | nil => intro t' h; cases t' with | nil => rfl | cons _ _ => simp at h
    | cons a t ih =>
      intro t' h
      cases t' with
      | nil => simp at h
      | cons b t' =>
        simp only [List.map_cons, List.cons.injEq] at h
        rw [padAbove, padAbove, h.1, ih h.2]
  induction s generalizing s' t t' with
  | nil =>
    cases s' with
    | nil => rw [padLt, padLt]; exact hB h2
    | cons _ _ => simp at h1
  | cons a s ih =>
    cases s' with
    | nil => simp at h1
    | cons a' s' =>
      cases t with
      | nil =>
        cases t' with
        | nil => rw [padLt, padLt]; exact hA h1
        | cons _ _ => simp at h2
      | cons b t =>
        cases t' with
        | nil => simp at h2
        | cons b' t' =>
          simp only [List.map_cons, List.cons.injEq] at h1 h2
          rw [padLt, padLt, h1.1, h2.1, ih h1.2 h2.2]

/-- C77: two vertices whose texts have the same weights, as `Sky` and `sky`, are one for `degree` and `timestamp`, and
two such symbols are one for `star` and `symbols_with_root`: in every state of the tables these return the same. -/
theorem C77_merged (w : Char → Nat) (s : St) :
    (∀ v v' : Val F, (edge2str v).map w = (edge2str v').map w →
      coDegree w v s = coDegree w v' s ∧ coTimestamp w v s = coTimestamp w v' s) ∧
    (∀ c c' : Str, c.map w = c'.map w → coStar (F := F) w (.str c) s = coStar w (.str c') s) ∧
    (∀ r r' : Str, r.map w = r'.map w → coSymbolsWithRoot w r s = coSymbolsWithRoot w r' s) := by
  refine ⟨fun v v' h => ?_, fun c c' h => ?_, fun c c' h => ?_⟩
  · have hsel : ∀ db : DB, db.coSelectVertex w (edge2str v) = db.coSelectVertex w (edge2str v') := by
      intro db
      unfold DB.coSelectVertex padEq
      apply List.filter_congr
      intro r _
      rw [padLt_map (w := w) rfl h, padLt_map (w := w) h rfl]
    constructor
    · unfold coDegree; simp only [hsel]
    · unfold coTimestamp; simp only [hsel]
  · have hsel : ∀ db : DB, db.coSelectRange w (c ++ lit " ") (c ++ lit "!") =
        db.coSelectRange w (c' ++ lit " ") (c' ++ lit "!") := by
      intro db
      unfold DB.coSelectRange padLe
      apply List.filter_congr
      intro r _
      rw [padLt_map (w := w) (s := r) (t := c ++ lit " ") (t' := c' ++ lit " ") rfl (by simp [h]),
        padLt_map (w := w) (s := r) (t := c ++ lit "!") (t' := c' ++ lit "!") rfl (by simp [h])]
    show coStr2perms w c s = coStr2perms w c' s
    unfold coStr2perms
    simp only [strPlus1_space, liftE_bind, hsel]
  · have hsel : ∀ db : DB, db.coSelectRange w (c ++ lit "/") (c ++ lit "0") =
        db.coSelectRange w (c' ++ lit "/") (c' ++ lit "0") := by
      intro db
      unfold DB.coSelectRange padLe
      apply List.filter_congr
      intro r _
      rw [padLt_map (w := w) (s := r) (t := c ++ lit "/") (t' := c' ++ lit "/") rfl (by simp [h]),
        padLt_map (w := w) (s := r) (t := c ++ lit "0") (t' := c' ++ lit "0") rfl (by simp [h])]
    unfold coSymbolsWithRoot
    simp only [strPlus1_slash, liftE_bind, hsel]

/-- C77: an edge whose last element ends in a character that is not lighter than the next code point, as `é` before `ê`
or a backquote before `a`, is never found: in every state, `exists` returns `False`, and `remove` removes nothing. -/
theorem C77_unfound (w : Char → Nat) (hV : Vocab V) {e : Val F} (he : EdgeOver V e) {c c' : Char}
    (hlast : (nodes2str e.elems).getLast? = some c) (hnext : c'.toNat = c.toNat + 1) (hw : w c' ≤ w c) (s : St)
    (hu : s.usable) : coExists w e s = (.ok false, s) ∧ coRemove w e s = (.ok (), s) := by
  obtain ⟨h, t, rfl, _, hat, hov⟩ := he
  have hseq : h.isSeq = false := by cases h <;> simp_all [Val.isAtom, Val.isSeq]
  have hel : (Val.tup (h :: t)).elems = h :: t := rfl
  rw [hel] at hlast
  obtain ⟨p, hp⟩ : ∃ p, nodes2str (h :: t) = p ++ [c] := by
    have hne : nodes2str (h :: t) ≠ [] := by intro h0; rw [h0] at hlast; simp at hlast
    refine ⟨(nodes2str (h :: t)).dropLast, ?_⟩
    have := List.dropLast_concat_getLast hne
    rw [List.getLast?_eq_some_getLast hne, Option.some.injEq] at hlast
    rw [hlast] at this
    exact this.symm
  have hnone : (h :: t).filter (fun n => !n.isNone) = h :: t := by
    rw [List.filter_eq_self]
    intro x hx
    have := V_ne_none hV (hov x hx)
    cases x <;> simp_all [Val.isNone]
  obtain ⟨endS, hend⟩ : ∃ endS, strPlus1 (nodes2str (h :: t)) = .ok endS := by
    have hsucc := hasSucc_nodes2str hV (xs := h :: t) (by simp) hov
    rw [← strPlus1_isOk_iff] at hsucc
    exact hsucc
  have hemp : ∀ db : DB, db.coSelectRange w (nodes2str (h :: t)) endS = [] := by
    intro db
    obtain ⟨p', d, d', hs1, hs2, hd⟩ := strPlus1_ok hend
    have hpd : p' = p ∧ d = c := by
      have := hs1.symm.trans hp
      simpa using List.append_inj' this (by simp)
    obtain ⟨rfl, rfl⟩ := hpd
    have : d' = c' := Char.toNat_inj.1 (by omega)
    subst this
    unfold DB.coSelectRange
    rw [List.filter_eq_nil_iff]
    intro r _
    rw [hs1, hs2, range_empty hw r]
    simp
  have hpat : coPattern2edges w (.tup (h :: t)) s = (.ok [], s) := by
    unfold coPattern2edges
    rw [bind_run _ _ _ (liftE_ok (x := (Val.tup (h :: t)).iter) (a := h :: t) rfl s)]
    simp only [hnone]
    rw [bind_run _ _ _ (liftE_ok hend s), bind_run _ _ _ (openCursor_local s), bind_run _ _ _ (execRead_local hu _ _),
      hemp, bind_run _ _ _ (liftE_ok (x := cur2edges (F := F) []) (a := []) rfl s), bind_run _ _ _ (closeCursor_local s)]
    rfl
  have hex : coExists w (.tup (h :: t)) s = (.ok false, s) := by
    unfold coExists
    rw [bind_run _ _ _ hpat]
    rfl
  refine ⟨hex, ?_⟩
  rw [coRemove_single (h := h) rfl hseq]
  unfold coRemoveRaw
  rw [bind_run _ _ _ hex]
  rfl

/-! ### the hypotheses are met -/

theorem generalCi_ascii : GeneralOnAscii generalCi := by
  intro c hc
  unfold generalCi
  simp only
  split
  · rfl
  · rw [if_neg (show ¬ (0xE0 ≤ c.toNat ∧ c.toNat ≤ 0xFE ∧ c.toNat ≠ 0xF7) by omega)]
    repeat rw [if_neg (by omega)]

/-- The texts without capitals of the example vocabulary. -/
def LowPlain (v : HVal) : Prop :=
  PlainVocab v ∧ (∀ c ∈ edge2str v, LowerChar c) ∧ (edge2str v).getLast? ≠ some '`'

theorem lowPlain : Vocab LowPlain where
  wf v h := plainVocab.wf v h.1
  last v h := plainVocab.last v h.1
  eq v u h1 h2 := plainVocab.eq v u h1.1 h2.1

theorem lowPlain_lower : LowerVocab LowPlain := ⟨fun _ h => h.2.1, fun _ h => h.2.2⟩

/-- Test for `LowPlain`. -/
def lowB (v : HVal) : Bool := plainB v && (edge2str v).all (fun c => decide (LowerChar c)) && (edge2str v).getLast? != some '`'

theorem low_of {v : HVal} (h : lowB v = true) : LowPlain v := by
  simp only [lowB, Bool.and_eq_true, List.all_eq_true, decide_eq_true_eq, bne_iff_ne] at h
  exact ⟨plain_of h.1.1, h.1.2, h.2⟩

/-- Test for `EdgeOver LowPlain`. -/
def lowEdgeB (e : HVal) : Bool :=
  match e with
  | .seq false (h :: t) => !t.isEmpty && h.isAtom && (h :: t).all lowB
  | _ => false

theorem lowEdge_of {e : HVal} (h : lowEdgeB e = true) : EdgeOver LowPlain e := by
  unfold lowEdgeB at h
  split at h
  · next h0 t =>
    simp only [Bool.and_eq_true, List.all_eq_true, Bool.not_eq_true', List.isEmpty_eq_false_iff] at h
    exact ⟨h0, t, rfl, h.1.1, h.1.2, fun x hx => low_of (h.2 x hx)⟩
  · simp at h

/-- Additions, a belief, a removal and reading, in lower case. -/
def exLow : List (Op Half) :=
  [.prim (.add exE1 10), .addMany [exE3, exE4] 12, .addBelief (sy "john") exE1 13, .prim (.remove exE3),
   .prim (.query (.symbolsWithRoot (lit "sky"))), .batch [.add exE2 14, .remove exE4], .degree (sy "mary")]

theorem exLow_over : ∀ op ∈ exLow, op.Over LowPlain := by
  intro op hop
  simp only [exLow, List.mem_cons, List.not_mem_nil, or_false] at hop
  rcases hop with rfl | rfl | rfl | rfl | rfl | rfl | rfl
  · exact lowEdge_of (by decide +kernel)
  · refine ⟨by simp, fun e he => ?_⟩
    simp only [List.mem_cons, List.not_mem_nil, or_false] at he
    rcases he with rfl | rfl <;> exact lowEdge_of (by decide +kernel)
  · exact ⟨low_of (by decide +kernel), low_of (by decide +kernel), low_of (by decide +kernel),
      lowEdge_of (by decide +kernel)⟩
  · exact lowEdge_of (by decide +kernel)
  · exact query_of (q := .symbolsWithRoot (lit "sky")) (by decide +kernel)
  · intro p hp
    simp only [List.mem_cons, List.not_mem_nil, or_false] at hp
    rcases hp with rfl | rfl <;> exact lowEdge_of (by decide +kernel)
  · exact (plain_of (by decide +kernel) : PlainVocab (sy "mary")).1

theorem exLow_plain : ∀ op ∈ exLow, op.Plain := by
  intro op hop
  simp only [exLow, List.mem_cons, List.not_mem_nil, or_false] at hop
  rcases hop with rfl | rfl | rfl | rfl | rfl | rfl | rfl
  · trivial
  · trivial
  · trivial
  · trivial
  · intro c hc
    exact of_decide_eq_true (List.all_eq_true.1
      (show (lit "sky").all (fun c => decide (LowerChar c)) = true by decide +kernel) c hc)
  · intro p hp
    simp only [List.mem_cons, List.not_mem_nil, or_false] at hp
    rcases hp with rfl | rfl <;> trivial
  · intro c hc
    exact of_decide_eq_true (List.all_eq_true.1
      (show (edge2str (sy "mary")).all (fun c => decide (LowerChar c)) = true by decide +kernel) c hc)

theorem exLow_smooth : Smooth 250 Spec.empty Tally.empty (exLow.flatMap Op.steps) :=
  smooth_of_stamps 250 exLow (fitsAll_of (by decide +kernel)) (fresh_of (by decide +kernel))

/-- The example history under the collation of the server. -/
example : coRunOps generalCi 250 exLow (St.new true) = runOps exLow (St.new true) :=
  C77_same generalCi_ascii lowPlain lowPlain_lower 250 exLow exLow_over exLow_plain true exLow_smooth

/-- What `star` and `exists` return after it. -/
example : (coStar generalCi (sy "sky/1") (coRunOps generalCi 250 exLow (St.new true)).2).1 = .ok [exE1] ∧
    (coExists generalCi exE2 (coRunOps generalCi 250 exLow (St.new true)).2).1 = .ok true := by
  decide +kernel

/-- `Sky/1` and `sky/1` have the same weights, and so have `été` and `ete`. -/
example : (edge2str (sy "Sky/1")).map generalCi = (edge2str (sy "sky/1")).map generalCi ∧
    (edge2str (sy "été")).map generalCi = (edge2str (sy "ete")).map generalCi := by
  decide +kernel

/-- The table for the letters of Latin-1. -/
example : (lit "ÀÁÂÃÄÅÇÈÉÊËÌÍÎÏÑÒÓÔÕÖÙÚÛÜÝàáâãäåçèéêëìíîïñòóôõöùúûüýÿß").map generalCi =
    (lit "AAAAAACEEEEIIIINOOOOOUUUUYAAAAAACEEEEIIIINOOOOOUUUUYYS").map Char.toNat ∧
    (lit "ÆÐ×ØÞ÷").map generalCi = (lit "ÆÐ×ØÞ÷").map Char.toNat ∧
    (lit "æðøþ").map generalCi = (lit "ÆÐØÞ").map Char.toNat := by
  decide +kernel

/-- The hypotheses of `C77_unfound`: an edge that ends in `é`. -/
example : EdgeOver PlainVocab (.tup [sy "is", sy "he", sy "né"] : HVal) ∧
    (nodes2str (Val.tup [sy "is", sy "he", sy "né"] : HVal).elems).getLast? = some 'é' ∧ 'ê'.toNat = 'é'.toNat + 1 ∧
    generalCi 'ê' ≤ generalCi 'é' :=
  ⟨edge_of (by decide +kernel), by decide +kernel, by decide +kernel, by decide +kernel⟩

/-! ### counterexamples -/

/-- `(is/1 Sky/1 blue/1)` -/
def exUpper : HVal := .tup [sy "is/1", sy "Sky/1", sy "blue/1"]

/-- `(is he né)` -/
def exAccent : HVal := .tup [sy "is", sy "he", sy "né"]

/-- C77, counterexample: an edge that differs from a stored one only in case takes its place.  After both were added,
the first one no longer exists, both symbols have the degree 2, and `star` of one symbol returns an edge that has only
the other one. -/
theorem C77_case_counterexample :
    let ops : List (Op Half) := [.prim (.add exUpper 1), .prim (.add exE1 2)]
    let s := (coRunOps generalCi 250 ops (St.new true)).2
    (coRunOps generalCi 250 ops (St.new true)).1 = .ok () ∧
    (coExists generalCi exUpper s).1 = .ok false ∧ (coExists generalCi exE1 s).1 = .ok true ∧
    (coDegree generalCi (sy "Sky/1") s).1 = .ok 2 ∧ (coDegree generalCi (sy "sky/1") s).1 = .ok 2 ∧
    (coStar generalCi (sy "Sky/1") s).1 = .ok [exE1] ∧
    (runOps ops (St.new true)).1 = .ok () ∧ (existsM exUpper (runOps ops (St.new true)).2).1 = .ok true := by
  decide +kernel

/-- C77, counterexample: an edge that ends in `é` is stored but not found again, so that adding it a second time raises
`IntegrityError`. -/
theorem C77_accent_counterexample :
    let ops : List (Op Half) := [.prim (.add exAccent 1)]
    let s := (coRunOps generalCi 250 ops (St.new true)).2
    (coRunOps generalCi 250 ops (St.new true)).1 = .ok () ∧ (coExists generalCi exAccent s).1 = .ok false ∧
    (coStar generalCi (sy "he") s).1 = .ok [exAccent] ∧
    (coRunOps generalCi 250 (ops ++ ops) (St.new true)).1 = .error .integrityError ∧
    (runOps (ops ++ ops) (St.new true)).1 = .ok () := by
  decide +kernel

/-- C77, counterexample: the same with a backquote, which is ASCII: this is why `LowerVocab` excludes it at the end. -/
theorem C77_backquote_counterexample :
    let e : HVal := .tup [sy "is", sy "a`"]
    let s := (coRunOps generalCi 250 [.prim (.add e 1)] (St.new true)).2
    (coExists generalCi e s).1 = .ok false ∧ (coStar generalCi (sy "is") s).1 = .ok [e] := by
  decide +kernel

end GB
