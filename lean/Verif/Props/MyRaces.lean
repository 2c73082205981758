import Verif.Props.MyClients
import Verif.Props.Budget
import Verif.Proofs.MyLedger

/-!
Property C90: several clients of one MySQL database, with no agreement among them at all.  (C74 says what holds if they keep
out of each other's way.)
-/

set_option linter.unusedSectionVars false
set_option linter.unusedVariables false

namespace GB

variable {F : Type} [PyFloat F] [DecidableEq F] {V : Val F → Prop}

/-- Some client is asked to remove the edge. -/
def Endangered (progs : List (List (PCall F))) (x : Val F) : Prop := ∃ p ∈ progs, Program.Removes (calls p) x

/-- Some client is asked to add the edge. -/
def Asked (progs : List (List (PCall F))) (x : Val F) : Prop := ∃ p ∈ progs, x ∈ (calls p).flatMap PAct.adds

/-- What holds at every moment. -/
structure Raced (V : Val F → Prop) (U : List (Val F)) (v : Val F) (kn : Bool) (progs : List (List (PCall F))) (db0 : DB) (τ : Sys) :
    Prop where
  upper : degRow v τ.db ≤ degRow v db0 + (occurrences v (addsOf (progs.map calls)) : Nat)
  lower : -(occurrences v (dropsOf U (progs.map calls)) : Nat) ≤ degRow v τ.db
  known : kn = true → degRow v db0 - (occurrences v (dropsOf U (progs.map calls)) : Nat) ≤ degRow v τ.db
  rows : RowsOk V τ.db.perms
  kept : ∀ x n, EdgeOver V x → ¬ Endangered progs x → HasRow db0.perms x n → HasRow τ.db.perms x n
  done : ∀ (i : Nat) (p : List (PCall F)), progs[i]? = some p → τ.procs[i]? = some (.ret (.ok ())) →
    ∀ x ∈ (calls p).flatMap PAct.adds, ¬ Endangered progs x → Visible x τ.db
  errs : ∀ (i : Nat) (p : List (PCall F)) (e : PyErr), progs[i]? = some p → τ.procs[i]? = some (.ret (.error e)) →
    e = .integrityError ∧ (calls p).flatMap PAct.adds ≠ []
  full : (∀ p ∈ τ.procs, p = .ret (.ok ())) → ∀ x n, EdgeOver V x → ¬ Endangered progs x → HasRow τ.db.perms x n →
    HasRow db0.perms x n ∨ ∀ m, m < factorial x.elems.length → HasRow τ.db.perms x m
  inU : ∀ x n, EdgeOver V x → HasRow τ.db.perms x n → x ∈ U

theorem raced (hV : Vocab V) {k : Nat} {v : Val F} {kn : Bool} {U : List (Val F)} (hv : WfVal v) (ha : v.isAtom = true) {db : DB}
    (h0 : 0 ≤ degRow v db) (hI : BudI V U v kn db) {progs : List (List (PCall F))} (ho : ∀ p ∈ progs, ∀ c ∈ p, c.Over V)
    (hU : ∀ x ∈ addsOf (progs.map calls), x ∈ U) {τ : Sys} (h : (Sys.startMy k db progs).Reach τ) : Raced V U v kn progs db τ := by
  have hadds : ∀ p ∈ progs, ∀ a ∈ calls p, ∀ x ∈ a.adds, x ∈ U := fun p hp a ha x hx =>
    hU x (List.mem_flatMap.2 ⟨calls p, List.mem_map_of_mem hp, List.mem_flatMap.2 ⟨a, ha, hx⟩⟩)
  obtain ⟨gs, hlen, ⟨j1, j2, j3, j4, j5, j6, j7⟩, hk⟩ := h.kept (I := BudI V U v kn) (R := SheetR V U v kn (Endangered progs))
    (E := fun i e => e = .integrityError ∧ ∀ p, progs[i]? = some p → (calls p).flatMap PAct.adds ≠ [])
    (Q := fun i g => ∀ p, progs[i]? = some p → (∀ x ∈ (calls p).flatMap PAct.adds, g.Has x) ∧
      ∀ x ∈ g.own, ∀ n, n < factorial x.elems.length → (x, n) ∈ g.rows)
    (Inv := fun d (gs : List (Sheet F)) => BudI V U v kn d ∧
      max (degRow v d) 0 + ((gs.map Sheet.up).sum : Nat) ≤ degRow v db + (occurrences v (addsOf (progs.map calls)) : Nat) ∧
      -(occurrences v (dropsOf U (progs.map calls)) : Nat) ≤ min (degRow v d) 0 - ((gs.map Sheet.down).sum : Nat) ∧
      (kn = true → degRow v db - (occurrences v (dropsOf U (progs.map calls)) : Nat) ≤ degRow v d - ((gs.map Sheet.down).sum : Nat)) ∧
      (∀ x n, EdgeOver V x → ¬ Endangered progs x → HasRow db.perms x n → HasRow d.perms x n) ∧
      (∀ g ∈ gs, ∀ p ∈ g.rows, EdgeOver V p.1 ∧ (¬ Endangered progs p.1 → HasRow d.perms p.1 p.2)) ∧
      ∀ x n, EdgeOver V x → HasRow d.perms x n → HasRow db.perms x n ∨ ∃ g ∈ gs, x ∈ g.own)
    (gs := progs.map fun p => ⟨occurrences v ((calls p).flatMap PAct.adds), occurrences v ((calls p).flatMap (PAct.drops U)), [], []⟩)
    (by simp [Sys.startMy])
    (by
      have e1 : ((progs.map fun p => (⟨occurrences v ((calls p).flatMap PAct.adds), occurrences v ((calls p).flatMap (PAct.drops U)),
          [], []⟩ : Sheet F)).map Sheet.up).sum = occurrences v (addsOf (progs.map calls)) := by
        have := occurrences_flat v (fun p : Program F => p.flatMap PAct.adds) (progs.map calls)
        rw [List.map_map] at this ⊢
        exact this
      have e2 : ((progs.map fun p => (⟨occurrences v ((calls p).flatMap PAct.adds), occurrences v ((calls p).flatMap (PAct.drops U)),
          [], []⟩ : Sheet F)).map Sheet.down).sum = occurrences v (dropsOf U (progs.map calls)) := by
        have := occurrences_flat v (fun p : Program F => p.flatMap (PAct.drops U)) (progs.map calls)
        rw [List.map_map] at this ⊢
        exact this
      rw [e1, e2]
      refine ⟨hI, ?_, ?_, fun _ => ?_, fun _ _ _ _ h => h, ?_, fun _ _ _ h => .inl h⟩
      · show max (degRow v db) 0 + _ ≤ _
        omega
      · show _ ≤ min (degRow v db) 0 - _
        omega
      · show _ ≤ degRow v db - _
        omega
      · intro g hg p hp
        obtain ⟨q, _, rfl⟩ := List.mem_map.1 hg
        cases hp)
    (by
      intro i p g hi hg
      obtain ⟨prog, h1, rfl⟩ := startMy_proc hi
      rw [List.getElem?_map, h1] at hg
      cases hg
      have hm := List.mem_of_getElem? h1
      have hc := costs_client (k := k) (E := fun e => e = .integrityError ∧ ∀ p, progs[i]? = some p → (calls p).flatMap PAct.adds ≠ [])
        hV ⟨db, hI⟩ hv ha (ho prog hm) (D := Endangered progs) (hadds prog hm) (fun a ha x _ hr => ⟨prog, hm, a, ha, hr⟩) (by
          intro a ha hne
          refine ⟨rfl, fun p hp => ?_⟩
          rw [h1] at hp
          cases hp
          intro hnil
          rw [List.flatMap_eq_nil_iff] at hnil
          exact hne (hnil a ha))
      have := hc ⟨occurrences v ((calls prog).flatMap PAct.adds), occurrences v ((calls prog).flatMap (PAct.drops U)), [], []⟩
        (Nat.le_refl _) (Nat.le_refl _)
      refine Conn.Keeps.auto sheet_refl (this.mono ?_)
      rintro _ g' ⟨ha', _⟩ p hp
      rw [h1] at hp
      cases hp
      exact ⟨ha'.has, fun x hx => (ha'.own x hx).resolve_left (by simp)⟩)
    (fun d gs hi => hi.1)
    (by
      rintro d d' gs i g g' ⟨j1, j2, j3, j4, j5, j6, j7⟩ hg ⟨⟨r1, r2, r3, r4⟩, r5, r6, r7, r8⟩
      have e1 := sum_set_nat (l := gs.map Sheet.up) (i := i) (c := g.up) (d := g'.up) (by rw [List.getElem?_map, hg]; rfl)
      have e2 := sum_set_nat (l := gs.map Sheet.down) (i := i) (c := g.down) (d := g'.down) (by rw [List.getElem?_map, hg]; rfl)
      have hil : i < gs.length := (List.getElem?_eq_some_iff.1 hg).1
      have hmem : ∀ x ∈ gs, x = g ∨ x ∈ gs.set i g' := by
        intro x hx
        obtain ⟨j, hj, rfl⟩ := List.getElem_of_mem hx
        by_cases hji : i = j
        · subst hji
          left
          rw [List.getElem?_eq_getElem hj] at hg
          exact Option.some.inj hg
        · right
          rw [List.mem_iff_getElem]
          exact ⟨j, by simpa using hj, by rw [List.getElem_set_ne hji]⟩
      have hg' : g' ∈ gs.set i g' := List.mem_set hil _
      rw [List.map_set, List.map_set]
      refine ⟨r1, by dsimp only at *; omega, by dsimp only at *; omega, fun hk => by have := j4 hk; have := r4 hk; dsimp only at *; omega,
        fun x n hx hD hr => r5 x n hx hD (j5 x n hx hD hr), ?_, ?_⟩
      · intro x hx p hp
        rcases List.mem_or_eq_of_mem_set hx with hx | rfl
        · obtain ⟨q1, q2⟩ := j6 x hx p hp
          exact ⟨q1, fun hD => r5 _ _ q1 hD (q2 hD)⟩
        · rcases r6 p hp with hp | hp
          · obtain ⟨q1, q2⟩ := j6 g (List.mem_of_getElem? hg) p hp
            exact ⟨q1, fun hD => r5 _ _ q1 hD (q2 hD)⟩
          · exact ⟨hp.1, fun _ => hp.2⟩
      · intro x n hx hr
        rcases r8 x n hx hr with hr | hr
        · rcases j7 x n hx hr with hr | ⟨y, hy, hxy⟩
          · exact .inl hr
          · rcases hmem y hy with rfl | hy
            · exact .inr ⟨g', hg', r7 x hxy⟩
            · exact .inr ⟨y, hy, hxy⟩
        · exact .inr ⟨g', hg', hr⟩)
  have hlen' : τ.procs.length = progs.length := by
    have := h.length
    simpa [Sys.startMy] using this
  refine ⟨by omega, by omega, fun hk => by have := j4 hk; omega, j1.1, j5, ?_, ?_, ?_, fun x n hx hr => j1.2.1 x hx n hr⟩
  · intro i p hi hr x hx hD
    have hlt : i < gs.length := by rw [hlen]; exact (List.getElem?_eq_some_iff.1 hr).1
    have hQ := hk i _ gs[i] hr (List.getElem?_eq_getElem hlt)
    obtain ⟨n, q1, q2⟩ := (hQ p hi).1 x hx
    exact ⟨n, (j6 _ (List.getElem_mem hlt) _ q1).2 hD, q2⟩
  · intro i p e hi hr
    have hlt : i < gs.length := by rw [hlen]; exact (List.getElem?_eq_some_iff.1 hr).1
    have hQ := hk i _ gs[i] hr (List.getElem?_eq_getElem hlt)
    exact ⟨hQ.1, hQ.2 p hi⟩
  · intro hall x n hx hD hr
    rcases j7 x n hx hr with hr | ⟨g, hg, hxg⟩
    · exact .inl hr
    · right
      intro m hm
      obtain ⟨i, hlt, rfl⟩ := List.getElem_of_mem hg
      have hpl : i < τ.procs.length := by rw [← hlen]; exact hlt
      have hret := hall _ (List.getElem_mem hpl)
      have hQ := hk i (.ret (.ok ())) gs[i] (by rw [List.getElem?_eq_getElem hpl, hret]) (List.getElem?_eq_getElem hlt)
      have hpr : i < progs.length := by rw [← hlen']; exact hpl
      exact (j6 _ hg _ ((hQ _ (List.getElem?_eq_getElem hpr)).2 x hxg m hm)).2 hD

/-! ### from a history -/

theorem myBud_start (hV : Vocab V) {k : Nat} {ops : List (Op F)} {s : St} (hH : MyHistory V k ops s) {U : List (Val F)}
    (hU1 : ∀ x, (Spec.after ops).Present x → x ∈ U) {v : Val F} (hv : WfVal v) (ha : v.isAtom = true) {kn : Bool}
    (hk : kn = true → (Spec.after ops).known v ≠ none) : 0 ≤ degRow v s.disk ∧ BudI V U v kn s.disk := by
  obtain ⟨_, k1, k2, _⟩ := bounds_start hV hH.over (hH.sql hV) hv ha
  have hS := shows_of hV hH.over (hH.sql hV)
  have hI := indexOf_shows hV hS
  refine ⟨k2, k1, fun x hx n hn => ?_, fun h => known_start hV hH.over (hH.sql hV) hv (hk h)⟩
  rw [hS.disk] at hn
  exact hU1 x ((hI.2 x hx n).1 hn).1

theorem raced_start (hV : Vocab V) {k : Nat} {ops : List (Op F)} {s : St} (hH : MyHistory V k ops s)
    {progs : List (List (PCall F))} (hp : ∀ p ∈ progs, ∀ c ∈ p, c.Over V) {U : List (Val F)}
    (hU1 : ∀ x, (Spec.after ops).Present x → x ∈ U) (hU2 : ∀ x ∈ addsOf (progs.map calls), x ∈ U) {τ : Sys}
    (h : (Sys.startMy k s.disk progs).Reach τ) {v : Val F} (hv : WfVal v) (ha : v.isAtom = true) {kn : Bool}
    (hk : kn = true → (Spec.after ops).known v ≠ none) : Raced V U v kn progs s.disk τ := by
  obtain ⟨k1, k2⟩ := myBud_start hV hH hU1 hv ha hk
  exact raced hV hv ha k1 k2 hp hU2 h

/-- C90: clients of one MySQL database add edges and remove edges (no matter which: also the same ones), one by one, several at
once, by a pattern, as beliefs or in batches.  At every moment, whatever statement each of them is at, and whichever of them
never go on or raised an exception, the degree of a symbol is at most what it was, plus its occurrences in the edges they are
asked to add (as often as they are asked to): what they remove does not count. -/
theorem C90_upper (hV : Vocab V) (k : Nat) (ops : List (Op F)) (s : St) (hH : MyHistory V k ops s)
    (progs : List (List (PCall F))) (hp : ∀ p ∈ progs, ∀ c ∈ p, c.Over V) (τ : Sys)
    (h : (Sys.startMy k s.disk progs).Reach τ) (v : Val F) (hv : WfVal v) (ha : v.isAtom = true) :
    ∃ d0 d : Int, (hgDegree v s).1 = .ok d0 ∧ (hgDegree v (reopen τ.db true)).1 = .ok d ∧
      d ≤ d0 + (occurrences v (addsOf (progs.map calls)) : Nat) := by
  obtain ⟨l, hl⟩ := C22_finite hV ops hH.over
  exact ⟨_, _, ((bounds_start hV hH.over (hH.sql hV) hv ha).1 _).2 rfl, degree_here v τ.db true,
    (raced_start hV hH hp (U := l ++ addsOf (progs.map calls)) (fun x hx => List.mem_append.2 (.inl ((hl.2 x).2 hx)))
      (fun x hx => List.mem_append.2 (.inr hx)) h hv ha (kn := false) (by simp)).upper⟩

/-- C90: then also, no degree is below zero by more than the occurrences of the symbol in the edges that the clients are asked to
remove (as often as they are asked to; a pattern asks for every edge that it matches among those present at the start and
those that are added). -/
theorem C90_lower (hV : Vocab V) (k : Nat) (ops : List (Op F)) (s : St) (hH : MyHistory V k ops s)
    (progs : List (List (PCall F))) (hp : ∀ p ∈ progs, ∀ c ∈ p, c.Over V) (U : List (Val F))
    (hU1 : ∀ x, (Spec.after ops).Present x → x ∈ U) (hU2 : ∀ x ∈ addsOf (progs.map calls), x ∈ U) (τ : Sys)
    (h : (Sys.startMy k s.disk progs).Reach τ) (v : Val F) (hv : WfVal v) (ha : v.isAtom = true) :
    ∃ d : Int, (hgDegree v (reopen τ.db true)).1 = .ok d ∧ -(occurrences v (dropsOf U (progs.map calls)) : Nat) ≤ d :=
  ⟨_, degree_here v τ.db true, (raced_start hV hH hp hU1 hU2 h hv ha (kn := false) (by simp)).lower⟩

/-- C90: and the degree of a symbol that the graph knew when the clients started is at least what it was, less those
occurrences. -/
theorem C90_lower_known (hV : Vocab V) (k : Nat) (ops : List (Op F)) (s : St) (hH : MyHistory V k ops s)
    (progs : List (List (PCall F))) (hp : ∀ p ∈ progs, ∀ c ∈ p, c.Over V) (U : List (Val F))
    (hU1 : ∀ x, (Spec.after ops).Present x → x ∈ U) (hU2 : ∀ x ∈ addsOf (progs.map calls), x ∈ U) (τ : Sys)
    (h : (Sys.startMy k s.disk progs).Reach τ) (v : Val F) (hv : WfVal v) (ha : v.isAtom = true)
    (hk : (Spec.after ops).known v ≠ none) :
    ∃ d0 d : Int, (hgDegree v s).1 = .ok d0 ∧ (hgDegree v (reopen τ.db true)).1 = .ok d ∧
      d0 - (occurrences v (dropsOf U (progs.map calls)) : Nat) ≤ d :=
  ⟨_, _, ((bounds_start hV hH.over (hH.sql hV) hv ha).1 _).2 rfl, degree_here v τ.db true,
    (raced_start hV hH hp hU1 hU2 h hv ha (kn := true) fun _ => hk).known rfl⟩

/-- C90: a client that returned either did all its calls or raised an integrity error, and then it was asked to add something: a
client that only removes never raises. -/
theorem C90_errors (hV : Vocab V) (k : Nat) (ops : List (Op F)) (s : St) (hH : MyHistory V k ops s)
    (progs : List (List (PCall F))) (hp : ∀ p ∈ progs, ∀ c ∈ p, c.Over V) (τ : Sys)
    (h : (Sys.startMy k s.disk progs).Reach τ) (i : Nat) (p : List (PCall F)) (hi : progs[i]? = some p)
    (r : Except PyErr Unit) (hr : τ.procs[i]? = some (.ret r)) :
    r = .ok () ∨ (r = .error .integrityError ∧ ∃ a ∈ calls p, ∃ x, x ∈ a.adds) := by
  obtain ⟨l, hl⟩ := C22_finite hV ops hH.over
  have hw : WfVal (Val.int 0 : Val F) := .int
  cases r with
  | ok u => exact .inl rfl
  | error e =>
    right
    obtain ⟨h1, h2⟩ := (raced_start hV hH hp (U := l ++ addsOf (progs.map calls)) (fun x hx => List.mem_append.2 (.inl ((hl.2 x).2 hx)))
      (fun x hx => List.mem_append.2 (.inr hx)) h hw rfl (kn := false) (by simp)).errs i p e hi hr
    obtain ⟨x, hx⟩ := List.exists_mem_of_ne_nil _ h2
    obtain ⟨a, ha, hx⟩ := List.mem_flatMap.1 hx
    exact ⟨by rw [h1], a, ha, x, hx⟩

/-! ### edges -/

/-- A row of the edge where `star` of the symbol looks. -/
theorem star_has_row (hV : Vocab V) {c e : Val F} (he : EdgeOver V e) (hc : c ∈ e.elems) :
    ∃ n, n < factorial e.elems.length ∧ (edge2str c ++ lit " ") <+: rowOf e.elems n := by
  obtain ⟨l1, l2, hl⟩ := List.append_of_mem hc
  have hperm : (c :: (l1 ++ l2)).Perm e.elems := by
    rw [hl]
    exact List.perm_middle.symm
  obtain ⟨n, hn, hpn⟩ := exists_permN hperm
  refine ⟨n, hn, ?_⟩
  rw [rowOf, hpn, List.cons_append, nodes2str_cons (by simp)]
  exact List.prefix_append _ _

/-- What is found, if these are the rows: some of the edges of `P`, and all of those of `K`. -/
structure FoundIn (V P K : Val F → Prop) (s : St) : Prop where
  ex : ∀ e, EdgeOver V e → ∃ b, (hgExists e s).1 = .ok b ∧ (b = true → P e) ∧ (K e → b = true)
  pattern : ∀ ps, PatternOver V ps → ∃ res, (hgPattern2edges (.tup ps) s).1 = .ok res ∧ res.Nodup ∧
    (∀ x ∈ res, EdgeOver V x ∧ Matches ps x.elems ∧ P x) ∧ ∀ x, EdgeOver V x → Matches ps x.elems → K x → x ∈ res
  star : ∀ c, V c → c.isAtom = true → ∃ res, (hgStar c s).1 = .ok res ∧ res.Nodup ∧
    (∀ x ∈ res, EdgeOver V x ∧ c ∈ x.elems ∧ P x) ∧ ∀ x, EdgeOver V x → c ∈ x.elems → K x → x ∈ res

theorem foundIn_rows (hV : Vocab V) {P K : Val F → Prop} {db : DB} (auto : Bool) (hR : RowsOk V db.perms)
    (hP : ∀ x n, EdgeOver V x → HasRow db.perms x n → P x)
    (hK : ∀ x, EdgeOver V x → K x → ∀ n, n < factorial x.elems.length → HasRow db.perms x n) :
    FoundIn V P K (reopen db auto) := by
  have hu : (reopen db auto).usable := by simp [St.usable, reopen]
  refine ⟨?_, ?_, ?_⟩
  · intro e he
    obtain ⟨b, h1, h2⟩ := exists_rows hV he (s := reopen db auto) hu hR
    have h1 : hgExists e (reopen db auto) = (.ok b, reopen db auto) := h1
    refine ⟨b, by rw [h1], fun hb => ?_, fun hk => h2.2 ?_⟩
    · obtain ⟨n, h3, _⟩ := h2.1 hb
      exact hP e n he h3
    · obtain ⟨n, hn, hn2⟩ := pattern_has_row hV he.pattern he
        ((Matches.self_iff (fun p hp => V_ne_none hV (he.mem p hp))).2 rfl)
      exact ⟨n, hK e he hk n hn, hn2⟩
  · intro ps hps
    obtain ⟨res, h1, h2, h3⟩ := pattern_rows hV (b := false) hps (s := reopen db auto) hu hR
    have h1 : hgPattern2edges (.tup ps) (reopen db auto) = (.ok res, reopen db auto) := h1
    refine ⟨res, by rw [h1], h2, fun x hx => ?_, fun x hx hm hk => (h3 x).2 ⟨hx, hm, ?_⟩⟩
    · obtain ⟨q1, q2, n, q3, _⟩ := (h3 x).1 hx
      exact ⟨q1, q2, hP x n q1 q3⟩
    · obtain ⟨n, hn, hn2⟩ := pattern_has_row hV hps hx hm
      exact ⟨n, hK x hx hk n hn, hn2⟩
  · intro c hc hca
    obtain ⟨res, h1, h2, h3⟩ := star_rows hV hc hca (s := reopen db auto) hu hR
    have h1 : hgStar c (reopen db auto) = (.ok res, reopen db auto) := h1
    refine ⟨res, by rw [h1], h2, fun x hx => ?_, fun x hx hm hk => (h3 x).2 ⟨hx, ?_⟩⟩
    · obtain ⟨q1, n, q3, q4⟩ := (h3 x).1 hx
      exact ⟨q1, star_holds hV hc hca q1 q3.1 q4, hP x n q1 q3⟩
    · obtain ⟨n, hn, hn2⟩ := star_has_row hV hx hm
      exact ⟨n, hK x hx hk n hn, hn2⟩

theorem adds_edge_over {a : PAct F} (ha : a.op.Over V) {x : Val F} (h : x ∈ a.adds) : EdgeOver V x := by
  refine adds_over ha ?_
  cases a with
  | add e ts => exact List.mem_singleton.1 h
  | addMany es ts => exact h
  | addBelief src e ts =>
    simp only [PAct.adds, List.mem_cons, List.not_mem_nil, or_false] at h
    exact h
  | addBeliefs src es ts =>
    obtain ⟨e, he, h⟩ := List.mem_flatMap.1 h
    simp only [List.mem_cons, List.not_mem_nil, or_false] at h
    exact ⟨e, he, h⟩
  | _ => cases h

theorem raced_edges (hV : Vocab V) {k : Nat} {ops : List (Op F)} {s : St} (hH : MyHistory V k ops s)
    {progs : List (List (PCall F))} (hp : ∀ p ∈ progs, ∀ c ∈ p, c.Over V) {τ : Sys}
    (h : (Sys.startMy k s.disk progs).Reach τ) :
    ∃ U v, Raced V U v false progs s.disk τ ∧ (∀ x, x ∈ U → (Spec.after ops).Present x ∨ Asked progs x) ∧
      IndexOf V (Spec.after ops).Present s.disk := by
  obtain ⟨l, hl⟩ := C22_finite hV ops hH.over
  have hw : WfVal (Val.int 0 : Val F) := .int
  have hS := shows_of hV hH.over (hH.sql hV)
  refine ⟨l ++ addsOf (progs.map calls), _, raced_start hV hH hp (fun x hx => List.mem_append.2 (.inl ((hl.2 x).2 hx)))
    (fun x hx => List.mem_append.2 (.inr hx)) h hw rfl (kn := false) (by simp), ?_, ?_⟩
  · intro x hx
    rcases List.mem_append.1 hx with hx | hx
    · exact .inl ((hl.2 x).1 hx)
    · right
      obtain ⟨q, hq, hx⟩ := List.mem_flatMap.1 hx
      obtain ⟨p, hp', rfl⟩ := List.mem_map.1 hq
      exact ⟨p, hp', hx⟩
  · rw [hS.disk]
    exact indexOf_shows hV hS

/-- C90: at every moment, whatever statement each client is at, no query of another connection raises; it returns only edges
that were there at the start or that some client is asked to add (and each once), and all those that were there at the start and
that no client is asked to remove. -/
theorem C90_edges (hV : Vocab V) (k : Nat) (ops : List (Op F)) (s : St) (hH : MyHistory V k ops s)
    (progs : List (List (PCall F))) (hp : ∀ p ∈ progs, ∀ c ∈ p, c.Over V) (τ : Sys)
    (h : (Sys.startMy k s.disk progs).Reach τ) :
    FoundIn V (fun x => (Spec.after ops).Present x ∨ Asked progs x)
      (fun x => (Spec.after ops).Present x ∧ ¬ Endangered progs x) (reopen τ.db true) := by
  obtain ⟨U, v, hR, hU, hI⟩ := raced_edges hV hH hp h
  exact foundIn_rows hV true hR.rows (fun x n hx hr => hU x (hR.inU x n hx hr)) fun x hx hk n hn =>
    hR.kept x n hx hk.2 ((hI.2 x hx n).2 ⟨hk.1, hn⟩)

/-- C90: an edge that a client was asked to add, if the client returned without an exception and no client is asked to remove the
edge, exists; and so it does forever after. -/
theorem C90_added (hV : Vocab V) (k : Nat) (ops : List (Op F)) (s : St) (hH : MyHistory V k ops s)
    (progs : List (List (PCall F))) (hp : ∀ p ∈ progs, ∀ c ∈ p, c.Over V) (τ : Sys)
    (h : (Sys.startMy k s.disk progs).Reach τ) (i : Nat) (p : List (PCall F)) (hi : progs[i]? = some p)
    (hr : τ.procs[i]? = some (.ret (.ok ()))) (a : PAct F) (ha : a ∈ calls p) (x : Val F) (hx : x ∈ a.adds)
    (hD : ¬ Endangered progs x) : (hgExists x (reopen τ.db true)).1 = .ok true := by
  obtain ⟨U, v, hR, hU, hI⟩ := raced_edges hV hH hp h
  have hvis := hR.done i p hi hr x (List.mem_flatMap.2 ⟨a, ha, hx⟩) hD
  have hxo : EdgeOver V x := adds_edge_over (over_calls hp (calls p) (List.mem_map_of_mem (List.mem_of_getElem? hi)) a ha) hx
  have hu : (reopen τ.db true).usable := by simp [St.usable, reopen]
  obtain ⟨b, h1, h2⟩ := exists_rows hV hxo (s := reopen τ.db true) hu hR.rows
  have h1 : hgExists x (reopen τ.db true) = (.ok b, reopen τ.db true) := h1
  rw [h1, h2.2 hvis]

/-- C90: when all clients have returned without an exception, then among the edges that no client is asked to remove every query
returns exactly those that were there at the start and those that some client was asked to add. -/
theorem C90_finished (hV : Vocab V) (k : Nat) (ops : List (Op F)) (s : St) (hH : MyHistory V k ops s)
    (progs : List (List (PCall F))) (hp : ∀ p ∈ progs, ∀ c ∈ p, c.Over V) (τ : Sys)
    (h : (Sys.startMy k s.disk progs).Reach τ) (hok : ∀ p ∈ τ.procs, p = .ret (.ok ())) :
    FoundIn V (fun x => (Spec.after ops).Present x ∨ Asked progs x)
      (fun x => ((Spec.after ops).Present x ∨ Asked progs x) ∧ ¬ Endangered progs x) (reopen τ.db true) := by
  obtain ⟨U, v, hR, hU, hI⟩ := raced_edges hV hH hp h
  refine foundIn_rows hV true hR.rows (fun x n hx hr => hU x (hR.inU x n hx hr)) fun x hx hk n hn => ?_
  obtain ⟨hk | ⟨p, hpm, hk⟩, hD⟩ := hk
  · exact hR.kept x n hx hD ((hI.2 x hx n).2 ⟨hk, hn⟩)
  · obtain ⟨i, hi⟩ := List.getElem?_of_mem hpm
    have hlen : τ.procs.length = progs.length := by
      have := h.length
      simpa [Sys.startMy] using this
    have hpl : i < τ.procs.length := by rw [hlen]; exact (List.getElem?_eq_some_iff.1 hi).1
    have hret := hok _ (List.getElem_mem hpl)
    obtain ⟨m, hm, _⟩ := hR.done i p hi (by rw [List.getElem?_eq_getElem hpl, hret]) x hk hD
    rcases hR.full hok x m hx hD hm with h1 | h1
    · exact hR.kept x n hx hD ((hI.2 x hx n).2 ⟨((hI.2 x hx m).1 h1).1, hn⟩)
    · exact h1 n hn

theorem unknown_degRow (hV : Vocab V) {k : Nat} {ops : List (Op F)} {s : St} (hH : MyHistory V k ops s) {v : Val F} (hv : WfVal v)
    (hk : (Spec.after ops).known v = none) : degRow v s.disk = 0 := by
  have hS := shows_of hV hH.over (hH.sql hV)
  obtain ⟨A, hA, hR, hw'⟩ := hS.ex
  rw [hS.disk, hw']
  have hl : lookV v A.verts = none := by
    cases hl : lookV v A.verts with
    | none => rfl
    | some r =>
      rw [hR.known v] at hk
      unfold tsOf at hk
      rw [hl] at hk
      cases hk
  have := selectVertex_row hA.wf hv (A.conc).perms
  rw [hl] at this
  unfold degRow
  cases hsel : (A.conc).selectVertex (edge2str v) with
  | nil => rfl
  | cons r l =>
    have h2 : (DB.selectVertex ⟨A.verts.map VEnt.row, A.conc.perms⟩ (edge2str v)).head? = some r := by
      show ((A.conc).selectVertex (edge2str v)).head? = _
      rw [hsel]; rfl
    rw [h2] at this
    cases this

/-- C90: the degree of a symbol that is in no edge that the clients add or remove does not change. -/
theorem C90_untouched (hV : Vocab V) (k : Nat) (ops : List (Op F)) (s : St) (hH : MyHistory V k ops s)
    (progs : List (List (PCall F))) (hp : ∀ p ∈ progs, ∀ c ∈ p, c.Over V) (U : List (Val F))
    (hU1 : ∀ x, (Spec.after ops).Present x → x ∈ U) (hU2 : ∀ x ∈ addsOf (progs.map calls), x ∈ U) (τ : Sys)
    (h : (Sys.startMy k s.disk progs).Reach τ) (v : Val F) (hv : WfVal v) (ha : v.isAtom = true)
    (h1 : ∀ e ∈ addsOf (progs.map calls), v ∉ e.elems) (h2 : ∀ e ∈ dropsOf U (progs.map calls), v ∉ e.elems) :
    ∃ d : Int, (hgDegree v s).1 = .ok d ∧ (hgDegree v (reopen τ.db true)).1 = .ok d := by
  have z : ∀ l : List (Val F), (∀ e ∈ l, v ∉ e.elems) → occurrences v l = 0 := by
    intro l hl
    induction l with
    | nil => rfl
    | cons e l ih =>
      rw [occurrences_cons, ih fun x hx => hl x (by simp [hx]), List.count_eq_zero.2 (hl e (by simp))]
  have z1 := z _ h1
  have z2 := z _ h2
  obtain ⟨j1, _, j2, _⟩ := bounds_start hV hH.over (hH.sql hV) hv ha
  have hR := raced_start hV hH hp hU1 hU2 h hv ha (kn := false) (by simp)
  have r1 := hR.upper
  have r2 := hR.lower
  rw [z1] at r1
  rw [z2] at r2
  have : degRow v s.disk = degRow v τ.db := by
    by_cases hk : (Spec.after ops).known v = none
    · have : degRow v s.disk = 0 := unknown_degRow hV hH hv hk
      omega
    · have r3 := (raced_start hV hH hp hU1 hU2 h hv ha (kn := true) fun _ => hk).known rfl
      rw [z2] at r3
      omega
  exact ⟨_, (j1 _).2 rfl, by rw [this]; exact degree_here v τ.db true⟩

/-! ### clients that only add -/

theorem tab_sum (v : Val F) (gs : List (Tab F)) :
    occurrences v (gs.flatMap Tab.own) ≤ (gs.map fun g => g.paid + occurrences v g.own).sum := by
  induction gs with
  | nil => exact Nat.zero_le _
  | cons g gs ih =>
    rw [List.flatMap_cons, occurrences_append, List.map_cons, List.sum_cons]
    omega

theorem length_le_occurrences {v : Val F} {res : List (Val F)} (h : ∀ e ∈ res, v ∈ e.elems) : res.length ≤ occurrences v res := by
  induction res with
  | nil => simp
  | cons x res ih =>
    have h6 := ih fun e he => h e (by simp [he])
    have h7 := List.count_pos_iff.2 (h x (by simp))
    rw [occurrences_cons, List.length_cons]
    omega

theorem reach_tab (hV : Vocab V) {k : Nat} {v : Val F} {kn : Bool} (hv : WfVal v) (ha : v.isAtom = true) {db : DB}
    (hI : TabI V v kn db) (h0 : RowWith V v db → 1 ≤ degRow v db) {progs : List (List (PCall F))}
    (ho : ∀ p ∈ progs, ∀ c ∈ p, c.Over V) (hno : ∀ p ∈ progs, ∀ x, ¬ Program.Removes (calls p) x) {τ : Sys}
    (h : (Sys.startMy k db progs).Reach τ) :
    TabI V v kn τ.db ∧ (RowWith V v τ.db → 1 ≤ degRow v τ.db) ∧
      ∃ D : List (Val F), (kn = true → degRow v db + (occurrences v D : Nat) ≤ degRow v τ.db) ∧
        ∀ x, EdgeOver V x → ∀ n, HasRow τ.db.perms x n → HasRow db.perms x n ∨ x ∈ D := by
  obtain ⟨gs, hlen, ⟨j1, j2, j3, j4, j5, j6⟩, hk⟩ := h.kept (I := TabI V v kn) (R := TabR V v kn)
    (E := fun _ _ => True) (Q := fun _ _ => True)
    (Inv := fun d (gs : List (Tab F)) => TabI V v kn d ∧ (1 ≤ degRow v db → 1 ≤ degRow v d) ∧
      (kn = true → degRow v db + (((gs.map fun g => g.paid + occurrences v g.own).sum : Nat) : Int) ≤ degRow v d) ∧
      (∀ x n, EdgeOver V x → HasRow d.perms x n → HasRow db.perms x n ∨ ∃ g ∈ gs, x ∈ g.own) ∧
      (∀ g ∈ gs, g.pos = true → 1 ≤ degRow v d) ∧ ∀ g ∈ gs, ∀ x ∈ g.own, v ∈ x.elems → 1 ≤ degRow v d)
    (gs := progs.map fun _ => ⟨0, [], false⟩) (by simp [Sys.startMy])
    (by
      have e1 : ((progs.map fun _ => (⟨0, [], false⟩ : Tab F)).map fun g => g.paid + occurrences v g.own).sum = 0 := by
        rw [List.map_map]
        exact zero_sum progs
      rw [e1]
      refine ⟨hI, id, fun _ => Int.le_of_eq (Int.add_zero _), fun _ _ _ h => .inl h, ?_, ?_⟩
      · intro g hg
        obtain ⟨_, _, rfl⟩ := List.mem_map.1 hg
        simp
      · intro g hg
        obtain ⟨_, _, rfl⟩ := List.mem_map.1 hg
        simp)
    (by
      intro i p g hi hg
      obtain ⟨prog, h1, rfl⟩ := startMy_proc hi
      have hm := List.mem_of_getElem? h1
      exact Conn.Keeps.auto tab_refl (tidy_client hV ⟨db, hI⟩ hv ha (ho prog hm) (fun a ha' x hr => hno prog hm x ⟨a, ha', hr⟩)
        trivial g))
    (fun d gs hi => hi.1)
    (by
      rintro d d' gs i g g' ⟨j1, j2, j3, j4, j5, j6⟩ hg ⟨r1, r2, r3, r4, r5, r6, r7⟩
      have e1 := sum_set_nat (l := gs.map fun g => g.paid + occurrences v g.own) (i := i) (c := g.paid + occurrences v g.own)
        (d := g'.paid + occurrences v g'.own) (by rw [List.getElem?_map, hg]; rfl)
      have hil : i < gs.length := (List.getElem?_eq_some_iff.1 hg).1
      have hgm := List.mem_of_getElem? hg
      have hmem : ∀ x ∈ gs, x = g ∨ x ∈ gs.set i g' := by
        intro x hx
        obtain ⟨j, hj, rfl⟩ := List.getElem_of_mem hx
        by_cases hji : i = j
        · subst hji
          left
          rw [List.getElem?_eq_getElem hj] at hg
          exact Option.some.inj hg
        · right
          rw [List.mem_iff_getElem]
          exact ⟨j, by simpa using hj, by rw [List.getElem_set_ne hji]⟩
      have hg' : g' ∈ gs.set i g' := List.mem_set hil _
      rw [List.map_set]
      refine ⟨r1, fun h => r2 (j2 h), fun hk => by have := j3 hk; have := r3 hk; omega, ?_, ?_, ?_⟩
      · intro x n hx hr
        rcases r5 x n hx hr with hr | hr
        · rcases j4 x n hx hr with hr | ⟨y, hy, hxy⟩
          · exact .inl hr
          · rcases hmem y hy with rfl | hy
            · exact .inr ⟨g', hg', r4 x hxy⟩
            · exact .inr ⟨y, hy, hxy⟩
        · exact .inr ⟨g', hg', hr⟩
      · intro y hy hpos
        rcases List.mem_or_eq_of_mem_set hy with hy | rfl
        · exact r2 (j5 y hy hpos)
        · exact (r6 hpos).elim (fun h => r2 (j5 g hgm h)) id
      · intro y hy x hx hm
        rcases List.mem_or_eq_of_mem_set hy with hy | rfl
        · exact r2 (j6 y hy x hx hm)
        · rcases r7 x hx with h | h
          · exact r2 (j6 g hgm x h hm)
          · exact r2 (j5 g hgm (h hm)))
  refine ⟨j1, ?_, gs.flatMap Tab.own, fun hk => ?_, fun x hx n hr => (j4 x n hx hr).imp id fun ⟨g, h1, h2⟩ => List.mem_flatMap.2 ⟨g, h1, h2⟩⟩
  · rintro ⟨x, n, hx, hm, hr⟩
    rcases j4 x n hx hr with hr | ⟨g, h1, h2⟩
    · exact j2 (h0 ⟨x, n, hx, hm, hr⟩)
    · exact j6 g h1 x h2 hm
  · have := j3 hk
    have hle : occurrences v (gs.flatMap Tab.own) ≤ (gs.map fun g => g.paid + occurrences v g.own).sum := tab_sum v gs
    omega

theorem tab_start (hV : Vocab V) {k : Nat} {ops : List (Op F)} {s : St} (hH : MyHistory V k ops s) {v : Val F} (hv : WfVal v)
    (ha : v.isAtom = true) {kn : Bool} (hk : kn = true → (Spec.after ops).known v ≠ none) :
    TabI V v kn s.disk ∧ (RowWith V v s.disk → 1 ≤ degRow v s.disk) := by
  obtain ⟨_, k1, k2, l, k3, k4⟩ := bounds_start hV hH.over (hH.sql hV) hv ha
  refine ⟨⟨k1, k2, fun h => known_start hV hH.over (hH.sql hV) hv (hk h)⟩, ?_⟩
  rintro ⟨x, n, hx, hm, hr⟩
  have := occurrences_pos (v := v) (k4 x hx n hr) hm
  omega

/-- C90: if the clients only add, then at every moment no degree is negative, and as soon as an edge with the symbol in it exists, or
its star shows one, its degree is positive. -/
theorem C90_positive (hV : Vocab V) (k : Nat) (ops : List (Op F)) (s : St) (hH : MyHistory V k ops s)
    (progs : List (List (PCall F))) (hp : ∀ p ∈ progs, ∀ c ∈ p, c.Over V) (hno : ∀ p ∈ progs, ∀ x, ¬ Program.Removes (calls p) x)
    (τ : Sys) (h : (Sys.startMy k s.disk progs).Reach τ) (v : Val F) (hv : V v) (ha : v.isAtom = true) :
    ∃ d : Int, (hgDegree v (reopen τ.db true)).1 = .ok d ∧ 0 ≤ d ∧
      ((∃ e, EdgeOver V e ∧ v ∈ e.elems ∧ (hgExists e (reopen τ.db true)).1 = .ok true) → 1 ≤ d) ∧
      ((hgStar v (reopen τ.db true)).1 ≠ .ok [] → 1 ≤ d) := by
  obtain ⟨k1, k2⟩ := tab_start hV hH (hV.wf v hv) ha (kn := false) (by simp)
  obtain ⟨j1, j2, _⟩ := reach_tab hV (hV.wf v hv) ha k1 k2 hp hno h
  have hF := foundIn_rows hV (P := fun x => ∃ n, HasRow τ.db.perms x n) (K := fun _ => False) true j1.1
    (fun x n _ hr => ⟨n, hr⟩) (by simp)
  refine ⟨_, degree_here v τ.db true, j1.2.1, ?_, ?_⟩
  · rintro ⟨e, he, hm, hx⟩
    obtain ⟨b, q1, q2, _⟩ := hF.ex e he
    rw [hx] at q1
    injection q1 with q1
    obtain ⟨n, hn⟩ := q2 q1.symm
    exact j2 ⟨e, n, he, hm, hn⟩
  · intro hne
    obtain ⟨res, q1, _, q3, _⟩ := hF.star v hv ha
    cases res with
    | nil => exact absurd q1 hne
    | cons x res =>
      obtain ⟨p1, p2, n, p3⟩ := q3 x (by simp)
      exact j2 ⟨x, n, p1, p2, p3⟩

/-- C90: if the clients only add, the degree of a symbol that the graph knew when they started is never too small: it is at least
the number of its occurrences in the edges that exist, and at least the size of its star. -/
theorem C90_never_below (hV : Vocab V) (k : Nat) (ops : List (Op F)) (s : St) (hH : MyHistory V k ops s)
    (progs : List (List (PCall F))) (hp : ∀ p ∈ progs, ∀ c ∈ p, c.Over V) (hno : ∀ p ∈ progs, ∀ x, ¬ Program.Removes (calls p) x)
    (τ : Sys) (h : (Sys.startMy k s.disk progs).Reach τ) (v : Val F) (hv : V v) (ha : v.isAtom = true)
    (hk : (Spec.after ops).known v ≠ none) :
    ∃ d : Int, (hgDegree v (reopen τ.db true)).1 = .ok d ∧
      (∀ l : List (Val F), l.Nodup →
        (∀ e ∈ l, EdgeOver V e ∧ (hgExists e (reopen τ.db true)).1 = .ok true) → (occurrences v l : Nat) ≤ d) ∧
      ∃ res, (hgStar v (reopen τ.db true)).1 = .ok res ∧ (res.length : Int) ≤ d := by
  have hw := hV.wf v hv
  obtain ⟨_, _, _, l, k3, k4⟩ := bounds_start hV hH.over (hH.sql hV) hw ha
  obtain ⟨k1, k2⟩ := tab_start hV hH hw ha (kn := true) fun _ => hk
  obtain ⟨j1, _, D, d1, d2⟩ := reach_tab hV hw ha k1 k2 hp hno h
  have d1 := d1 rfl
  have hF := foundIn_rows hV (P := fun x => ∃ n, HasRow τ.db.perms x n) (K := fun _ => False) true j1.1
    (fun x n _ hr => ⟨n, hr⟩) (by simp)
  have key : ∀ m : List (Val F), m.Nodup → (∀ e ∈ m, EdgeOver V e ∧ ∃ n, HasRow τ.db.perms e n) →
      ((occurrences v m : Nat) : Int) ≤ degRow v τ.db := by
    intro m hm hme
    have : occurrences v m ≤ occurrences v (l ++ D) := by
      refine occurrences_le hm fun x hx => ?_
      obtain ⟨hxe, n, hn⟩ := hme x hx
      rw [List.mem_append]
      exact (d2 x hxe n hn).imp (k4 x hxe n) id
    rw [occurrences_append] at this
    omega
  refine ⟨_, degree_here v τ.db true, ?_, ?_⟩
  · refine fun m hm hme => key m hm fun e he => ⟨(hme e he).1, ?_⟩
    obtain ⟨b, q1, q2, _⟩ := hF.ex e (hme e he).1
    rw [(hme e he).2] at q1
    injection q1 with q1
    exact q2 q1.symm
  · obtain ⟨res, q1, q2, q3, _⟩ := hF.star v hv ha
    refine ⟨res, q1, ?_⟩
    have h4 := key res q2 fun e he => ⟨(q3 e he).1, (q3 e he).2.2⟩
    have h5 : res.length ≤ occurrences v res := length_le_occurrences fun e he => (q3 e he).2.1
    omega

/-! ### the bounds are attained -/

theorem exShare_disk {s : St} (hH : MyHistory PlainVocab 250 exShareOps s) : s.disk = exShareDB := by
  have : s = (runOps exShareOps (St.new true)).2 := by rw [hH.sql plainVocab]
  rw [this]
  decide +kernel

/-- C90: the bounds cannot be improved.  Two clients add the same edge, of symbols with the degree 1: both count, and one of them raises.
Two clients remove the same edge: both count its symbols down, and the degree of a symbol is negative. -/
theorem C90_tight : ∃ s, MyHistory PlainVocab 250 exShareOps s ∧ (hgDegree (sy "is") s).1 = .ok 1 ∧
    (occurrences (sy "is") (addsOf ([[PCall.one (.add exMyA 5)], [.one (.add exMyA 6)]].map calls)) = 2 ∧
      ∃ τ, (Sys.startMy 250 s.disk [[PCall.one (.add exMyA 5)], [.one (.add exMyA 6)]]).Reach τ ∧
        τ.results = [some (.ok ()), some (.error .integrityError)] ∧ (hgDegree (sy "is") (reopen τ.db true)).1 = .ok 3) ∧
    occurrences (sy "is") (dropsOf [exShareA] (exTwiceCalls.map calls)) = 2 ∧
      ∃ τ, (Sys.startMy 250 s.disk exTwiceCalls).Reach τ ∧ τ.results = [some (.ok ()), some (.ok ())] ∧
        (hgDegree (sy "is") (reopen τ.db true)).1 = .ok (-1) := by
  obtain ⟨s, hs⟩ := exMy_history
  have hd := exShare_disk hs
  have h0 : (hgDegree (sy "is") s).1 = .ok 1 := by
    rw [show s = (runOps exShareOps (St.new true)).2 by rw [hs.sql plainVocab]]
    decide +kernel
  refine ⟨s, hs, h0, ⟨by decide +kernel, ?_⟩, by decide +kernel, ?_⟩
  · obtain ⟨τ, h1, h2, h3, h4⟩ := reach_results
      (σ := Sys.startMy 250 exShareDB [[PCall.one (.add exMyA 5)], [.one (.add exMyA 6)]])
      ([0, 1, 0, 1, 0, 1, 0, 1, 0, 1, 0, 1, 0, 1] ++ List.replicate 10 0)
      (db := ⟨[⟨lit "is", 3, 1⟩, ⟨lit "a", 3, 1⟩, ⟨lit "(is a)", 0, 1⟩, ⟨lit "(a is)", 0, 5⟩],
        [lit "is a 0", lit "a is 1", lit "a is 0", lit "is a 1"]⟩)
      (rs := [.ok (), .error .integrityError]) (by decide +kernel) (by decide +kernel)
    exact ⟨τ, by rw [hd]; exact h1, h3, by rw [h4]; decide +kernel⟩
  · obtain ⟨τ, h1, h2, h3, h4⟩ := reach_results (σ := Sys.startMy 250 exShareDB exTwiceCalls)
      ([0, 1, 1] ++ List.replicate 40 0 ++ List.replicate 40 1)
      (db := ⟨[⟨lit "is", -1, 1⟩, ⟨lit "a", -1, 1⟩], []⟩)
      (rs := [.ok (), .ok ()]) (by decide +kernel) (by decide +kernel)
    exact ⟨τ, by rw [hd]; exact h1, h3, by rw [h4]; decide +kernel⟩

/-- `C90_never_below` is false of a symbol that is new: two clients add different edges to an empty graph, with a common symbol.
Both find that it is new; the second overwrites the degree that the first wrote.  Both succeed, both edges exist, and the degree
of the common symbol is 1. -/
theorem C90_lost_count_counterexample :
    ∃ τ, (Sys.startMy 250 DB.empty [[PCall.one (.add exMyA 1)], [.one (.add exMyB 2)]]).Reach τ ∧
      τ.results = [some (.ok ()), some (.ok ())] ∧ (hgExists exMyA (reopen τ.db true)).1 = .ok true ∧
      (hgExists exMyB (reopen τ.db true)).1 = .ok true ∧ (hgDegree (sy "is") (reopen τ.db true)).1 = .ok 1 := by
  refine ⟨(Sys.startMy 250 DB.empty [[PCall.one (.add exMyA 1)], [.one (.add exMyB 2)]]).turns
    ([1, 1, 1, 1, 1] ++ List.replicate 30 0 ++ List.replicate 30 1), Sys.turns_reach _ _, ?_, ?_, ?_, ?_⟩ <;> decide +kernel

/-- `C90_added` is about `exists` only: a client returned from adding an edge, which exists and which nobody removes, but `star` of a
symbol of the edge does not return it, because the client that is adding the same edge did not come far enough (and may never do). -/
theorem C90_added_star_counterexample : ∃ s, MyHistory PlainVocab 250 exShareOps s ∧
    ∃ τ, (Sys.startMy 250 s.disk [[PCall.one (.add exMyA 5)], [.one (.add exMyA 6)]]).Reach τ ∧
      τ.results = [none, some (.ok ())] ∧ (hgExists exMyA (reopen τ.db true)).1 = .ok true ∧
      (hgStar (sy "a") (reopen τ.db true)).1 = .ok [exShareA, exMyA] ∧ (hgStar (sy "is") (reopen τ.db true)).1 = .ok [exShareA] := by
  obtain ⟨s, hs⟩ := exMy_history
  have hd := exShare_disk hs
  refine ⟨s, hs, (Sys.startMy 250 exShareDB [[PCall.one (.add exMyA 5)], [.one (.add exMyA 6)]]).turns
    ([0, 0, 0, 0, 0, 0, 0] ++ List.replicate 10 1), by rw [hd]; exact Sys.turns_reach _ _, ?_, ?_, ?_, ?_⟩ <;> decide +kernel

/-- The hypotheses of the theorems are met by three clients of which two remove the same edge and one adds another with a symbol
in common: in the end no one raised, the new edge is returned by the queries, only it can be, and the degree of the common symbol is
between -1 and 2. -/
example : ∃ s, MyHistory PlainVocab 250 exShareOps s ∧ ∃ τ, (Sys.startMy 250 s.disk exMixedCalls).Reach τ ∧
    (∀ p ∈ τ.procs, p = .ret (.ok ())) ∧ ¬ Endangered exMixedCalls exShareB ∧ Endangered exMixedCalls exShareA ∧
    (∃ res, (hgStar (sy "is") (reopen τ.db true)).1 = .ok res ∧ exShareB ∈ res) ∧
    ∃ d : Int, (hgDegree (sy "is") (reopen τ.db true)).1 = .ok d ∧ -1 ≤ d ∧ d ≤ 2 := by
  have hV : Vocab (PlainVocab (F := Half)) := plainVocab
  have hp : ∀ p ∈ exMixedCalls, ∀ c ∈ p, c.Over PlainVocab := by
    have h3 : EdgeOver PlainVocab exShareB := edge_of (by decide +kernel)
    intro p hp c hc
    rcases List.mem_append.1 hp with hp | hp
    · exact exTwiceCalls_over p hp c hc
    · simp only [List.mem_cons, List.not_mem_nil, or_false] at hp
      subst hp
      simp only [List.mem_cons, List.not_mem_nil, or_false] at hc
      subst hc
      exact h3
  obtain ⟨s, hs⟩ := exMy_history
  have hd := exShare_disk hs
  have h0 : (hgDegree (sy "is") s).1 = .ok 1 := by
    rw [show s = (runOps exShareOps (St.new true)).2 by rw [hs.sql plainVocab]]
    decide +kernel
  obtain ⟨τ, h1, h2, h3, _⟩ := reach_results (σ := Sys.startMy 250 exShareDB exMixedCalls)
    ([0, 1, 1, 2, 2] ++ List.replicate 40 0 ++ List.replicate 40 1 ++ List.replicate 40 2)
    (rs := [.ok (), .ok (), .ok ()]) rfl (by decide +kernel)
  rw [← hd] at h1
  have hok : ∀ p ∈ τ.procs, p = .ret (.ok ()) := by
    intro p hp'
    obtain ⟨r, rfl⟩ := h2 p hp'
    have : some r ∈ τ.results := List.mem_map.2 ⟨_, hp', rfl⟩
    rw [h3] at this
    simp at this
    rw [this]
  have hU1 : ∀ x, (Spec.after exShareOps).Present x → x ∈ [exShareA, exShareB] := by
    intro x hx
    have : (Spec.after exShareOps).created x = ((Spec.empty : Spec Half).add exShareA 1).created x := rfl
    unfold Spec.Present at hx
    rw [this] at hx
    by_cases h1 : x = exShareA
    · simp [h1]
    · simp [Spec.add, Spec.empty, h1] at hx
  have hU2 : ∀ x ∈ addsOf (exMixedCalls.map calls), x ∈ [exShareA, exShareB] := by decide +kernel
  have hend : ¬ Endangered exMixedCalls exShareB := by
    rintro ⟨p, hp, a, ha, hr⟩
    simp only [exMixedCalls, exTwiceCalls, List.cons_append, List.nil_append, List.mem_cons, List.not_mem_nil, or_false] at hp
    rcases hp with rfl | rfl | rfl <;> simp only [calls, PCall.acts, List.flatMap_cons, List.flatMap_nil, List.append_nil,
      List.mem_singleton] at ha <;> subst ha
    · have hr : exShareB = exShareA := hr
      exact absurd hr (by decide +kernel)
    · have hr : Matches [.none, sy "a"] exShareB.elems := hr
      exact absurd hr (by decide +kernel)
    · exact hr
  refine ⟨s, hs, τ, h1, hok, hend, ⟨_, List.mem_cons_self .., .remove exShareA, by simp [calls, PCall.acts], rfl⟩, ?_, ?_⟩
  · obtain ⟨res, e1, _, _, e4⟩ := (C90_finished hV 250 exShareOps s hs exMixedCalls hp τ h1 hok).star (sy "is")
      (plain_of (by decide +kernel)) rfl
    refine ⟨res, e1, e4 exShareB (edge_of (by decide +kernel)) (by decide +kernel) ⟨.inr ⟨[.one (.add exShareB 3)], ?_, ?_⟩, hend⟩⟩
    · simp [exMixedCalls]
    · simp [calls, PCall.acts, PAct.adds]
  · obtain ⟨e0, d, e1, e2, e3⟩ := C90_lower_known hV 250 exShareOps s hs exMixedCalls hp _ hU1 hU2 τ h1 (sy "is")
      (plain_of (by decide +kernel)).1 rfl (by decide +kernel)
    obtain ⟨e0', d', e1', e2', e3'⟩ := C90_upper hV 250 exShareOps s hs exMixedCalls hp τ h1 (sy "is")
      (plain_of (by decide +kernel)).1 rfl
    rw [e2] at e2'
    injection e2' with e2'
    rw [h0] at e1 e1'
    injection e1 with e1
    injection e1' with e1'
    have o1 : occurrences (sy "is") (dropsOf [exShareA, exShareB] (exMixedCalls.map calls)) = 2 := by decide +kernel
    have o2 : occurrences (sy "is") (addsOf (exMixedCalls.map calls)) = 1 := by decide +kernel
    rw [o1] at e3
    rw [o2] at e3'
    exact ⟨d, e2, by omega, by omega⟩

/-- Two clients of the database of `exShareOps` that add the same edge. -/
def exRace : Sys := Sys.startMy 250 exShareDB [[PCall.one (.add exMyA 5)], [.one (.add exMyA 6)]]

/-- The hypotheses of `C90_never_below` are met by two clients that add the same edge, at a moment when one of them has written one
row of it and the other has raised nothing yet: both edges exist, and the degree of the symbol is at least 2. -/
example : ∃ s, MyHistory PlainVocab 250 exShareOps s ∧
    ∃ τ, (Sys.startMy 250 s.disk [[PCall.one (.add exMyA 5)], [.one (.add exMyA 6)]]).Reach τ ∧
      (hgExists exMyA (reopen τ.db true)).1 = .ok true ∧ ∃ d : Int, (hgDegree (sy "is") (reopen τ.db true)).1 = .ok d ∧ 2 ≤ d := by
  have hV : Vocab (PlainVocab (F := Half)) := plainVocab
  obtain ⟨s, hs⟩ := exMy_history
  have hd := exShare_disk hs
  have hAe : EdgeOver PlainVocab exMyA := edge_of (by decide +kernel)
  have hSe : EdgeOver PlainVocab exShareA := edge_of (by decide +kernel)
  have hp : ∀ p ∈ [[PCall.one (.add exMyA 5)], [.one (.add exMyA 6)]], ∀ c ∈ p, c.Over PlainVocab := by
    intro p hp c hc
    simp only [List.mem_cons, List.not_mem_nil, or_false] at hp
    rcases hp with rfl | rfl <;> simp only [List.mem_cons, List.not_mem_nil, or_false] at hc <;> subst hc <;> exact hAe
  have hno : ∀ p ∈ [[PCall.one (.add exMyA 5)], [.one (.add exMyA 6)]], ∀ x, ¬ Program.Removes (calls p) x := by
    rintro p hp x ⟨a, ha, hr⟩
    simp only [List.mem_cons, List.not_mem_nil, or_false] at hp
    rcases hp with rfl | rfl <;> simp only [calls, PCall.acts, List.flatMap_cons, List.flatMap_nil, List.append_nil,
      List.mem_singleton] at ha <;> subst ha <;> exact hr
  have hr : (Sys.startMy 250 s.disk [[PCall.one (.add exMyA 5)], [.one (.add exMyA 6)]]).Reach (exRace.turns [0, 1, 0, 1, 0, 1, 0, 0, 0, 0, 0]) := by
    rw [hd]; exact Sys.turns_reach _ _
  have h1 : (hgExists exMyA (reopen (exRace.turns [0, 1, 0, 1, 0, 1, 0, 0, 0, 0, 0]).db true)).1 = .ok true := by decide +kernel
  have h2 : (hgExists exShareA (reopen (exRace.turns [0, 1, 0, 1, 0, 1, 0, 0, 0, 0, 0]).db true)).1 = .ok true := by decide +kernel
  obtain ⟨d, e1, e2, _⟩ := C90_never_below hV 250 exShareOps s hs _ hp hno _ hr (sy "is") (plain_of (by decide +kernel)) rfl
    (by decide +kernel)
  have e3 := e2 [exMyA, exShareA] (by decide +kernel) (by
    intro e he
    simp only [List.mem_cons, List.not_mem_nil, or_false] at he
    rcases he with rfl | rfl
    · exact ⟨hAe, h1⟩
    · exact ⟨hSe, h2⟩)
  have e4 : occurrences (sy "is") [exMyA, exShareA] = 2 := by decide +kernel
  rw [e4] at e3
  exact ⟨s, hs, _, hr, h1, d, e1, e3⟩

end GB
