import Verif.Proofs.ConcAlone

/-! Some of the processes stop for good in the middle of their programs. -/

set_option linter.unusedSectionVars false
set_option linter.unusedVariables false

namespace GB

variable {F : Type} [PyFloat F] [DecidableEq F] {V : Val F → Prop} {P : Val F → Prop}

theorem get_alive {alive killed : List (Program F)} {i : Nat} {p : Program F} (h : (alive ++ killed)[i]? = some p) :
    (i < alive.length ∧ alive[i]? = some p) ∨ p ∈ killed := by
  by_cases hi : i < alive.length
  · rw [List.getElem?_append_left hi] at h
    exact .inl ⟨hi, h⟩
  · rw [List.getElem?_append_right (by omega)] at h
    exact .inr (List.mem_of_getElem? h)

/-- The rows of the edges that the stopped processes do not touch. -/
theorem rows_killed (hV : Vocab V) {db : DB} (hI : IndexOf V P db) (hP : ∀ x, P x → EdgeOver V x) {alive killed : List (Program F)}
    (hp : ∀ p ∈ alive ++ killed, ∀ a ∈ p, a.op.Over V) (hind : Independent alive) {τ : Sys}
    (h : (Sys.start db (alive ++ killed)).Reach τ) (hf : FirstDone alive.length τ) {x : Val F} (hx : EdgeOver V x)
    (hun : ∀ p ∈ killed, ¬ Program.Touches p x)
    (hsee : ∀ p ∈ alive, ∀ q ∈ killed, ∀ y, p.Sees y → ¬ q.Touches y) (n : Nat) :
    HasRow τ.db.perms x n ↔ afterAll alive.flatten P x ∧ n < factorial x.elems.length := by
  by_cases ht : ∃ p ∈ alive, Program.Touches p x
  · obtain ⟨p, hpm, hpt⟩ := ht
    obtain ⟨i, hi⟩ := List.getElem?_of_mem hpm
    have hil : i < alive.length := (List.getElem?_eq_some_iff.1 hi).1
    have hi' : (alive ++ killed)[i]? = some p := by rw [List.getElem?_append_left hil]; exact hi
    by_cases hown : ∀ (j : Nat) (q : Program F), alive[j]? = some q → j ≠ i → ¬ q.Touches x
    · have hs : ∀ (j : Nat) (q : Program F), alive[j]? = some q → j ≠ i → ∀ y, p.Sees y → ¬ q.Touches y :=
        fun j q hj hji y hy hq => (hind j i q p hj hi hji y hq).2 hy
      rw [rows_owned hV hI hP hp h hx hi' (fun q hq => hf i q hil hq), all_flatten hi hown hs]
      · intro j q hj hji hq
        rcases get_alive hj with ⟨_, hj⟩ | hj
        · exact hown j q hj hji hq
        · exact hun q hj hq
      · intro j q hj hji y hy
        rcases get_alive hj with ⟨_, hj⟩ | hj
        · exact hs j q hj hji y hy
        · exact hsee p hpm q hj y hy
    · have hr : ∀ p ∈ alive, ¬ p.Removes x := by
        intro r hrm hrr
        obtain ⟨k, hk⟩ := List.getElem?_of_mem hrm
        by_cases hki : i = k
        · subst hki
          apply hown
          intro j q hj hji hq
          exact (hind j i q r hj hk hji x hq).1 hrr
        · exact (hind i k p r hi hk hki x hpt).1 hrr
      have hr' : ∀ p ∈ alive ++ killed, ¬ p.Removes x := by
        intro p hp hrm
        rcases List.mem_append.1 hp with hp | hp
        · exact hr p hp hrm
        · exact hun p hp (program_removes hrm)
      have hall : afterAll alive.flatten P x := by
        refine all_kept ?_ (.inr (touches_flatten.2 ⟨p, hpm, hpt⟩))
        rintro ⟨a, ha, h⟩
        obtain ⟨q, hq, ha⟩ := List.mem_flatten.1 ha
        exact hr q hq ⟨a, ha, h⟩
      refine ⟨fun h' => ⟨hall, h'.1⟩, fun h' => ?_⟩
      refine rows_shared hV hI hp h ?_ hx hr' ⟨p, List.mem_append.2 (.inl hpm), hpt⟩ n h'.2
      intro j q hj hq pr hpr
      rcases get_alive hj with ⟨hj', _⟩ | hj
      · exact hf j pr hj' hpr
      · exact absurd hq (hun q hj)
  · have hun' : ∀ p ∈ alive ++ killed, ¬ Program.Touches p x := by
      intro p hp hpt
      rcases List.mem_append.1 hp with hp | hp
      · exact ht ⟨p, hp, hpt⟩
      · exact hun p hp hpt
    rw [rows_untouched hV hI.1 hp h hx hun', hI.2 x hx, all_untouched]
    rw [touches_flatten]
    exact ht

/-! ### degrees -/

theorem Proc.Safe.and {α : Type} {I : DB → Prop} {G H : DB → DB → Prop} {p : Proc α} (h1 : p.Safe I G)
    (h2 : p.Safe I H) : p.Safe I fun a b => G a b ∧ H a b := by
  induction p with
  | ret r => exact h1
  | tx u n ih =>
    exact fun db hI => ⟨(h1 db hI).1, ⟨(h1 db hI).2.1, (h2 db hI).2.1⟩, ih db (h1 db hI).2.2 (h2 db hI).2.2⟩

/-- The degree of `v` stays. -/
abbrev KeepDeg (v : Val F) : DB → DB → Prop := fun a b => degRow v b = degRow v a

variable {v : Val F}

theorem keep_exists (hV : Vocab V) {e : Val F} (he : EdgeOver V e) :
    (Proc.atom (existsM e)).Safe (CInv V (some v)) (KeepDeg v) := by
  refine Proc.Safe.atom fun db hI => ?_
  obtain ⟨b, h1, h2, _⟩ := here_exists hV hI.1 he
  exact ⟨b, db, h1, h2, hI, rfl⟩

theorem keep_inc {t : Str} (ht : edge2str v ≠ t) : (Proc.atom (incDegree t)).Safe (CInv V (some v)) (KeepDeg v) := by
  refine Proc.Safe.atom fun db hI => ⟨_, _, (here_inc db t).1, (here_inc db t).2, ?_, ?_⟩
  · exact ⟨hI.1, fun w hw => (degRow_bump (hI.2 w hw) 1 t).1⟩
  · have := (degRow_bump (hI.2 v rfl) 1 t).2
    rw [if_neg ht] at this
    show degRow v _ = degRow v db
    rw [this]; simp

theorem keep_dec {t : Str} (ht : edge2str v ≠ t) : (Proc.atom (decDegree t)).Safe (CInv V (some v)) (KeepDeg v) := by
  refine Proc.Safe.atom fun db hI => ⟨_, _, (here_dec db t).1, (here_dec db t).2, ?_, ?_⟩
  · exact ⟨hI.1, fun w hw => (degRow_bump (hI.2 w hw) (-1) t).1⟩
  · have := (degRow_bump (hI.2 v rfl) (-1) t).2
    rw [if_neg ht] at this
    show degRow v _ = degRow v db
    rw [this]; simp

theorem keep_addStr {t : Str} (ht : edge2str v ≠ t) (d ts : Int) :
    (Proc.atom (addStr t d ts)).Safe (CInv V (some v)) (KeepDeg v) := by
  refine Proc.Safe.atom fun db hI => ⟨_, _, (here_addStr db t d ts).1, (here_addStr db t d ts).2, ?_, ?_⟩
  · refine ⟨?_, fun w hw => (degRow_upsert (hI.2 w hw) d ts).1⟩
    rw [upsert_perms]; exact hI.1
  · exact (degRow_upsert (hI.2 v rfl) d ts).2 ht

theorem keep_removeStr {t : Str} (ht : edge2str v ≠ t) :
    (Proc.atom (removeStr t)).Safe (CInv V (some v)) (KeepDeg v) := by
  refine Proc.Safe.atom fun db hI => ⟨_, _, (here_removeStr db _).1, (here_removeStr db _).2, ?_, ?_⟩
  · exact ⟨hI.1, by rintro w ⟨⟩; exact (degRow_delete (hI.2 v rfl) ht).1⟩
  · exact (degRow_delete (hI.2 v rfl) ht).2

theorem keep_write {e : Val F} (he : EdgeOver V e) {n : Nat} (hn : n < factorial e.elems.length) :
    (Proc.atom (writeEdgePermutation (F := F) (rowOf e.elems n))).Safe (CInv V (some v)) (KeepDeg v) := by
  refine Proc.Safe.atom fun db hI => ⟨_, _, (here_write (F := F) db _).1, (here_write (F := F) db _).2, ?_, ?_⟩
  · exact ⟨rowsOk_upsert he hn hI.1, fun w hw => (known_of_vertices (upsertPerm_vertices _ _)).1.2 (hI.2 w hw)⟩
  · exact (known_of_vertices (upsertPerm_vertices _ _)).2

theorem keep_delete {t : Str} :
    (Proc.atom (removeEdgePermutation (F := F) t)).Safe (CInv V (some v)) (KeepDeg v) := by
  refine Proc.Safe.atom fun db hI => ⟨_, _, (here_delete (F := F) db _).1, (here_delete (F := F) db _).2, ?_, ?_⟩
  · exact ⟨rowsOk_delete hI.1, hI.2⟩
  · exact (known_of_vertices rfl).2

theorem keep_addVert (ts : Int) {x : Val F} (hx : edge2str v ≠ edge2str x) :
    (addVertP ts x).Safe (CInv V (some v)) (KeepDeg v) := by
  refine (keep_inc hx).bind fun b => ?_
  split
  · exact keep_addStr hx _ _
  · exact ⟨(), rfl⟩

theorem text_elem_ne (hV : Vocab V) (hv : WfVal v) {e : Val F} (he : EdgeOver V e) (hne : v ∉ e.elems) {x : Val F}
    (hx : x ∈ e.elems) : edge2str v ≠ edge2str x := by
  intro h
  have := edge2str_inj hv (hV.wf x (he.mem x hx)) h
  exact hne (this ▸ hx)

theorem chain_keep (hv : WfVal v) (ha : v.isAtom = true) {es : List (Val F)} (hne : ∀ e ∈ es, v ∉ e.elems) {db db' : DB}
    (h : Chain RawEff es db db') (hk : KnownRow v db) : KnownRow v db' ∧ degRow v db' = degRow v db := by
  induction es generalizing db with
  | nil => cases h; exact ⟨hk, rfl⟩
  | cons e es ih =>
    obtain ⟨b, h1, h2⟩ := h
    have hb : KnownRow v b ∧ degRow v b = degRow v db := by
      rcases h1 with ⟨_, rfl⟩ | ⟨_, h1⟩
      · exact ⟨hk, rfl⟩
      · have := h1.2.1 v hv ha hk
        rw [List.count_eq_zero.2 (hne e (by simp))] at this
        exact ⟨this.1, by rw [this.2]; simp⟩
    obtain ⟨i1, i2⟩ := ih (fun e he => hne e (by simp [he])) h2 hb.1
    exact ⟨i1, i2.trans hb.2⟩

theorem keep_addMany (hV : Vocab V) (hv : WfVal v) (ha : v.isAtom = true) (ts : Int) {es : List (Val F)}
    (hes : ∀ x ∈ es, EdgeOver V x) (hne : ∀ e ∈ es, v ∉ e.elems) :
    (addManyP ts es).Safe (CInv V (some v)) (KeepDeg v) := by
  induction es with
  | nil => exact ⟨(), rfl⟩
  | cons e es ih =>
    have he := hes e (by simp)
    have hes' : ∀ x ∈ es, EdgeOver V x := fun x hx => hes x (by simp [hx])
    refine (keep_exists hV he).bind fun b => ?_
    split
    · refine Proc.Safe.atom fun db hI => ?_
      obtain ⟨s', db1, db2, e1, d1, _, _, r1, r2, a1, c1⟩ := bulk_run hV he hes' ts db hI.1
      have h1 := a1.2.1 v hv ha (hI.2 v rfl)
      rw [List.count_eq_zero.2 (hne e (by simp))] at h1
      obtain ⟨o1, o2⟩ := chain_keep hv ha (fun x hx => hne x (by simp [hx])) c1 h1.1
      refine ⟨(), db2, by rw [e1], by rw [e1]; exact d1, ⟨r2, by rintro w ⟨⟩; exact o1⟩, ?_⟩
      show degRow v db2 = degRow v db
      rw [o2, h1.2]; simp
    · exact ih hes' (fun x hx => hne x (by simp [hx]))

theorem keep_add (hV : Vocab V) (hv : WfVal v) (ha : v.isAtom = true) {e : Val F} (he : EdgeOver V e) (hne : v ∉ e.elems)
    (ts : Int) : (addP e ts).Safe (CInv V (some v)) (KeepDeg v) := by
  refine (keep_exists hV he).bind fun b => ?_
  split
  · rw [iter_edge he]
    exact (Proc.Safe.each fun x hx => keep_addVert ts (text_elem_ne hV hv he hne hx)).bind fun _ =>
      (keep_addStr (atom_text_ne hV hv ha he) _ _).bind fun _ => safe_perms he fun n hn => keep_write he hn
  · exact ⟨(), rfl⟩

theorem keep_remove (hV : Vocab V) (hv : WfVal v) (ha : v.isAtom = true) {e : Val F} (he : EdgeOver V e)
    (hne : v ∉ e.elems) : (removeP e).Safe (CInv V (some v)) (KeepDeg v) := by
  refine (keep_exists hV he).bind fun b => ?_
  split
  · rw [iter_edge he]
    exact (Proc.Safe.each fun x hx => (keep_dec (text_elem_ne hV hv he hne hx)).bind fun _ =>
        Proc.Safe.done ()).bind fun _ =>
      (safe_perms he fun n hn => keep_delete).bind fun _ => keep_removeStr (atom_text_ne hV hv ha he)
  · exact ⟨(), rfl⟩

theorem keep_act (hV : Vocab V) (hv : WfVal v) (ha : v.isAtom = true) {a : PAct F} (ho : a.op.Over V)
    (hne : ∀ x, EdgeOver V x → a.Touches x → v ∉ x.elems) : a.proc.Safe (CInv V (some v)) (KeepDeg v) := by
  cases a with
  | addMany es ts =>
    show Proc.Safe _ _ (addAnyP (.seq true es) ts)
    rw [addAny_many ho.1 ho.2]
    exact keep_addMany hV hv ha ts ho.2 fun e he => hne e (ho.2 e he) he
  | add e ts =>
    show Proc.Safe _ _ (addAnyP e ts)
    rw [addAny_edge (V := V) ho]
    exact keep_add hV hv ha ho (hne e ho rfl) ts
  | remove e =>
    show Proc.Safe _ _ (removeAnyP e)
    rw [removeAny_edge (V := V) ho]
    exact keep_remove hV hv ha ho (hne e ho rfl)
  | removeMany es =>
    show Proc.Safe _ _ (removeAnyP (.seq true es))
    rw [removeAny_many (V := V) ho.1 ho.2]
    exact Proc.Safe.each fun e he => keep_remove hV hv ha (ho.2 e he) (hne e (ho.2 e he) he)
  | removeByPattern ps =>
    exact safe_byPattern (I := CInv V (some v)) (G := KeepDeg v) hV (fun db h => h.1) (fun _ => rfl) ho fun x hx hm => keep_remove hV hv ha hx (hne x hx hm)
  | addBelief src e ts =>
    have ho : BeliefOver V src e := ho
    rw [proc_addBelief ho]
    have hes : ∀ x ∈ [e, support e src], EdgeOver V x := by simpa using ⟨ho.edge, support_over ho⟩
    exact keep_addMany hV hv ha ts hes fun x hx => hne x (hes x hx) (by simpa [PAct.Touches] using hx)
  | addBeliefs src es ts =>
    rw [proc_addBeliefs ho.1 ho.2]
    exact keep_addMany hV hv ha ts (belief_pairs ho.2) fun x hx => hne x (belief_pairs ho.2 x hx) (mem_pairs.1 hx)
  | removeBelief src e =>
    have ho : BeliefOver V src e := ho
    refine safe_belief (I := CInv V (some v)) (G := KeepDeg v) hV (fun db h => h.1) (fun _ => rfl) ho ?_
    rintro x (rfl | rfl)
    · exact keep_remove hV hv ha ho.edge (hne _ ho.edge (.inl rfl))
    · exact keep_remove hV hv ha (support_over ho) (hne _ (support_over ho) (.inr rfl))

theorem keep_program (hV : Vocab V) (hv : WfVal v) (ha : v.isAtom = true) {prog : List (PAct F)}
    (ho : ∀ a ∈ prog, a.op.Over V) (hne : ∀ x, EdgeOver V x → Program.Touches prog x → v ∉ x.elems) :
    (programP prog).Safe (CInv V (some v)) (KeepDeg v) :=
  Proc.Safe.each fun a h => keep_act hV hv ha (ho a h) fun x he hx => hne x he ⟨a, h, hx⟩

/-- The degree of a symbol known from the start, when the stopped programs work on other edges, in which it does
not occur. -/
theorem degree_killed (hV : Vocab V) (hv : WfVal v) (ha : v.isAtom = true) {db : DB} (hI : IndexOf V P db)
    (hP : ∀ x, P x → EdgeOver V x) (hk : KnownRow v db) {alive killed : List (Program F)} (hp : ∀ p ∈ alive ++ killed, ∀ a ∈ p, a.op.Over V)
    (hind : Apart alive) (hun : ∀ p ∈ alive, ∀ q ∈ killed, ∀ x, p.Touches x ∨ p.Sees x → ¬ q.Touches x)
    (hne : ∀ q ∈ killed, ∀ x, EdgeOver V x → q.Touches x → v ∉ x.elems)
    {τ : Sys} (h : (Sys.start db (alive ++ killed)).Reach τ) (hf : FirstDone alive.length τ) :
    degRow v τ.db = degRow v db + gainAll (some v) P alive.flatten := by
  have hW : WOk (some v) := by rintro _ ⟨⟩; exact ⟨hv, ha⟩
  have hC : CInv V (some v) db := ⟨hI.1, by rintro _ ⟨⟩; exact hk⟩
  let O : Nat → Val F → Prop := fun i x => EdgeOver V x ∧ ∃ p, alive[i]? = some p ∧ (p.Touches x ∨ p.Sees x)
  have hO : ∀ i x, O i x → EdgeOver V x := fun i x h => h.1
  have hsafe : ∀ (i : Nat) (p : Proc Unit), (Sys.start db (alive ++ killed)).procs[i]? = some p →
      p.Safe (CInv V (some v)) fun a b => allowed V (alive ++ killed) i a b ∧ (alive.length ≤ i → KeepDeg v a b) := by
    intro i p hi
    have h1 := start_safe hV hW hp i p hi
    by_cases hil : i < alive.length
    · exact h1.mono fun a b h => ⟨h, fun h' => by omega⟩
    · obtain ⟨q, h2, rfl⟩ := start_proc hi
      rcases get_alive h2 with ⟨h3, _⟩ | h3
      · exact absurd h3 hil
      · exact (h1.and (keep_program hV hv ha (hp q (List.mem_append.2 (.inr h3))) (hne q h3))).mono
          fun a b h => ⟨h.1, fun _ => h.2⟩
  obtain ⟨cs, hl, hc, hq, hz⟩ := h.track (I := CInv V (some v))
    (st := fun j db => ownRows (O j) db) (cnt := watched (some v))
    (Q := fun j _ c => ∀ p, alive[j]? = some p → c = gainAll (some v) P p) hC hsafe (by
      intro j k hj hk hjk a b hab
      refine only_own (V := V) (fun y hy => ⟨hO j y hy, ?_⟩) hab.1
      obtain ⟨_, p, h1, h2⟩ := hy
      rintro ⟨q, h3, h4⟩
      rcases get_alive h3 with ⟨_, h3⟩ | h3
      · have := hind k j q p h3 h1 (fun h => hjk h.symm) y h4
        exact h2.elim this.1 this.2
      · exact hun p (List.mem_of_getElem? h1) q h3 y h2 h4) (by
      intro j p hj
      obtain ⟨q, h1, rfl⟩ := start_proc hj
      by_cases hjl : j < alive.length
      · have h1' : alive[j]? = some q := by rwa [List.getElem?_append_left hjl] at h1
        have h0 : ownRows (O j) (Sys.start db (alive ++ killed)).db = fullRows (O j) P := by
          funext y k
          unfold ownRows fullRows
          exact propext (and_congr_right fun hy => hI.2 _ (hO j y hy) k)
        rw [h0]
        refine (own_program hV hW (hO j) (hp q (List.mem_of_getElem? h1)) hP
          (fun x hx hs => ⟨hx, q, h1', .inr hs⟩) 0).mono ?_
        rintro _ S c ⟨_, h2⟩ p hp'
        rw [h1'] at hp'
        cases hp'
        rw [h2 fun x hx ht => ⟨hx, q, h1', .inl ht⟩]
        simp
      · refine (Proc.Safe.track (G := fun _ _ => True) ?_ ((hsafe j _ hj).mono fun _ _ _ => trivial)).mono ?_
        · intro a b _
          funext y k
          refine propext ⟨?_, ?_⟩ <;>
            · rintro ⟨⟨_, p, h2, _⟩, _⟩
              exact absurd (List.getElem?_eq_some_iff.1 h2).1 hjl
        · intro _ S c _ p h2
          exact absurd (List.getElem?_eq_some_iff.1 h2).1 hjl)
  have hlen := h.length
  have hl' : cs.length = alive.length + killed.length := by rw [hl, hlen]; simp [Sys.start]
  have : cs.sum = ((alive.map (gainAll (some v) P)) ++ List.replicate killed.length 0).sum := by
    refine sum_ext (by simpa using hl') ?_
    intro i c d hci hdi
    by_cases hil : i < alive.length
    · rw [List.getElem?_append_left (by simpa using hil), List.getElem?_map, List.getElem?_eq_getElem hil] at hdi
      cases hdi
      have hil' : i < τ.procs.length := by rw [← hl]; exact (List.getElem?_eq_some_iff.1 hci).1
      have hpr := List.getElem?_eq_getElem hil'
      obtain ⟨r, hr⟩ := hf i _ hil hpr
      have := hq i _ _ hpr hci
      rw [hr] at this
      obtain ⟨_, _, hS⟩ := this
      exact hS _ (List.getElem?_eq_getElem hil)
    · rw [List.getElem?_append_right (by simpa using hil), List.getElem?_replicate] at hdi
      split at hdi
      · cases hdi
        exact hz i c (fun a b h => h.2 (by omega)) hci
      · cases hdi
  rw [gainAll_flatten _ hind]
  have h2 : cs.sum = (alive.map (gainAll (some v) P)).sum := by rw [this]; simp
  rw [← h2]
  exact hc

end GB
