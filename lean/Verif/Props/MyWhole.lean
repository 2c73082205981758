import Verif.Props.MyEdges
import Verif.Proofs.MyWhole

/-!
Property C95: several clients of one MySQL database add the same edge, and some of them raise.
-/

set_option linter.unusedSectionVars false
set_option linter.unusedVariables false

namespace GB

variable {F : Type} [PyFloat F] [DecidableEq F] {V : Val F → Prop}

/-- Every query that should return the edge does. -/
structure Everywhere (V : Val F → Prop) (x : Val F) (s : St) : Prop where
  ex : (hgExists x s).1 = .ok true
  pattern : ∀ ps, PatternOver V ps → Matches ps x.elems → ∃ res, (hgPattern2edges (.tup ps) s).1 = .ok res ∧ x ∈ res
  star : ∀ c, V c → c.isAtom = true → c ∈ x.elems → ∃ res, (hgStar c s).1 = .ok res ∧ x ∈ res

/-- No query returns the edge. -/
structure Nowhere (V : Val F → Prop) (x : Val F) (s : St) : Prop where
  ex : (hgExists x s).1 = .ok false
  pattern : ∀ ps, PatternOver V ps → ∃ res, (hgPattern2edges (.tup ps) s).1 = .ok res ∧ x ∉ res
  star : ∀ c, V c → c.isAtom = true → ∃ res, (hgStar c s).1 = .ok res ∧ x ∉ res

theorem everywhere_rows (hV : Vocab V) {x : Val F} (hx : EdgeOver V x) {db : DB} (hR : RowsOk V db.perms)
    (h : ∀ n, n < factorial x.elems.length → HasRow db.perms x n) : Everywhere V x (reopen db true) := by
  have hF : FoundIn V (fun _ => True) (fun y => y = x) (reopen db true) :=
    foundIn_rows hV true hR (fun _ _ _ _ => trivial) fun y hy hk n hn => by subst hk; exact h n hn
  refine ⟨?_, fun ps hps hm => ?_, fun c hc hca hm => ?_⟩
  · obtain ⟨b, h1, _, h3⟩ := hF.ex x hx
    rw [h1, h3 rfl]
  · obtain ⟨res, h1, _, _, h4⟩ := hF.pattern ps hps
    exact ⟨res, h1, h4 x hx hm rfl⟩
  · obtain ⟨res, h1, _, _, h4⟩ := hF.star c hc hca
    exact ⟨res, h1, h4 x hx hm rfl⟩

theorem nowhere_rows (hV : Vocab V) {x : Val F} (hx : EdgeOver V x) {db : DB} (hR : RowsOk V db.perms)
    (h : ∀ n, ¬ HasRow db.perms x n) : Nowhere V x (reopen db true) := by
  have hF : FoundIn V (fun y => y ≠ x) (fun _ => False) (reopen db true) :=
    foundIn_rows hV true hR (fun y n _ hr he => h n (by rw [← he]; exact hr)) fun _ _ hk => hk.elim
  refine ⟨?_, fun ps hps => ?_, fun c hc hca => ?_⟩
  · obtain ⟨b, h1, h2, _⟩ := hF.ex x hx
    cases b with
    | true => exact absurd rfl (h2 rfl)
    | false => exact h1
  · obtain ⟨res, h1, _, h3, _⟩ := hF.pattern ps hps
    exact ⟨res, h1, fun hm => (h3 x hm).2.2 rfl⟩
  · obtain ⟨res, h1, _, h3, _⟩ := hF.star c hc hca
    exact ⟨res, h1, fun hm => (h3 x hm).2.2 rfl⟩

/-- What holds at every moment of the rows of an edge that nobody removes. -/
theorem whole_rows (hV : Vocab V) {k : Nat} {ops : List (Op F)} {s : St} (hH : MyHistory V k ops s)
    {progs : List (List (PCall F))} (hp : ∀ p ∈ progs, ∀ c ∈ p, c.Over V)
    (hf : ∀ p ∈ progs, ∀ e ∈ (calls p).flatMap PAct.adds, KeyFits k e) {τ : Sys} (h : (Sys.startMy k s.disk progs).Reach τ)
    {x : Val F} (hx : EdgeOver V x) (hD : ¬ Endangered progs x) :
    RowsOk V τ.db.perms ∧ ((∀ n, HasRow τ.db.perms x n ↔ HasRow s.disk.perms x n) ∨
      ∃ (i : Nat) (p : List (PCall F)) (m : Nat), progs[i]? = some p ∧ x ∈ (calls p).flatMap PAct.adds ∧
        (∀ n, HasRow τ.db.perms x n ↔ n < m) ∧ ((∃ r, τ.procs[i]? = some (.ret r)) → m = factorial x.elems.length)) := by
  have hI := myHistory_rows hV hH
  have hlens : ∀ r ∈ s.disk.perms, r.length ≤ k := by
    intro r hr
    obtain ⟨e, n, he, hn, rfl⟩ := hI.1 r hr
    exact hH.room.2 e ((hI.2 e he n).1 ⟨hn, hr⟩).1 _ (mem_rowsOf.2 ⟨n, hn, rfl⟩)
  have h0 : (∀ n, n < factorial x.elems.length → HasRow s.disk.perms x n) ∨ ∀ n, ¬ HasRow s.disk.perms x n := by
    by_cases hP : (Spec.after ops).Present x
    · exact .inl fun n hn => (hI.2 x hx n).2 ⟨hP, hn⟩
    · exact .inr fun n hn => hP ((hI.2 x hx n).1 hn).1
  obtain ⟨gs, hlen, ⟨j1, j2⟩, hk⟩ := h.runs (I := WholeI V k x)
    (R := fun i => WholeR V k x (∃ p, progs[i]? = some p ∧ x ∈ (calls p).flatMap PAct.adds)) (E := AtRest x)
    (Q := fun _ => AtRest x)
    (Inv := fun d gs => FitRows V k d.perms ∧
      (((∀ i m, gs[i]? = some m → m = 0) ∧ ∀ n, HasRow d.perms x n ↔ HasRow s.disk.perms x n) ∨
        ∃ i m, gs[i]? = some m ∧ 0 < m ∧ (∃ p, progs[i]? = some p ∧ x ∈ (calls p).flatMap PAct.adds) ∧
          (∀ j m', gs[j]? = some m' → j ≠ i → m' = 0) ∧ ∀ n, HasRow d.perms x n ↔ n < m))
    (gs := progs.map fun _ => 0) (by simp [Sys.startMy])
    (by
      refine ⟨⟨hI.1, hlens⟩, .inl ⟨fun i m hi => ?_, fun n => Iff.rfl⟩⟩
      rw [List.getElem?_map] at hi
      obtain ⟨_, _, rfl⟩ := Option.map_eq_some_iff.1 hi
      rfl)
    (by
      intro i p g hi hg
      obtain ⟨prog, h1, rfl⟩ := startMy_proc hi
      rw [List.getElem?_map, h1] at hg
      cases hg
      have hm := List.mem_of_getElem? h1
      exact Conn.Runs.auto whole_refl (whole_client hV hx (hp prog hm)
        (fun a ha e he => hf prog hm e (List.mem_flatMap.2 ⟨a, ha, he⟩))
        (fun a ha h => ⟨prog, h1, List.mem_flatMap.2 ⟨a, ha, h⟩⟩) (fun a ha h => hD ⟨prog, hm, a, ha, h⟩) (.inl rfl)))
    (by
      rintro d gs i m ⟨j1, j2⟩ hg
      refine ⟨j1, fun hm => ?_⟩
      rcases j2 with ⟨j2, _⟩ | ⟨i', m', q1, q2, q3, q4, q5⟩
      · have := j2 i m hg
        omega
      · by_cases hii : i = i'
        · subst hii
          rw [q1] at hg
          cases hg
          exact q5
        · have := q4 i m hg hii
          omega)
    (by
      rintro d d' gs i m m' ⟨j1, j2⟩ hg ⟨r1, r2⟩
      refine ⟨r1, ?_⟩
      rcases r2 with ⟨rfl, r2⟩ | ⟨rfl, r3, r4, r5, r6⟩
      · have hset : gs.set i m' = gs := by
          refine List.ext_getElem? fun j => ?_
          by_cases hij : i = j
          · subst hij
            rw [List.getElem?_set_self (List.getElem?_eq_some_iff.1 hg).1, hg]
          · rw [List.getElem?_set_ne hij]
        rw [hset]
        rcases j2 with ⟨j2, j3⟩ | ⟨i', m, q1, q2, q3, q4, q5⟩
        · exact .inl ⟨j2, fun n => (r2 n).trans (j3 n)⟩
        · exact .inr ⟨i', m, q1, q2, q3, q4, fun n => (r2 n).trans (q5 n)⟩
      · have hil : i < gs.length := (List.getElem?_eq_some_iff.1 hg).1
        right
        refine ⟨i, m + 1, List.getElem?_set_self hil, by omega, r4, fun j m' hj hne => ?_, fun n => ?_⟩
        · rw [List.getElem?_set_ne (Ne.symm hne)] at hj
          rcases j2 with ⟨j2, _⟩ | ⟨i', m1, q1, q2, q3, q4, q5⟩
          · exact j2 j m' hj
          · by_cases hii : i = i'
            · subst hii
              exact q4 j m' hj hne
            · have := q4 i m hg hii
              subst this
              exact absurd ((q5 0).2 q2) r5
        · rw [r6 n]
          rcases j2 with ⟨j2, j3⟩ | ⟨i', m1, q1, q2, q3, q4, q5⟩
          · have := j2 i m hg
            subst this
            have hno : ∀ n, ¬ HasRow d.perms x n := fun n hn => by
              rcases h0 with h0 | h0
              · exact r5 ((j3 0).2 (h0 0 r3))
              · exact h0 n ((j3 n).1 hn)
            exact ⟨fun h => h.elim (fun h => absurd h (hno n)) fun h => by omega, fun h => .inr (by omega)⟩
          · by_cases hii : i = i'
            · subst hii
              rw [q1] at hg
              cases hg
              rw [q5 n]
              omega
            · have := q4 i m hg hii
              subst this
              exact absurd ((q5 0).2 q2) r5)
  refine ⟨j1.1, ?_⟩
  rcases j2 with ⟨_, j2⟩ | ⟨i, m, q1, q2, ⟨p, q3, q3'⟩, q4, q5⟩
  · exact .inl j2
  · refine .inr ⟨i, p, m, q3, q3', q5, ?_⟩
    rintro ⟨r, hr⟩
    have hQ := hk i _ m hr q1
    have : AtRest x m := by
      cases r with
      | ok u => exact hQ
      | error e => exact hQ
    rcases this with rfl | h
    · omega
    · exact h

/-- C95: clients of one MySQL database add edges and remove edges (no matter which), and all edges fit the key.  If nobody is asked to
remove an edge, and every client that is asked to add it has come to an end, be it by returning or by an exception, then either
every query returns the edge, or none does. -/
theorem C95_whole (hV : Vocab V) (k : Nat) (ops : List (Op F)) (s : St) (hH : MyHistory V k ops s)
    (progs : List (List (PCall F))) (hp : ∀ p ∈ progs, ∀ c ∈ p, c.Over V)
    (hf : ∀ p ∈ progs, ∀ e ∈ (calls p).flatMap PAct.adds, KeyFits k e) (τ : Sys) (h : (Sys.startMy k s.disk progs).Reach τ)
    (x : Val F) (hx : EdgeOver V x) (hD : ¬ Endangered progs x)
    (hend : ∀ (i : Nat) (p : List (PCall F)), progs[i]? = some p → x ∈ (calls p).flatMap PAct.adds → ∃ r, τ.procs[i]? = some (.ret r)) :
    Everywhere V x (reopen τ.db true) ∨ Nowhere V x (reopen τ.db true) := by
  have hI := myHistory_rows hV hH
  obtain ⟨hR, h1 | ⟨i, p, m, h1, h2, h3, h4⟩⟩ := whole_rows hV hH hp hf h hx hD
  · by_cases hP : (Spec.after ops).Present x
    · exact .inl (everywhere_rows hV hx hR fun n hn => (h1 n).2 ((hI.2 x hx n).2 ⟨hP, hn⟩))
    · exact .inr (nowhere_rows hV hx hR fun n hn => hP ((hI.2 x hx n).1 ((h1 n).1 hn)).1)
  · exact .inl (everywhere_rows hV hx hR fun n hn => (h3 n).2 (by rw [h4 (hend i p h1 h2)]; exact hn))

/-- C95: and if one of them returned without an exception, every query returns the edge, even if all the others raised. -/
theorem C95_one_returned (hV : Vocab V) (k : Nat) (ops : List (Op F)) (s : St) (hH : MyHistory V k ops s)
    (progs : List (List (PCall F))) (hp : ∀ p ∈ progs, ∀ c ∈ p, c.Over V)
    (hf : ∀ p ∈ progs, ∀ e ∈ (calls p).flatMap PAct.adds, KeyFits k e) (τ : Sys) (h : (Sys.startMy k s.disk progs).Reach τ)
    (x : Val F) (hD : ¬ Endangered progs x)
    (hend : ∀ (i : Nat) (p : List (PCall F)), progs[i]? = some p → x ∈ (calls p).flatMap PAct.adds → ∃ r, τ.procs[i]? = some (.ret r))
    (i : Nat) (p : List (PCall F)) (hi : progs[i]? = some p) (hr : τ.Returned i) (a : PAct F) (ha : a ∈ calls p) (hxa : x ∈ a.adds) :
    Everywhere V x (reopen τ.db true) := by
  have hx : EdgeOver V x := adds_edge_over (over_calls hp (calls p) (List.mem_map_of_mem (List.mem_of_getElem? hi)) a ha) hxa
  rcases C95_whole hV k ops s hH progs hp hf τ h x hx hD hend with h1 | h1
  · exact h1
  · have h2 := h1.ex
    rw [C90_added hV k ops s hH progs hp τ h i p hi hr a ha x hxa hD] at h2
    cases h2

/-- C95: what is there at the start, and what nobody is asked to add, does not depend on the others at all. -/
theorem C95_untouched (hV : Vocab V) (k : Nat) (ops : List (Op F)) (s : St) (hH : MyHistory V k ops s)
    (progs : List (List (PCall F))) (hp : ∀ p ∈ progs, ∀ c ∈ p, c.Over V) (τ : Sys) (h : (Sys.startMy k s.disk progs).Reach τ)
    (x : Val F) (hx : EdgeOver V x) :
    ((Spec.after ops).Present x → ¬ Endangered progs x → Everywhere V x (reopen τ.db true)) ∧
    (¬ (Spec.after ops).Present x → ¬ Asked progs x → Nowhere V x (reopen τ.db true)) := by
  have hI := myHistory_rows hV hH
  have hT := my_traces hV hx hI.1 hp h
  exact ⟨fun hP hD => everywhere_rows hV hx hT.rows fun n hn => (hT.kept n ((hI.2 x hx n).2 ⟨hP, hn⟩)).resolve_right hD,
    fun hP hN => nowhere_rows hV hx hT.rows fun n hn => (hT.asked n hn).elim (fun h => hP ((hI.2 x hx n).1 h).1) hN⟩

/-! ### examples -/

/-- Two clients add the same edge. -/
def exRaceCalls : List (List (PCall Half)) := [[.one (.add exShareB 2)], [.one (.add exShareB 3)]]

/-- Two clients add different edges with a new symbol. -/
def exCollideCalls : List (List (PCall Half)) := [[.one (.add exShareB 2)], [.one (.add (.tup [sy "has", sy "b"]) 3)]]

theorem exRace_over : (∀ p ∈ exRaceCalls, ∀ c ∈ p, c.Over PlainVocab) ∧ ∀ p ∈ exCollideCalls, ∀ c ∈ p, c.Over PlainVocab := by
  have h1 : EdgeOver PlainVocab exShareB := edge_of (by decide +kernel)
  have h2 : EdgeOver PlainVocab (Val.tup [sy "has", sy "b"] : HVal) := edge_of (by decide +kernel)
  constructor <;> intro p hp <;>
    simp only [exRaceCalls, exCollideCalls, List.mem_cons, List.not_mem_nil, or_false] at hp <;>
    rcases hp with rfl | rfl <;> intro c hc <;> simp only [List.mem_cons, List.not_mem_nil, or_false] at hc <;> subst hc <;>
    first | exact h1 | exact h2

theorem exRace_fits : (∀ p ∈ exRaceCalls, ∀ e ∈ (calls p).flatMap PAct.adds, KeyFits 250 e) ∧
    ∀ p ∈ exCollideCalls, ∀ e ∈ (calls p).flatMap PAct.adds, KeyFits 250 e := by
  have h1 : KeyFits 250 exShareB := fits_of (by decide +kernel)
  have h2 : KeyFits 250 (Val.tup [sy "has", sy "b"] : HVal) := fits_of (by decide +kernel)
  constructor <;> intro p hp <;>
    simp only [exRaceCalls, exCollideCalls, List.mem_cons, List.not_mem_nil, or_false] at hp <;>
    rcases hp with rfl | rfl <;> intro c hc <;> simp [calls, PCall.acts, PAct.adds] at hc <;> subst hc <;>
    first | exact h1 | exact h2

theorem exRace_safe (x : HVal) : ¬ Endangered exRaceCalls x ∧ ¬ Endangered exCollideCalls x := by
  constructor <;> rintro ⟨p, hp, a, ha, hr⟩ <;>
    simp only [exRaceCalls, exCollideCalls, List.mem_cons, List.not_mem_nil, or_false] at hp <;>
    rcases hp with rfl | rfl <;> simp [calls, PCall.acts] at ha <;> subst ha <;> exact hr

theorem Sys.ended_of {τ : Sys} {rs : List (Except PyErr Unit)} (h : τ.results = rs.map some) {i : Nat} (hi : i < rs.length) :
    ∃ r, τ.procs[i]? = some (.ret r) := by
  have h1 : τ.results[i]? = some (some rs[i]) := by rw [h]; simp [List.getElem?_eq_getElem hi]
  unfold Sys.results at h1
  rw [List.getElem?_map] at h1
  obtain ⟨q, hq, h2⟩ := Option.map_eq_some_iff.1 h1
  cases q with
  | ret r => exact ⟨r, hq⟩
  | tx u n => cases h2

/-- The hypotheses are met by two clients that add the same edge, of which one raises: every query returns the edge. -/
example : ∃ s, MyHistory PlainVocab 250 exShareOps s ∧ ∃ τ, (Sys.startMy 250 s.disk exRaceCalls).Reach τ ∧
    τ.results = [some (.ok ()), some (.error .integrityError)] ∧ (hgExists exShareB s).1 = .ok false ∧
    Everywhere PlainVocab exShareB (reopen τ.db true) := by
  have hV : Vocab (PlainVocab (F := Half)) := plainVocab
  obtain ⟨s, hs⟩ := exMy_history
  have hd := exShare_disk hs
  have hs' : s = (runOps exShareOps (St.new true)).2 := by rw [hs.sql plainVocab]
  have h1 : (Sys.startMy 250 s.disk exRaceCalls).Reach ((Sys.startMy 250 exShareDB exRaceCalls).turns
      ([0, 1, 1, 1, 1] ++ List.replicate 40 0 ++ List.replicate 40 1)) := by
    rw [hd]; exact Sys.turns_reach _ _
  have hres : ((Sys.startMy 250 exShareDB exRaceCalls).turns
      ([0, 1, 1, 1, 1] ++ List.replicate 40 0 ++ List.replicate 40 1)).results = [some (.ok ()), some (.error .integrityError)] := by
    decide +kernel
  refine ⟨s, hs, _, h1, hres, by rw [hs']; decide +kernel, ?_⟩
  refine C95_one_returned hV 250 exShareOps s hs exRaceCalls exRace_over.1 exRace_fits.1 _ h1 _ (exRace_safe _).1 ?_ 0 _ rfl
    (Sys.returned_of (by decide +kernel)) (.add exShareB 2) (by simp [calls, PCall.acts]) (by simp [PAct.adds])
  intro i p hi _
  exact Sys.ended_of (rs := [.ok (), .error .integrityError]) hres
    (by have := (List.getElem?_eq_some_iff.1 hi).1; simpa [exRaceCalls] using this)

/-- And by two that add different edges, of which one raises, since the other was faster to insert the new symbol of both: no query
returns its edge, and every query returns the other's. -/
example : ∃ s, MyHistory PlainVocab 250 exShareOps s ∧ ∃ τ, (Sys.startMy 250 s.disk exCollideCalls).Reach τ ∧
    τ.results = [some (.error .integrityError), some (.ok ())] ∧ Nowhere PlainVocab exShareB (reopen τ.db true) ∧
    Everywhere PlainVocab (.tup [sy "has", sy "b"]) (reopen τ.db true) := by
  have hV : Vocab (PlainVocab (F := Half)) := plainVocab
  obtain ⟨s, hs⟩ := exMy_history
  have hd := exShare_disk hs
  have h1 : (Sys.startMy 250 s.disk exCollideCalls).Reach ((Sys.startMy 250 exShareDB exCollideCalls).turns
      ([0, 0, 0, 0] ++ List.replicate 40 1 ++ List.replicate 40 0)) := by
    rw [hd]; exact Sys.turns_reach _ _
  have hres : ((Sys.startMy 250 exShareDB exCollideCalls).turns
      ([0, 0, 0, 0] ++ List.replicate 40 1 ++ List.replicate 40 0)).results = [some (.error .integrityError), some (.ok ())] := by
    decide +kernel
  have hend : ∀ (i : Nat) (p : List (PCall Half)), exCollideCalls[i]? = some p →
      ∃ r, ((Sys.startMy 250 exShareDB exCollideCalls).turns
        ([0, 0, 0, 0] ++ List.replicate 40 1 ++ List.replicate 40 0)).procs[i]? = some (.ret r) := fun i p hi =>
    Sys.ended_of (rs := [.error .integrityError, .ok ()]) hres
      (by have := (List.getElem?_eq_some_iff.1 hi).1; simpa [exCollideCalls] using this)
  refine ⟨s, hs, _, h1, hres, ?_, ?_⟩
  · rcases C95_whole hV 250 exShareOps s hs exCollideCalls exRace_over.2 exRace_fits.2 _ h1 exShareB (edge_of (by decide +kernel))
      (exRace_safe _).2 (fun i p hi _ => hend i p hi) with h | h
    · have h2 := h.ex
      rw [show (hgExists exShareB (reopen ((Sys.startMy 250 exShareDB exCollideCalls).turns
        ([0, 0, 0, 0] ++ List.replicate 40 1 ++ List.replicate 40 0)).db true)).1 = .ok false from by decide +kernel] at h2
      cases h2
    · exact h
  · exact C95_one_returned hV 250 exShareOps s hs exCollideCalls exRace_over.2 exRace_fits.2 _ h1 _ (exRace_safe _).2
      (fun i p hi _ => hend i p hi) 1 _ rfl (Sys.returned_of (by decide +kernel)) (.add (.tup [sy "has", sy "b"]) 3)
      (by simp [calls, PCall.acts]) (by simp [PAct.adds])

end GB
