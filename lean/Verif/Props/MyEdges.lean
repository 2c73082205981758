import Verif.Props.Races
import Verif.Proofs.MyNote

/-!
Property C94: several clients of one MySQL database, with no agreement among them at all: which edges are there after removals, and
after additions of the same edge.  (C90 is about degrees, and about edges that nobody removes; C92 is the same for SQLite.)
-/

set_option linter.unusedSectionVars false
set_option linter.unusedVariables false

namespace GB

variable {F : Type} [PyFloat F] [DecidableEq F] {V : Val F → Prop}

/-- Client `i` did all its calls, without an exception. -/
def Sys.Returned (τ : Sys) (i : Nat) : Prop := τ.procs[i]? = some (.ret (.ok ()))

/-- Every client that is asked to add the edge did all its calls. -/
def Sys.AddersDone (progs : List (List (PCall F))) (τ : Sys) (x : Val F) : Prop :=
  ∀ (i : Nat) (p : List (PCall F)), progs[i]? = some p → x ∈ (calls p).flatMap PAct.adds → τ.Returned i

/-- Every client that may remove the edge did all its calls, and one of them was asked to remove just this edge, or a pattern that
it matches. -/
def Sys.Cleared (progs : List (List (PCall F))) (τ : Sys) (x : Val F) : Prop :=
  (∀ (i : Nat) (p : List (PCall F)), progs[i]? = some p → Program.Removes (calls p) x → τ.Returned i) ∧
    ∃ (i : Nat) (p : List (PCall F)), progs[i]? = some p ∧ τ.Returned i ∧ ∃ a ∈ calls p, a.Clears x

theorem my_traced (hV : Vocab V) {x : Val F} (hx : EdgeOver V x) {k : Nat} {db : DB} (hR : RowsOk V db.perms)
    {progs : List (List (PCall F))} (ho : ∀ p ∈ progs, ∀ c ∈ p, c.Over V) {τ : Sys} (h : (Sys.startMy k db progs).Reach τ) :
    Traced V x (progs.map calls) db τ := by
  have hat : ∀ (i : Nat) (p : List (PCall F)), progs[i]? = some p → (progs.map calls)[i]? = some (calls p) := fun i p hi => by
    rw [List.getElem?_map, hi]; rfl
  obtain ⟨gs, hlen, hinv, hk⟩ := h.keptBy (I := fun db => RowsOk V db.perms)
    (R := fun i => NoteR V x (∃ p, (progs.map calls)[i]? = some p ∧ x ∈ p.flatMap PAct.adds)
      (∃ p, (progs.map calls)[i]? = some p ∧ Program.Removes p x))
    (E := fun _ _ => True) (Q := NoteQ x (progs.map calls)) (Inv := NoteInv V x (progs.map calls) db)
    (gs := (progs.map calls).map fun _ => Note.blank) (by simp [Sys.startMy]) (noteInv_start hR _)
    (by
      intro i p g hi hg
      obtain ⟨prog, h1, rfl⟩ := startMy_proc hi
      rw [List.getElem?_map, hat i prog h1] at hg
      cases hg
      refine Conn.Keeps.auto note_refl ((notes_client hV hx (ho prog (List.mem_of_getElem? h1))
        (fun a ha h => ⟨calls prog, hat i prog h1, List.mem_flatMap.2 ⟨a, ha, h⟩⟩)
        (fun a ha h => ⟨calls prog, hat i prog h1, a, ha, h⟩) _).mono ?_)
      rintro _ g' ⟨h2, h3⟩
      exact noteQ_of (hat i prog h1) h2 h3)
    (fun d gs hi => hi.1) noteInv_step
  exact traced_of hlen hinv fun i g hi hg => hk i _ g hi hg

/-- What holds of the edge, in terms of clients and statements. -/
structure MyTraces (V : Val F → Prop) (x : Val F) (progs : List (List (PCall F))) (db0 : DB) (τ : Sys) : Prop where
  rows : RowsOk V τ.db.perms
  asked : ∀ n, HasRow τ.db.perms x n → HasRow db0.perms x n ∨ Asked progs x
  kept : ∀ n, HasRow db0.perms x n → HasRow τ.db.perms x n ∨ Endangered progs x
  added : ∀ (i : Nat) (p : List (PCall F)), progs[i]? = some p → τ.Returned i → x ∈ (calls p).flatMap PAct.adds →
    Endangered progs x ∨ Visible x τ.db
  full : τ.AddersDone progs x → ∀ n, HasRow τ.db.perms x n → HasRow db0.perms x n ∨ Endangered progs x ∨
    ∀ m, m < factorial x.elems.length → HasRow τ.db.perms x m
  removed : ∀ (i : Nat) (p : List (PCall F)), progs[i]? = some p → τ.Returned i → ∀ a ∈ calls p, a.Takes x →
    Asked progs x ∨ ¬ Visible x τ.db
  cleared : τ.Cleared progs x → (∀ n, n < factorial x.elems.length → HasRow db0.perms x n) ∨ (∀ n, ¬ HasRow db0.perms x n) →
    Asked progs x ∨ ∀ n, ¬ HasRow τ.db.perms x n

theorem my_traces (hV : Vocab V) {x : Val F} (hx : EdgeOver V x) {k : Nat} {db : DB} (hR : RowsOk V db.perms)
    {progs : List (List (PCall F))} (hp : ∀ p ∈ progs, ∀ c ∈ p, c.Over V) {τ : Sys}
    (h : (Sys.startMy k db progs).Reach τ) : MyTraces V x progs db τ := by
  have hT := my_traced hV hx hR hp h
  have hA : (∃ p ∈ progs.map calls, x ∈ p.flatMap PAct.adds) → Asked progs x := by
    rintro ⟨p, hp, h⟩
    obtain ⟨q, hq, rfl⟩ := List.mem_map.1 hp
    exact ⟨q, hq, h⟩
  have hD : (∃ p ∈ progs.map calls, Program.Removes p x) → Endangered progs x := by
    rintro ⟨p, hp, h⟩
    obtain ⟨q, hq, rfl⟩ := List.mem_map.1 hp
    exact ⟨q, hq, h⟩
  have hat : ∀ (i : Nat) (p : List (PCall F)), progs[i]? = some p → (progs.map calls)[i]? = some (calls p) := fun i p hi => by
    rw [List.getElem?_map, hi]; rfl
  have hat' : ∀ (i : Nat) (q : Program F), (progs.map calls)[i]? = some q → ∃ p, progs[i]? = some p ∧ q = calls p := by
    intro i q hq
    rw [List.getElem?_map] at hq
    obtain ⟨p, h1, h2⟩ := Option.map_eq_some_iff.1 hq
    exact ⟨p, h1, h2.symm⟩
  refine ⟨hT.rows, fun n hn => (hT.asked n hn).imp id hA, fun n hn => (hT.kept n hn).imp id hD,
    fun i p hi hr hm => (hT.added i _ (hat i p hi) hr hm).imp hD id, fun hall n hn => ?_,
    fun i p hi hr a ha ht => (hT.removed i _ (hat i p hi) hr a ha ht).imp hA id, ?_⟩
  · refine (hT.full (fun i q hq hm => ?_) n hn).imp id (Or.imp hD id)
    obtain ⟨p, h1, rfl⟩ := hat' i q hq
    exact hall i p h1 hm
  · rintro ⟨hall, i, p, hi, hr, a, ha, hc⟩ h0
    by_cases hN : Asked progs x
    · exact .inl hN
    · right
      rcases h0 with h0 | h0
      · obtain ⟨n, hn, hn'⟩ := (hT.lacks i _ (hat i p hi) hr a ha hc).resolve_left fun h => hN (hA h)
        rcases hT.empty (fun i q hq hm => by
          obtain ⟨p, h1, rfl⟩ := hat' i q hq
          exact hall i p h1 hm) n (h0 n hn) with h | h | h
        · exact absurd h hn'
        · exact absurd (hA h) hN
        · exact h
      · exact fun n hn => (hT.asked n hn).elim (h0 n) fun h => hN (hA h)

theorem myHistory_rows (hV : Vocab V) {k : Nat} {ops : List (Op F)} {s : St} (hH : MyHistory V k ops s) :
    IndexOf V (Spec.after ops).Present s.disk := by
  have hS := shows_of hV hH.over (hH.sql hV)
  rw [hS.disk]
  exact indexOf_shows hV hS

/-- C94: clients of one MySQL database add edges and remove edges (no matter which: also the same ones), one by one, several at once,
by a pattern, as beliefs or in batches.  An edge that a client was asked to remove (itself, not by a pattern) does not exist as
soon as the client returned, if no client is asked to add it, and so it is forever after. -/
theorem C94_removed (hV : Vocab V) (k : Nat) (ops : List (Op F)) (s : St) (hH : MyHistory V k ops s)
    (progs : List (List (PCall F))) (hp : ∀ p ∈ progs, ∀ c ∈ p, c.Over V) (τ : Sys)
    (h : (Sys.startMy k s.disk progs).Reach τ) (i : Nat) (p : List (PCall F)) (hi : progs[i]? = some p) (hr : τ.Returned i)
    (a : PAct F) (ha : a ∈ calls p) (x : Val F) (hxo : EdgeOver V x) (hx : a.Takes x) (hN : ¬ Asked progs x) :
    (hgExists x (reopen τ.db true)).1 = .ok false := by
  have hT := my_traces hV hxo (myHistory_rows hV hH).1 hp h
  obtain ⟨c, h1, h2⟩ := exists_here hV hT.rows hxo true
  rw [h1]
  cases c with
  | true => exact absurd (h2.1 rfl) ((hT.removed i p hi hr a ha hx).resolve_left hN)
  | false => rfl

/-- C94: what was finished is there: no query returns an edge that nobody is asked to add, once a client that was asked to remove it
(itself, or by a pattern that it matches) has returned, and all others that may remove it; and every query returns every edge
that nobody is asked to remove, if it was there at the start, or if some client is asked to add it and all those have returned
without an exception.  The clients that are about other edges may be anywhere, or have raised. -/
theorem C94_finished (hV : Vocab V) (k : Nat) (ops : List (Op F)) (s : St) (hH : MyHistory V k ops s)
    (progs : List (List (PCall F))) (hp : ∀ p ∈ progs, ∀ c ∈ p, c.Over V) (τ : Sys)
    (h : (Sys.startMy k s.disk progs).Reach τ) :
    FoundIn V (fun x => Asked progs x ∨ ((Spec.after ops).Present x ∧ ¬ τ.Cleared progs x))
      (fun x => ¬ Endangered progs x ∧ ((Spec.after ops).Present x ∨ (Asked progs x ∧ τ.AddersDone progs x))) (reopen τ.db true) := by
  have hI := myHistory_rows hV hH
  have hR : RowsOk V τ.db.perms := by
    obtain ⟨U, v, hR, _⟩ := raced_edges hV hH hp h
    exact hR.rows
  refine foundIn_rows hV true hR (fun x n hx hr => ?_) fun x hx hk n hn => ?_
  · have hT := my_traces hV hx hI.1 hp h
    rcases hT.asked n hr with h0 | h0
    · by_cases hN : Asked progs x
      · exact .inl hN
      · refine .inr ⟨((hI.2 x hx n).1 h0).1, fun hc => ?_⟩
        rcases hT.cleared hc (.inl fun m hm => (hI.2 x hx m).2 ⟨((hI.2 x hx n).1 h0).1, hm⟩) with h1 | h1
        · exact hN h1
        · exact h1 n hr
    · exact .inl h0
  · have hT := my_traces hV hx hI.1 hp h
    obtain ⟨hD, hk | ⟨⟨p, hpm, hm⟩, hall⟩⟩ := hk
    · exact (hT.kept n ((hI.2 x hx n).2 ⟨hk, hn⟩)).resolve_right hD
    · obtain ⟨i, hi⟩ := List.getElem?_of_mem hpm
      obtain ⟨m, hm', _⟩ := (hT.added i p hi (hall i p hi hm) hm).resolve_left hD
      rcases hT.full hall m hm' with h1 | h1 | h1
      · exact (hT.kept n ((hI.2 x hx n).2 ⟨((hI.2 x hx m).1 h1).1, hn⟩)).resolve_right hD
      · exact absurd h1 hD
      · exact h1 n hn

/-- C94: so when all clients have returned without an exception, then about an edge that some are asked to add and none to remove, or
some to remove (itself or by a pattern) and none to add, or none to add or remove, all queries agree, and say what the clients were
asked for. -/
theorem C94_all_returned (hV : Vocab V) (k : Nat) (ops : List (Op F)) (s : St) (hH : MyHistory V k ops s)
    (progs : List (List (PCall F))) (hp : ∀ p ∈ progs, ∀ c ∈ p, c.Over V) (τ : Sys)
    (h : (Sys.startMy k s.disk progs).Reach τ) (hok : ∀ p ∈ τ.procs, p = .ret (.ok ()))
    (x : Val F) (hx : EdgeOver V x) :
    ((Asked progs x ∨ (Spec.after ops).Present x) → ¬ Endangered progs x →
      (hgExists x (reopen τ.db true)).1 = .ok true ∧
      (∀ ps, PatternOver V ps → Matches ps x.elems → ∃ res, (hgPattern2edges (.tup ps) (reopen τ.db true)).1 = .ok res ∧ x ∈ res) ∧
      ∀ c, V c → c.isAtom = true → c ∈ x.elems → ∃ res, (hgStar c (reopen τ.db true)).1 = .ok res ∧ x ∈ res) ∧
    (¬ Asked progs x → ((∃ p ∈ progs, ∃ a ∈ calls p, a.Clears x) ∨ ¬ (Spec.after ops).Present x) →
      (hgExists x (reopen τ.db true)).1 = .ok false ∧
      (∀ ps, PatternOver V ps → ∃ res, (hgPattern2edges (.tup ps) (reopen τ.db true)).1 = .ok res ∧ x ∉ res) ∧
      ∀ c, V c → c.isAtom = true → ∃ res, (hgStar c (reopen τ.db true)).1 = .ok res ∧ x ∉ res) := by
  have hF := C94_finished hV k ops s hH progs hp τ h
  have hlen : τ.procs.length = progs.length := by
    have := h.length
    simpa [Sys.startMy] using this
  have hret : ∀ (i : Nat) (p : List (PCall F)), progs[i]? = some p → τ.Returned i := by
    intro i p hi
    have hpl : i < τ.procs.length := by rw [hlen]; exact (List.getElem?_eq_some_iff.1 hi).1
    unfold Sys.Returned
    rw [List.getElem?_eq_getElem hpl, hok _ (List.getElem_mem hpl)]
  constructor
  · intro hk hD
    have hK : ¬ Endangered progs x ∧ ((Spec.after ops).Present x ∨ (Asked progs x ∧ τ.AddersDone progs x)) :=
      ⟨hD, hk.elim (fun h => .inr ⟨h, fun i p hi _ => hret i p hi⟩) .inl⟩
    refine ⟨?_, fun ps hps hm => ?_, fun c hc hca hm => ?_⟩
    · obtain ⟨c, h1, _, h3⟩ := hF.ex x hx
      rw [h1, h3 hK]
    · obtain ⟨res, h1, _, _, h4⟩ := hF.pattern ps hps
      exact ⟨res, h1, h4 x hx hm hK⟩
    · obtain ⟨res, h1, _, _, h4⟩ := hF.star c hc hca
      exact ⟨res, h1, h4 x hx hm hK⟩
  · intro hN hk
    have hP : ¬ (Asked progs x ∨ ((Spec.after ops).Present x ∧ ¬ τ.Cleared progs x)) := by
      rintro (h | ⟨h1, h2⟩)
      · exact hN h
      · rcases hk with ⟨p, hpm, a, ha, hc⟩ | hk
        · obtain ⟨i, hi⟩ := List.getElem?_of_mem hpm
          exact h2 ⟨fun i p hi _ => hret i p hi, i, p, hi, hret i p hi, a, ha, hc⟩
        · exact hk h1
    refine ⟨?_, fun ps hps => ?_, fun c hc hca => ?_⟩
    · obtain ⟨c, h1, h2, _⟩ := hF.ex x hx
      cases c with
      | true => exact absurd (h2 rfl) hP
      | false => exact h1
    · obtain ⟨res, h1, _, h3, _⟩ := hF.pattern ps hps
      exact ⟨res, h1, fun hm => hP (h3 x hm).2.2⟩
    · obtain ⟨res, h1, _, h3, _⟩ := hF.star c hc hca
      exact ⟨res, h1, fun hm => hP (h3 x hm).2.2⟩

/-! ### the conditions are needed -/

theorem Sys.returned_of {τ : Sys} {i : Nat} (h : (τ.procs[i]?.map Proc.done) = some true) : τ.Returned i := by
  obtain ⟨c, h1, h2⟩ := Option.map_eq_some_iff.1 h
  unfold Sys.Returned
  rw [h1]
  match c, h2 with
  | .ret (.ok ()), _ => rfl

theorem Sys.allOk_of {τ : Sys} (h : τ.procs.all Proc.done = true) : ∀ p ∈ τ.procs, p = .ret (.ok ()) := by
  intro p hp
  have := List.all_eq_true.1 h p hp
  match p, this with
  | .ret (.ok ()), _ => rfl

/-- One client adds the edge, two others remove it. -/
def exThreeCalls : List (List (PCall Half)) := [[.one (.add exShareA 5)], [.one (.remove exShareA)], [.one (.remove exShareA)]]

/-- Of an edge that one client adds and others remove nothing can be said: all return, none raises, the edge exists, and `star` of a
symbol of it does not return it. -/
theorem C94_both_counterexample : ∃ s, MyHistory PlainVocab 250 exShareOps s ∧
    ∃ τ, (Sys.startMy 250 s.disk exThreeCalls).Reach τ ∧ (∀ p ∈ τ.procs, p = .ret (.ok ())) ∧
      (hgExists exShareA (reopen τ.db true)).1 = .ok true ∧
      (hgStar (sy "is") (reopen τ.db true)).1 = .ok [exShareA] ∧ (hgStar (sy "a") (reopen τ.db true)).1 = .ok [] := by
  obtain ⟨s, hs⟩ := exMy_history
  have hd := exShare_disk hs
  refine ⟨s, hs, (Sys.startMy 250 exShareDB exThreeCalls).turns
    ([1] ++ List.replicate 4 2 ++ List.replicate 20 1 ++ List.replicate 20 0 ++ List.replicate 20 2),
    by rw [hd]; exact Sys.turns_reach _ _, Sys.allOk_of (by decide +kernel), ?_, ?_, ?_⟩ <;> decide +kernel

/-- With one that adds and one that removes: the one that adds raises, the other returns, and again the edge exists, and `star` of a
symbol of it does not return it. -/
theorem C94_raised_counterexample : ∃ s, MyHistory PlainVocab 250 exShareOps s ∧
    ∃ τ, (Sys.startMy 250 s.disk exBothCalls).Reach τ ∧ τ.results = [some (.error .integrityError), some (.ok ())] ∧
      (hgExists exShareA (reopen τ.db true)).1 = .ok true ∧
      (hgStar (sy "is") (reopen τ.db true)).1 = .ok [exShareA] ∧ (hgStar (sy "a") (reopen τ.db true)).1 = .ok [] := by
  obtain ⟨s, hs⟩ := exMy_history
  have hd := exShare_disk hs
  refine ⟨s, hs, (Sys.startMy 250 exShareDB exBothCalls).turns (List.replicate 4 1 ++ List.replicate 20 0 ++ List.replicate 20 1),
    by rw [hd]; exact Sys.turns_reach _ _, ?_, ?_, ?_, ?_⟩ <;> decide +kernel

theorem exEight_history : ∃ s, MyHistory PlainVocab 250 exEightOps s := by
  have hsm : Smooth 250 Spec.empty Tally.empty (exEightOps.flatMap Op.steps) := by
    refine ⟨?_, trivial⟩
    rintro e ts ⟨rfl, rfl⟩
    exact ⟨fits_of (by decide +kernel), fun h => by have := h.2.1; simp [Tally.empty] at this⟩
  obtain ⟨s, A, hA⟩ := after_exists (plainVocab (F := Half)) exEightOps exEightOps_over true
  exact ⟨s, exEightOps_over, hsm, by rw [C68_same_partial plainVocab 250 exEightOps exEightOps_over true hsm]; exact hA.run⟩

/-- `C94_removed` does not hold of a removal by a pattern: the client returned, nobody adds the edge, and it exists.  Another client had
begun to remove it: the rows where the pattern looks were gone, and one where `exists` looks was not. -/
theorem C94_pattern_counterexample : ∃ s, MyHistory PlainVocab 250 exEightOps s ∧
    ∃ τ, (Sys.startMy 250 s.disk exEightCalls).Reach τ ∧ τ.Returned 1 ∧ Matches [sy "loves", .none, sy "b", .none] exEight.elems ∧
      (hgExists exEight (reopen τ.db true)).1 = .ok true := by
  obtain ⟨s, hs⟩ := exEight_history
  have hd : s = (runOps exEightOps (St.new true)).2 := by rw [hs.sql plainVocab]
  refine ⟨s, hs, (Sys.startMy 250 s.disk exEightCalls).turns (List.replicate 9 0 ++ List.replicate 40 1),
    Sys.turns_reach _ _, Sys.returned_of ?_, ?_, ?_⟩
  · rw [hd]; decide +kernel
  · decide +kernel
  · rw [hd]; decide +kernel

/-- The hypotheses of the theorems are met by three clients of which two remove the same edge, one of them by a pattern, and one
adds another edge: when they have returned, the one edge is returned by no query, and the other by all. -/
example : ∃ s, MyHistory PlainVocab 250 exShareOps s ∧ ∃ τ, (Sys.startMy 250 s.disk exMixedCalls).Reach τ ∧
    (∀ p ∈ τ.procs, p = .ret (.ok ())) ∧ (hgExists exShareA s).1 = .ok true ∧ (hgExists exShareB s).1 = .ok false ∧
    (hgExists exShareA (reopen τ.db true)).1 = .ok false ∧ (hgExists exShareB (reopen τ.db true)).1 = .ok true ∧
    (∃ res, (hgStar (sy "is") (reopen τ.db true)).1 = .ok res ∧ exShareA ∉ res) ∧
    (∃ res, (hgStar (sy "is") (reopen τ.db true)).1 = .ok res ∧ exShareB ∈ res) := by
  have hV : Vocab (PlainVocab (F := Half)) := plainVocab
  obtain ⟨s, hs⟩ := exMy_history
  have hd := exShare_disk hs
  have hs' : s = (runOps exShareOps (St.new true)).2 := by rw [hs.sql plainVocab]
  have h1 : (Sys.startMy 250 s.disk exMixedCalls).Reach ((Sys.startMy 250 exShareDB exMixedCalls).turns
      ([0, 1, 1, 2, 2] ++ List.replicate 40 0 ++ List.replicate 40 1 ++ List.replicate 40 2)) := by
    rw [hd]; exact Sys.turns_reach _ _
  have hok := Sys.allOk_of (τ := (Sys.startMy 250 exShareDB exMixedCalls).turns
      ([0, 1, 1, 2, 2] ++ List.replicate 40 0 ++ List.replicate 40 1 ++ List.replicate 40 2)) (by decide +kernel)
  have hA1 : EdgeOver PlainVocab exShareA := edge_of (by decide +kernel)
  have hB1 : EdgeOver PlainVocab exShareB := edge_of (by decide +kernel)
  obtain ⟨a1, _, a3⟩ := (C94_all_returned hV 250 exShareOps s hs exMixedCalls exMixed_over _ h1 hok exShareA hA1).2
    (exMixed_asked _ (by decide +kernel)) (.inl ⟨_, List.mem_cons_self .., .remove exShareA, by simp [calls, PCall.acts], rfl⟩)
  obtain ⟨b1, _, b3⟩ := (C94_all_returned hV 250 exShareOps s hs exMixedCalls exMixed_over _ h1 hok exShareB hB1).1
    (.inl ⟨[.one (.add exShareB 3)], by simp [exMixedCalls], by simp [calls, PCall.acts, PAct.adds]⟩)
    (exMixed_endangered _ (by decide +kernel) (by decide +kernel))
  refine ⟨s, hs, _, h1, hok, ?_, ?_, a1, b1, a3 _ (plain_of (by decide +kernel)) rfl, b3 _ (plain_of (by decide +kernel)) rfl
    (by decide +kernel)⟩
  · rw [hs']; decide +kernel
  · rw [hs']; decide +kernel

/-- The hypotheses of `C94_removed` are met when the client that removes by a pattern stopped in the middle. -/
example : ∃ s, MyHistory PlainVocab 250 exShareOps s ∧ ∃ τ, (Sys.startMy 250 s.disk exMixedCalls).Reach τ ∧ τ.Returned 0 ∧
    ¬ τ.Returned 1 ∧ (hgExists exShareA s).1 = .ok true ∧ (hgExists exShareA (reopen τ.db true)).1 = .ok false := by
  have hV : Vocab (PlainVocab (F := Half)) := plainVocab
  obtain ⟨s, hs⟩ := exMy_history
  have hd := exShare_disk hs
  have hs' : s = (runOps exShareOps (St.new true)).2 := by rw [hs.sql plainVocab]
  have h1 : (Sys.startMy 250 s.disk exMixedCalls).Reach ((Sys.startMy 250 exShareDB exMixedCalls).turns
      ([1, 1, 1] ++ List.replicate 40 0)) := by
    rw [hd]; exact Sys.turns_reach _ _
  have h0 : Sys.Returned ((Sys.startMy 250 exShareDB exMixedCalls).turns ([1, 1, 1] ++ List.replicate 40 0)) 0 :=
    Sys.returned_of (by decide +kernel)
  refine ⟨s, hs, _, h1, h0, ?_, ?_, C94_removed hV 250 exShareOps s hs exMixedCalls exMixed_over _ h1 0 _ rfl h0
      (.remove exShareA) (by simp [calls, PCall.acts]) _ (edge_of (by decide +kernel)) rfl (exMixed_asked _ (by decide +kernel))⟩
  · intro h
    have : (((Sys.startMy 250 exShareDB exMixedCalls).turns ([1, 1, 1] ++ List.replicate 40 0)).procs[1]?.map Proc.done) = some false := by
      decide +kernel
    rw [show _ = _ from h] at this
    cases this
  · rw [hs']; decide +kernel

end GB
