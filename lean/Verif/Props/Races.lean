import Verif.Props.MyRaces
import Verif.Proofs.ConcNote

/-!
Property C92: several processes on one SQLite file, with no agreement among them at all: which edges there are.  (C72 says what
holds if they keep out of each other's way; C79 is about degrees.)
-/

set_option linter.unusedSectionVars false
set_option linter.unusedVariables false

namespace GB

variable {F : Type} [PyFloat F] [DecidableEq F] {V : Val F → Prop}

/-- Process `i` did all its calls. -/
def Box.Returned (b : Box) (i : Nat) : Prop := ∃ r, b.clients[i]? = some (.live (.ret r))

/-- Every process that is asked to add the edge did all its calls. -/
def AddersDone (progs : List (List (PCall F))) (b : Box) (x : Val F) : Prop :=
  ∀ (i : Nat) (p : List (PCall F)), progs[i]? = some p → x ∈ (calls p).flatMap PAct.adds → b.Returned i

/-- Every process that may remove the edge did all its calls, and one of them was asked to remove just this edge, or a pattern that
it matches. -/
def Cleared (progs : List (List (PCall F))) (b : Box) (x : Val F) : Prop :=
  (∀ (i : Nat) (p : List (PCall F)), progs[i]? = some p → Program.Removes (calls p) x → b.Returned i) ∧
    ∃ (i : Nat) (p : List (PCall F)), progs[i]? = some p ∧ b.Returned i ∧ ∃ a ∈ calls p, a.Clears x

/-- What holds of the edge, in terms of processes and statements. -/
structure Traces (V : Val F → Prop) (x : Val F) (progs : List (List (PCall F))) (db0 : DB) (b : Box) : Prop where
  rows : RowsOk V b.disk.perms
  asked : ∀ n, HasRow b.disk.perms x n → HasRow db0.perms x n ∨ Asked progs x
  kept : ∀ n, HasRow db0.perms x n → HasRow b.disk.perms x n ∨ Endangered progs x
  added : ∀ (i : Nat) (p : List (PCall F)), progs[i]? = some p → b.Returned i → x ∈ (calls p).flatMap PAct.adds →
    Endangered progs x ∨ Visible x b.disk
  full : AddersDone progs b x → ∀ n, HasRow b.disk.perms x n → HasRow db0.perms x n ∨ Endangered progs x ∨
    ∀ m, m < factorial x.elems.length → HasRow b.disk.perms x m
  removed : ∀ (i : Nat) (p : List (PCall F)), progs[i]? = some p → b.Returned i → ∀ a ∈ calls p, a.Takes x →
    Asked progs x ∨ ¬ Visible x b.disk
  cleared : Cleared progs b x → (∀ n, n < factorial x.elems.length → HasRow db0.perms x n) ∨ (∀ n, ¬ HasRow db0.perms x n) →
    Asked progs x ∨ ∀ n, ¬ HasRow b.disk.perms x n

theorem traces (hV : Vocab V) {x : Val F} (hx : EdgeOver V x) {ops : List (Op F)} (hops : ∀ op ∈ ops, op.Over V) {s : St}
    (hs : runOps ops (St.new false) = (.ok (), s)) {progs : List (List (PCall F))} (hp : ∀ p ∈ progs, ∀ c ∈ p, c.Over V) {b : Box}
    (h : (Box.start s.disk progs).Reach b) : Traces V x progs s.disk b := by
  have hno := C72_no_error hV ops hops s hs hp h
  obtain ⟨τ, h1, h2, h3⟩ := C72_refines hV ops hops s hs hp h
  clear h
  obtain ⟨disk, tx, cl⟩ := b
  dsimp only at h2 h3 hno
  subst h2
  have hS := shows_of hV hops hs
  have hI := indexOf_shows hV hS
  have hret : ∀ i, Box.Returned ⟨τ.db, tx, cl⟩ i → τ.procs[i]? = some (.ret (.ok ())) := by
    rintro i ⟨r, hr⟩
    rw [h3 i r hr, hno i r hr]
  have hT := traced hV hx (db := s.disk) (by rw [hS.disk]; exact hI.1) (over_calls hp) h1
  have hA : (∃ p ∈ progs.map calls, x ∈ p.flatMap PAct.adds) → Asked progs x := by
    rintro ⟨p, hp, h⟩
    obtain ⟨q, hq, rfl⟩ := List.mem_map.1 hp
    exact ⟨q, hq, h⟩
  have hD : (∃ p ∈ progs.map calls, Program.Removes p x) → Endangered progs x := by
    rintro ⟨p, hp, h⟩
    obtain ⟨q, hq, rfl⟩ := List.mem_map.1 hp
    exact ⟨q, hq, h⟩
  have hat : ∀ (i : Nat) (p : List (PCall F)), progs[i]? = some p → (progs.map calls)[i]? = some (calls p) := fun i p hi => by
    rw [List.getElem?_map, hi]; rfl
  have hat' : ∀ (i : Nat) (q : Program F), (progs.map calls)[i]? = some q → ∃ p, progs[i]? = some p ∧ q = calls p := by
    intro i q hq
    rw [List.getElem?_map] at hq
    obtain ⟨p, h1, h2⟩ := Option.map_eq_some_iff.1 hq
    exact ⟨p, h1, h2.symm⟩
  refine ⟨hT.rows, fun n hn => (hT.asked n hn).imp id hA, fun n hn => (hT.kept n hn).imp id hD,
    fun i p hi hr hm => (hT.added i _ (hat i p hi) (hret i hr) hm).imp hD id, fun hall n hn => ?_,
    fun i p hi hr a ha ht => (hT.removed i _ (hat i p hi) (hret i hr) a ha ht).imp hA id, ?_⟩
  · refine (hT.full (fun i q hq hm => ?_) n hn).imp id (Or.imp hD id)
    obtain ⟨p, h1, rfl⟩ := hat' i q hq
    exact hret i (hall i p h1 hm)
  · rintro ⟨hall, i, p, hi, hr, a, ha, hc⟩ h0
    by_cases hN : Asked progs x
    · exact .inl hN
    · right
      rcases h0 with h0 | h0
      · obtain ⟨n, hn, hn'⟩ := (hT.lacks i _ (hat i p hi) (hret i hr) a ha hc).resolve_left fun h => hN (hA h)
        rcases hT.empty (fun i q hq hm => by
          obtain ⟨p, h1, rfl⟩ := hat' i q hq
          exact hret i (hall i p h1 hm)) n (h0 n hn) with h | h | h
        · exact absurd h hn'
        · exact absurd (hA h) hN
        · exact h
      · exact fun n hn => (hT.asked n hn).elim (h0 n) fun h => hN (hA h)

theorem start_rows (hV : Vocab V) {ops : List (Op F)} (hops : ∀ op ∈ ops, op.Over V) {s : St}
    (hs : runOps ops (St.new false) = (.ok (), s)) : IndexOf V (Spec.after ops).Present s.disk := by
  have hS := shows_of hV hops hs
  rw [hS.disk]
  exact indexOf_shows hV hS

/-- C92: processes add edges to one SQLite file and remove edges from it (no matter which: also the same ones), one by one, several
at once, by a pattern, as beliefs or in batches.  At every moment, whatever statement each of them is at, and whichever of them are
killed or give up, no query of a new connection raises; it returns only edges that were there at the start or that some process
is asked to add (and each once), and all those that were there at the start and that no process is asked to remove. -/
theorem C92_edges (hV : Vocab V) (ops : List (Op F)) (hops : ∀ op ∈ ops, op.Over V) (s : St)
    (hs : runOps ops (St.new false) = (.ok (), s)) (progs : List (List (PCall F)))
    (hp : ∀ p ∈ progs, ∀ c ∈ p, c.Over V) (b : Box) (h : (Box.start s.disk progs).Reach b) :
    FoundIn V (fun x => (Spec.after ops).Present x ∨ Asked progs x)
      (fun x => (Spec.after ops).Present x ∧ ¬ Endangered progs x) (reopen b.disk false) := by
  have hI := start_rows hV hops hs
  have hR : RowsOk V b.disk.perms := by
    obtain ⟨τ, h1, h2, _⟩ := C72_refines hV ops hops s hs hp h
    rw [← h2]
    exact (reach_inv hV (W := none) (by simp [WOk]) ⟨hI.1, by simp⟩ (over_calls hp) h1).1.1
  refine foundIn_rows hV false hR (fun x n hx hr => ?_) fun x hx hk n hn => ?_
  · exact ((traces hV hx hops hs hp h).asked n hr).imp (fun h => ((hI.2 x hx n).1 h).1) id
  · exact ((traces hV hx hops hs hp h).kept n ((hI.2 x hx n).2 ⟨hk.1, hn⟩)).resolve_right hk.2

theorem exists_here (hV : Vocab V) {db : DB} (hR : RowsOk V db.perms) {x : Val F} (hx : EdgeOver V x) (auto : Bool) :
    ∃ b, (hgExists x (reopen db auto)).1 = .ok b ∧ (b = true ↔ Visible x db) := by
  obtain ⟨b, h1, h2⟩ := exists_rows hV hx (s := reopen db auto) (by simp [St.usable, reopen]) hR
  have h1 : hgExists x (reopen db auto) = (.ok b, reopen db auto) := h1
  exact ⟨b, by rw [h1], h2⟩

/-- C92: an edge that a process was asked to add exists as soon as the process returned, if no process is asked to remove it, and
so it does forever after. -/
theorem C92_added (hV : Vocab V) (ops : List (Op F)) (hops : ∀ op ∈ ops, op.Over V) (s : St)
    (hs : runOps ops (St.new false) = (.ok (), s)) (progs : List (List (PCall F)))
    (hp : ∀ p ∈ progs, ∀ c ∈ p, c.Over V) (b : Box) (h : (Box.start s.disk progs).Reach b)
    (i : Nat) (p : List (PCall F)) (hi : progs[i]? = some p) (hr : b.Returned i) (a : PAct F) (ha : a ∈ calls p) (x : Val F)
    (hx : x ∈ a.adds) (hD : ¬ Endangered progs x) : (hgExists x (reopen b.disk false)).1 = .ok true := by
  have hxo : EdgeOver V x := adds_edge_over (over_calls hp (calls p) (List.mem_map_of_mem (List.mem_of_getElem? hi)) a ha) hx
  have hT := traces hV hxo hops hs hp h
  obtain ⟨c, h1, h2⟩ := exists_here hV hT.rows hxo false
  rw [h1, h2.2 ((hT.added i p hi hr (List.mem_flatMap.2 ⟨a, ha, hx⟩)).resolve_left hD)]

/-- C92: an edge that a process was asked to remove (itself, not by a pattern) does not exist as soon as the process returned, if no
process is asked to add it, and so it is forever after. -/
theorem C92_removed (hV : Vocab V) (ops : List (Op F)) (hops : ∀ op ∈ ops, op.Over V) (s : St)
    (hs : runOps ops (St.new false) = (.ok (), s)) (progs : List (List (PCall F)))
    (hp : ∀ p ∈ progs, ∀ c ∈ p, c.Over V) (b : Box) (h : (Box.start s.disk progs).Reach b)
    (i : Nat) (p : List (PCall F)) (hi : progs[i]? = some p) (hr : b.Returned i) (a : PAct F) (ha : a ∈ calls p) (x : Val F)
    (hxo : EdgeOver V x) (hx : a.Takes x) (hN : ¬ Asked progs x) : (hgExists x (reopen b.disk false)).1 = .ok false := by
  have hT := traces hV hxo hops hs hp h
  obtain ⟨c, h1, h2⟩ := exists_here hV hT.rows hxo false
  rw [h1]
  cases c with
  | true => exact absurd (h2.1 rfl) ((hT.removed i p hi hr a ha hx).resolve_left hN)
  | false => rfl

/-- C92: what was finished is there: no query returns an edge that nobody is asked to add, once a process that was asked to remove it
(itself, or by a pattern that it matches) has returned, and all others that may remove it; and every query returns every edge
that nobody is asked to remove, if it was there at the start, or if some process is asked to add it and all those have returned.
The processes that are about other edges may be anywhere, or gone. -/
theorem C92_finished (hV : Vocab V) (ops : List (Op F)) (hops : ∀ op ∈ ops, op.Over V) (s : St)
    (hs : runOps ops (St.new false) = (.ok (), s)) (progs : List (List (PCall F)))
    (hp : ∀ p ∈ progs, ∀ c ∈ p, c.Over V) (b : Box) (h : (Box.start s.disk progs).Reach b) :
    FoundIn V (fun x => Asked progs x ∨ ((Spec.after ops).Present x ∧ ¬ Cleared progs b x))
      (fun x => ¬ Endangered progs x ∧ ((Spec.after ops).Present x ∨ (Asked progs x ∧ AddersDone progs b x))) (reopen b.disk false) := by
  have hI := start_rows hV hops hs
  have hR : RowsOk V b.disk.perms := by
    obtain ⟨τ, h1, h2, _⟩ := C72_refines hV ops hops s hs hp h
    rw [← h2]
    exact (reach_inv hV (W := none) (by simp [WOk]) ⟨hI.1, by simp⟩ (over_calls hp) h1).1.1
  refine foundIn_rows hV false hR (fun x n hx hr => ?_) fun x hx hk n hn => ?_
  · have hT := traces hV hx hops hs hp h
    rcases hT.asked n hr with h0 | h0
    · by_cases hN : Asked progs x
      · exact .inl hN
      · refine .inr ⟨((hI.2 x hx n).1 h0).1, fun hc => ?_⟩
        rcases hT.cleared hc (.inl fun m hm => (hI.2 x hx m).2 ⟨((hI.2 x hx n).1 h0).1, hm⟩) with h1 | h1
        · exact hN h1
        · exact h1 n hr
    · exact .inl h0
  · have hT := traces hV hx hops hs hp h
    obtain ⟨hD, hk | ⟨⟨p, hpm, hm⟩, hall⟩⟩ := hk
    · exact (hT.kept n ((hI.2 x hx n).2 ⟨hk, hn⟩)).resolve_right hD
    · obtain ⟨i, hi⟩ := List.getElem?_of_mem hpm
      obtain ⟨m, hm', _⟩ := (hT.added i p hi (hall i p hi hm) hm).resolve_left hD
      rcases hT.full hall m hm' with h1 | h1 | h1
      · exact (hT.kept n ((hI.2 x hx n).2 ⟨((hI.2 x hx m).1 h1).1, hn⟩)).resolve_right hD
      · exact absurd h1 hD
      · exact h1 n hn

/-- C92: so when all processes have returned, then about an edge that some are asked to add and none to remove, or some to remove
(itself or by a pattern) and none to add, or none to add or remove, all queries agree, and say what the processes were asked for. -/
theorem C92_all_returned (hV : Vocab V) (ops : List (Op F)) (hops : ∀ op ∈ ops, op.Over V) (s : St)
    (hs : runOps ops (St.new false) = (.ok (), s)) (progs : List (List (PCall F)))
    (hp : ∀ p ∈ progs, ∀ c ∈ p, c.Over V) (b : Box) (h : (Box.start s.disk progs).Reach b) (hf : b.Finished)
    (x : Val F) (hx : EdgeOver V x) :
    ((Asked progs x ∨ (Spec.after ops).Present x) → ¬ Endangered progs x →
      (hgExists x (reopen b.disk false)).1 = .ok true ∧
      (∀ ps, PatternOver V ps → Matches ps x.elems → ∃ res, (hgPattern2edges (.tup ps) (reopen b.disk false)).1 = .ok res ∧ x ∈ res) ∧
      ∀ c, V c → c.isAtom = true → c ∈ x.elems → ∃ res, (hgStar c (reopen b.disk false)).1 = .ok res ∧ x ∈ res) ∧
    (¬ Asked progs x → ((∃ p ∈ progs, ∃ a ∈ calls p, a.Clears x) ∨ ¬ (Spec.after ops).Present x) →
      (hgExists x (reopen b.disk false)).1 = .ok false ∧
      (∀ ps, PatternOver V ps → ∃ res, (hgPattern2edges (.tup ps) (reopen b.disk false)).1 = .ok res ∧ x ∉ res) ∧
      ∀ c, V c → c.isAtom = true → ∃ res, (hgStar c (reopen b.disk false)).1 = .ok res ∧ x ∉ res) := by
  have hF := C92_finished hV ops hops s hs progs hp b h
  have hl : b.clients.length = progs.length := by rw [h.length]; simp [Box.start]
  have hret : ∀ (i : Nat) (p : List (PCall F)), progs[i]? = some p → b.Returned i := by
    intro i p hi
    have := (List.getElem?_eq_some_iff.1 hi).1
    exact hf i (by omega) (by omega)
  constructor
  · intro hk hD
    have hK : ¬ Endangered progs x ∧ ((Spec.after ops).Present x ∨ (Asked progs x ∧ AddersDone progs b x)) :=
      ⟨hD, hk.elim (fun h => .inr ⟨h, fun i p hi _ => hret i p hi⟩) .inl⟩
    refine ⟨?_, fun ps hps hm => ?_, fun c hc hca hm => ?_⟩
    · obtain ⟨c, h1, _, h3⟩ := hF.ex x hx
      rw [h1, h3 hK]
    · obtain ⟨res, h1, _, _, h4⟩ := hF.pattern ps hps
      exact ⟨res, h1, h4 x hx hm hK⟩
    · obtain ⟨res, h1, _, _, h4⟩ := hF.star c hc hca
      exact ⟨res, h1, h4 x hx hm hK⟩
  · intro hN hk
    have hP : ¬ (Asked progs x ∨ ((Spec.after ops).Present x ∧ ¬ Cleared progs b x)) := by
      rintro (h | ⟨h1, h2⟩)
      · exact hN h
      · rcases hk with ⟨p, hpm, a, ha, hc⟩ | hk
        · obtain ⟨i, hi⟩ := List.getElem?_of_mem hpm
          exact h2 ⟨fun i p hi _ => hret i p hi, i, p, hi, hret i p hi, a, ha, hc⟩
        · exact hk h1
    refine ⟨?_, fun ps hps => ?_, fun c hc hca => ?_⟩
    · obtain ⟨c, h1, h2, _⟩ := hF.ex x hx
      cases c with
      | true => exact absurd (h2 rfl) hP
      | false => exact h1
    · obtain ⟨res, h1, _, h3, _⟩ := hF.pattern ps hps
      exact ⟨res, h1, fun hm => hP (h3 x hm).2.2⟩
    · obtain ⟨res, h1, _, h3, _⟩ := hF.star c hc hca
      exact ⟨res, h1, fun hm => hP (h3 x hm).2.2⟩

/-! ### the conditions are needed -/

theorem Client.done_returned {b : Box} {i : Nat} (h : (b.clients[i]?.map Client.done) = some true) : b.Returned i := by
  obtain ⟨c, h1, h2⟩ := Option.map_eq_some_iff.1 h
  unfold Box.Returned
  rw [h1]
  match c, h2 with
  | .live (.ret (.ok a, c)), _ => exact ⟨_, rfl⟩

/-- One process adds the edge, another removes it. -/
def exBothCalls : List (List (PCall Half)) := [[.one (.add exShareA 5)], [.one (.remove exShareA)]]

/-- Of an edge that one process adds and another removes nothing can be said: both return, the edge exists, and `star` of a symbol
of it does not return it. -/
theorem C92_both_counterexample : ∃ s, runOps exShareOps (St.new false) = (.ok (), s) ∧
    ∃ b, (Box.start s.disk exBothCalls).Reach b ∧ b.Finished ∧ (hgExists exShareA (reopen b.disk false)).1 = .ok true ∧
      (hgStar (sy "is") (reopen b.disk false)).1 = .ok [exShareA] ∧ (hgStar (sy "a") (reopen b.disk false)).1 = .ok [] := by
  have hV : Vocab (PlainVocab (F := Half)) := plainVocab
  obtain ⟨s, A, hA⟩ := after_exists hV exShareOps exShareOps_over false
  have hd : s.disk = exShareDB := by
    rw [show s = (runOps exShareOps (St.new false)).2 by rw [hA.run]]
    decide +kernel
  refine ⟨s, hA.run, (Box.start exShareDB exBothCalls).turns (List.replicate 7 1 ++ List.replicate 40 0 ++ List.replicate 40 1),
    by rw [hd]; exact Box.turns_reach _ _, Box.firstDone_of (by decide +kernel), ?_, ?_, ?_⟩ <;> decide +kernel

/-- Two processes add the same edge. -/
def exSameAdds : List (List (PCall Half)) := [[.one (.add exMyA 5)], [.one (.add exMyA 6)]]

/-- `C92_added` is about `exists` only: a process returned from adding an edge, which exists and which nobody removes, but `star` of a
symbol of the edge does not return it: the process that is adding the same edge did not come far enough (and may never do). -/
theorem C92_added_star_counterexample : ∃ s, runOps exShareOps (St.new false) = (.ok (), s) ∧
    ∃ b, (Box.start s.disk exSameAdds).Reach b ∧ b.Returned 1 ∧ (hgExists exMyA (reopen b.disk false)).1 = .ok true ∧
      (hgStar (sy "is") (reopen b.disk false)).1 = .ok [exShareA] := by
  have hV : Vocab (PlainVocab (F := Half)) := plainVocab
  obtain ⟨s, A, hA⟩ := after_exists hV exShareOps exShareOps_over false
  have hd : s.disk = exShareDB := by
    rw [show s = (runOps exShareOps (St.new false)).2 by rw [hA.run]]
    decide +kernel
  refine ⟨s, hA.run, (Box.start exShareDB exSameAdds).turns (List.replicate 11 0 ++ List.replicate 40 1),
    by rw [hd]; exact Box.turns_reach _ _, Client.done_returned (by decide +kernel), ?_, ?_⟩ <;> decide +kernel

/-- One process removes an edge, another all edges that match a pattern, as it does. -/
def exEight : HVal := .tup [sy "loves", sy "mary", sy "b", sy "mary"]
def exEightOps : List (Op Half) := [.prim (.add exEight 1)]
def exEightCalls : List (List (PCall Half)) :=
  [[.one (.remove exEight)], [.one (.removeByPattern [sy "loves", .none, sy "b", .none])]]

theorem exEightOps_over : ∀ op ∈ exEightOps, op.Over PlainVocab := ops_of (by decide +kernel)

/-- `C92_removed` does not hold of a removal by a pattern: the process returned, nobody adds the edge, and it exists.  Another process had
begun to remove it: the rows where the pattern looks were gone, and one where `exists` looks was not. -/
theorem C92_pattern_counterexample : ∃ s, runOps exEightOps (St.new false) = (.ok (), s) ∧
    ∃ b, (Box.start s.disk exEightCalls).Reach b ∧ b.Returned 1 ∧ Matches [sy "loves", .none, sy "b", .none] exEight.elems ∧
      (hgExists exEight (reopen b.disk false)).1 = .ok true := by
  have hV : Vocab (PlainVocab (F := Half)) := plainVocab
  obtain ⟨s, A, hA⟩ := after_exists hV exEightOps exEightOps_over false
  have hs : s = (runOps exEightOps (St.new false)).2 := by rw [hA.run]
  refine ⟨s, hA.run, (Box.start s.disk exEightCalls).turns (List.replicate 18 0 ++ List.replicate 30 1),
    Box.turns_reach _ _, Client.done_returned ?_, ?_, ?_⟩
  · rw [hs]; decide +kernel
  · decide +kernel
  · rw [hs]; decide +kernel

/-- The edges after which the examples ask. -/
theorem exMixed_over : ∀ p ∈ exMixedCalls, ∀ c ∈ p, c.Over PlainVocab := by
  have h3 : EdgeOver PlainVocab exShareB := edge_of (by decide +kernel)
  intro p hp c hc
  rcases List.mem_append.1 hp with hp | hp
  · exact exTwiceCalls_over p hp c hc
  · simp only [List.mem_cons, List.not_mem_nil, or_false] at hp
    subst hp
    simp only [List.mem_cons, List.not_mem_nil, or_false] at hc
    subst hc
    exact h3

theorem exMixed_endangered (x : HVal) (h1 : x ≠ exShareA) (h2 : ¬ Matches [.none, sy "a"] x.elems) : ¬ Endangered exMixedCalls x := by
  rintro ⟨p, hp, a, ha, hr⟩
  simp only [exMixedCalls, exTwiceCalls, List.cons_append, List.nil_append, List.mem_cons, List.not_mem_nil, or_false] at hp
  rcases hp with rfl | rfl | rfl <;> simp only [calls, PCall.acts, List.flatMap_cons, List.flatMap_nil, List.append_nil,
    List.mem_singleton] at ha <;> subst ha
  · exact h1 hr
  · exact h2 hr
  · exact hr

theorem exMixed_asked (x : HVal) (h : x ≠ exShareB) : ¬ Asked exMixedCalls x := by
  rintro ⟨p, hp, hr⟩
  simp only [exMixedCalls, exTwiceCalls, List.cons_append, List.nil_append, List.mem_cons, List.not_mem_nil, or_false] at hp
  rcases hp with rfl | rfl | rfl <;> simp [calls, PCall.acts, PAct.adds] at hr
  exact h hr

/-- The hypotheses of the theorems are met by three processes of which two remove the same edge, one of them by a pattern, and one
adds another edge: when they have returned, the one edge is returned by no query, and the other by all. -/
example : ∃ s, runOps exCallOps (St.new false) = (.ok (), s) ∧ ∃ b, (Box.start s.disk exMixedCalls).Reach b ∧ b.Finished ∧
    (hgExists exShareA s).1 = .ok true ∧ (hgExists exShareB s).1 = .ok false ∧
    (hgExists exShareA (reopen b.disk false)).1 = .ok false ∧ (hgExists exShareB (reopen b.disk false)).1 = .ok true ∧
    (∃ res, (hgStar (sy "is") (reopen b.disk false)).1 = .ok res ∧ exShareA ∉ res) ∧
    (∃ res, (hgStar (sy "is") (reopen b.disk false)).1 = .ok res ∧ exShareB ∈ res) ∧
    ∃ res, (hgStar (sy "loves") (reopen b.disk false)).1 = .ok res ∧ exE4 ∈ res := by
  have hV : Vocab (PlainVocab (F := Half)) := plainVocab
  obtain ⟨s, A, hA⟩ := after_exists hV exCallOps exCallOps_over false
  have hs : s = (runOps exCallOps (St.new false)).2 := by rw [hA.run]
  have h1 := (Box.start s.disk exMixedCalls).turns_reach ((List.range 60).flatMap fun _ => [0, 1, 2])
  have hf : ((Box.start s.disk exMixedCalls).turns ((List.range 60).flatMap fun _ => [0, 1, 2])).Finished := by
    refine Box.firstDone_of ?_
    rw [hs]
    decide +kernel
  have hA1 : EdgeOver PlainVocab exShareA := edge_of (by decide +kernel)
  have hB1 : EdgeOver PlainVocab exShareB := edge_of (by decide +kernel)
  have hE1 : EdgeOver PlainVocab exE4 := edge_of (by decide +kernel)
  obtain ⟨_, a1, _, a3⟩ := C92_all_returned hV exCallOps exCallOps_over s hA.run exMixedCalls exMixed_over _ h1 hf exShareA hA1 |>.imp
    id fun h => h (exMixed_asked _ (by decide +kernel)) (.inl ⟨_, List.mem_cons_self .., .remove exShareA, by simp [calls, PCall.acts], rfl⟩)
  obtain ⟨b1, _, b3⟩ := (C92_all_returned hV exCallOps exCallOps_over s hA.run exMixedCalls exMixed_over _ h1 hf exShareB hB1).1
    (.inl ⟨[.one (.add exShareB 3)], by simp [exMixedCalls], by simp [calls, PCall.acts, PAct.adds]⟩)
    (exMixed_endangered _ (by decide +kernel) (by decide +kernel))
  obtain ⟨_, _, c3⟩ := (C92_all_returned hV exCallOps exCallOps_over s hA.run exMixedCalls exMixed_over _ h1 hf exE4 hE1).1
    (.inr (by unfold Spec.Present; decide +kernel)) (exMixed_endangered _ (by decide +kernel) (by decide +kernel))
  refine ⟨s, hA.run, _, h1, hf, ?_, ?_, a1, b1, a3 _ (plain_of (by decide +kernel)) rfl, b3 _ (plain_of (by decide +kernel)) rfl
    (by decide +kernel), c3 _ (plain_of (by decide +kernel)) rfl (by decide +kernel)⟩
  · rw [hs]; decide +kernel
  · rw [hs]; decide +kernel

/-- The hypotheses of `C92_added` and `C92_removed` are met when the process that removes by a pattern is killed in the middle and the
two others have returned. -/
example : ∃ s, runOps exCallOps (St.new false) = (.ok (), s) ∧ ∃ b, (Box.start s.disk exMixedCalls).Reach b ∧ b.Returned 0 ∧
    b.Returned 2 ∧ ¬ b.Returned 1 ∧ (hgExists exShareA (reopen b.disk false)).1 = .ok false ∧
    (hgExists exShareB (reopen b.disk false)).1 = .ok true := by
  have hV : Vocab (PlainVocab (F := Half)) := plainVocab
  obtain ⟨s, A, hA⟩ := after_exists hV exCallOps exCallOps_over false
  have hs : s = (runOps exCallOps (St.new false)).2 := by rw [hA.run]
  have h1 := (((Box.start s.disk exMixedCalls).turns_reach [1, 1, 1, 1, 1, 0]).trans (Box.kill_reach _ 1)).trans
    (Box.turns_reach (List.replicate 40 0 ++ List.replicate 40 2) _)
  refine ⟨s, hA.run, _, h1, ?_, ?_, ?_, ?_, ?_⟩
  · refine Client.done_returned ?_
    rw [hs]; decide +kernel
  · refine Client.done_returned ?_
    rw [hs]; decide +kernel
  · rintro ⟨r, hr⟩
    have : (match ((((Box.start s.disk exMixedCalls).turns [1, 1, 1, 1, 1, 0]).kill 1).turns
        (List.replicate 40 0 ++ List.replicate 40 2)).clients[1]? with | some .gone => true | _ => false) = true := by
      rw [hs]; decide +kernel
    rw [hr] at this
    cases this
  · refine C92_removed hV exCallOps exCallOps_over s hA.run exMixedCalls exMixed_over _ h1 0 _ rfl (Client.done_returned ?_)
      (.remove exShareA) (by simp [calls, PCall.acts]) _ (edge_of (by decide +kernel)) rfl (exMixed_asked _ (by decide +kernel))
    rw [hs]; decide +kernel
  · refine C92_added hV exCallOps exCallOps_over s hA.run exMixedCalls exMixed_over _ h1 2 _ rfl (Client.done_returned ?_)
      (.add exShareB 3) (by simp [calls, PCall.acts]) exShareB (by simp [PAct.adds]) (exMixed_endangered _ (by decide +kernel) (by decide +kernel))
    rw [hs]; decide +kernel

end GB
