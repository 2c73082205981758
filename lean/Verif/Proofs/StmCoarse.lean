import Verif.Proofs.Stm
import Verif.Proofs.ConcAlone

/-! The lock makes transactions of statements: a system of statements is one of transactions. -/

set_option linter.unusedSectionVars false

namespace GB

variable {F : Type} [PyFloat F] [DecidableEq F]

/-- The process as transactions (outside a transaction), and, given the file and the contents in an open transaction,
the file after the transaction and what follows. -/
def Stm.co {α : Type} : Stm (Except PyErr α × Option Bool) → Proc α × (DB → DB → DB × Proc α)
  | .ret (r, _) => (.ret r, fun d _ => (d, .ret r))
  | .read k => (.tx id (fun db => (k db).co.1), fun d w => (k w).co.2 d w)
  | .write u k e =>
    (.tx (fun db => (match u db with | none => e.co.2 db db | some w => (k db).co.2 db w).1)
        (fun db => (match u db with | none => e.co.2 db db | some w => (k db).co.2 db w).2),
      fun d w => match u w with | none => e.co.2 d w | some w' => (k w).co.2 d w')
  | .commit k => (k.co.1, fun _ w => (w, k.co.1))

/-- As transactions, starting outside of one. -/
def Stm.out {α : Type} (p : Stm (Except PyErr α × Option Bool)) : Proc α := p.co.1

/-- The end of the open transaction with contents `w`, and what follows. -/
def Stm.ins {α : Type} (p : Stm (Except PyErr α × Option Bool)) (d w : DB) : DB × Proc α := p.co.2 d w

/-- The system of transactions is where the system of statements is, not counting the open transaction. -/
def Mirror (b : Box) (σ : Sys) : Prop :=
  σ.db = b.disk ∧ ∀ (i : Nat) (p : Stm (Except PyErr Unit × Option Bool)), b.clients[i]? = some (.live p) →
    (∀ w, b.tx = some (i, w) → ∃ u n, σ.procs[i]? = some (.tx u n) ∧ (u b.disk, n b.disk) = p.ins b.disk w) ∧
    (¬ b.holds i → σ.procs[i]? = some p.out)

theorem Box.view_holds {b : Box} {i : Nat} {w : DB} (h : b.tx = some (i, w)) : b.view i = w := by
  unfold Box.view; rw [h]; simp

theorem Box.view_not {b : Box} {i : Nat} (h : ¬ b.holds i) : b.view i = b.disk := by
  unfold Box.view
  split
  · rename_i j w hj
    split
    · rename_i hji
      subst hji
      exact absurd ⟨w, hj⟩ h
    · rfl
  · rfl

theorem Box.set_get {b : Box} {i j : Nat} {p : Client} {q : Client} (h : (b.set i p).clients[j]? = some q) :
    (j = i ∧ q = p ∧ i < b.clients.length) ∨ (j ≠ i ∧ b.clients[j]? = some q) := getElem?_set_cases h

theorem Box.release_tx {b : Box} {i j : Nat} {w : DB} (h : (b.release i).tx = some (j, w)) : j ≠ i ∧ b.tx = some (j, w) := by
  unfold Box.release at h
  simp only at h
  split at h
  · rename_i j' w' hj
    split at h
    · cases h
    · rename_i hne
      cases h
      exact ⟨hne, hj⟩
  · cases h

theorem Box.release_holds {b : Box} {i j : Nat} (hij : j ≠ i) : (b.release i).holds j ↔ b.holds j := by
  constructor
  · rintro ⟨w, hw⟩; exact ⟨w, (Box.release_tx hw).2⟩
  · rintro ⟨w, hw⟩
    refine ⟨w, ?_⟩
    unfold Box.release
    simp only [hw, hij, if_false]

theorem Box.release_self {b : Box} {i : Nat} : ¬ (b.release i).holds i := by
  rintro ⟨w, hw⟩
  exact (Box.release_tx hw).1 rfl

theorem mirror_step {b c : Box} {σ : Sys} (hm : Mirror b σ) (hs : b.Step c) : ∃ τ, σ.Reach τ ∧ Mirror c τ := by
  obtain ⟨hd, hp⟩ := hm
  obtain ⟨db, procs⟩ := σ
  simp only at hd hp
  subst hd
  rcases hs with hs | ⟨i, _⟩
  · cases hs with
    | @read i k h =>
      by_cases hh : b.holds i
      · obtain ⟨w, hw⟩ := hh
        refine ⟨_, .refl, rfl, ?_⟩
        intro j q hj
        rcases Box.set_get hj with ⟨rfl, hq, _⟩ | ⟨hne, hj⟩
        · cases hq
          refine ⟨fun w' hw' => ?_, fun hn => absurd ⟨w, hw⟩ hn⟩
          have : w' = w := by
            have h1 : b.tx = some (j, w') := hw'
            rw [hw] at h1
            cases h1; rfl
          subst this
          obtain ⟨u, n, h1, h2⟩ := (hp j _ h).1 w' hw
          refine ⟨u, n, h1, ?_⟩
          rw [Box.view_holds hw]
          exact h2
        · exact hp j q hj
      · refine ⟨⟨b.disk, procs.set i (k b.disk).out⟩, .step .refl (.tx (upd := id) (next := fun db => (k db).out) i ((hp i _ h).2 hh)), rfl, ?_⟩
        intro j q hj
        rcases Box.set_get hj with ⟨rfl, hq, _⟩ | ⟨hne, hj⟩
        · cases hq
          refine ⟨fun w' hw' => absurd ⟨w', hw'⟩ hh, fun _ => ?_⟩
          have hl : j < procs.length := (List.getElem?_eq_some_iff.1 ((hp j _ h).2 hh)).1
          rw [Box.view_not hh]
          simp [hl]
        · refine ⟨fun w hw => ?_, fun hn => ?_⟩
          · obtain ⟨u, n, h1, h2⟩ := (hp j q hj).1 w hw
            exact ⟨u, n, by simpa [List.getElem?_set, Ne.symm hne] using h1, h2⟩
          · simpa [List.getElem?_set, Ne.symm hne] using (hp j q hj).2 hn
    | @write i u k e w h hf hw =>
      refine ⟨_, .refl, rfl, ?_⟩
      intro j q hj
      rcases Box.set_get hj with ⟨rfl, hq, _⟩ | ⟨hne, hj⟩
      · cases hq
        refine ⟨fun w' hw' => ?_, fun hn => absurd ⟨w, rfl⟩ hn⟩
        have : w' = w := by cases hw'; rfl
        subst this
        by_cases hh : b.holds j
        · obtain ⟨w0, hw0⟩ := hh
          obtain ⟨u', n, h1, h2⟩ := (hp j _ h).1 w0 hw0
          refine ⟨u', n, h1, h2.trans ?_⟩
          rw [Box.view_holds hw0] at hw ⊢
          show (match u w0 with | none => _ | some w' => _) = _
          rw [hw]; rfl
        · refine ⟨_, _, (hp j _ h).2 hh, ?_⟩
          rw [Box.view_not hh] at hw ⊢
          have hset : ∀ p, (b.set j p).disk = b.disk := fun _ => rfl
          simp only [hset, hw]
          rfl
      · refine ⟨fun w' hw' => ?_, fun _ => ?_⟩
        · cases hw'; exact absurd rfl hne
        · refine (hp j q hj).2 ?_
          rintro ⟨w', hw'⟩
          exact hne (hf j w' hw')
    | @refused i u k e h hf hw =>
      refine ⟨_, .refl, rfl, ?_⟩
      intro j q hj
      rcases Box.set_get hj with ⟨rfl, hq, _⟩ | ⟨hne, hj⟩
      · cases hq
        refine ⟨fun w' hw' => ?_, fun hn => absurd ⟨_, rfl⟩ hn⟩
        have : w' = b.view j := by cases hw'; rfl
        subst this
        by_cases hh : b.holds j
        · obtain ⟨w0, hw0⟩ := hh
          obtain ⟨u', n, h1, h2⟩ := (hp j _ h).1 w0 hw0
          refine ⟨u', n, h1, h2.trans ?_⟩
          rw [Box.view_holds hw0] at hw ⊢
          show (match u w0 with | none => _ | some w' => _) = _
          rw [hw]; rfl
        · refine ⟨_, _, (hp j _ h).2 hh, ?_⟩
          rw [Box.view_not hh] at hw ⊢
          have hset : ∀ p, (b.set j p).disk = b.disk := fun _ => rfl
          simp only [hset, hw]
          rfl
      · refine ⟨fun w' hw' => ?_, fun _ => ?_⟩
        · cases hw'; exact absurd rfl hne
        · refine (hp j q hj).2 ?_
          rintro ⟨w', hw'⟩
          exact hne (hf j w' hw')
    | @commit i k w h ht =>
      obtain ⟨u, n, h1, h2⟩ := (hp i _ h).1 w ht
      have h3 : u b.disk = w ∧ n b.disk = k.out := by
        have : (u b.disk, n b.disk) = (w, k.out) := h2
        exact ⟨congrArg Prod.fst this, congrArg Prod.snd this⟩
      refine ⟨⟨u b.disk, procs.set i (n b.disk)⟩, .step .refl (.tx i h1), h3.1, ?_⟩
      intro j q hj
      rcases Box.set_get hj with ⟨rfl, hq, _⟩ | ⟨hne, hj⟩
      · cases hq
        refine ⟨fun w' hw' => (nomatch hw'), fun _ => ?_⟩
        have hl : j < procs.length := (List.getElem?_eq_some_iff.1 h1).1
        simp [hl, h3.2]
      · refine ⟨fun w' hw' => (nomatch hw'), fun _ => ?_⟩
        have hn : ¬ b.holds j := by
          rintro ⟨w', hw'⟩
          rw [ht] at hw'
          cases hw'
          exact hne rfl
        simpa [List.getElem?_set, Ne.symm hne] using (hp j q hj).2 hn
    | @idle i k h ht =>
      refine ⟨_, .refl, rfl, ?_⟩
      intro j q hj
      rcases Box.set_get hj with ⟨rfl, hq, _⟩ | ⟨hne, hj⟩
      · cases hq
        exact ⟨fun w' hw' => absurd ⟨w', hw'⟩ ht, fun _ => (hp j _ h).2 ht⟩
      · exact hp j q hj
    | @close i r h ht =>
      obtain ⟨w, hw⟩ := ht
      obtain ⟨r, c⟩ := r
      obtain ⟨u, n, h1, h2⟩ := (hp i _ h).1 w hw
      have h3 : u b.disk = b.disk ∧ n b.disk = .ret r := by
        have : (u b.disk, n b.disk) = (b.disk, .ret r) := h2
        exact ⟨congrArg Prod.fst this, congrArg Prod.snd this⟩
      refine ⟨⟨u b.disk, procs.set i (n b.disk)⟩, .step .refl (.tx i h1), h3.1, ?_⟩
      intro j q hj
      have hl : i < procs.length := (List.getElem?_eq_some_iff.1 h1).1
      by_cases hne : j = i
      · subst hne
        refine ⟨fun w' hw' => absurd ⟨w', hw'⟩ Box.release_self, fun _ => ?_⟩
        have : q = .ret (r, c) := by
          have h4 : b.clients[j]? = some (.live q) := hj
          rw [h] at h4
          cases h4; rfl
        subst this
        simp [hl, h3.2]
        rfl
      · refine ⟨fun w' hw' => ?_, fun hn => ?_⟩
        · have := (Box.release_tx hw').2
          rw [hw] at this
          cases this
          exact absurd rfl hne
        · simpa [List.getElem?_set, Ne.symm hne] using (hp j q hj).2 fun h => hn ((Box.release_holds hne).2 h)
  · refine ⟨_, .refl, rfl, ?_⟩
    intro j q hj
    have hj' : (b.set i .gone).clients[j]? = some (.live q) := hj
    rcases Box.set_get hj' with ⟨_, hq, _⟩ | ⟨hne, hj⟩
    · cases hq
    · exact ⟨fun w hw => (hp j q hj).1 w (Box.release_tx hw).2,
        fun hn => (hp j q hj).2 fun h => hn ((Box.release_holds hne).2 h)⟩

theorem reach_trans {σ τ υ : Sys} (h1 : σ.Reach τ) (h2 : τ.Reach υ) : σ.Reach υ := by
  induction h2 with
  | refl => exact h1
  | step _ hs ih => exact .step ih hs

/-- Whatever the statements bring about, the transactions do. -/
theorem mirror_reach {b c : Box} {σ : Sys} (hm : Mirror b σ) (hr : b.Reach c) : ∃ τ, σ.Reach τ ∧ Mirror c τ := by
  induction hr with
  | refl => exact ⟨σ, .refl, hm⟩
  | step _ hs ih =>
    obtain ⟨τ, h1, h2⟩ := ih
    obtain ⟨υ, h3, h4⟩ := mirror_step h2 hs
    exact ⟨υ, reach_trans h1 h3, h4⟩

/-- A process that returned without an open transaction is one that returned; with one, it can still. -/
theorem mirror_start (db : DB) (progs : List (List (PCall F))) :
    Mirror (Box.start db progs) ⟨db, progs.map fun p => (cEach PCall.conn p none).out⟩ := by
  refine ⟨rfl, fun i p hi => ⟨fun w hw => (by cases hw), fun _ => ?_⟩⟩
  simp only [Box.start, List.getElem?_map, Option.map_eq_some_iff] at hi ⊢
  obtain ⟨x, h1, h2⟩ := hi
  cases h2
  exact ⟨x, h1, rfl⟩

end GB
