import Verif.Proofs.MyActs

/-! The parts of the database that belong to the clients, and that they do not disturb each other. -/

set_option linter.unusedSectionVars false

namespace GB

variable {F : Type} [PyFloat F] [DecidableEq F] {V : Val F → Prop} {k : Nat}

/-- The text of a symbol satisfying `K`. -/
def SymText (V K : Val F → Prop) (t : Str) : Prop := ∃ v, V v ∧ v.isAtom = true ∧ K v ∧ t = edge2str v

/-- The id of an edge that the program works on, or of an element of it. -/
def WorksOn (V P : Val F → Prop) (q : Program F) (t : Str) : Prop :=
  ∃ y, (EdgeOver V y ∧ q.Uses P y) ∧ (t = edge2str y ∨ ∃ v ∈ y.elems, t = edge2str v)

/-- What belongs to client `i`. -/
def fieldOf (V P K : Val F → Prop) (progs : List (Program F)) (i : Nat) : Field F where
  own x := EdgeOver V x ∧ ∀ (j : Nat) (q : Program F), progs[j]? = some q → j ≠ i → ¬ q.Touches x
  used x := EdgeOver V x ∧ ∃ p, progs[i]? = some p ∧ p.Uses P x
  mine x := ∃ p, progs[i]? = some p ∧ p.Touches x
  verts t := ∀ (j : Nat) (q : Program F), progs[j]? = some q → j ≠ i → ¬ WorksOn V P q t
  known := SymText V K

theorem adds_touches {a : PAct F} {x : Val F} (h : a.Adds x) : a.Touches x := by
  cases a <;> first | exact h | exact h.elim

theorem uses_touches {P : Val F → Prop} {p : Program F} {x : Val F} (h : p.Uses P x) : p.Touches x := by
  rcases h with ⟨a, ha, h⟩ | ⟨_, h⟩
  · exact ⟨a, ha, adds_touches h⟩
  · exact h

variable {P K : Val F → Prop} {progs : List (Program F)}

/-- What the contents must satisfy at the start. -/
structure MyStart (V : Val F → Prop) (k : Nat) (P K : Val F → Prop) (db : DB) : Prop where
  inv : MyInv V k (SymText V K) db
  rows : ∀ x n, EdgeOver V x → HasRow db.perms x n → P x

theorem start_alike {db : DB} (h : MyStart V k P K db) (i : Nat) :
    Alike V k (fieldOf V P K progs i) db db :=
  ⟨h.inv, h.inv, rfl, fun _ _ => rfl, fun x n hx ⟨p, hp, hm⟩ hr => ⟨hx, p, hp, .inr ⟨h.rows x n hx hr, hm⟩⟩⟩

theorem field_ok (hV : Vocab V) (hs : Shareable V P (fun v => v.isAtom = true ∧ K v) progs) {db : DB}
    (h : MyStart V k P K db) (i : Nat) : (fieldOf V P K progs i).Ok V k := by
  refine ⟨?_, fun x h => h.1, ?_, ?_, ?_, ⟨db, db, start_alike h i⟩⟩
  · rintro x ⟨hx, p, hp, hu⟩
    exact ⟨hx, fun j q hq hj ht => (hs.apart i j p q hp hq (fun h => hj h.symm) x (uses_touches hu)).1 ht⟩
  · rintro x ⟨hx, p, hp, hu⟩ j q hq hj ⟨y, ⟨hy, hu'⟩, h | ⟨v, hv, h⟩⟩
    · have : x = y := edge2str_inj (hx.wf hV) (hy.wf hV) h
      subst this
      exact (hs.apart i j p q hp hq (fun h => hj h.symm) x (uses_touches hu)).1 (uses_touches hu')
    · have : x = v := edge2str_inj (hx.wf hV) (hV.wf v (hy.mem v hv)) h
      subst this
      exact (hs.elems i j p q hp hq (fun h => hj h.symm) x y hx hy hu hu').1 hv
  · rintro x ⟨hx, p, hp, hu⟩ v hv
    have hvw := hV.wf v (hx.mem v hv)
    by_cases hn : ∃ (j : Nat) (q : Program F), progs[j]? = some q ∧ j ≠ i ∧ WorksOn V P q (edge2str v)
    · right
      obtain ⟨j, q, hq, hj, y, ⟨hy, hu'⟩, h | ⟨w, hw, h⟩⟩ := hn
      · have : v = y := edge2str_inj hvw (hy.wf hV) h
        subst this
        exact absurd hv (hs.elems j i q p hq hp hj v x hy hx hu' hu).1
      · have : v = w := edge2str_inj hvw (hV.wf w (hy.mem w hw)) h
        subst this
        have := (hs.elems i j p q hp hq (fun h => hj h.symm) x y hx hy hu hu').2 v hv hw
        exact ⟨v, hx.mem v hv, this.1, this.2, rfl⟩
    · left
      intro j q hq hj h
      exact hn ⟨j, q, hq, hj, h⟩
  · rintro x ⟨hx, _⟩ ⟨v, hv, ha, _, h⟩
    exact atom_text_ne hV (hV.wf v hv) ha hx h.symm

theorem rowsIn_apart (hV : Vocab V) {O U : Val F → Prop} (hd : ∀ x, EdgeOver V x → O x → ¬ U x) {a b : List Str}
    (h : rowsOut V U a = rowsOut V U b) : rowsIn V O a = rowsIn V O b := by
  classical
  have key : ∀ l : List Str, rowsIn V O l = (rowsOut V U l).filter fun r => decide (RowIn V O r) := by
    intro l
    unfold rowsIn rowsOut
    rw [List.filter_filter]
    apply List.filter_congr
    intro r _
    by_cases h1 : RowIn V O r
    · have h2 : ¬ RowIn V U r := by
        obtain ⟨x, n, ho, hx, hn, rfl⟩ := h1
        rw [rowIn_iff hV hx hn]
        exact hd x hx ho
      simp [h1, h2]
    · simp [h1]
  rw [key, key, h]

/-- A step of client `i` does not disturb client `j`. -/
theorem moves_alike (hV : Vocab V) {i j : Nat} (hij : i ≠ j) {db db' d d' x : DB}
    (h : MyMoves V k (fieldOf V P K progs i) db db' d d') (ha : Alike V k (fieldOf V P K progs j) db x) :
    Alike V k (fieldOf V P K progs j) db' x := by
  refine ⟨h.inv, ha.inv', ?_, fun t ht => ?_, ha.mine⟩
  · rw [← ha.rows]
    refine rowsIn_apart hV ?_ h.rows
    rintro y _ ⟨_, ho⟩ ⟨_, p, hp, hu⟩
    exact ho i p hp hij (uses_touches hu)
  · rw [← ha.verts t ht]
    refine h.verts t ?_
    rintro ⟨y, ⟨hy, p, hp, hu⟩, h⟩
    exact ht i p hp hij ⟨y, ⟨hy, hu⟩, h⟩

theorem own_sees (hs : Apart progs) {i : Nat} {p : Program F} (hp : progs[i]? = some p) {x : Val F} (hx : EdgeOver V x)
    (h : p.Touches x ∨ p.Sees x) : (fieldOf V P K progs i).own x := by
  refine ⟨hx, fun j q hq hj ht => ?_⟩
  rcases h with h | h
  · exact (hs j i q p hq hp hj x ht).1 h
  · exact (hs j i q p hq hp hj x ht).2 h

end GB
