import Verif.Model.Destroy
import Verif.Proofs.ConcShare
import Verif.Proofs.ConcSys

/-! Processes some of which erase the graph. -/

set_option linter.unusedSectionVars false

namespace GB

variable {F : Type} [PyFloat F] [DecidableEq F] {V : Val F → Prop}

/-! ### what can be said of the end -/

namespace Proc

variable {α β : Type}

/-- Before it ends, the process makes `K` true, and from then on it keeps it. -/
def Pending (I K : DB → Prop) (G : DB → DB → Prop) : Proc α → Prop
  | .ret _ => False
  | .tx u k => ∀ db, I db → I (u db) ∧ (Pending I K G (k db) ∨ (K (u db) ∧ (k db).Safe I G))

variable {I K : DB → Prop} {G : DB → DB → Prop}

theorem Pending.of_will {p : Proc α} (hG : ∀ a b, G a b → K a → K b) (hs : p.Safe I G) (hw : p.Will I K) :
    p.Pending I K G := by
  induction p with
  | ret r => exact absurd hw id
  | tx u k ih =>
    intro db hI
    obtain ⟨h1, h2, h3⟩ := hs db hI
    refine ⟨h1, ?_⟩
    rcases hw db hI with h | h
    · exact .inr ⟨h, h3⟩
    · exact .inl (ih db h3 h)

theorem Pending.after {G' : DB → DB → Prop} {p : Proc α} {f : α → Proc β} (hp : p.Safe I G')
    (hf : ∀ a, (f a).Pending I K G) : (p.bind f).Pending I K G := by
  induction p with
  | ret r =>
    obtain ⟨a, rfl⟩ := hp
    exact hf a
  | tx u k ih => exact fun db hI => ⟨(hp db hI).1, .inl (ih db (hp db hI).2.2)⟩

theorem each_append (f : α → Proc Unit) (xs ys : List α) : each f (xs ++ ys) = (each f xs).seq (each f ys) := by
  induction xs with
  | nil => rfl
  | cons x xs ih =>
    show (f x).bind (fun _ => each f (xs ++ ys)) = ((f x).bind fun _ => each f xs).bind fun _ => each f ys
    rw [ih]
    generalize f x = p
    induction p with
    | ret r => cases r <;> rfl
    | tx u n ih => simp only [Proc.bind]; congr 1; funext db; exact ih db

end Proc

/-- If every process either keeps `K` or makes it true later than it may spoil it, then `K` holds or some process is
still going to make it true. -/
theorem Sys.Reach.pending {I K : DB → Prop} {G : DB → DB → Prop} (hG : ∀ a b, G a b → K a → K b) {σ τ : Sys}
    (h : σ.Reach τ) (hI : I σ.db) (hs : ∀ p ∈ σ.procs, p.Safe I G ∨ p.Pending I K G)
    (h0 : K σ.db ∨ ∃ p ∈ σ.procs, p.Pending I K G) :
    I τ.db ∧ (∀ p ∈ τ.procs, p.Safe I G ∨ p.Pending I K G) ∧ (K τ.db ∨ ∃ p ∈ τ.procs, p.Pending I K G) := by
  induction h with
  | refl => exact ⟨hI, hs, h0⟩
  | step _ hst ih =>
    obtain ⟨h1, h2, h3⟩ := ih
    cases hst with
    | @tx db procs i u n hp =>
      have hpm := List.mem_of_getElem? hp
      have hil := (List.getElem?_eq_some_iff.1 hp).1
      have hnew : n db ∈ procs.set i (n db) := List.mem_set hil _
      have hset : ∀ q ∈ procs.set i (n db), q = n db ∨ q ∈ procs := fun q hq =>
        (List.mem_or_eq_of_mem_set hq).symm
      rcases h2 _ hpm with hsafe | hpend
      · obtain ⟨k1, k2, k3⟩ := hsafe db h1
        refine ⟨k1, fun q hq => ?_, ?_⟩
        · rcases hset q hq with rfl | hq
          · exact .inl k3
          · exact h2 q hq
        · rcases h3 with h3 | ⟨q, hq, hqp⟩
          · exact .inl (hG _ _ k2 h3)
          · obtain ⟨j, hj⟩ := List.getElem?_of_mem hq
            by_cases hji : j = i
            · subst hji
              rw [hp] at hj
              cases hj
              rcases (hqp db h1).2 with h | ⟨h, _⟩
              · exact .inr ⟨_, hnew, h⟩
              · exact .inl h
            · refine .inr ⟨q, ?_, hqp⟩
              refine List.mem_of_getElem? (i := j) ?_
              rw [List.getElem?_set_ne (fun h => hji h.symm)]
              exact hj
      · obtain ⟨k1, k2⟩ := hpend db h1
        refine ⟨k1, fun q hq => ?_, ?_⟩
        · rcases hset q hq with rfl | hq
          · rcases k2 with k | ⟨_, k⟩
            · exact .inr k
            · exact .inl k
          · exact h2 q hq
        · rcases k2 with k | ⟨k, _⟩
          · exact .inr ⟨_, hnew, k⟩
          · exact .inl k

/-! ### rows that appear -/

/-- Rows of edges not in `A` do not appear. -/
def NoNew (V A : Val F → Prop) (db db' : DB) : Prop :=
  ∀ x, EdgeOver V x → ¬ A x → ∀ n, HasRow db'.perms x n → HasRow db.perms x n

variable {A : Val F → Prop} {W : Option (Val F)}

theorem NoNew.of_perms {db db' : DB} (h : db'.perms = db.perms) : NoNew V A db db' := by
  intro x _ _ n
  rw [h]
  exact id

theorem Only.noNew {R : Val F → Prop} {db db' : DB} (h : Only V A R db db') : NoNew V A db db' :=
  fun x hx ha n => ((h x hx).1 ha n).1

theorem fewer_remove (hV : Vocab V) (hW : WOk W) {e : Val F} (he : EdgeOver V e) :
    (removeP e).Safe (CInv V W) (NoNew V A) := by
  have hex : (Proc.atom (existsM e)).Safe (CInv V W) (NoNew V A) := by
    refine Proc.Safe.atom fun db hI => ?_
    obtain ⟨b, h1, h2, _⟩ := here_exists hV hI.1 he
    exact ⟨b, db, h1, h2, hI, NoNew.of_perms rfl⟩
  refine hex.bind fun b => ?_
  split
  · rw [iter_edge he]
    have hdec : ∀ t, (Proc.atom (decDegree t)).Safe (CInv V W) (NoNew V A) := fun t =>
      Proc.Safe.atom fun db hI => ⟨_, _, (here_dec db t).1, (here_dec db t).2,
        ⟨hI.1, fun v hv => (degRow_bump (hI.2 v hv) (-1) t).1⟩, NoNew.of_perms rfl⟩
    refine (Proc.Safe.each fun x _ => (hdec _).bind fun _ => Proc.Safe.done ()).bind fun _ =>
      (safe_perms he fun n hn => ?_).bind fun _ => ?_
    · refine Proc.Safe.atom fun db hI => ⟨_, _, (here_delete (F := F) db _).1, (here_delete (F := F) db _).2,
        ⟨rowsOk_delete hI.1, hI.2⟩, ?_⟩
      intro x hx _ k hk
      exact ((hasRow_delete hV he hx hn db k).1 hk).1
    · refine Proc.Safe.atom fun db hI => ⟨_, _, (here_removeStr db _).1, (here_removeStr db _).2,
        ⟨hI.1, fun v hv => (degRow_delete (hI.2 v hv) (atom_text_ne hV (hW v hv).1 (hW v hv).2 he)).1⟩,
        NoNew.of_perms rfl⟩
  · exact ⟨(), rfl⟩

/-- A call makes rows appear only of edges that it adds. -/
theorem fewer_act (hV : Vocab V) {a : PAct F} (ha : a.op.Over V) (hA : ∀ x, a.Adds x → A x) :
    a.proc.Safe (CInv V none) (NoNew V A) := by
  have hW : WOk (none : Option (Val F)) := by simp [WOk]
  cases a with
  | add e ts =>
    exact (safe_act (T := A) (R := fun _ => True) hV hW ha hA (fun _ _ => trivial)).mono fun _ _ => Only.noNew
  | addMany es ts =>
    exact (safe_act (T := A) (R := fun _ => True) hV hW ha hA (fun _ _ => trivial)).mono fun _ _ => Only.noNew
  | addBelief src e ts =>
    exact (safe_act (T := A) (R := fun _ => True) hV hW ha hA (fun _ _ => trivial)).mono fun _ _ => Only.noNew
  | addBeliefs src es ts =>
    exact (safe_act (T := A) (R := fun _ => True) hV hW ha hA (fun _ _ => trivial)).mono fun _ _ => Only.noNew
  | remove e =>
    show (removeAnyP e).Safe _ _
    rw [removeAny_edge ha]; exact fewer_remove hV hW ha
  | removeMany es =>
    show (removeAnyP (.seq true es)).Safe _ _
    rw [removeAny_many ha.1 ha.2]
    exact Proc.Safe.each fun x hx => fewer_remove hV hW (ha.2 x hx)
  | removeByPattern ps =>
    exact safe_byPattern hV (fun _ h => h.1) (fun _ => NoNew.of_perms rfl) ha fun x hx _ => fewer_remove hV hW hx
  | removeBelief src e =>
    refine safe_belief hV (fun _ h => h.1) (fun _ => NoNew.of_perms rfl) ha fun x hx => ?_
    have hx' : EdgeOver V x := by
      rcases hx with rfl | rfl
      · exact ha.edge
      · exact support_over ha
    exact fewer_remove hV hW hx'

/-! ### `destroy` -/

theorem here_destroy (db : DB) : (hgDestroy (reopen db false)).1 = .ok () ∧ (hgDestroy (reopen db false)).2.disk = ⟨[], []⟩ :=
  ⟨rfl, rfl⟩

theorem rowsOk_nil : RowsOk V [] := fun r hr => by simp at hr

theorem not_hasRow_nil {x : Val F} {n : Nat} : ¬ HasRow [] x n := fun h => by simpa using h.2

theorem safe_destroy {G : DB → DB → Prop} (hG : ∀ db, G db ⟨[], []⟩) :
    (DAct.destroy : DAct F).proc.Safe (CInv V none) G :=
  Proc.Safe.atom fun db _ => ⟨(), _, (here_destroy db).1, (here_destroy db).2, ⟨rowsOk_nil, by simp⟩, hG db⟩

theorem fewer_call (hV : Vocab V) {a : DAct F} (ha : a.op.Over V) (hA : ∀ x, a.Adds x → A x) :
    a.proc.Safe (CInv V none) (NoNew V A) := by
  cases a with
  | call a => exact fewer_act hV ha hA
  | destroy => exact safe_destroy fun db x _ _ n h => absurd h not_hasRow_nil

theorem fewer_program (hV : Vocab V) {p : DProgram F} (hp : ∀ a ∈ p, a.op.Over V) (hA : ∀ x, p.Adds x → A x) :
    (programD p).Safe (CInv V none) (NoNew V A) :=
  Proc.Safe.each fun a h => fewer_call hV (hp a h) fun x hx => hA x ⟨a, h, hx⟩

/-- `Visible` is kept. -/
def Stays (x : Val F) (db db' : DB) : Prop := ∀ n, HasRow db.perms x n → HasRow db'.perms x n

theorem stays_visible {x : Val F} {a b : DB} (h : Stays x a b) : Visible x a → Visible x b :=
  fun ⟨n, h1, h2⟩ => ⟨n, h n h1, h2⟩

theorem kept_call (hV : Vocab V) {x : Val F} (hx : EdgeOver V x) {a : DAct F} (ha : a.op.Over V) (hd : ¬ a.Drops x) :
    a.proc.Safe (CInv V none) (Stays x) := by
  cases a with
  | call a =>
    refine (safe_act (T := fun _ => True) (R := fun y => a.Removes y) hV (by simp [WOk]) ha (fun _ _ => trivial)
      (fun _ h => h)).mono ?_
    intro b c h n
    exact (h x hx).2 hd n
  | destroy => exact absurd trivial hd

theorem kept_program (hV : Vocab V) {x : Val F} (hx : EdgeOver V x) {p : DProgram F} (hp : ∀ a ∈ p, a.op.Over V)
    (hd : ¬ p.Drops x) : (programD p).Safe (CInv V none) (Stays x) :=
  Proc.Safe.each fun a h => kept_call hV hx (hp a h) fun hx => hd ⟨a, h, hx⟩

/-- Whatever the others do: a call that adds an edge finds it or makes it visible. -/
theorem will_add (hV : Vocab V) {x : Val F} (hx : EdgeOver V x) (ts : Int) :
    (addP x ts).Will (CInv V none) (Visible x) := by
  intro db hI
  obtain ⟨b, h1, h2, h3⟩ := here_exists hV hI.1 hx
  cases b with
  | true =>
    left
    show Visible x ((existsM x) (reopen db false)).2.disk
    rw [h2]; exact h3.1 rfl
  | false =>
    right
    show Proc.Will _ _ ((Proc.ret ((existsM x) (reopen db false)).1).bind _)
    rw [h1]
    simp only [Proc.bind, Bool.not_false, if_true, iter_edge hx]
    refine Proc.Safe.will (G := Only V (fun _ => True) (fun _ => True)) (Proc.Safe.each fun y _ => safe_addVert ts y)
      fun _ => Proc.Safe.will (G := Only V (fun _ => True) (fun _ => True)) (safe_addStr _ _ _) fun _ => ?_
    have h0 : 0 < factorial x.elems.length := factorial_pos _
    obtain ⟨n, hn, hvis⟩ : ∃ n, n < factorial x.elems.length ∧ patStart x.elems <+: rowOf x.elems n := by
      have := seen_all hV hx (db := ⟨[], rowsOf x.elems⟩) (fun n hn => ⟨hn, mem_rowsOf.2 ⟨n, hn, rfl⟩⟩)
      obtain ⟨n, h1, h2⟩ := this
      exact ⟨n, h1.1, h2⟩
    refine Proc.Will.each (G := Only V (fun _ => True) (fun _ => True)) (x := n) ?_ (List.mem_range.2 hn) ?_
    · intro k hk
      rw [List.mem_range] at hk
      rw [permStr_eq hx.elems_ne hk]
      exact safe_write hV hx hk trivial
    · rw [permStr_eq hx.elems_ne hn]
      intro db hI
      left
      show Visible x ((writeEdgePermutation (F := F) (rowOf x.elems n)) (reopen db false)).2.disk
      rw [(here_write (F := F) db _).2]
      exact ⟨n, (hasRow_upsert hV hx hx hn db n).2 (.inr ⟨rfl, rfl⟩), hvis⟩

theorem chain_visible (hV : Vocab V) {x : Val F} (hx : EdgeOver V x) {es : List (Val F)} (hes : ∀ y ∈ es, EdgeOver V y)
    {db db' : DB} (h : Chain RawEff es db db') : (Visible x db ∨ x ∈ es) → Visible x db' := by
  induction es generalizing db with
  | nil => cases h; simp
  | cons e es ih =>
    obtain ⟨b, h1, h2⟩ := h
    have he := hes e (by simp)
    intro hv
    refine ih (fun y hy => hes y (by simp [hy])) h2 ?_
    rcases h1 with ⟨hs, rfl⟩ | ⟨_, h1⟩
    · rcases hv with hv | hv
      · exact .inl hv
      · rcases List.mem_cons.1 hv with rfl | hv
        · exact .inl hs
        · exact .inr hv
    · rcases hv with ⟨n, k1, k2⟩ | hv
      · exact .inl ⟨n, (h1.hasRow hV he hx n).2 (.inl k1), k2⟩
      · rcases List.mem_cons.1 hv with rfl | hv
        · exact .inl (seen_all hV hx fun n hn => (h1.hasRow hV he hx n).2 (.inr ⟨rfl, hn⟩))
        · exact .inr hv

theorem will_addMany (hV : Vocab V) {x : Val F} (hx : EdgeOver V x) (ts : Int) {es : List (Val F)}
    (hes : ∀ y ∈ es, EdgeOver V y) (hm : x ∈ es) : (addManyP ts es).Will (CInv V none) (Visible x) := by
  induction es with
  | nil => simp at hm
  | cons e es ih =>
    have he := hes e (by simp)
    have hes' : ∀ y ∈ es, EdgeOver V y := fun y hy => hes y (by simp [hy])
    intro db hI
    obtain ⟨b, h1, h2, h3⟩ := here_exists hV hI.1 he
    have key : ∀ q : Bool → Proc Unit, ((Proc.ret ((existsM e) (reopen db false)).1).bind fun present => q present) = q b := by
      intro q; rw [h1]; rfl
    cases b with
    | true =>
      by_cases hxe : x = e
      · left
        subst hxe
        show Visible x ((existsM x) (reopen db false)).2.disk
        rw [h2]; exact h3.1 rfl
      · right
        show Proc.Will _ _ ((Proc.ret ((existsM e) (reopen db false)).1).bind _)
        rw [key]
        simp only [Bool.not_true, Bool.false_eq_true, if_false]
        exact ih hes' ((List.mem_cons.1 hm).resolve_left hxe)
    | false =>
      right
      show Proc.Will _ _ ((Proc.ret ((existsM e) (reopen db false)).1).bind _)
      rw [key]
      simp only [Bool.not_false, if_true]
      intro db hI
      left
      obtain ⟨s', db1, db2, e1, d1, _, _, r1, r2, a1, c1⟩ := bulk_run hV he hes' ts db hI.1
      have hd : ((do
          let _ ← openCursor false
          addNew e ts
          forEach (fun e => do let _ ← addRaw e ts) es
          closeCursor false true : M Unit) (reopen db false)).2.disk = db2 := by rw [e1]; exact d1
      simp only [hd]
      refine chain_visible hV hx hes' c1 ?_
      rcases List.mem_cons.1 hm with rfl | hm
      · exact .inl (seen_all hV hx fun n hn => (a1.hasRow hV he hx n).2 (.inr ⟨rfl, hn⟩))
      · exact .inr hm

theorem will_call (hV : Vocab V) {x : Val F} (hx : EdgeOver V x) {a : DAct F} (ha : a.op.Over V) (h : a.Adds x) :
    a.proc.Will (CInv V none) (Visible x) := by
  cases a with
  | destroy => exact absurd h id
  | call a =>
    cases a with
    | add e ts =>
      have h : x = e := h
      subst h
      show (addAnyP x ts).Will _ _
      rw [addAny_edge hx]; exact will_add hV hx ts
    | addMany es ts =>
      show (addAnyP (.seq true es) ts).Will _ _
      have ha : es ≠ [] ∧ ∀ e ∈ es, EdgeOver V e := ha
      rw [addAny_many ha.1 ha.2]; exact will_addMany hV hx ts ha.2 h
    | addBelief src e ts =>
      have ha : BeliefOver V src e := ha
      show (PAct.addBelief src e ts).proc.Will _ _
      rw [proc_addBelief ha]
      exact will_addMany hV hx ts (by simpa using ⟨ha.edge, support_over ha⟩) (by simpa [DAct.Adds, PAct.Adds] using h)
    | addBeliefs src es ts =>
      have ha : es ≠ [] ∧ ∀ e ∈ es, BeliefOver V src e := ha
      show (PAct.addBeliefs src es ts).proc.Will _ _
      rw [proc_addBeliefs ha.1 ha.2]
      exact will_addMany hV hx ts (belief_pairs ha.2) (mem_pairs.2 h)
    | remove e => exact absurd h id
    | removeMany es => exact absurd h id
    | removeByPattern ps => exact absurd h id
    | removeBelief src e => exact absurd h id

theorem pending_restores (hV : Vocab V) {x : Val F} (hx : EdgeOver V x) {p : DProgram F} (hp : ∀ a ∈ p, a.op.Over V)
    {pre post : DProgram F} (he : p = pre ++ post) (hd : ¬ post.Drops x) (ha : post.Adds x) :
    (programD p).Pending (CInv V none) (Visible x) (Stays x) := by
  subst he
  unfold programD
  rw [Proc.each_append]
  refine Proc.Pending.after (fewer_program (A := fun _ => True) hV (p := pre)
    (fun a h => hp a (by simp [h])) (fun _ _ => trivial)) fun _ => ?_
  have hp' : ∀ a ∈ post, a.op.Over V := fun a h => hp a (by simp [h])
  obtain ⟨a, h1, h2⟩ := ha
  exact Proc.Pending.of_will (fun _ _ => stays_visible) (kept_program hV hx hp' hd)
    (Proc.Will.each (fun b hb => kept_call hV hx (hp' b hb) fun h => hd ⟨b, hb, h⟩) h1 (will_call hV hx (hp' a h1) h2))

theorem pending_erases (hV : Vocab V) {x : Val F} (hx : EdgeOver V x) {p : DProgram F} (hp : ∀ a ∈ p, a.op.Over V)
    {pre post : DProgram F} (he : p = pre ++ post) (hd : ¬ post.Adds x) (ha : .destroy ∈ post) :
    (programD p).Pending (CInv V none) (NoRows x) (NoNew V fun y => y ≠ x) := by
  subst he
  unfold programD
  rw [Proc.each_append]
  refine Proc.Pending.after (fewer_program (A := fun _ => True) hV (p := pre)
    (fun a h => hp a (by simp [h])) (fun _ _ => trivial)) fun _ => ?_
  have hp' : ∀ a ∈ post, a.op.Over V := fun a h => hp a (by simp [h])
  have hsafe := fewer_program (A := fun y => y ≠ x) hV hp' (fun y hy hyx => hd (hyx ▸ hy))
  refine Proc.Pending.of_will (fun a b h hN n hn => hN n (h x hx (by simp) n hn)) hsafe
    (Proc.Will.each (f := DAct.proc) (G := NoNew V fun y => y ≠ x)
      (fun b hb => fewer_call hV (hp' b hb) fun y hy hyx => hd ⟨b, hb, hyx ▸ hy⟩) ha ?_)
  intro db _
  exact .inl fun n h => absurd h not_hasRow_nil

/-! ### edges that only the erasing process touches -/

/-- Presence after the call, from presence before it. -/
def DAct.after (a : DAct F) (P : Val F → Prop) : Val F → Prop :=
  match a with
  | .call a => a.after P
  | .destroy => fun _ => False

/-- Presence after a program. -/
def afterD (p : DProgram F) (P : Val F → Prop) : Val F → Prop := p.foldl (fun P a => a.after P) P

theorem own_program_d (hV : Vocab V) {O P : Val F → Prop} (hO : ∀ x, O x → EdgeOver V x) {p : DProgram F}
    (ha : ∀ a ∈ p, a.op.Over V) (hP : ∀ x, P x → EdgeOver V x)
    (hs : ∀ x, EdgeOver V x → (∃ a ∈ p, a.Sees x) → O x) (c : Int) :
    Owns V none O (programD p) (fullRows O P) c fun _ S' _ => S' = fullRows O (afterD p P) := by
  induction p generalizing P c with
  | nil => exact ⟨(), rfl, rfl⟩
  | cons a p ih =>
    have hstep : Owns V none O a.proc (fullRows O P) c fun _ S' _ => S' = fullRows O (a.after P) := by
      cases a with
      | call a =>
        refine (own_act hV (by simp [WOk]) hO (ha _ List.mem_cons_self) hP
          (fun x hx h => hs x hx ⟨_, List.mem_cons_self, h⟩) c).mono ?_
        rintro _ S' c' ⟨rfl, _⟩
        rfl
      | destroy =>
        refine Proc.Track.atom fun db hI hS => ⟨(), _, (here_destroy db).1, (here_destroy db).2, ⟨rowsOk_nil, by simp⟩, ?_⟩
        funext x n
        unfold ownRows fullRows
        exact propext ⟨fun h => absurd h.2 not_hasRow_nil, fun h => h.2.1.elim⟩
    refine Proc.Track.bind (hstep.mono ?_)
    rintro _ S' c' rfl
    refine (ih (fun b hb => ha b (by simp [hb])) ?_ (fun x hx ⟨b, hb, h⟩ => hs x hx ⟨b, by simp [hb], h⟩) c').mono ?_
    · cases a with
      | call a => exact fun x hx => after_over (ha _ List.mem_cons_self) hP hx
      | destroy => exact fun x hx => hx.elim
    · rintro _ S' c'' rfl
      rfl

theorem startD_proc {db : DB} {progs : List (DProgram F)} {i : Nat} {p : Proc Unit}
    (h : (Sys.startD db progs).procs[i]? = some p) : ∃ prog, progs[i]? = some prog ∧ p = programD prog := by
  unfold Sys.startD at h
  rw [List.getElem?_map] at h
  cases hp : progs[i]? with
  | none => rw [hp] at h; cases h
  | some prog => rw [hp] at h; cases h; exact ⟨prog, rfl, rfl⟩

/-- What process `j` may do, if it is not the one that erases. -/
def allowedD (V : Val F → Prop) (progs : List (DProgram F)) (i j : Nat) (a b : DB) : Prop :=
  j ≠ i → Only V (fun x => ∃ p, progs[j]? = some p ∧ ∃ c ∈ p, c.Names x) (fun _ => True) a b

theorem startD_safe (hV : Vocab V) {db : DB} {progs : List (DProgram F)} (hp : ∀ p ∈ progs, ∀ a ∈ p, a.op.Over V)
    {i : Nat} (hno : ∀ (j : Nat) (q : DProgram F), progs[j]? = some q → j ≠ i → .destroy ∉ q) :
    ∀ (j : Nat) (p : Proc Unit), (Sys.startD db progs).procs[j]? = some p → p.Safe (CInv V none) (allowedD V progs i j) := by
  intro j p h
  obtain ⟨prog, h1, rfl⟩ := startD_proc h
  have hov := hp prog (List.mem_of_getElem? h1)
  by_cases hji : j = i
  · exact (fewer_program (A := fun _ => True) hV hov (fun _ _ => trivial)).mono fun a b _ h => absurd hji h
  · refine Proc.Safe.each fun a ha => ?_
    cases a with
    | destroy => exact absurd ha (hno j prog h1 hji)
    | call a =>
      refine (safe_act (T := fun x => ∃ p, progs[j]? = some p ∧ ∃ c ∈ p, c.Names x) (R := fun _ => True) hV (by simp [WOk])
        (hov _ ha) (fun x hx => ⟨prog, h1, _, ha, hx⟩) (fun _ _ => trivial)).mono fun a b h _ => h

theorem rows_owned_d (hV : Vocab V) {P : Val F → Prop} {db : DB} (hI : IndexOf V P db) (hP : ∀ x, P x → EdgeOver V x)
    {progs : List (DProgram F)} (hp : ∀ p ∈ progs, ∀ a ∈ p, a.op.Over V) {τ : Sys} (h : (Sys.startD db progs).Reach τ)
    {x : Val F} (hx : EdgeOver V x) {i : Nat} {prog : DProgram F} (hi : progs[i]? = some prog)
    (hf : ∀ p, τ.procs[i]? = some p → ∃ r, p = .ret r)
    (hno : ∀ (j : Nat) (q : DProgram F), progs[j]? = some q → j ≠ i → .destroy ∉ q)
    (hun : ∀ (j : Nat) (q : DProgram F), progs[j]? = some q → j ≠ i → ¬ ∃ a ∈ q, a.Names x)
    (hsee : ∀ (j : Nat) (q : DProgram F), progs[j]? = some q → j ≠ i → ∀ y, (∃ a ∈ prog, a.Sees y) → ¬ ∃ a ∈ q, a.Names y)
    (n : Nat) : HasRow τ.db.perms x n ↔ afterD prog P x ∧ n < factorial x.elems.length := by
  let O : Val F → Prop := fun y => EdgeOver V y ∧
    ∀ (j : Nat) (q : DProgram F), progs[j]? = some q → j ≠ i → ¬ ∃ a ∈ q, a.Names y
  have hO : ∀ y, O y → EdgeOver V y := fun y hy => hy.1
  have hox : O x := ⟨hx, hun⟩
  have h0 : ownRows O db = fullRows O P := by
    funext y k
    unfold ownRows fullRows
    exact propext (and_congr_right fun hy => hI.2 _ hy.1 k)
  obtain ⟨cs, hl, _, hq, _⟩ := h.track (I := CInv V none) (G := allowedD V progs i)
    (st := fun j db => if j = i then ownRows O db else fun _ _ => False) (cnt := watched none)
    (Q := fun j S _ => j = i → S = fullRows O (afterD prog P)) ⟨hI.1, by simp⟩
    (startD_safe hV hp hno) (by
      intro j k hj hk hjk a b hab
      by_cases hji : j = i
      · simp only [hji, if_true]
        subst hji
        refine only_own (V := V) (fun y hy => ⟨hO y hy, ?_⟩) (hab (fun h => hjk h.symm))
        rintro ⟨q, h1, h2⟩
        exact hy.2 k q h1 (fun h => hjk h.symm) h2
      · simp only [hji, if_false]) (by
      intro j p hj
      obtain ⟨q, h1, rfl⟩ := startD_proc hj
      by_cases hji : j = i
      · subst hji
        rw [hi] at h1
        cases h1
        simp only [if_true, Sys.startD]
        rw [h0]
        refine (own_program_d hV hO (hp prog (List.mem_of_getElem? hi)) hP
          (fun y hy hyv => ⟨hy, fun j q hj hji => hsee j q hj hji y hyv⟩) 0).mono ?_
        rintro _ S c rfl _
        rfl
      · simp only [hji, if_false]
        refine (Proc.Safe.track (fun _ _ _ => rfl) (startD_safe (db := db) hV hp hno j _ hj)).mono ?_
        intro _ S c _ h
        exact h.elim)
  have hlen := h.length
  have hil : i < τ.procs.length := by
    rw [hlen]
    simp only [Sys.startD, List.length_map]
    exact (List.getElem?_eq_some_iff.1 hi).1
  have hpi := List.getElem?_eq_getElem hil
  have hci := List.getElem?_eq_getElem (hl ▸ hil : i < cs.length)
  obtain ⟨r, hr⟩ := hf _ hpi
  have := hq i _ _ hpi hci
  rw [hr] at this
  obtain ⟨_, _, hS⟩ := this
  have hS := hS rfl
  simp only [if_true] at hS
  have := congrFun (congrFun hS x) n
  simpa [ownRows, fullRows, hox] using this

theorem ops_present_d (p : DProgram F) (S : Spec F) (x : Val F) :
    ((p.map DAct.op).foldl Spec.op S).Present x ↔ afterD p S.Present x := by
  induction p generalizing S with
  | nil => exact Iff.rfl
  | cons a p ih =>
    have : (fun x => (S.op a.op).Present x) = a.after S.Present := by
      funext x
      cases a with
      | call a => exact propext (op_present S a x)
      | destroy => exact propext ⟨fun h => by simp [DAct.op, Spec.op, Spec.prim, Spec.empty, Spec.Present] at h, fun h => h.elim⟩
    show ((p.map DAct.op).foldl Spec.op (S.op a.op)).Present x ↔ afterD p (a.after S.Present) x
    rw [ih, ← this]

end GB
