import Verif.Proofs.StmJoin

/-! Programs statement by statement do what they do transaction by transaction. -/

set_option linter.unusedSectionVars false

namespace GB

variable {F : Type} [PyFloat F] [DecidableEq F] {α β : Type} {V : Val F → Prop}

/-- The method outside a batch: the process `P` can do the same. -/
structure Does (x : Conn α) (P : Proc α) : Prop where
  closed : x.Closed
  mimic : Mimic (x none).out P

theorem Does.pure (a : α) : Does (Pure.pure a : Conn α) (.ret (.ok a)) := ⟨Conn.Closed.pure a, Mimic.refl _⟩

theorem Does.lift (r : Except PyErr α) : Does (cLift r) (.ret r) := ⟨Conn.Closed.lift r, Mimic.refl _⟩

theorem Does.bind {x : Conn α} {f : α → Conn β} {P : Proc α} {G : α → Proc β} (hx : Does x P)
    (hf : ∀ a, Does (f a) (G a)) : Does (x >>= f) (P.bind G) := by
  refine ⟨hx.closed.bind fun a => (hf a).closed, ?_⟩
  rw [out_bind hx.closed]
  exact hx.mimic.bind fun a => (hf a).mimic

theorem Does.each {f : α → Conn Unit} {g : α → Proc Unit} {xs : List α} (h : ∀ x ∈ xs, Does (f x) (g x)) :
    Does (cEach f xs) (Proc.each g xs) := by
  induction xs with
  | nil => exact Does.pure ()
  | cons x xs ih => exact (h x (by simp)).bind fun _ => ih fun y hy => h y (by simp [hy])

theorem Does.ite {p : Prop} [Decidable p] {x y : Conn α} {P Q : Proc α} (hx : p → Does x P) (hy : ¬ p → Does y Q) :
    Does (if p then x else y) (if p then P else Q) := by
  split
  · exact hx ‹_›
  · exact hy ‹_›

theorem Asks.does {x : Conn α} {m : M α} (h : Asks x) (hm : x.run = m) : Does x (Proc.atom m) :=
  ⟨h.closed, h.mimic hm⟩

theorem Writes.does {x : Conn α} {m : M α} (h : Writes x) (hm : x.run = m) : Does x (Proc.atom m) :=
  ⟨h.closed, conn_mimic h.single hm⟩

theorem does_perms {f : Str → Conn Unit} {g : Str → M Unit} (h : ∀ t, Does (f t) (Proc.atom (g t))) (edge : List (Val F)) :
    Does (cPerms edge f) (permsP edge g) := Does.each fun _ _ => (Does.lift _).bind fun t => h t

theorem does_addVert (ts : Int) (v : Val F) : Does (cAddVert ts v) (addVertP ts v) :=
  ((writes_inc _).does (run_inc _)).bind fun _ => Does.ite (fun _ => (writes_addStr _ _ _).does (run_addStr _ _ _)) fun _ => Does.pure ()

theorem does_addRaw (e : Val F) (ts : Int) : Does (cAddRaw e ts) (addP e ts) :=
  ((asks_exists e).does (run_exists e)).bind fun _ => Does.ite
    (fun _ => (Does.lift _).bind fun vs => (Does.each fun v _ => does_addVert ts v).bind fun _ =>
      ((writes_addStr _ _ _).does (run_addStr _ _ _)).bind fun _ =>
        does_perms (fun t => (writes_writePerm t).does (run_writePerm t)) vs)
    fun _ => Does.pure ()

theorem does_removeRaw (e : Val F) : Does (cRemoveRaw e) (removeP e) :=
  ((asks_exists e).does (run_exists e)).bind fun _ => Does.ite
    (fun _ => (Does.lift _).bind fun vs =>
      (Does.each fun _ _ => ((writes_dec _).does (run_dec _)).bind fun _ => Does.pure ()).bind fun _ =>
      (does_perms (fun t => (writes_removePerm t).does (run_removePerm t)) vs).bind fun _ =>
        (writes_removeStr _).does (run_removeStr _))
    fun _ => Does.pure ()

theorem does_remove (e : Val F) : Does (cRemove e) (removeAnyP e) :=
  (Does.lift _).bind fun _ => Does.ite
    (fun _ => (Does.lift _).bind fun _ => Does.each fun x _ => does_removeRaw x) fun _ => does_removeRaw e

/-! ### adding several edges in one transaction -/

/-- No commit, and the shared cursor stays. -/
def Stm.Silent : Stm (Except PyErr α × Option Bool) → Prop
  | .ret b => b.2 = some true
  | .read k => ∀ db, (k db).Silent
  | .write _ k e => (∀ db, (k db).Silent) ∧ e.Silent
  | .commit _ => False

/-- The method commits nothing inside a batch. -/
def Conn.Silent (x : Conn α) : Prop := (x (some true)).Silent

theorem Conn.Silent.bind {x : Conn α} {f : α → Conn β} (hx : x.Silent) (hf : ∀ a, (f a).Silent) :
    Conn.Silent (x >>= f) := by
  have : ∀ p : Stm (Except PyErr α × Option Bool), p.Silent → (p.bind (Conn.next f)).Silent := by
    intro p
    induction p with
    | ret b =>
      obtain ⟨r, c⟩ := b
      intro h
      have h : c = some true := h
      subst h
      cases r with
      | ok a => exact hf a
      | error e => exact rfl
    | read k ih => exact fun h db => ih db (h db)
    | write u k e ih1 ih2 => exact fun h => ⟨fun db => ih1 db (h.1 db), ih2 h.2⟩
    | commit k ih => exact fun h => h.elim
  exact this _ hx

theorem Conn.Silent.pure (a : α) : Conn.Silent (Pure.pure a : Conn α) := rfl

theorem Conn.Silent.lift (r : Except PyErr α) : Conn.Silent (cLift r) := rfl

theorem Conn.Silent.each {f : α → Conn Unit} {xs : List α} (h : ∀ x ∈ xs, (f x).Silent) : (cEach f xs).Silent := by
  induction xs with
  | nil => exact Conn.Silent.pure ()
  | cons x xs ih => exact (h x (by simp)).bind fun _ => ih fun y hy => h y (by simp [hy])

theorem Conn.Silent.ite {p : Prop} [Decidable p] {x y : Conn α} (hx : x.Silent) (hy : y.Silent) :
    (if p then x else y).Silent := by
  split
  · exact hx
  · exact hy

theorem Asks.silent {x : Conn α} (h : Asks x) : x.Silent := by
  unfold Conn.Silent
  rcases h with ⟨r, h⟩ | ⟨g, h⟩ <;> rw [h (some true) (by simp)]
  · exact rfl
  · exact fun _ => rfl

theorem silent_upsert (up : DB → Nat × DB) (ins : DB → Option (Unit × DB)) : (cUpsert up ins).Silent := by
  unfold Conn.Silent
  rw [upsert_shared]
  refine ⟨fun db => ?_, rfl⟩
  simp only
  split
  · refine ⟨fun db => ?_, rfl⟩
    simp only
    cases ins db <;> exact rfl
  · exact rfl

theorem silent_addVert (ts : Int) (v : Val F) : (cAddVert ts v).Silent :=
  Conn.Silent.bind (x := cIncDegree (edge2str v)) ⟨fun _ => rfl, rfl⟩ fun _ =>
    Conn.Silent.ite (silent_upsert _ _) (Conn.Silent.pure ())

theorem silent_addNew (e : Val F) (ts : Int) : (cAddNew e ts).Silent :=
  (Conn.Silent.lift _).bind fun _ => (Conn.Silent.each fun v _ => silent_addVert ts v).bind fun _ =>
    Conn.Silent.bind (silent_upsert _ _) fun _ =>
      Conn.Silent.each fun _ _ => (Conn.Silent.lift _).bind fun _ => silent_upsert _ _

theorem silent_addRaw (e : Val F) (ts : Int) : (cAddRaw e ts).Silent :=
  (asks_exists e).silent.bind fun _ => Conn.Silent.ite (silent_addNew e ts) (Conn.Silent.pure ())

theorem once_silent {p : Stm (Except PyErr α × Option Bool)} (h : p.Silent) {f : α → Conn β}
    (hf : ∀ a, (f a (some true)).Once) : (p.bind (Conn.next f)).Once := by
  induction p with
  | ret b =>
    obtain ⟨r, c⟩ := b
    have h : c = some true := h
    subst h
    cases r with
    | ok a => exact hf a
    | error e => trivial
  | read k ih => exact fun db => ih db (h db)
  | write u k e ih1 ih2 => exact ⟨fun db => ih1 db (h.1 db), ih2 h.2⟩
  | commit k ih => exact h.elim

/-- Adding an absent edge begins with a writing statement. -/
theorem addNew_head (e : Val F) (ts : Int) (f : Unit → Conn Unit) :
    (∃ b, (cAddNew e ts >>= f) (some true) = .ret b) ∨ ∃ u k x, (cAddNew e ts >>= f) (some true) = .write u k x := by
  unfold cAddNew
  cases hi : e.iter with
  | error er => exact .inl ⟨_, rfl⟩
  | ok vs =>
    refine .inr ?_
    cases vs with
    | nil => exact ⟨_, _, _, rfl⟩
    | cons v vs => exact ⟨_, _, _, rfl⟩

theorem bulk_mimic (ts : Int) (es : List (Val F)) :
    Mimic ((cEach (fun e => cAddRaw e ts) es >>= fun _ => cClose false true) (some true)).out (addManyP ts es) := by
  induction es with
  | nil => exact Mimic.refl _
  | cons e es ih =>
    have hl : (cEach (fun e => cAddRaw e ts) (e :: es) >>= fun _ => cClose false true) =
        (cExists e >>= fun present => (if !present then cAddNew e ts else pure ()) >>= fun _ =>
          cEach (fun e => cAddRaw e ts) es >>= fun _ => cClose false true) := by
      show ((cAddRaw e ts >>= fun _ => cEach (fun e => cAddRaw e ts) es) >>= fun _ => cClose false true) = _
      rw [Conn.bind_assoc]
      unfold cAddRaw
      rw [Conn.bind_assoc]
    rw [hl]
    have hrest : ∀ present, Mimic (((if !present then cAddNew e ts else pure ()) >>= fun _ =>
          cEach (fun e => cAddRaw e ts) es >>= fun _ => cClose false true : Conn Unit) (some true)).out
        (if !present then
          Proc.atom (do
            let _ ← openCursor false
            addNew e ts
            forEach (fun e => do let _ ← addRaw e ts) es
            closeCursor false true)
        else addManyP ts es) := by
      intro present
      cases present with
      | true => exact ih
      | false =>
        simp only [Bool.not_false, if_true]
        refine single_mimic ⟨?_, addNew_head e ts _⟩ fun db => ⟨{ reopen db false with cur := some true }, rfl, rfl, rfl, ?_⟩
        · refine once_silent (silent_addNew e ts) fun _ => ?_
          exact once_silent (Conn.Silent.each fun x _ => silent_addRaw x ts) fun _ => ⟨_, rfl⟩
        · have h1 : ∀ s, s.cur = some true → ((cAddNew e ts >>= fun _ =>
              cEach (fun e => cAddRaw e ts) es >>= fun _ => cClose false true) (some true)).exec s =
              (addNew e ts >>= fun _ => forEach (fun e => do let _ ← addRaw e ts) es >>= fun _ => closeCursor false true) s := by
            intro s hs
            have h2 : (cAddNew e ts >>= fun _ =>
                cEach (fun e => cAddRaw e ts) es >>= fun _ => cClose false true).run =
                (addNew e ts >>= fun _ => forEach (fun e => do let _ ← addRaw e ts) es >>= fun _ => closeCursor false true) := by
              simp only [Conn.run_bind, run_addNew, Conn.run_close, Conn.run_each fun x _ => run_addRaw x ts]
            rw [← h2, ← hs]
            rfl
          rw [h1 _ rfl]
          exact ⟨rfl, rfl⟩
    have hrun : ∀ db, existsM e (reopen db false) = (cExists e none).exec (reopen db false) := by
      intro db
      rw [← run_exists]; rfl
    rcases asks_exists e with ⟨r, hr⟩ | ⟨g, hg⟩
    · show Mimic ((cExists e (some true)).bind _).out _
      rw [hr (some true) (by simp)]
      have h1 : ∀ db, Alone (addManyP ts (e :: es)) db db ((Proc.ret r).bind fun present =>
          if !present then Proc.atom (do
              let _ ← openCursor false
              addNew e ts
              forEach (fun e => do let _ ← addRaw e ts) es
              closeCursor false true)
          else addManyP ts es) := by
        intro db
        refine .step ?_
        have h3 : existsM e (reopen db false) = (r, reopen db false) := by rw [hrun, hr none (by simp)]; rfl
        simp only [h3]
        exact .refl
      refine Mimic.pre h1 ?_
      cases r with
      | error er => exact Mimic.refl _
      | ok b => exact hrest b
    · show Mimic ((cExists e (some true)).bind _).out _
      rw [hg (some true) (by simp)]
      intro db
      refine .inl ⟨(Proc.ret (g db)).bind fun present =>
          if !present then Proc.atom (do
              let _ ← openCursor false
              addNew e ts
              forEach (fun e => do let _ ← addRaw e ts) es
              closeCursor false true)
          else addManyP ts es, .step ?_, ?_⟩
      · have h3 : existsM e (reopen db false) = (g db, reopen db false) := by rw [hrun, hg none (by simp)]; rfl
        simp only [h3]
        exact .refl
      · show Mimic (Conn.next _ (g db, some true)).out _
        cases g db with
        | error er => exact Mimic.refl _
        | ok b => exact hrest b

theorem does_bulk (ts : Int) (es : List (Val F)) : Does (do
    let _ ← cOpen false
    cEach (fun e => cAddRaw e ts) es
    cClose false true) (addManyP ts es) := by
  refine ⟨?_, bulk_mimic ts es⟩
  have h := (batch_mimic (fs := es.map fun e => cAddRaw e ts) (by
    intro f hf
    obtain ⟨e, _, rfl⟩ := List.mem_map.1 hf
    exact batched_addRaw e ts)).2
  have hm : ∀ es : List (Val F), cEach (fun f => f) (es.map fun e => cAddRaw e ts) = cEach (fun e => cAddRaw e ts) es := by
    intro es
    induction es with
    | nil => rfl
    | cons e es ih =>
      show (cAddRaw e ts >>= fun _ => cEach (fun f => f) (es.map fun e => cAddRaw e ts)) = _
      rw [ih]; rfl
  unfold cBatch at h
  rw [hm] at h
  exact h

theorem does_add (e : Val F) (ts : Int) : Does (cAdd e ts) (addAnyP e ts) := by
  refine (Does.lift _).bind fun first => Does.ite (fun _ => ?_) fun _ => does_addRaw e ts
  cases hi : e.iter with
  | error er => exact ⟨.inl ⟨er, rfl⟩, Mimic.refl _⟩
  | ok es => exact does_bulk ts es

theorem does_act (a : PAct F) : Does a.conn a.proc := by
  cases a with
  | add e ts => exact does_add e ts
  | addMany es ts => exact does_add _ ts
  | remove e => exact does_remove e
  | removeMany es => exact does_remove _
  | removeByPattern ps =>
    exact ((asks_pattern _).does (run_pattern _)).bind fun es => Does.each fun x _ => does_remove x
  | addBelief src e ts => exact (Does.lift _).bind fun arg => does_add arg ts
  | addBeliefs src es ts => exact (Does.lift _).bind fun arg => does_add arg ts
  | removeBelief src e =>
    refine (does_remove _).bind fun _ => ((asks_sources e).does (run_sources e)).bind fun srcs => ?_
    exact Does.ite (fun _ => does_remove e) fun _ => Does.pure ()

/-! ### programs -/

theorem batched_act {V : Val F → Prop} {a : PAct F} (ho : a.op.Over V) (hs : a.Single) : a.conn.Batched := by
  cases a with
  | add e ts =>
    obtain ⟨h0, hh, hseq⟩ := head0_edge (show EdgeOver V e from ho)
    have hc : cAdd e ts = cAddRaw e ts := by
      unfold cAdd
      rw [hh]
      funext c
      show (if h0.isSeq = true then _ else _ : Conn Unit) c = _
      rw [hseq]
      rfl
    show (cAdd e ts).Batched
    rw [hc]
    exact batched_addRaw e ts
  | remove e => exact batched_remove e
  | removeMany es => exact batched_remove _
  | removeByPattern ps => exact (asks_pattern _).batched.bind fun es => Conn.Batched.each fun x _ => batched_remove x
  | removeBelief src e =>
    exact (batched_remove _).bind fun _ => (asks_sources e).batched.bind fun srcs =>
      Conn.Batched.ite (fun _ => batched_remove e) fun _ => Conn.Batched.pure ()
  | addMany es ts => exact hs.elim
  | addBelief src e ts => exact hs.elim
  | addBeliefs src es ts => exact hs.elim

theorem cEach_append (f : α → Conn Unit) (xs ys : List α) :
    cEach f (xs ++ ys) = (cEach f xs >>= fun _ => cEach f ys) := by
  induction xs with
  | nil => rfl
  | cons x xs ih =>
    show (f x >>= fun _ => cEach f (xs ++ ys)) = ((f x >>= fun _ => cEach f xs) >>= fun _ => cEach f ys)
    rw [ih, Conn.bind_assoc]

theorem cEach_map (f : α → Conn Unit) (xs : List α) : cEach (fun x => x) (xs.map f) = cEach f xs := by
  induction xs with
  | nil => rfl
  | cons x xs ih =>
    show (f x >>= fun _ => cEach (fun x => x) (xs.map f)) = _
    rw [ih]; rfl

theorem closed_acts (as : List (PAct F)) : (cEach PAct.conn as).Closed := Conn.Closed.each fun a _ => (does_act a).closed

/-- A program with batches does what its calls do one after the other. -/
theorem calls_mimic {calls : List (PCall F)} (h : ∀ c ∈ calls, c.Over V) :
    (cEach PCall.conn calls).Closed ∧
      Mimic (cEach PCall.conn calls none).out (cEach PAct.conn (calls.flatMap PCall.acts) none).out := by
  induction calls with
  | nil => exact ⟨Conn.Closed.pure (), Mimic.refl _⟩
  | cons c cs ih =>
    obtain ⟨h1, h2⟩ := ih fun x hx => h x (by simp [hx])
    have hc : c.conn.Closed ∧ Mimic (c.conn none).out (cEach PAct.conn c.acts none).out := by
      cases c with
      | one a =>
        refine ⟨(does_act a).closed, ?_⟩
        have : cEach PAct.conn (PCall.one a).acts = a.conn := by
          show (a.conn >>= fun _ => (pure () : Conn Unit)) = a.conn
          funext c
          show (a.conn c).bind _ = a.conn c
          have : ∀ p : Stm (Except PyErr Unit × Option Bool), p.bind (Conn.next fun _ => (pure () : Conn Unit)) = p := by
            intro p
            induction p with
            | ret b => obtain ⟨r, c⟩ := b; cases r <;> rfl
            | read k ih => show Stm.read _ = _; congr 1; funext db; exact ih db
            | write u k e ih1 ih2 => show Stm.write _ _ _ = _; congr 1; funext db; exact ih1 db
            | commit k ih => show Stm.commit _ = _; congr 1
          exact this _
        rw [this]
        exact Mimic.refl _
      | batch as =>
        have hb := batch_mimic (fs := as.map PAct.conn) (by
          intro f hf
          obtain ⟨a, ha, rfl⟩ := List.mem_map.1 hf
          have := h (.batch as) (by simp) a ha
          exact batched_act this.1 this.2)
        rw [cEach_map] at hb
        exact ⟨hb.2, hb.1⟩
    refine ⟨hc.1.bind fun _ => h1, ?_⟩
    show Mimic ((c.conn >>= fun _ => cEach PCall.conn cs) none).out (cEach PAct.conn (c.acts ++ cs.flatMap PCall.acts) none).out
    rw [cEach_append, out_bind hc.1, out_bind (closed_acts _)]
    exact hc.2.bind fun _ => h2

/-- The programs, transaction by transaction, without batches. -/
def Sys.plain (db : DB) (progs : List (List (PAct F))) : Sys := ⟨db, progs.map fun p => (cEach PAct.conn p none).out⟩

theorem plain_sim (db : DB) (progs : List (List (PAct F))) : MimicSys (Sys.plain db progs) (Sys.start db progs) := by
  refine ⟨rfl, fun i p hi => ?_⟩
  simp only [Sys.plain, Sys.start, List.getElem?_map, Option.map_eq_some_iff] at hi ⊢
  obtain ⟨x, h1, rfl⟩ := hi
  exact ⟨_, ⟨x, h1, rfl⟩, (Does.each fun a _ => does_act a).mimic⟩

theorem calls_sim (db : DB) {progs : List (List (PCall F))} (h : ∀ p ∈ progs, ∀ c ∈ p, c.Over V) :
    MimicSys ⟨db, progs.map fun p => (cEach PCall.conn p none).out⟩
      (Sys.plain db (progs.map fun p => p.flatMap PCall.acts)) := by
  refine ⟨rfl, fun i p hi => ?_⟩
  simp only [Sys.plain, List.map_map, List.getElem?_map, Option.map_eq_some_iff] at hi ⊢
  obtain ⟨x, h1, rfl⟩ := hi
  exact ⟨_, ⟨x, h1, rfl⟩, (calls_mimic (h x (List.mem_of_getElem? h1))).2⟩

theorem Mirror.done {b : Box} {σ : Sys} (hm : Mirror b σ) : ∃ τ, σ.Reach τ ∧ τ.db = b.disk ∧
    ∀ (i : Nat) r, b.clients[i]? = some (.live (.ret r)) → τ.procs[i]? = some (.ret r.1) := by
  by_cases h : ∃ i r w, b.clients[i]? = some (.live (.ret r)) ∧ b.tx = some (i, w)
  · obtain ⟨i, r, w, h1, h2⟩ := h
    obtain ⟨τ, h3, h4⟩ := mirror_step hm (.move (.close i h1 ⟨w, h2⟩))
    refine ⟨τ, h3, h4.1, fun j r' hj => (h4.2 j _ hj).2 ?_⟩
    rintro ⟨w', hw'⟩
    obtain ⟨h5, h6⟩ := Box.release_tx hw'
    rw [h2] at h6
    cases h6
    exact h5 rfl
  · refine ⟨σ, .refl, hm.1, fun j r hj => (hm.2 j _ hj).2 ?_⟩
    rintro ⟨w, hw⟩
    exact h ⟨j, r, w, hj, hw⟩

/-- Whatever the statements of the programs bring about, their transactions do, call by call. -/
theorem box_refines {db : DB} {progs : List (List (PCall F))} (ho : ∀ p ∈ progs, ∀ c ∈ p, c.Over V)
    (hn : NoFail (Sys.start db (progs.map fun p => p.flatMap PCall.acts))) {b : Box} (h : (Box.start db progs).Reach b) :
    ∃ τ, (Sys.start db (progs.map fun p => p.flatMap PCall.acts)).Reach τ ∧ τ.db = b.disk ∧
      ∀ (i : Nat) r, b.clients[i]? = some (.live (.ret r)) → τ.procs[i]? = some (.ret r.1) := by
  obtain ⟨σ1, h1, h2⟩ := mirror_reach (mirror_start db progs) h
  obtain ⟨σ2, h3, h4, h5⟩ := h2.done
  have hn2 := sim_noFail hn (plain_sim db _)
  obtain ⟨σ3, h6, h7⟩ := sim_reach hn2 (calls_sim db ho) (reach_trans h1 h3)
  obtain ⟨σ4, h8, h9, h10⟩ := sim_done h7
  obtain ⟨σ5, h11, h12⟩ := sim_reach hn (plain_sim db _) (reach_trans h6 h8)
  obtain ⟨σ6, h13, h14, h15⟩ := sim_done h12
  refine ⟨σ6, reach_trans h11 h13, ?_, fun i r hi => h15 i _ (h10 i _ (h5 i r hi))⟩
  rw [h14, h9, h4]

end GB
