import Verif.Model.Open
import Verif.Props.Durable

/-!
Property C75: opening a database file makes what is missing in it and disturbs nothing that is there, also if it is
interrupted, repeated, or done by several processes at a time; work can be spread over sessions.
-/

set_option linter.unusedSectionVars false
set_option linter.unusedVariables false

namespace GB

variable {F : Type} [PyFloat F] [DecidableEq F]

/-! ### Specification -/

/-- A table as a database keeps it: no column twice, and in every row one value for each column. -/
def VTable.Ok (t : VTable) : Prop := t.cols.Nodup ∧ ∀ r ∈ t.rows, r.2.length = t.cols.length

/-- A file whose tables are such. -/
def File.Ok (f : File) : Prop := ∀ t, f.vertices = some t → t.Ok

/-- What a file says about its vertices, with 0 for a degree and -1 for a time stamp that it has no column for. -/
def File.vertexRows (f : File) : List VRow :=
  match f.vertices with
  | none => []
  | some t => t.rows.map fun r => ⟨r.1, (t.value .degree r.2).getD 0, (t.value .timestamp r.2).getD (-1)⟩

/-- What a file says: its vertices, and the rows of its index. -/
def File.says (f : File) : DB := ⟨f.vertexRows, f.perms.getD []⟩

/-! ### Proofs -/

theorem cols_cases {cs : List Col} (h : cs.Nodup) :
    cs = [] ∨ cs = [.degree] ∨ cs = [.timestamp] ∨ cs = [.degree, .timestamp] ∨ cs = [.timestamp, .degree] := by
  match cs with
  | [] => simp
  | [.degree] => simp
  | [.timestamp] => simp
  | [.degree, .degree] => simp at h
  | [.timestamp, .timestamp] => simp at h
  | [.degree, .timestamp] => simp
  | [.timestamp, .degree] => simp
  | a :: b :: c :: l =>
    cases a <;> cases b <;> cases c <;> simp at h

theorem filterMap_some {α β : Type} {f : α → Option β} {g : α → β} {l : List α} (h : ∀ a ∈ l, f a = some (g a)) :
    l.filterMap f = l.map g := by
  induction l with
  | nil => rfl
  | cons a l ih =>
    rw [List.filterMap_cons, h a (by simp), List.map_cons, ih fun b hb => h b (by simp [hb])]

/-- A complete file: what the statements see is what it says. -/
theorem contents_says {f : File} (hf : f.Ok) {db : DB} (h : f.contents = some db) : db = f.says := by
  obtain ⟨v, p⟩ := f
  cases v with
  | none => simp [File.contents] at h
  | some t =>
    cases p with
    | none => simp [File.contents] at h
    | some ps =>
      obtain ⟨hn, hr⟩ := hf t rfl
      obtain ⟨cs, rows⟩ := t
      simp only at hn hr
      simp only [File.contents] at h
      split at h
      · rename_i hc
        have hdb := Option.some.inj h
        subst hdb
        unfold File.says File.vertexRows
        simp only [Option.getD_some]
        congr 1
        apply filterMap_some
        intro r hrm
        have hl := hr r hrm
        rcases cols_cases hn with hk | hk | hk | hk | hk <;> subst hk <;> simp at hc
        · match r, hl with
          | (i, [a, b]), _ => rfl
        · match r, hl with
          | (i, [a, b]), _ => rfl
      · exact absurd h (by simp)

/-- What a statement is for is there. -/
def Ddl.Done : Ddl → File → Prop
  | .createVertices, f => f.vertices.isSome = true
  | .addColumn c _, f => ∃ t, f.vertices = some t ∧ c ∈ t.cols
  | .createPerms, f => f.perms.isSome = true

theorem done_noop {d : Ddl} {f : File} (h : d.Done f) (b : Bool) : execOrIgnore b d f = f := by
  unfold execOrIgnore
  split
  · rfl
  · cases d with
    | createVertices =>
      obtain ⟨t, ht⟩ := Option.isSome_iff_exists.mp h
      simp [Ddl.exec, ht]
    | addColumn c v =>
      obtain ⟨t, ht, hc⟩ := h
      simp [Ddl.exec, ht, hc]
    | createPerms =>
      obtain ⟨t, ht⟩ := Option.isSome_iff_exists.mp h
      simp [Ddl.exec, ht]

/-- What is there stays there. -/
theorem done_stays {d : Ddl} {f : File} (h : d.Done f) (b : Bool) (d' : Ddl) : d.Done (execOrIgnore b d' f) := by
  unfold execOrIgnore
  split
  · exact h
  · obtain ⟨v, p⟩ := f
    cases d' with
    | createVertices =>
      cases v with
      | some t => exact h
      | none =>
        cases d with
        | createVertices => rfl
        | addColumn c x => obtain ⟨t, ht, _⟩ := h; exact absurd ht (by simp)
        | createPerms => exact h
    | createPerms =>
      cases p with
      | some t => exact h
      | none =>
        cases d with
        | createVertices => exact h
        | addColumn c x => exact h
        | createPerms => rfl
    | addColumn c x =>
      cases v with
      | none => exact h
      | some t =>
        by_cases hc : c ∈ t.cols
        · have : (Ddl.addColumn c x).exec ⟨some t, p⟩ = none := by simp [Ddl.exec, hc]
          rw [this]; exact h
        · have : (Ddl.addColumn c x).exec ⟨some t, p⟩ =
              some ⟨some ⟨t.cols ++ [c], t.rows.map fun r => (r.1, r.2 ++ [x])⟩, p⟩ := by simp [Ddl.exec, hc]
          rw [this]
          cases d with
          | createVertices => rfl
          | addColumn c' x' =>
            obtain ⟨t', ht, hm⟩ := h
            have := Option.some.inj ht
            subst this
            exact ⟨_, rfl, by simp [hm]⟩
          | createPerms => exact h

/-- A statement does what it is for, if the table it alters is there. -/
theorem done_after {d : Ddl} {f : File} (h : ∀ c v, d = .addColumn c v → f.vertices.isSome = true) :
    d.Done (execOrIgnore false d f) := by
  simp only [execOrIgnore, Bool.false_eq_true, if_false]
  cases d with
  | createVertices =>
    unfold Ddl.exec
    cases hv : f.vertices <;> simp [Ddl.Done, hv]
  | addColumn c v =>
    obtain ⟨t, ht⟩ := Option.isSome_iff_exists.mp (h c v rfl)
    obtain ⟨v', p⟩ := f
    have : v' = some t := ht
    subst this
    by_cases hc : c ∈ t.cols
    · have : (Ddl.addColumn c v).exec ⟨some t, p⟩ = none := by simp [Ddl.exec, hc]
      rw [this]
      exact ⟨t, rfl, hc⟩
    · have : (Ddl.addColumn c v).exec ⟨some t, p⟩ =
          some ⟨some ⟨t.cols ++ [c], t.rows.map fun r => (r.1, r.2 ++ [v])⟩, p⟩ := by simp [Ddl.exec, hc]
      rw [this]
      exact ⟨_, rfl, by simp⟩
  | createPerms =>
    unfold Ddl.exec
    cases hv : f.perms <;> simp [Ddl.Done, hv]

/-- Complete: the statements see contents. -/
theorem complete_iff {f : File} : (∃ db, f.contents = some db) ↔ ∀ d ∈ createTables, d.Done f := by
  obtain ⟨v, p⟩ := f
  cases v with
  | none => simp [File.contents, createTables, Ddl.Done]
  | some t =>
    cases p with
    | none => simp [File.contents, createTables, Ddl.Done]
    | some ps => simp [File.contents, createTables, Ddl.Done]

/-- The file after the first `m` statements. -/
def openTo (m : Nat) (f : File) : File := (createTables.take m).foldl (fun f d => execOrIgnore false d f) f

theorem openTo_succ {m : Nat} {d : Ddl} (h : createTables[m]? = some d) (f : File) :
    openTo (m + 1) f = execOrIgnore false d (openTo m f) := by
  unfold openTo
  obtain ⟨hm, he⟩ := List.getElem?_eq_some_iff.mp h
  rw [List.take_succ_eq_append_getElem hm, List.foldl_append, he]
  rfl

theorem openTo_full (f : File) : openTo createTables.length f = openFile f := by
  unfold openTo openFile
  rw [List.take_length]

/-- The statements made are done. -/
theorem openTo_done (m : Nat) (f : File) : ∀ j d, j < m → createTables[j]? = some d → d.Done (openTo m f) := by
  induction m with
  | zero => intro j d hj; omega
  | succ m ih =>
    intro j d hj hd
    cases hm : createTables[m]? with
    | none =>
      have hlen := List.getElem?_eq_none_iff.mp hm
      have : openTo (m + 1) f = openTo m f := by
        unfold openTo
        rw [List.take_of_length_le (by omega), List.take_of_length_le hlen]
      rw [this]
      refine ih j d ?_ hd
      have := (List.getElem?_eq_some_iff.mp hd).1
      omega
    | some d' =>
      rw [openTo_succ hm]
      rcases Nat.lt_or_ge j m with hlt | hge
      · exact done_stays (ih j d hlt hd) false d'
      · have hjm : j = m := by omega
        subst hjm
        rw [hd] at hm
        obtain rfl := Option.some.inj hm
        apply done_after
        intro c v hcv
        have h0 : createTables[0]? = some .createVertices := rfl
        rcases Nat.eq_zero_or_pos j with hz | hp
        · subst hz; rw [h0] at hd; rw [← Option.some.inj hd] at hcv; exact absurd hcv (by simp)
        · exact ih 0 _ hp h0

theorem openFile_done (f : File) : ∀ d ∈ createTables, d.Done (openFile f) := by
  intro d hd
  obtain ⟨j, hj, he⟩ := List.getElem_of_mem hd
  rw [← openTo_full]
  exact openTo_done _ f j d hj (List.getElem?_eq_some_iff.mpr ⟨hj, he⟩)

/-- What a file says is kept by every statement, and files stay well-formed. -/
theorem exec_says {f : File} (hf : f.Ok) (b : Bool) (d : Ddl) (hd : d ∈ createTables) :
    (execOrIgnore b d f).Ok ∧ (execOrIgnore b d f).says = f.says := by
  unfold execOrIgnore
  split
  · exact ⟨hf, rfl⟩
  · obtain ⟨v, p⟩ := f
    cases d with
    | createVertices =>
      cases v with
      | none =>
        refine ⟨?_, rfl⟩
        intro t ht
        have : (⟨[], []⟩ : VTable) = t := by simpa [Ddl.exec] using ht
        subst this
        exact ⟨by simp, by simp⟩
      | some t => exact ⟨hf, rfl⟩
    | createPerms =>
      cases p with
      | none => exact ⟨fun t ht => hf t (by simpa [Ddl.exec] using ht), rfl⟩
      | some t => exact ⟨hf, rfl⟩
    | addColumn c x =>
      cases v with
      | none => exact ⟨hf, rfl⟩
      | some t =>
        obtain ⟨hn, hr⟩ := hf t rfl
        obtain ⟨cs, rows⟩ := t
        by_cases hc : c ∈ cs
        · have : (Ddl.addColumn c x).exec ⟨some ⟨cs, rows⟩, p⟩ = none := by simp [Ddl.exec, hc]
          rw [this]
          exact ⟨hf, rfl⟩
        · have he : (Ddl.addColumn c x).exec ⟨some ⟨cs, rows⟩, p⟩ =
              some ⟨some ⟨cs ++ [c], rows.map fun r => (r.1, r.2 ++ [x])⟩, p⟩ := by simp [Ddl.exec, hc]
          rw [he]
          simp only [Option.getD_some]
          simp only at hn hr
          refine ⟨?_, ?_⟩
          · intro t ht
            have := Option.some.inj ht
            subst this
            refine ⟨?_, ?_⟩
            · show (cs ++ [c]).Nodup
              rw [List.nodup_append]
              exact ⟨hn, by simp, by intro a ha b hb; simp at hb; subst hb; exact fun h => hc (h ▸ ha)⟩
            · intro r hrm
              simp only [List.mem_map] at hrm
              obtain ⟨q, hq, rfl⟩ := hrm
              simp [hr q hq]
          · unfold File.says File.vertexRows
            simp only [List.map_map]
            congr 1
            apply List.map_congr_left
            intro r hrm
            have hl := hr r hrm
            simp [createTables] at hd
            obtain ⟨i, vals⟩ := r
            rcases cols_cases hn with hk | hk | hk | hk | hk <;> subst hk <;> rcases hd with ⟨rfl, rfl⟩ | ⟨rfl, rfl⟩ <;>
              simp at hc <;> simp only [List.length_nil, List.length_cons] at hl
            · match vals, hl with
              | [], _ => rfl
            · match vals, hl with
              | [], _ => rfl
            · match vals, hl with
              | [a], _ => rfl
            · match vals, hl with
              | [a], _ => rfl

theorem execs_says (bds : List (Bool × Ddl)) (hb : ∀ bd ∈ bds, bd.2 ∈ createTables) :
    ∀ f : File, f.Ok → (bds.foldl (fun f bd => execOrIgnore bd.1 bd.2 f) f).Ok ∧
      (bds.foldl (fun f bd => execOrIgnore bd.1 bd.2 f) f).says = f.says := by
  induction bds with
  | nil => intro f hf; exact ⟨hf, rfl⟩
  | cons bd bds ih =>
    intro f hf
    obtain ⟨h1, h2⟩ := exec_says hf bd.1 bd.2 (hb bd (by simp))
    obtain ⟨h3, h4⟩ := ih (fun x hx => hb x (by simp [hx])) _ h1
    exact ⟨h3, h4.trans h2⟩

theorem openFile_eq_busy (f : File) : openFile f = openBusy [false, false, false, false] f := rfl

theorem openBusy_says (busy : List Bool) {f : File} (hf : f.Ok) :
    (openBusy busy f).Ok ∧ (openBusy busy f).says = f.says :=
  execs_says _ (fun bd hbd => (List.of_mem_zip hbd).2) f hf

theorem openFile_contents {f : File} (hf : f.Ok) : (openFile f).contents = some f.says := by
  obtain ⟨db, hdb⟩ := complete_iff.mpr (openFile_done f)
  rw [openFile_eq_busy] at *
  obtain ⟨h1, h2⟩ := openBusy_says [false, false, false, false] hf
  rw [hdb, contents_says h1 hdb, h2]

theorem complete_open {f : File} (h : ∀ d ∈ createTables, d.Done f) (busy : List Bool) : openBusy busy f = f := by
  have : ∀ (bds : List (Bool × Ddl)), (∀ bd ∈ bds, bd.2 ∈ createTables) →
      bds.foldl (fun f bd => execOrIgnore bd.1 bd.2 f) f = f := by
    intro bds
    induction bds with
    | nil => intro _; rfl
    | cons bd bds ih =>
      intro hb
      rw [List.foldl_cons, done_noop (h bd.2 (hb bd (by simp))), ih fun x hx => hb x (by simp [hx])]
  exact this _ fun bd hbd => (List.of_mem_zip hbd).2

/-- What is put into the tables of a complete file is what the statements see. -/
theorem store_contents {f : File} (h : ∀ d ∈ createTables, d.Done f) (hf : f.Ok) (db : DB) :
    (f.store db).contents = some db ∧ (f.store db).Ok := by
  obtain ⟨v, p⟩ := f
  cases v with
  | none => simpa [Ddl.Done] using h .createVertices (by simp [createTables])
  | some t =>
    cases p with
    | none => simpa [Ddl.Done] using h .createPerms (by simp [createTables])
    | some ps =>
      obtain ⟨hn, hr⟩ := hf t rfl
      obtain ⟨cs, rows⟩ := t
      simp only at hn
      have h1 : Col.degree ∈ cs := by
        have := h (.addColumn .degree 0) (by simp [createTables])
        obtain ⟨t, ht, hc⟩ := this
        rw [← Option.some.inj ht] at hc; exact hc
      have h2 : Col.timestamp ∈ cs := by
        have := h (.addColumn .timestamp (-1)) (by simp [createTables])
        obtain ⟨t, ht, hc⟩ := this
        rw [← Option.some.inj ht] at hc; exact hc
      refine ⟨?_, ?_⟩
      · simp only [File.store, File.contents, Option.map_some, h1, h2, and_self, if_true]
        congr 1
        have : ∀ l : List VRow, List.filterMap (VTable.row ⟨cs, l.map fun r => (r.id, cs.map r.get)⟩)
            (l.map fun r => (r.id, cs.map r.get)) = l := by
          intro l
          rw [List.filterMap_map, filterMap_some (g := id) (fun r _ => ?_), List.map_id]
          rcases cols_cases hn with hk | hk | hk | hk | hk <;> subst hk <;> simp at h1 h2 <;> rfl
        obtain ⟨vs, pe⟩ := db
        simp only
        rw [this vs]
      · intro t ht
        have := Option.some.inj ht
        subst this
        exact ⟨hn, by simp⟩

/-- The statements are done in the stored file too. -/
theorem store_done {f : File} {d : Ddl} (h : d.Done f) (db : DB) : d.Done (f.store db) := by
  cases d with
  | createVertices => simpa [Ddl.Done, File.store] using h
  | createPerms => simpa [Ddl.Done, File.store] using h
  | addColumn c v =>
    obtain ⟨t, ht, hc⟩ := h
    obtain ⟨v', p⟩ := f
    have : v' = some t := ht
    subst this
    exact ⟨_, rfl, hc⟩

/-! ### C75 -/

/-- C75: opening any file (new, complete, with only some of the tables or columns as an older version or an
interrupted opening left it) gives a database that has exactly what the file said: all its vertices with their degrees
and time stamps (0 and -1 where there was no column) and all rows of its index. -/
theorem C75_opens (f : File) (hf : f.Ok) : (openFile f).contents = some f.says :=
  openFile_contents hf

/-- A file of an older version, without time stamps and with the index missing: what it had is kept. -/
def exOldFile : File := ⟨some ⟨[.degree], [(lit "sky/1", [2]), (lit "blue/1", [1])]⟩, none⟩

theorem exOldFile_ok : exOldFile.Ok := by
  intro t ht
  have := Option.some.inj ht
  subst this
  exact ⟨by decide, by decide⟩

example : exOldFile.contents = none ∧
    (openFile exOldFile).contents = some ⟨[⟨lit "sky/1", 2, -1⟩, ⟨lit "blue/1", 1, -1⟩], []⟩ := by
  decide +kernel

/-- C75: opening a database that is complete changes nothing in the file, even if some statements find it
busy. -/
theorem C75_again (f : File) (db : DB) (h : f.contents = some db) (busy : List Bool) :
    openFile f = f ∧ openBusy busy f = f :=
  ⟨by rw [openFile_eq_busy]; exact complete_open (complete_iff.mp ⟨db, h⟩) _,
   complete_open (complete_iff.mp ⟨db, h⟩) _⟩

/-- C75: an opening that was interrupted after any number of statements is completed by the next one. -/
theorem C75_interrupted (f : File) (m : Nat) :
    openFile ((createTables.take m).foldl (fun f d => execOrIgnore false d f) f) = openFile f := by
  show openFile (openTo m f) = openFile f
  have key : ∀ j, openTo (m - j) (openTo m f) = openTo m f := by
    intro j
    generalize hk : m - j = k
    have hkm : k ≤ m := by omega
    clear hk
    induction k with
    | zero => rfl
    | succ k ih =>
      have := ih (by omega)
      cases hd : createTables[k]? with
      | none =>
        have hlen := List.getElem?_eq_none_iff.mp hd
        have h2 : openTo (k + 1) (openTo m f) = openTo k (openTo m f) := by
          unfold openTo
          rw [List.take_of_length_le (l := createTables) (i := k + 1) (by omega),
            List.take_of_length_le (l := createTables) (i := k) hlen]
        rw [h2, this]
      | some d =>
        rw [openTo_succ hd, this]
        exact done_noop (openTo_done m f k d (by omega) hd) false
  have h0 := key 0
  rw [Nat.sub_zero] at h0
  rw [← openTo_full, ← openTo_full]
  have : ∀ n (g : File), openTo m g = g → (m ≤ n → openTo n g = (createTables.drop m |>.take (n - m)).foldl (fun f d => execOrIgnore false d f) g) := by
    intro n g hg hmn
    unfold openTo at hg ⊢
    have : createTables.take n = createTables.take m ++ (createTables.drop m).take (n - m) := by
      have := List.take_add (l := createTables) (i := m) (j := n - m)
      rwa [Nat.add_sub_cancel' hmn] at this
    rw [this, List.foldl_append, hg]
  rcases Nat.le_total m createTables.length with hle | hge
  · rw [this _ _ h0 hle]
    have h2 : openTo createTables.length f =
        (createTables.drop m |>.take (createTables.length - m)).foldl (fun f d => execOrIgnore false d f) (openTo m f) := by
      unfold openTo
      rw [← List.foldl_append]
      congr 1
      rw [← List.take_add, Nat.add_sub_cancel' hle]
    rw [h2]
  · have h3 : openTo m f = openTo createTables.length f := by
      unfold openTo
      rw [List.take_of_length_le (l := createTables) (i := m) hge, List.take_length]
    have h4 : ∀ g, openTo m g = openTo createTables.length g := by
      intro g
      unfold openTo
      rw [List.take_of_length_le (l := createTables) (i := m) hge, List.take_length]
    rw [← h4, h0, h3]

/-- C75: an opening some statements of which found the database busy (the errors are ignored) loses nothing, and an
undisturbed one after it gives what it would have given at once. -/
theorem C75_busy (busy : List Bool) (f : File) (hf : f.Ok) :
    (openBusy busy f).says = f.says ∧ (openFile (openBusy busy f)).contents = (openFile f).contents := by
  obtain ⟨h1, h2⟩ := openBusy_says busy hf
  refine ⟨h2, ?_⟩
  rw [openFile_contents h1, openFile_contents hf, h2]

/-- But the opening itself has returned as if all was well, and calls raise `OperationalError` because there are no
tables. -/
theorem C75_busy_counterexample : (openBusy [true, true, true, true] File.new).contents = none ∧
    (openBusy [false, true, false, false] File.new).contents = none := by
  decide +kernel

/-- The invariant of several processes opening one file: what any of them has made is done; and as long as none has
finished the file is what the one that is furthest would have made alone. -/
structure Openers.Inv (f : File) (o : Openers) : Prop where
  done : ∀ (i k : Nat), o.pos[i]? = some k → ∀ (j : Nat) (d : Ddl), j < k → createTables[j]? = some d → d.Done o.file
  bound : ∀ (i k : Nat), o.pos[i]? = some k → k ≤ createTables.length
  ok : f.Ok → o.file.Ok
  early : (∀ k ∈ o.pos, k < createTables.length) → ∃ m, o.file = openTo m f ∧ (∀ k ∈ o.pos, k ≤ m) ∧ m < createTables.length

theorem done_mono {d d' : Ddl} {f : File} (h : d.Done f) : d.Done (execOrIgnore false d' f) := done_stays h false d'

theorem getElem_set_cases {l : List Nat} {i j k v : Nat} (h : (l.set i v)[j]? = some k) :
    (j = i ∧ k = v) ∨ l[j]? = some k := by
  rw [List.getElem?_set] at h
  split at h
  · rename_i hij
    split at h
    · exact .inl ⟨hij.symm, (Option.some.inj h).symm⟩
    · exact absurd h (by simp)
  · exact .inr h

theorem Openers.inv_step {f : File} {o : Openers} (h : o.Inv f) (e : OpenEvent) : (o.step e).Inv f := by
  cases e with
  | work i db =>
    simp only [Openers.step]
    split
    · rename_i hi
      have hall : ∀ d ∈ createTables, d.Done o.file := by
        intro d hd
        obtain ⟨j, hj, he⟩ := List.getElem_of_mem hd
        exact h.done i _ hi j d hj (List.getElem?_eq_some_iff.mpr ⟨hj, he⟩)
      refine ⟨fun i' k hk j d hj hd => store_done (h.done i' k hk j d hj hd) db, h.bound, ?_, ?_⟩
      · intro hf
        exact (store_contents hall (h.ok hf) db).2
      · intro hlt
        exact absurd (hlt _ (List.mem_of_getElem? hi)) (by omega)
    · exact h
  | statement i =>
    simp only [Openers.step]
    cases hi : o.pos[i]? with
    | none => exact h
    | some k =>
      simp only
      cases hd : createTables[k]? with
      | none => exact h
      | some d =>
        simp only
        have hkl := (List.getElem?_eq_some_iff.mp hd).1
        have hdone : d.Done (execOrIgnore false d o.file) := by
          apply done_after
          intro c v hcv
          have h0 : createTables[0]? = some .createVertices := rfl
          rcases Nat.eq_zero_or_pos k with hz | hp
          · subst hz; rw [h0] at hd; rw [← Option.some.inj hd] at hcv; exact absurd hcv (by simp)
          · exact h.done i k hi 0 _ hp h0
        refine ⟨?_, ?_, ?_, ?_⟩
        · intro i' k' hk' j d' hj hd'
          rcases getElem_set_cases hk' with ⟨_, rfl⟩ | hk''
          · rcases Nat.lt_or_ge j k with hlt | hge
            · exact done_mono (h.done i k hi j d' hlt hd')
            · have : j = k := by omega
              subst this
              rw [hd] at hd'
              obtain rfl := Option.some.inj hd'
              exact hdone
          · exact done_mono (h.done i' k' hk'' j d' hj hd')
        · intro i' k' hk'
          rcases getElem_set_cases hk' with ⟨_, rfl⟩ | hk''
          · exact hkl
          · exact h.bound i' k' hk''
        · intro hf
          exact (exec_says (h.ok hf) false d (List.mem_of_getElem? hd)).1
        · intro hlt
          have hil : i < o.pos.length := (List.getElem?_eq_some_iff.mp hi).1
          have hk1 : k + 1 < createTables.length := hlt (k + 1) (List.mem_of_getElem? (i := i) (by simp [List.getElem?_set, hil]))
          have hlt' : ∀ x ∈ o.pos, x < createTables.length := by
            intro x hx
            obtain ⟨j, hj, he⟩ := List.getElem_of_mem hx
            by_cases hji : j = i
            · subst hji
              have : o.pos[j]? = some x := List.getElem?_eq_some_iff.mpr ⟨hj, he⟩
              rw [hi] at this
              rw [← Option.some.inj this]; exact hkl
            · refine hlt x (List.mem_of_getElem? (i := j) ?_)
              rw [List.getElem?_set_ne (fun h => hji h.symm)]
              exact List.getElem?_eq_some_iff.mpr ⟨hj, he⟩
          obtain ⟨m, hm, hkm, hml⟩ := h.early hlt'
          have hkle := hkm k (List.mem_of_getElem? hi)
          rcases Nat.lt_or_ge k m with hlt2 | hge
          · refine ⟨m, ?_, ?_, hml⟩
            · show execOrIgnore false d o.file = openTo m f
              rw [hm]
              exact done_noop (openTo_done m f k d hlt2 hd) false
            · intro x hx
              rcases List.mem_or_eq_of_mem_set hx with hx' | rfl
              · exact hkm x hx'
              · omega
          · have hmk : m = k := by omega
            subst hmk
            refine ⟨m + 1, ?_, ?_, hk1⟩
            · show execOrIgnore false d o.file = openTo (m + 1) f
              rw [hm, openTo_succ hd]
            · intro x hx
              rcases List.mem_or_eq_of_mem_set hx with hx' | rfl
              · exact Nat.le_succ_of_le (hkm x hx')
              · exact Nat.le_refl _

theorem Openers.inv_start (f : File) (n : Nat) : (Openers.start f n).Inv f := by
  have h0 : ∀ (i k : Nat), (Openers.start f n).pos[i]? = some k → k = 0 := by
    intro i k h
    exact (List.mem_replicate.mp (List.mem_of_getElem? h)).2
  refine ⟨?_, ?_, fun h => h, ?_⟩
  · intro i k hk j d hj
    have := h0 i k hk; omega
  · intro i k hk
    have := h0 i k hk; omega
  · intro _
    refine ⟨0, rfl, ?_, by decide⟩
    intro k hk
    rw [(List.mem_replicate.mp hk).2]
    exact Nat.le_refl _

theorem Openers.inv_run {f : File} (es : List OpenEvent) : ∀ {o : Openers}, o.Inv f → (o.run es).Inv f := by
  induction es with
  | nil => intro o h; exact h
  | cons e es ih => intro o h; exact ih (Openers.inv_step h e)

/-- C75: any number of processes open one file at the same time, their statements interleave in any way and each may
be killed anywhere.  As soon as one of them has finished, the file is as if it had opened it alone; from then on
nothing that the others do to open it changes the file, and what those that have finished put into the tables is
there. -/
theorem C75_concurrent (f : File) (hf : f.Ok) (n : Nat) (es : List OpenEvent) (i : Nat)
    (hi : ((Openers.start f n).run es).pos[i]? = some createTables.length) :
    (∃ db, ((Openers.start f n).run es).file.contents = some db) ∧
    (∀ j, (((Openers.start f n).run es).step (.statement j)).file = ((Openers.start f n).run es).file) ∧
    (∀ db, (((Openers.start f n).run es).step (.work i db)).file.contents = some db) := by
  have h := Openers.inv_run es (Openers.inv_start f n)
  have hall : ∀ d ∈ createTables, d.Done ((Openers.start f n).run es).file := by
    intro d hd
    obtain ⟨j, hj, he⟩ := List.getElem_of_mem hd
    exact h.done i _ hi j d hj (List.getElem?_eq_some_iff.mpr ⟨hj, he⟩)
  refine ⟨complete_iff.mpr hall, ?_, ?_⟩
  · intro j
    simp only [Openers.step]
    cases hk : ((Openers.start f n).run es).pos[j]? with
    | none => rfl
    | some k =>
      simp only
      cases hd : createTables[k]? with
      | none => rfl
      | some d => exact done_noop (hall d (List.mem_of_getElem? hd)) false
  · intro db
    simp only [Openers.step, hi, if_true]
    exact (store_contents hall (h.ok hf) db).1

/-- C75: when nobody has put anything into the tables yet, a process that has finished leaves the file that it would
have made alone. -/
theorem C75_concurrent_first (f : File) (n : Nat) (is : List Nat) (i : Nat)
    (hi : ((Openers.start f n).run (is.map .statement)).pos[i]? = some createTables.length) :
    ((Openers.start f n).run (is.map .statement)).file = openFile f := by
  have key : ∀ (is : List Nat) (o : Openers), o.Inv f → (o.file = openFile f ∨ ∀ k ∈ o.pos, k < createTables.length) →
      ((o.run (is.map .statement)).file = openFile f ∨
        ∀ k ∈ (o.run (is.map .statement)).pos, k < createTables.length) := by
    intro is
    induction is with
    | nil => intro o _ h; exact h
    | cons i is ih =>
      intro o h hor
      refine ih _ (Openers.inv_step h _) ?_
      rcases hor with heq | hlt
      · left
        simp only [Openers.step]
        cases hk : o.pos[i]? with
        | none => exact heq
        | some k =>
          simp only
          cases hd : createTables[k]? with
          | none => exact heq
          | some d =>
            simp only
            rw [heq]
            exact done_noop (openFile_done f d (List.mem_of_getElem? hd)) false
      · by_cases hfin : ∀ k ∈ (o.step (.statement i)).pos, k < createTables.length
        · exact .inr hfin
        · left
          obtain ⟨m, hm, hkm, hml⟩ := h.early hlt
          simp only [Openers.step] at hfin ⊢
          cases hk : o.pos[i]? with
          | none => rw [hk] at hfin; exact absurd hlt hfin
          | some k =>
            rw [hk] at hfin
            simp only at hfin ⊢
            cases hd : createTables[k]? with
            | none => rw [hd] at hfin; exact absurd hlt hfin
            | some d =>
              rw [hd] at hfin
              simp only at hfin ⊢
              have hkl := (List.getElem?_eq_some_iff.mp hd).1
              have hk1 : k + 1 = createTables.length := by
                apply Classical.byContradiction
                intro hne
                apply hfin
                intro x hx
                rcases List.mem_or_eq_of_mem_set hx with hx' | rfl
                · exact hlt x hx'
                · omega
              have hkm' := hkm k (List.mem_of_getElem? hk)
              have hmk : m = k := by omega
              subst hmk
              rw [hm, ← openTo_succ hd, hk1, openTo_full]
  rcases key is (Openers.start f n) (Openers.inv_start f n) (.inr (by
    intro k hk
    rw [(List.mem_replicate.mp hk).2]
    decide)) with h | h
  · exact h
  · exact absurd (h _ (List.mem_of_getElem? hi)) (by omega)

/-- Runs that return leave everything on disk. -/
theorem solid_runOps : ∀ (ops : List (Op F)) (t s : St), Solid t → runOps ops t = (.ok (), s) → Solid s := by
  intro ops
  induction ops with
  | nil =>
    intro t s ht h
    have : t = s := (Prod.mk.inj (show ((Except.ok () : Except PyErr Unit), t) = (.ok (), s) from h)).2
    subst this; exact ht
  | cons op ops ih =>
    intro t s ht h
    unfold runOps at h
    rw [forEach] at h
    cases hy : op.run t with
    | mk q t1 =>
      cases q with
      | error er => rw [bind_err _ _ _ hy] at h; simp at h
      | ok u =>
        rw [bind_run _ _ _ hy] at h
        obtain ⟨h1, h2⟩ := C38_durable op t t1 ht.1 ht.2 hy
        exact ih t1 s ⟨h2, h1⟩ h

theorem runOps_append_ok (xs ys : List (Op F)) (s s1 : St) (h : runOps xs s = (.ok (), s1)) :
    runOps (xs ++ ys) s = runOps ys s1 := by
  induction xs generalizing s with
  | nil =>
    have : s = s1 := (Prod.mk.inj (show ((Except.ok () : Except PyErr Unit), s) = (.ok (), s1) from h)).2
    subst this; rfl
  | cons x xs ih =>
    unfold runOps at h ⊢
    rw [List.cons_append, forEach]
    rw [forEach] at h
    cases hy : x.run s with
    | mk q t1 =>
      cases q with
      | error er => rw [bind_err _ _ _ hy] at h; simp at h
      | ok u =>
        rw [bind_run _ _ _ hy] at h
        rw [bind_run _ _ _ hy]
        exact ih t1 h

/-- C75: work spread over any number of sessions, each of which opens the file anew, has the same outcome as all of it
in one session: if the whole history returns, all sessions do, and the file in the end has what the one session would
have left; if it raises, so does a session, with the same exception. -/
theorem C75_sessions (opss : List (List (Op F))) (f : File) (hf : f.Ok) :
    (sessions opss f).1 = some (runOps opss.flatten (reopen f.says false)).1 ∧
    ((runOps opss.flatten (reopen f.says false)).1 = .ok () →
      (openFile (sessions opss f).2).contents = some (runOps opss.flatten (reopen f.says false)).2.work) := by
  induction opss generalizing f with
  | nil =>
    refine ⟨rfl, fun _ => ?_⟩
    show (openFile (openFile f)).contents = some f.says
    have h1 := openFile_contents hf
    rw [(C75_again _ _ h1 []).1, h1]
  | cons ops rest ih =>
    have hc := openFile_contents hf
    have hok : (openFile f).Ok := by rw [openFile_eq_busy]; exact (openBusy_says _ hf).1
    have hses : session ops f = (some (runOps ops (reopen f.says false)).1,
        (openFile f).store (runOps ops (reopen f.says false)).2.disk) := by
      unfold session; rw [hc]
    cases hr : runOps ops (reopen f.says false) with
    | mk q s =>
      rw [hr] at hses
      cases q with
      | error e =>
        have hall : runOps (ops ++ rest.flatten) (reopen f.says false) = (.error e, s) := by
          have : ∀ (xs ys : List (Op F)) (t : St), runOps xs t = (.error e, s) → runOps (xs ++ ys) t = (.error e, s) := by
            intro xs
            induction xs with
            | nil => intro ys t h; exact absurd (Prod.mk.inj (show ((Except.ok () : Except PyErr Unit), t) = (.error e, s) from h)).1 (by simp)
            | cons x xs ih2 =>
              intro ys t h
              unfold runOps at h ⊢
              rw [List.cons_append, forEach]
              rw [forEach] at h
              cases hy : x.run t with
              | mk q t1 =>
                cases q with
                | error er =>
                  rw [bind_err _ _ _ hy] at h
                  rw [bind_err _ _ _ hy]; exact h
                | ok u =>
                  rw [bind_run _ _ _ hy] at h
                  rw [bind_run _ _ _ hy]
                  exact ih2 ys t1 h
          exact this _ _ _ hr
        have hs : sessions (ops :: rest) f = (some (.error e), (openFile f).store s.disk) := by
          rw [sessions, hses]
        rw [hs, List.flatten_cons, hall]
        exact ⟨rfl, fun h => absurd h (by simp)⟩
      | ok u =>
        have hsol : Solid s := solid_runOps ops _ s ⟨rfl, rfl⟩ hr
        have hs : sessions (ops :: rest) f = sessions rest ((openFile f).store s.disk) := by
          rw [sessions, hses]
        obtain ⟨k1, k2⟩ := store_contents (complete_iff.mp ⟨_, hc⟩) hok s.disk
        have hsays : ((openFile f).store s.disk).says = s.disk := (contents_says k2 k1).symm
        obtain ⟨i1, i2⟩ := ih ((openFile f).store s.disk) k2
        rw [hsays] at i1 i2
        obtain ⟨j1, j2, _⟩ := (runOps_tame rest.flatten).indep (reopen s.disk false) s hsol.2 hsol.1.symm
        rw [hs, List.flatten_cons, runOps_append_ok _ _ _ _ hr, ← j1, ← j2]
        exact ⟨i1, i2⟩

/-- C75: after a crash anywhere in a call, opening the file again gives the contents that were on disk (about which
C36, C37, C38 speak). -/
theorem C75_after_crash {α : Type} (f : File) (hf : f.Ok) (m : M α) (s : St) (d : DB) (hd : d ∈ crashContents m s) :
    (openFile ((openFile f).store d)).contents = some d := by
  have hok : (openFile f).Ok := by rw [openFile_eq_busy]; exact (openBusy_says _ hf).1
  obtain ⟨k1, k2⟩ := store_contents (openFile_done f) hok d
  rw [openFile_contents k2, ← contents_says k2 k1]

/-! Examples -/

/-- Two processes whose statements interleave; the first has put something into the tables before the second has
finished. -/
def exOpening : List OpenEvent :=
  [.statement 0, .statement 1, .statement 0, .statement 0, .statement 1, .statement 0,
   .work 0 ⟨[⟨lit "sky/1", 3, 5⟩], [lit "is/1 sky/1 blue/1 0"]⟩, .statement 1, .statement 1]

example : ((Openers.start exOldFile 2).run exOpening).pos = [4, 4] ∧
    ((Openers.start exOldFile 2).run exOpening).file.contents =
      some ⟨[⟨lit "sky/1", 3, 5⟩], [lit "is/1 sky/1 blue/1 0"]⟩ := by
  decide +kernel

example : ((Openers.start File.new 3).run ([0, 1, 1, 2, 0, 1, 1].map .statement)).pos[1]? = some createTables.length := by
  decide +kernel

/-- The example history in two sessions on an old file, both of which return. -/
example : (sessions [exOps.take 2, exOps.drop 2] exOldFile).1 = some (.ok ()) ∧
    (sessions [exOps.take 2, exOps.drop 2] exOldFile).2 ≠ openFile exOldFile := by
  decide +kernel

/-- Contents on disk in the middle of a call. -/
example : ∃ d ∈ crashContents (hgAdd exE1 5) (St.new false), d ≠ DB.empty ∧ d ≠ (hgAdd exE1 5 (St.new false)).2.work := by
  refine ⟨((crashContents (hgAdd exE1 5) (St.new false))[3]?).getD DB.empty, ?_⟩
  decide +kernel

end GB
