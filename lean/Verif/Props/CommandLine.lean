import Verif.Spec.CommandLine
import Verif.Props.Open
import Verif.Props.Import

/-!
Property C93: the commands `create`, `wordnet` and `shell`.
-/

set_option linter.unusedSectionVars false
set_option linter.unusedVariables false

namespace GB

variable {F : Type} [PyFloat F] [DecidableEq F] {V : Val F → Prop}

/-! ### Specification -/

/-- What the file at a path says; nothing if there is none. -/
def Files.says (fs : Files) (path : Str) : DB :=
  match fs path with
  | none => DB.empty
  | some f => f.says

/-- If there is a file at the path, its tables are as a database keeps them. -/
def Files.OkAt (fs : Files) (path : Str) : Prop := ∀ f, fs path = some f → f.Ok

/-! ### Proofs -/

theorem opened_keep {o : CliOpts} (h : o.Keeps) (fs : Files) : fs.opened o.db = (fs o.db).getD File.new := by
  unfold Files.opened isTemporary
  simp [h.2.1, h.2.2]

theorem put_keep {o : CliOpts} (h : o.Keeps) (fs : Files) (f : File) : fs.put o.db f o.db = some f := by
  unfold Files.put isTemporary
  simp [h.2.1, h.2.2]

theorem put_other {fs : Files} {path p : Str} {f : File} (h : p ≠ path) : fs.put path f p = fs p := by
  simp [Files.put, h]

theorem put_temporary {fs : Files} {path p : Str} {f : File} (h : path = [] ∨ path = lit ":memory:") : fs.put path f p = fs p := by
  unfold Files.put isTemporary
  simp [h]

theorem params_sqlite {o : CliOpts} (h : o.backend = lit "sqlite") : openHyperGraph o.params = .ok (.sqlite o.db) := by
  unfold CliOpts.params
  rw [h]; rfl

theorem sqlite_params {o : CliOpts} {path : Str} (h : openHyperGraph o.params = .ok (.sqlite path)) :
    o.backend = lit "sqlite" ∧ path = o.db := by
  obtain ⟨b, d, u, w⟩ := o
  have h : openHyperGraph (cliParams b d u w) = .ok (.sqlite path) := h
  unfold openHyperGraph at h
  have h0 : Params.get (cliParams b d u w) (lit "backend") = .ok b := rfl
  rw [h0] at h
  simp only [bind, Except.bind] at h
  split at h
  · cases h
  · split at h
    · cases h
    · split at h
      · rename_i hb
        refine ⟨hb, ?_⟩
        have h1 : openSqlite (cliParams b d u w) = .ok (.sqlite d) := rfl
        rw [h1] at h
        injection h with h
        injection h with h
        exact h.symm
      · split at h
        · cases h
        · cases h

theorem ended_files (c : Command) (r : Except PyErr Unit) (fs : Files) : (c.ended r fs).files = fs := by
  unfold Command.ended
  cases r <;> rfl

theorem ended_result (c : Command) (r : Except PyErr Unit) (fs : Files) : (c.ended r fs).result = r := by
  unfold Command.ended
  cases r <;> rfl

theorem run_sqlite {o : CliOpts} (h : o.backend = lit "sqlite") (c : Command) (corpus : List WSynset) (fs : Files) :
    c.run F o corpus fs = c.ended (c.work F corpus (openFile (fs.opened o.db))).1
      (fs.put o.db (c.work F corpus (openFile (fs.opened o.db))).2) := by
  unfold Command.run
  rw [params_sqlite h]

theorem run_files_not {o : CliOpts} (h : o.backend ≠ lit "sqlite") (c : Command) (corpus : List WSynset) (fs : Files) :
    (c.run F o corpus fs).files = fs := by
  unfold Command.run
  split
  · exact ended_files ..
  · exact ended_files ..
  · exact ended_files ..
  · exact ended_files ..
  · rename_i hp
    exact absurd (sqlite_params hp).1 h

theorem new_says : File.new.says = DB.empty := rfl

theorem opened_says {o : CliOpts} (h : o.Keeps) (fs : Files) : (fs.opened o.db).says = fs.says o.db := by
  rw [opened_keep h]
  unfold Files.says
  cases fs o.db <;> rfl

theorem opened_ok {o : CliOpts} (h : o.Keeps) {fs : Files} (hf : fs.OkAt o.db) : (fs.opened o.db).Ok := by
  rw [opened_keep h]
  cases hp : fs o.db with
  | none => intro t ht; cases ht
  | some f => exact hf f hp

theorem openFile_ok {f : File} (hf : f.Ok) : (openFile f).Ok := by
  rw [openFile_eq_busy]; exact (openBusy_says _ hf).1

theorem openTo_says {f : File} (hf : f.Ok) (m : Nat) : (openTo m f).Ok ∧ (openTo m f).says = f.says := by
  have := execs_says ((createTables.take m).map fun d => (false, d)) (by
    intro bd hbd
    obtain ⟨d, hd, rfl⟩ := List.mem_map.1 hbd
    exact List.mem_of_mem_take hd) f hf
  rw [List.foldl_map] at this
  exact this

theorem store_says {f : File} (hf : f.Ok) (db : DB) :
    ((openFile f).store db).Ok ∧ ((openFile f).store db).contents = some db ∧ ((openFile f).store db).says = db := by
  obtain ⟨h1, h2⟩ := store_contents (openFile_done f) (openFile_ok hf) db
  exact ⟨h2, h1, (contents_says h2 h1).symm⟩

/-- The file at a path is well-formed and has what the graph `A` has and the first of the statements of the corpus. -/
def ReadTo (A : Abs F) (corpus : List WSynset) (path : Str) (fs : Files) : Prop :=
  fs.OkAt path ∧ ∃ st, st <+: dbStatements (F := F) corpus ∧
    fs.says path = (A.addAll (-1) (st.flatMap fun e => [e, support e theWordnet])).conc

theorem flat_prefix {st l : List (Val F)} (h : st <+: l) (g : Val F → List (Val F)) : st.flatMap g <+: l.flatMap g := by
  obtain ⟨r, rfl⟩ := h
  rw [List.flatMap_append]
  exact List.prefix_append _ _

/-- Two beginnings of a list of additions: the longer one counts. -/
theorem addAll_prefixes {A : Abs F} {ts : Int} {l a b : List (Val F)} (ha : a <+: l) (hb : b <+: l) :
    ((A.addAll ts a).addAll ts b = A.addAll ts a) ∨ ((A.addAll ts a).addAll ts b = A.addAll ts b) := by
  rcases List.prefix_or_prefix_of_prefix ha hb with h | h
  · obtain ⟨r, rfl⟩ := h
    exact .inr addAll_again
  · obtain ⟨r, rfl⟩ := h
    exact .inl (addAll_there fun e he => mem_addAll_new (List.mem_append_left _ he))

section
variable (hV : Vocab V) {A : Abs F} (hA : AbsOk V A) {corpus : List WSynset} (hdb : HasLemmas corpus)
  (hok : ∀ e, Stated corpus e → BeliefOver V theWordnet e)
include hV hA hdb hok

theorem readTo_ok {st : List (Val F)} (h : st <+: dbStatements (F := F) corpus) :
    AbsOk V (A.addAll (-1) (st.flatMap fun e => [e, support e theWordnet])) := by
  refine hA.addAll hV (-1) _ fun x hx => ?_
  obtain ⟨f, hf, hx⟩ := List.mem_flatMap.1 hx
  exact BOp.edges_over (o := .addBelief theWordnet f) (hok f (mem_dbStatements.1 (h.subset hf))) x hx

theorem readTo_more {st st' : List (Val F)} (h : st <+: dbStatements (F := F) corpus) (h' : st' <+: dbStatements (F := F) corpus) :
    ∃ st2, st2 <+: dbStatements (F := F) corpus ∧
      (A.addAll (-1) (st.flatMap fun e => [e, support e theWordnet])).addAll (-1) (st'.flatMap fun e => [e, support e theWordnet]) =
        A.addAll (-1) (st2.flatMap fun e => [e, support e theWordnet]) := by
  rcases addAll_prefixes (A := A) (ts := -1) (flat_prefix h fun e => [e, support e theWordnet])
    (flat_prefix h' fun e => [e, support e theWordnet]) with k | k
  · exact ⟨st, h, k⟩
  · exact ⟨st', h', k⟩

/-- The reader to its end: what it gives does not depend on how much was there. -/
theorem readTo_read {o : CliOpts} (hk : o.Keeps) {fs : Files} (h : ReadTo A corpus o.db fs) :
    (Command.wordnet.run F o corpus fs).result = (if 501 ∣ (corpus.map WSynset.count).sum then .error .indexError else .ok ()) ∧
    ∃ f, (Command.wordnet.run F o corpus fs).files o.db = some f ∧ f.Ok ∧
      f.contents = some (A.addAll (-1) ((dbStatements corpus).flatMap fun e => [e, support e theWordnet])).conc := by
  obtain ⟨h1, st, h2, h3⟩ := h
  have hof := opened_ok hk h1
  have hcon := openFile_contents hof
  rw [opened_says hk, h3] at hcon
  obtain ⟨b, e1, _, c1⟩ := wnRead_run hV (readTo_ok hV hA hdb hok h2) (s := reopen (A.addAll (-1) (st.flatMap fun e => [e, support e theWordnet])).conc false)
    ⟨rfl, rfl, rfl⟩ hdb hok []
  have hall : (A.addAll (-1) (st.flatMap fun e => [e, support e theWordnet])).addAll (-1)
      ((dbStatements corpus).flatMap fun e => [e, support e theWordnet]) =
      A.addAll (-1) ((dbStatements corpus).flatMap fun e => [e, support e theWordnet]) := by
    obtain ⟨r, hr⟩ := flat_prefix h2 fun e => [e, support e theWordnet]
    rw [← hr]
    exact addAll_again
  rw [hall] at c1
  have hw : Command.wordnet.work F corpus (openFile (fs.opened o.db)) =
      (if 501 ∣ (corpus.map WSynset.count).sum then .error .indexError else .ok (),
       (openFile (fs.opened o.db)).store b.base.disk) := by
    unfold Command.work
    simp only [hcon, e1]
  rw [run_sqlite hk.1, hw]
  refine ⟨ended_result .., (openFile (fs.opened o.db)).store b.base.disk, ?_, (store_says hof _).1, ?_⟩
  · rw [ended_files]; exact put_keep hk _ _
  · rw [(store_says hof _).2.1, c1.disk, c1.work]

theorem readTo_step {path : Str} (hp : path ≠ [] ∧ path ≠ lit ":memory:") {fs : Files} (h : ReadTo A corpus path fs) (c : Command)
    (o : CliOpts) : ReadTo A corpus path (c.run F o corpus fs).files := by
  by_cases hb : o.backend = lit "sqlite"
  · by_cases hpo : path = o.db
    · subst hpo
      have hk : o.Keeps := ⟨hb, hp⟩
      cases hc : c with
      | wordnet =>
        obtain ⟨_, f, k1, k2, k3⟩ := readTo_read hV hA hdb hok hk h
        refine ⟨?_, dbStatements corpus, List.prefix_rfl, ?_⟩
        · intro g hg
          rw [k1] at hg
          cases hg
          exact k2
        · unfold Files.says
          rw [k1]
          exact (contents_says k2 k3).symm
      | create | shell =>
        obtain ⟨h1, st, h2, h3⟩ := h
        have hof := opened_ok hk h1
        rw [run_sqlite hb, ended_files]
        show ReadTo A corpus o.db (fs.put o.db (openFile (fs.opened o.db)))
        refine ⟨?_, st, h2, ?_⟩
        · intro g hg
          rw [put_keep hk] at hg
          cases hg
          exact openFile_ok hof
        · unfold Files.says
          rw [put_keep hk]
          show (openFile (fs.opened o.db)).says = _
          rw [← contents_says (openFile_ok hof) (openFile_contents hof), opened_says hk, h3]
    · rw [run_sqlite hb, ended_files]
      obtain ⟨h1, st, h2, h3⟩ := h
      refine ⟨?_, st, h2, ?_⟩
      · intro g hg
        rw [put_other hpo] at hg
        exact h1 g hg
      · unfold Files.says at h3 ⊢
        rw [put_other hpo, h3]
  · rw [run_files_not hb]; exact h

theorem readTo_dies {path : Str} (hp : path ≠ [] ∧ path ≠ lit ":memory:") {fs fs' : Files} (h : ReadTo A corpus path fs) {c : Command}
    {o : CliOpts} (hd : c.Dies F o corpus fs fs') : ReadTo A corpus path fs' := by
  have other : ∀ {q : Str} {f : File}, path ≠ q → ReadTo A corpus path (fs.put q f) := by
    intro q f hq
    obtain ⟨h1, st, h2, h3⟩ := h
    refine ⟨?_, st, h2, ?_⟩
    · intro g hg
      rw [put_other hq] at hg
      exact h1 g hg
    · unfold Files.says at h3 ⊢
      rw [put_other hq, h3]
  cases hd with
  | before => exact h
  | opening ho m =>
    obtain ⟨hb, rfl⟩ := sqlite_params ho
    by_cases hpo : path = o.db
    · subst hpo
      have hk : o.Keeps := ⟨hb, hp⟩
      obtain ⟨h1, st, h2, h3⟩ := h
      have hof := opened_ok hk h1
      refine ⟨?_, st, h2, ?_⟩
      · intro g hg
        rw [put_keep hk] at hg
        cases hg
        exact (openTo_says hof m).1
      · unfold Files.says
        rw [put_keep hk]
        show (openTo m (fs.opened o.db)).says = _
        rw [(openTo_says hof m).2, opened_says hk, h3]
    · exact other hpo
  | reading ho hc hcon hdd =>
    rename_i p db d
    obtain ⟨hb, rfl⟩ := sqlite_params ho
    by_cases hpo : path = o.db
    · subst hpo
      have hk : o.Keeps := ⟨hb, hp⟩
      obtain ⟨h1, st, h2, h3⟩ := h
      have hof := opened_ok hk h1
      rw [openFile_contents hof, opened_says hk, h3] at hcon
      cases hcon
      obtain ⟨st', r, k1, k2⟩ := wn_crash hV (readTo_ok hV hA hdb hok h2) (s := reopen _ false) ⟨rfl, rfl, rfl⟩ rfl hdb hok [] hdd
      obtain ⟨st2, k3, k4⟩ := readTo_more hV hA hdb hok h2 ⟨r, k1.symm⟩
      refine ⟨?_, st2, k3, ?_⟩
      · intro g hg
        rw [put_keep hk] at hg
        cases hg
        exact (store_says hof _).1
      · unfold Files.says
        rw [put_keep hk]
        show ((openFile (fs.opened o.db)).store d).says = _
        rw [(store_says hof _).2.2, k2, k4]
    · exact other hpo

theorem readTo_runs {path : Str} (hp : path ≠ [] ∧ path ≠ lit ":memory:") {fs fs' : Files} (h : ReadTo A corpus path fs)
    (hr : CliRuns F corpus fs fs') : ReadTo A corpus path fs' := by
  induction hr with
  | none => exact h
  | ended _ c o ih => exact readTo_step hV hA hdb hok hp ih c o
  | died _ c o hd ih => exact readTo_dies hV hA hdb hok hp ih hd

end

/-! ### C93 -/

/-- C93: no command, whether it ends or dies at any moment, touches a file that its option `--db` does not name; with another
backend than `sqlite`, and with the paths that SQLite takes for a temporary database, it touches none at all. -/
theorem C93_elsewhere (c : Command) (o : CliOpts) (corpus : List WSynset) (fs fs' : Files)
    (h : fs' = (c.run F o corpus fs).files ∨ c.Dies F o corpus fs fs') (p : Str) (hp : p ≠ o.db ∨ ¬ o.Keeps) : fs' p = fs p := by
  have key : ∀ f, o.backend = lit "sqlite" → fs.put o.db f p = fs p := by
    intro f hb
    rcases hp with hp | hp
    · exact put_other hp
    · refine put_temporary ?_
      unfold CliOpts.Keeps at hp
      by_cases h1 : o.db = []
      · exact .inl h1
      · by_cases h2 : o.db = lit ":memory:"
        · exact .inr h2
        · exact absurd ⟨hb, h1, h2⟩ hp
  rcases h with rfl | h
  · by_cases hb : o.backend = lit "sqlite"
    · rw [run_sqlite hb, ended_files]; exact key _ hb
    · rw [run_files_not hb]
  · cases h with
    | before => rfl
    | opening ho m => obtain ⟨hb, rfl⟩ := sqlite_params ho; exact key _ hb
    | reading ho hc hcon hdd => obtain ⟨hb, rfl⟩ := sqlite_params ho; exact key _ hb

/-- C93: a command says "done." if, and only if, it raised no exception. -/
theorem C93_done (c : Command) (o : CliOpts) (corpus : List WSynset) (fs : Files) :
    lit "done." ∈ (c.run F o corpus fs).out ↔ (c.run F o corpus fs).result = .ok () := by
  have key : ∀ r g, lit "done." ∈ (c.ended r g).out ↔ (c.ended r g).result = .ok () := by
    intro r g
    cases r with
    | error e =>
      have h1 : (c.ended (.error e) g).out = c.intro := rfl
      have h2 : (c.ended (.error e) g).result = .error e := rfl
      rw [h1, h2]
      cases c <;> simp [Command.intro] <;> decide
    | ok u =>
      have h1 : (c.ended (.ok u) g).out = c.intro ++ c.outro := rfl
      have h2 : (c.ended (.ok u) g).result = .ok u := rfl
      rw [h1, h2]
      cases c <;> simp [Command.intro, Command.outro]
  unfold Command.run
  split <;> exact key ..

/-- C93: `create` and `shell` with an SQLite file: they end well; the file is then there, is complete, and has exactly what it had;
a file that was complete is left as it was. -/
theorem C93_create (c : Command) (hc : c ≠ .wordnet) (o : CliOpts) (ho : o.Keeps) (corpus : List WSynset) (fs : Files)
    (hf : fs.OkAt o.db) :
    (c.run F o corpus fs).result = .ok () ∧
    (∃ f, (c.run F o corpus fs).files o.db = some f ∧ f.Ok ∧ f.contents = some (fs.says o.db)) ∧
    ∀ f db, fs o.db = some f → f.contents = some db → (c.run F o corpus fs).files = fs := by
  have hof := opened_ok ho hf
  have hw : c.work F corpus (openFile (fs.opened o.db)) = (.ok (), openFile (fs.opened o.db)) := by
    cases c <;> first | rfl | exact absurd rfl hc
  rw [run_sqlite ho.1, hw]
  refine ⟨rfl, ⟨openFile (fs.opened o.db), put_keep ho _ _, openFile_ok hof, ?_⟩, fun f db hfd hcon => ?_⟩
  · rw [openFile_contents hof, opened_says ho]
  · show fs.put o.db (openFile (fs.opened o.db)) = fs
    rw [opened_keep ho, hfd, Option.getD_some, (C75_again f db hcon []).1]
    funext p
    by_cases hp : p = o.db
    · subst hp; rw [put_keep ho, hfd]
    · rw [put_other hp]

/-- C93: if `create` or `shell` dies at any moment, the file says what it said, and the next `create` gives what it would have
given at once. -/
theorem C93_create_dies (c : Command) (hc : c ≠ .wordnet) (o : CliOpts) (ho : o.Keeps) (corpus : List WSynset) (fs fs' : Files)
    (hf : fs.OkAt o.db) (hd : c.Dies F o corpus fs fs') :
    fs'.OkAt o.db ∧ fs'.says o.db = fs.says o.db ∧ (c.run F o corpus fs').files = (c.run F o corpus fs).files := by
  have hof := opened_ok ho hf
  have hrun : ∀ g, (c.run F o corpus g).files = g.put o.db (openFile (g.opened o.db)) := by
    intro g
    rw [run_sqlite ho.1, ended_files]
    cases c <;> first | rfl | exact absurd rfl hc
  cases hd with
  | before => exact ⟨hf, rfl, rfl⟩
  | reading _ h => exact absurd h hc
  | opening h m =>
    obtain ⟨_, rfl⟩ := sqlite_params h
    refine ⟨?_, ?_, ?_⟩
    · intro g hg
      rw [put_keep ho] at hg
      cases hg
      exact (openTo_says hof m).1
    · unfold Files.says
      rw [put_keep ho]
      show (openTo m (fs.opened o.db)).says = fs.says o.db
      rw [(openTo_says hof m).2, opened_says ho]
    · rw [hrun, hrun]
      have h1 : ∀ f, (fs.put o.db f).opened o.db = f := by
        intro f
        rw [opened_keep ho, put_keep ho]; rfl
      rw [h1, C75_interrupted]
      funext p
      by_cases hp : p = o.db
      · subst hp; rw [put_keep ho, put_keep ho]
      · rw [put_other hp, put_other hp, put_other hp]

/-- C93: `wordnet` on an SQLite file with any history: it ends well, except that it raises `IndexError` (and does not say "done.")
when the number of statements is a multiple of 501; in both cases the file then has exactly what it had, the statements of the
corpus, and for each that WordNet supports it. -/
theorem C93_wordnet (hV : Vocab V) (ops : List (Op F)) (hops : ∀ op ∈ ops, op.Over V) (s : St)
    (hs : runOps ops (St.new false) = (.ok (), s)) (o : CliOpts) (ho : o.Keeps) (fs : Files) (hf : fs.OkAt o.db)
    (hfs : fs.says o.db = s.disk) (corpus : List WSynset) (hdb : HasLemmas corpus)
    (hok : ∀ e, Stated corpus e → BeliefOver V theWordnet e) :
    (Command.wordnet.run F o corpus fs).result = (if 501 ∣ (corpus.map WSynset.count).sum then .error .indexError else .ok ()) ∧
    ∃ f db, (Command.wordnet.run F o corpus fs).files o.db = some f ∧ f.Ok ∧ f.contents = some db ∧
      ∀ e, EdgeOver V e → ∃ r, hgExists e (reopen db false) = (.ok r, reopen db false) ∧
        (r = true ↔ (Spec.after ops).Present e ∨ Stated corpus e ∨ ∃ g, Stated corpus g ∧ e = support g theWordnet) := by
  obtain ⟨A, hA⟩ := after_of hV hops hs
  have h0 : ReadTo A corpus o.db fs := ⟨hf, [], List.nil_prefix, by rw [hfs, hA.disk, hA.work]; rfl⟩
  obtain ⟨h1, f, h2, h3, h4⟩ := readTo_read hV hA.ok hdb hok ho h0
  refine ⟨h1, f, _, h2, h3, h4, fun e he => ?_⟩
  refine ⟨_, existsM_run hV (readTo_ok hV hA.ok hdb hok List.prefix_rfl) he (s := reopen _ false) (St.usable_of_none rfl) rfl, ?_⟩
  rw [decide_eq_true_iff, mem_addAll, ← hA.rel.present, List.mem_flatMap]
  apply or_congr Iff.rfl
  constructor
  · rintro ⟨g, hg, hx⟩
    rw [mem_dbStatements] at hg
    simp only [List.mem_cons, List.not_mem_nil, or_false] at hx
    rcases hx with rfl | rfl
    · exact .inl hg
    · exact .inr ⟨g, hg, rfl⟩
  · rintro (h | ⟨g, hg, rfl⟩)
    · exact ⟨e, mem_dbStatements.2 h, by simp⟩
    · exact ⟨g, mem_dbStatements.2 hg, by simp⟩

/-- C93: whatever commands were run before, with whatever options, however many of them died at whatever moment: `wordnet`, once it
is run to its end, has the same result and leaves the same tables as if it had been the first. -/
theorem C93_repeated (hV : Vocab V) (ops : List (Op F)) (hops : ∀ op ∈ ops, op.Over V) (s : St)
    (hs : runOps ops (St.new false) = (.ok (), s)) (o : CliOpts) (ho : o.Keeps) (fs fs' : Files) (hf : fs.OkAt o.db)
    (hfs : fs.says o.db = s.disk) (corpus : List WSynset) (hdb : HasLemmas corpus)
    (hok : ∀ e, Stated corpus e → BeliefOver V theWordnet e) (hr : CliRuns F corpus fs fs') :
    (Command.wordnet.run F o corpus fs').result = (Command.wordnet.run F o corpus fs).result ∧
    ∃ f f' db, (Command.wordnet.run F o corpus fs).files o.db = some f ∧
      (Command.wordnet.run F o corpus fs').files o.db = some f' ∧ f.contents = some db ∧ f'.contents = some db := by
  obtain ⟨A, hA⟩ := after_of hV hops hs
  have h0 : ReadTo A corpus o.db fs := ⟨hf, [], List.nil_prefix, by rw [hfs, hA.disk, hA.work]; rfl⟩
  obtain ⟨h1, f, h2, _, h4⟩ := readTo_read hV hA.ok hdb hok ho h0
  obtain ⟨k1, f', k2, _, k4⟩ := readTo_read hV hA.ok hdb hok ho (readTo_runs hV hA.ok hdb hok ho.2 h0 hr)
  exact ⟨by rw [h1, k1], f, f', _, h2, k2, h4, k4⟩

/-- C93: and at every moment of such runs the file opens to what it had at first, with some of the statements of the corpus and, for
exactly these, the support of WordNet. -/
theorem C93_meanwhile (hV : Vocab V) (ops : List (Op F)) (hops : ∀ op ∈ ops, op.Over V) (s : St)
    (hs : runOps ops (St.new false) = (.ok (), s)) (path : Str) (hp : path ≠ [] ∧ path ≠ lit ":memory:") (fs fs' : Files)
    (hf : fs.OkAt path) (hfs : fs.says path = s.disk) (corpus : List WSynset) (hdb : HasLemmas corpus)
    (hok : ∀ e, Stated corpus e → BeliefOver V theWordnet e) (hr : CliRuns F corpus fs fs') :
    fs'.OkAt path ∧ ∃ st : List (Val F), (∀ g ∈ st, Stated corpus g) ∧ ∀ e, EdgeOver V e → ∃ r,
      hgExists e (reopen (fs'.says path) false) = (.ok r, reopen (fs'.says path) false) ∧
        (r = true ↔ (Spec.after ops).Present e ∨ e ∈ st ∨ ∃ g ∈ st, e = support g theWordnet) := by
  obtain ⟨A, hA⟩ := after_of hV hops hs
  have h0 : ReadTo A corpus path fs := ⟨hf, [], List.nil_prefix, by rw [hfs, hA.disk, hA.work]; rfl⟩
  obtain ⟨h1, st, h2, h3⟩ := readTo_runs hV hA.ok hdb hok hp h0 hr
  refine ⟨h1, st, fun g hg => mem_dbStatements.1 (h2.subset hg), fun e he => ?_⟩
  rw [h3]
  refine ⟨_, existsM_run hV (readTo_ok hV hA.ok hdb hok h2) he (s := reopen _ false) (St.usable_of_none rfl) rfl, ?_⟩
  rw [decide_eq_true_iff, mem_addAll, ← hA.rel.present, List.mem_flatMap]
  apply or_congr Iff.rfl
  constructor
  · rintro ⟨g, hg, hx⟩
    simp only [List.mem_cons, List.not_mem_nil, or_false] at hx
    rcases hx with rfl | rfl
    · exact .inl hg
    · exact .inr ⟨g, hg, rfl⟩
  · rintro (h | ⟨g, hg, rfl⟩)
    · exact ⟨e, h, by simp⟩
    · exact ⟨g, hg, by simp⟩

/-- C93: with the option `--backend mysql` every command raises `KeyError`, whatever the other options: there is no way to give
the host. -/
theorem C93_mysql (c : Command) (o : CliOpts) (h : o.backend = lit "mysql") (corpus : List WSynset) (fs : Files) :
    (c.run F o corpus fs).result = .error .keyError := by
  unfold Command.run
  have : openHyperGraph o.params = .error .keyError := by
    unfold CliOpts.params; rw [h]; rfl
  rw [this]; rfl

/-- C93: with `--backend none`, `create` and `shell` end well and `wordnet` raises `AttributeError`. -/
theorem C93_none (c : Command) (o : CliOpts) (h : o.backend = lit "none") (corpus : List WSynset) (fs : Files) :
    (c.run F o corpus fs).result = if c = .wordnet then .error .attributeError else .ok () := by
  unfold Command.run
  have : openHyperGraph o.params = .ok .none := by
    unfold CliOpts.params; rw [h]; rfl
  rw [this]
  exact ended_result ..

/-- The calls that return, whatever the state. -/
def Total {σ : Type} (c : Call σ Unit) : Prop := ∀ s, (c s).1 = .ok ()

theorem Total.each {σ α : Type} {f : α → Call σ Unit} {xs : List α} (h : ∀ x ∈ xs, Total (f x)) : Total (Call.forEach f xs) := by
  induction xs with
  | nil => intro s; rfl
  | cons x xs ih =>
    intro s
    show (Call.bind (f x) (fun _ => Call.forEach f xs) s).1 = _
    unfold Call.bind
    have h1 := h x (by simp) s
    cases hx : f x s with
    | mk r s' =>
      rw [hx] at h1
      cases h1
      exact ih (fun y hy => h y (by simp [hy])) s'

theorem nullBelief_total (a b c : Val F) (ha : a.isSeq = false) :
    Total (nullBhAddBelief (F := F) 1000 wnSource (.tup [a, b, c])) := by
  intro s
  have : beliefEdges wnSource (Val.tup [a, b, c]) = .ok (Val.tup [.tup [a, b, c], .tup [.str constSource, .tup [a, b, c], wnSource]]) := by
    unfold beliefEdges
    have : (Val.tup [a, b, c]).head0 = .ok a := rfl
    rw [this]
    simp only [bind, Except.bind, ha, Bool.false_eq_true, if_false]
  unfold nullBhAddBelief
  rw [this]
  simp only [nullBhAdd]
  have h2 : bhExtend s (Val.tup [.tup [a, b, c], .tup [.str constSource, .tup [a, b, c], wnSource]]) =
      .ok (s ++ [.tup [a, b, c], .tup [.str constSource, .tup [a, b, c], wnSource]]) := rfl
  rw [h2]
  simp only
  split
  · rename_i h; split at h <;> rfl
  · rename_i h; split at h <;> cases h

/-- C93: with `--backend null` all commands end well, `wordnet` too (if the corpus has a lemma for every synset), also where the number
of statements is a multiple of 501. -/
theorem C93_null (c : Command) (o : CliOpts) (h : o.backend = lit "null") (corpus : List WSynset) (hdb : HasLemmas corpus) (fs : Files) :
    (c.run F o corpus fs).result = .ok () := by
  unfold Command.run
  have : openHyperGraph o.params = .ok .null := by
    unfold CliOpts.params; rw [h]; rfl
  rw [this]
  show (c.ended _ fs).result = _
  rw [ended_result]
  split
  · unfold nullRead
    have : Total (Call.forEach (processSynsetOn (nullBhAddBelief (F := F) 1000 wnSource)) corpus) := by
      refine Total.each fun t ht => ?_
      obtain ⟨h1, h2⟩ := hdb t ht
      intro s
      unfold processSynsetOn
      cases hl : t.lemmas with
      | nil => exact absurd hl h1
      | cons root rest =>
        have hs : ∀ rel ss, (rel, ss) ∈ t.related → Total (Call.forEach (fun ls (b : List (Val F)) => match ls with
            | [] => (.error .indexError, b)
            | l :: _ => nullBhAddBelief (F := F) 1000 wnSource (.tup [.str (lit rel), lemma2symbol root.lemma, lemma2symbol l]) b) ss) := by
          intro rel ss hm
          refine Total.each fun ls hls => ?_
          cases ls with
          | nil => exact absurd hls (h2 rel ss hm)
          | cons l ls => exact nullBelief_total _ _ _ rfl
        refine Total.each (f := fun c => c) ?_ s
        intro c hc
        simp only [List.mem_cons, List.not_mem_nil, or_false] at hc
        rcases hc with rfl | rfl | rfl | rfl | rfl | rfl | rfl | rfl | rfl | rfl | rfl | rfl
        · exact nullBelief_total _ _ _ rfl
        · exact Total.each fun l _ => nullBelief_total _ _ _ rfl
        · exact hs "hypernym/gb" _ (by simp [WSynset.related])
        · exact hs "instance_hypernym/gb" _ (by simp [WSynset.related])
        · exact hs "member_meronym/gb" _ (by simp [WSynset.related])
        · exact hs "attribute/gb" _ (by simp [WSynset.related])
        · exact hs "entailment/gb" _ (by simp [WSynset.related])
        · exact hs "cause/gb" _ (by simp [WSynset.related])
        · exact hs "also_see/gb" _ (by simp [WSynset.related])
        · exact hs "verb_group/gb" _ (by simp [WSynset.related])
        · exact hs "similar_to/gb" _ (by simp [WSynset.related])
        · refine Total.each fun l _ => Total.each (f := fun c => c) ?_
          intro c hc
          simp only [List.mem_cons, List.not_mem_nil, or_false] at hc
          rcases hc with rfl | rfl | rfl <;> exact Total.each fun m _ => nullBelief_total _ _ _ rfl
    have h3 := this []
    cases hx : Call.forEach (processSynsetOn (nullBhAddBelief (F := F) 1000 wnSource)) corpus [] with
    | mk r s =>
      rw [hx] at h3
      cases h3
      rfl
  · rfl

/-! ### Examples -/

/-- No files. -/
def exNoFiles : Files := fun _ => none

/-- The hypotheses of the theorems above are met: no file, the default options, the corpus of one synset; `create`, then `wordnet`
that dies while it reads, then `wordnet` again. -/
example : (CliOpts.default).Keeps ∧ exNoFiles.OkAt CliOpts.default.db ∧ exNoFiles.says CliOpts.default.db = (St.new false).disk ∧
    HasLemmas [exSynset] ∧ (∀ e, Stated [exSynset] e → BeliefOver (PlainVocab (F := Half)) theWordnet e) := by
  refine ⟨⟨rfl, by decide, by decide⟩, (fun f hf => by simp [exNoFiles] at hf), rfl, ?_, fun e he => C50_clean _ exSynset_clean e he⟩
  intro s hs
  rw [List.mem_singleton] at hs
  subst hs
  refine ⟨by decide, ?_⟩
  intro rel ss hm
  simp [WSynset.related, exSynset] at hm
  rcases hm with ⟨_, rfl⟩ | ⟨_, rfl⟩ | ⟨_, rfl⟩ | ⟨_, rfl⟩ | ⟨_, rfl⟩ | ⟨_, rfl⟩ | ⟨_, rfl⟩ | ⟨_, rfl⟩ | ⟨_, rfl⟩ <;> simp

/-- The file after `create`. -/
def exCreated : Files := (Command.create.run Half CliOpts.default [exSynset] exNoFiles).files

/-- Runs of which one died while the reader was at work, after it had committed. -/
example : ∃ d fs', d ≠ DB.empty ∧ CliRuns Half [exSynset] exNoFiles fs' ∧ fs'.says (lit "gb.db") = d := by
  refine ⟨(wnRead (F := Half) [exSynset] ⟨reopen DB.empty false, []⟩).2.base.disk, _, by decide +kernel,
    .died (.ended .none .create CliOpts.default) .wordnet CliOpts.default
      (.reading (path := lit "gb.db") (db := DB.empty)
        (d := (wnRead (F := Half) [exSynset] ⟨reopen DB.empty false, []⟩).2.base.disk) rfl rfl ?_ ?_), ?_⟩
  · show (openFile (exCreated.opened (lit "gb.db"))).contents = some DB.empty
    decide +kernel
  · decide +kernel
  · show (exCreated.put (lit "gb.db") ((openFile (exCreated.opened (lit "gb.db"))).store _)).says (lit "gb.db") = _
    decide +kernel

example : (Command.wordnet.run Half CliOpts.default [exSynset] exNoFiles).out = [lit "reading wordnet...", lit "done."] ∧
    (Command.create.run Half { CliOpts.default with backend := lit "mysql" } [exSynset] exNoFiles).out = [lit "creating hypergraph..."] ∧
    (Command.wordnet.run Half CliOpts.default [] exNoFiles).result = .error .indexError := by
  decide +kernel

end GB
