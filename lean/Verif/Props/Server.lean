import Verif.Proofs.Server
import Verif.Props.Collation
import Verif.Props.Encode

/-
Property C89: one program text for every database server; MySQL with all its deviations at once.
-/

set_option linter.unusedSectionVars false

namespace GB

variable {F : Type} [PyFloat F] [DecidableEq F] {V : Val F → Prop} {w : Char → Nat} {cd : Codec} {p : Char → Bool}
  {q : Int → Prop} {srv : Server}

/-! ### the models of the single deviations -/

/-- C89: the models in which SQLite and the single deviations of the servers are studied are one program on different
servers: for every history from every state. -/
theorem C89_instances (ops : List (Op F)) (s : St) :
    runOpsOn Server.sqlite ops s = runOps ops s ∧
    (∀ k, runOpsOn (Server.mysqlExact k) ops s = myRunOps k ops s) ∧
    (∀ w k, runOpsOn (Server.mysqlColl w k) ops s = coRunOps w k ops s) ∧
    (∀ cd, runOpsOn (Server.coded cd) ops s = runOpsEnc cd ops s) ∧
    (∀ (e : Val F) (ts : Int), hgAddOn Server.sqlite64 e ts s = hgAdd64 e ts s) := by
  refine ⟨rfl, fun _ => rfl, fun w k => ?_, fun _ => rfl, fun _ _ => rfl⟩
  show forEach (Op.srvRun (Server.mysqlColl w k)) ops s = forEach (Op.coRun w k) ops s
  rw [op_coll]

/-! ### any server -/

/-- C89: on any server that does with the texts and time stamps of a history what SQLite does, statement by statement, the
history has the same results and leaves the same tables, commit by commit.  (The statements also carry texts that no call
names: the ends of ranges, the rows of the index.) -/
theorem C89_portable (hab : Server.Agree p q srv Server.sqlite) (ha : HasAscii p) (hV : Vocab V) (hF : Fine p V)
    (ops : List (Op F)) (hops : ∀ op ∈ ops, op.Over V) (h : ∀ op ∈ ops, op.AsksIn p) (hq : ∀ op ∈ ops, op.Stamped q)
    (auto : Bool) : runOpsOn srv ops (St.new auto) = runOps ops (St.new auto) := by
  suffices hh : ∀ {A : Abs F} {S : Spec F} {s : St}, AbsOk V A → Rel A S → s.cur = none → s.work = A.conc →
      runOpsOn srv ops s = runOps ops s from hh AbsOk.empty Rel.empty rfl rfl
  induction ops with
  | nil => intro A S s _ _ _ _; exact forEach_nil_run.trans forEach_nil_run.symm
  | cons op ops ih =>
    intro A S s hA hR hcur hw
    have h1 := Op.like hab ha hV hF (hops op (by simp)) (h op (by simp)) (hq op (by simp)) hA hR hcur hw
    obtain ⟨A', hA', hR', s1, e1, hw1, hc1⟩ := Op.sim hV (hops op (by simp)) A S s hA hR hcur hw
    show forEach (Op.srvRun srv) (op :: ops) s = forEach Op.run (op :: ops) s
    rw [forEach_cons_run e1, forEach_cons_run (h1.trans e1)]
    exact ih (fun o ho => hops o (by simp [ho])) (fun o ho => h o (by simp [ho])) (fun o ho => hq o (by simp [ho])) hA' hR'
      (hc1.trans hcur) hw1

/-! ### MySQL -/

theorem lower_fine (hV : Vocab V) (ha : HasAscii p) (hL : LowerVocab V) : Fine p V := by
  intro v hv
  refine ⟨?_, ?_⟩
  · rw [← edge2str_all ha, List.all_eq_true]
    intro c hc
    have := hL.lower v hv c hc
    exact ha c (by have := this.2.1; omega)
  · rw [← nextIn_edge2str ha (isNone_of_V hV hv)]
    cases hl : (edge2str v).getLast? with
    | none => simp [nextIn, hl]
    | some c =>
      have := (hL.lower v hv c (List.mem_of_getLast? hl)).2.1
      exact nextIn_of_last ha hl (by omega)

theorem lower_all (ha : HasAscii p) {t : Str} (h : ∀ c ∈ t, LowerChar c) : t.all p = true := by
  rw [List.all_eq_true]
  intro c hc
  exact ha c (by have := (h c hc).2.1; omega)

theorem Prim.Plain.asksIn (ha : HasAscii p) {x : Prim F} (h : x.Plain) : x.AsksIn p := by
  cases x with
  | query y =>
    cases y with
    | symbolsWithRoot r => exact lower_all ha h
    | _ => trivial
  | _ => trivial

theorem Op.Plain.asksIn (ha : HasAscii p) {op : Op F} (h : op.Plain) : op.AsksIn p := by
  cases op with
  | prim x => exact Prim.Plain.asksIn ha h
  | batch xs => exact fun x hx => Prim.Plain.asksIn ha (h x hx)
  | degree v => exact (edge2str_all ha v).symm.trans (lower_all ha h)
  | timestamp v => exact (edge2str_all ha v).symm.trans (lower_all ha h)
  | _ => trivial

theorem both_ascii (ha : HasAscii cd.sends) (hb : HasAscii cd.stores) : HasAscii cd.both := by
  intro c hc
  unfold Codec.both
  rw [ha c hc, hb c hc]
  rfl

/-- C89: MySQL with its row count, prefix keys, collation, character sets and integers of 64 bits all at once: if all texts
are printable ASCII without capitals, none ending in a backquote, the time stamps fit, and the history fits the keys of the
server (`Smooth`, see C68), the history has the same results as on SQLite, and leaves the same tables, commit by commit. -/
theorem C89_mysql (hG : GeneralOnAscii w) (ha : HasAscii cd.sends) (hb : HasAscii cd.stores) (hV : Vocab V)
    (hL : LowerVocab V) (k : Nat) (ops : List (Op F)) (hops : ∀ op ∈ ops, op.Over V) (hpl : ∀ op ∈ ops, op.Plain)
    (hq : ∀ op ∈ ops, op.Stamped fun n => -(2 ^ 63) ≤ n ∧ n < 2 ^ 63) (auto : Bool)
    (h : Smooth k Spec.empty Tally.empty (ops.flatMap Op.steps)) :
    runOpsOn (Server.mysql cd w k) ops (St.new auto) = runOps ops (St.new auto) := by
  have hab := both_ascii ha hb
  refine runOpsMy_same (hL.suits hG) hV hab (lower_fine hV hab hL) ops hops
    (fun op ho => Op.Plain.clear hG hL hV (hops op ho) (hpl op ho)) (fun op ho => Op.Plain.asksIn hab (hpl op ho)) ?_
    (Sees.new auto) rfl (Spec.Room.empty k) (Neat.empty _ k) h
  have hfit : ∀ n : Int, -(2 ^ 63) ≤ n ∧ n < 2 ^ 63 → fits64 n = true := by
    intro n hn
    unfold fits64
    rw [decide_eq_true hn.1, decide_eq_true hn.2]
    rfl
  intro op ho
  have := hq op ho
  cases op with
  | prim x => cases x with
    | add e n => exact hfit n this
    | _ => trivial
  | batch xs =>
    intro x hx
    have := this x hx
    cases x with
    | add e n => exact hfit n this
    | _ => trivial
  | addMany es n => exact hfit n this
  | addBelief src e n => exact hfit n this
  | addBeliefs src es n => exact hfit n this
  | _ => trivial

/-- C89: and after it, the queries on this server return what they return on SQLite (`pattern2edges` and `sources`: the same
sets). -/
theorem C89_reads (hG : GeneralOnAscii w) (ha : HasAscii cd.sends) (hb : HasAscii cd.stores) (hV : Vocab V)
    (hL : LowerVocab V) (k : Nat) (ops : List (Op F)) (hops : ∀ op ∈ ops, op.Over V) (hpl : ∀ op ∈ ops, op.Plain)
    (hq : ∀ op ∈ ops, op.Stamped fun n => -(2 ^ 63) ≤ n ∧ n < 2 ^ 63) (auto : Bool)
    (h : Smooth k Spec.empty Tally.empty (ops.flatMap Op.steps)) :
    let srv := Server.mysql cd w k
    let s := (runOpsOn srv ops (St.new auto)).2
    (∀ e, EdgeOver V e → (existsOn srv e s).1 = (hgExists e s).1) ∧
    (∀ c, V c → c.isAtom = true → (hgStarOn srv c s).1 = (hgStar c s).1) ∧
    (∀ root : Str, (∀ c ∈ root, LowerChar c) → (hgSymbolsWithRootOn srv root s).1 = (hgSymbolsWithRoot root s).1) ∧
    (∀ v : Val F, WfVal v → (∀ c ∈ edge2str v, LowerChar c) → (hgDegreeOn srv v s).1 = (hgDegree v s).1 ∧
      (hgTimestampOn srv v s).1 = (hgTimestamp v s).1) ∧
    (∀ ps, PatternOver V ps → ∃ r1 r2, (pattern2edgesOn srv (.tup ps) s).1 = .ok r1 ∧
      (hgPattern2edges (.tup ps) s).1 = .ok r2 ∧ r1.Nodup ∧ r2.Nodup ∧ ∀ e, e ∈ r1 ↔ e ∈ r2) ∧
    (∀ e, V (.str (lit "src/1")) → V e → ∃ r1 r2, (hgSourcesOn srv e s).1 = .ok r1 ∧
      (hgSources e s).1 = .ok r2 ∧ ∀ x, x ∈ r1 ↔ x ∈ r2) := by
  intro srv s
  have hab := both_ascii ha hb
  have hF := lower_fine hV hab hL
  have hag := mysql_agrees cd w k
  have hs : s = (coRunOps w k ops (St.new auto)).2 := by
    show (runOpsOn (Server.mysql cd w k) ops (St.new auto)).2 = _
    rw [C89_mysql hG ha hb hV hL k ops hops hpl hq auto h, C77_same hG hV hL k ops hops hpl auto h]
  obtain ⟨h1, h2, h3, h4, h5, h6⟩ := C77_reads hG hV hL k ops hops hpl auto h
  rw [← hs] at h1 h2 h3 h4 h5 h6
  refine ⟨fun e he => ?_, fun c hc hca => ?_, fun r hr => ?_, fun v hv hlv => ?_, fun ps hp => ?_, fun e hc he => ?_⟩
  · rw [existsOn_same hag hab hV hF he]; exact h1 e he
  · rw [starOn_same hag hab (hF c hc).1]; exact h2 c hc hca
  · rw [symbolsOn_same hag hab (lower_all hab hr)]; exact h3 r hr
  · have hu : v.uses cd.both = true := (edge2str_all hab v).symm.trans (lower_all hab hlv)
    rw [(degreeOn_same hag hab hu).1, (degreeOn_same hag hab hu).2]; exact h4 v hv hlv
  · rw [show pattern2edgesOn srv (.tup ps) = pattern2edgesOn (Server.mysqlColl w k) (.tup ps) from
      patternOn_same hag hab hV (c := false) hp (hF.pattern hp)]
    exact h5 ps hp
  · rw [sourcesOn_same hag hab hV hF hc he]; exact h6 e hc he

/-! ### the hypotheses are met -/

/-- A latin1 connection and `utf8` columns. -/
def exBoth : Codec := ⟨exLatin.sends, exUtf8.stores⟩

/-- The example history on a MySQL server with a latin1 connection and `utf8` columns. -/
example : runOpsOn (Server.mysql exBoth generalCi 250) exLow (St.new true) =
    runOps exLow (St.new true) := by
  refine C89_mysql generalCi_ascii (cd := exBoth) exLatin_ascii exUtf8_ascii lowPlain lowPlain_lower 250 exLow exLow_over exLow_plain ?_ true
    exLow_smooth
  intro op hop
  simp only [exLow, List.mem_cons, List.not_mem_nil, or_false] at hop
  rcases hop with rfl | rfl | rfl | rfl | rfl | rfl | rfl
  · exact ⟨by decide, by decide⟩
  · exact ⟨by decide, by decide⟩
  · exact ⟨by decide, by decide⟩
  · trivial
  · trivial
  · intro x hx
    simp only [List.mem_cons, List.not_mem_nil, or_false] at hx
    rcases hx with rfl | rfl
    · exact ⟨by decide, by decide⟩
    · trivial
  · trivial

/-- What it holds then. -/
example :
    let srv := Server.mysql exBoth generalCi 250
    let s := (runOpsOn srv exLow (St.new true)).2
    (existsOn srv exE2 s).1 = .ok true ∧ (existsOn srv exE3 s).1 = .ok false ∧
    (hgStarOn srv (sy "sky/1") s).1 = .ok [exE1] := by decide +kernel

/-- Servers that agree with SQLite on what they can represent: SQLite itself with 64-bit integers, whatever the texts, and one
behind character sets. -/
theorem sqlite64_agrees : Server.Agree (fun _ => true) (fun n => fits64 n = true) Server.sqlite64 Server.sqlite where
  updateVertex c t d n _ hn := by
    funext s
    simp only [Server.sqlite64, Server.sqlite, execBound, hn, if_true]
    split
    · unfold execWrite; simp_all
    · rfl
  insertVertex c t d n _ hn := by
    funext s
    simp only [Server.sqlite64, Server.sqlite, execBound, hn, if_true]
    split
    · unfold execWrite; simp_all
    · rfl
  updatePerm _ _ _ := rfl
  insertPerm _ _ _ := rfl
  deletePerm _ _ _ := rfl
  deleteVertex _ _ _ := rfl
  bumpDegree _ _ _ _ := rfl
  selectRange _ _ _ _ _ := rfl
  selectVertex _ _ _ := rfl

theorem coded_agrees (cd : Codec) : Server.Agree cd.both (fun _ => True) (Server.coded cd) Server.sqlite where
  updateVertex c t d n h _ := writeEnc_ok (cd := cd) (ts := [t]) (by simpa using (both_all h).1) _ _
  insertVertex c t d n h _ := insertEnc_ok (both_all h).1 (both_all h).2 _ _
  updatePerm c t h := writeEnc_ok (cd := cd) (ts := [t]) (by simpa using (both_all h).1) _ _
  insertPerm c t h := insertEnc_ok (both_all h).1 (both_all h).2 _ _
  deletePerm c t h := writeEnc_ok (cd := cd) (ts := [t]) (by simpa using (both_all h).1) _ _
  deleteVertex c t h := writeEnc_ok (cd := cd) (ts := [t]) (by simpa using (both_all h).1) _ _
  bumpDegree c d t h := writeEnc_ok (cd := cd) (ts := [t]) (by simpa using (both_all h).1) _ _
  selectRange c t u h h' := readEnc_ok (cd := cd) (ts := [t, u]) (by
    simp only [List.all_cons, List.all_nil, (both_all h).1, (both_all h').1, Bool.and_self]) _ _
  selectVertex c t h := readEnc_ok (cd := cd) (ts := [t]) (by simpa using (both_all h).1) _ _

/-- C89: on SQLite with 64-bit integers every history whose time stamps fit, over any vocabulary, runs as if integers had no
bound. -/
theorem C89_sqlite64 (hV : Vocab V) (ops : List (Op F)) (hops : ∀ op ∈ ops, op.Over V)
    (hq : ∀ op ∈ ops, op.Stamped fun n => fits64 n = true) (auto : Bool) :
    runOpsOn Server.sqlite64 ops (St.new auto) = runOps ops (St.new auto) := by
  have hall : ∀ t : Str, t.all (fun _ => true) = true := fun t => List.all_eq_true.2 fun _ _ => rfl
  have ha : HasAscii (fun _ => true) := fun _ _ => rfl
  have huses : ∀ v : Val F, v.uses (fun _ => true) = true := fun v => (edge2str_all ha v).symm.trans (hall _)
  have hnext : ∀ t : Str, nextIn (fun _ => true) t = true := by
    intro t
    unfold nextIn
    split <;> simp
  have hF : Fine (fun _ => true) V := by
    intro v _
    refine ⟨huses v, ?_⟩
    cases v with
    | str t => exact hnext t
    | flt x => exact hnext _
    | _ => rfl
  refine C89_portable sqlite64_agrees ha hV hF ops hops ?_ hq auto
  intro op _
  have hp : ∀ x : Prim F, x.AsksIn (fun _ => true) := by
    intro x
    cases x with
    | query y => cases y with
      | symbolsWithRoot r => exact hall r
      | _ => trivial
    | _ => trivial
  cases op with
  | prim x => exact hp x
  | batch xs => exact fun x _ => hp x
  | degree v => exact huses v
  | timestamp v => exact huses v
  | _ => trivial

/-- The example history of the other properties, on SQLite with 64-bit integers. -/
example : runOpsOn Server.sqlite64 exOps (St.new true) = runOps exOps (St.new true) :=
  C89_sqlite64 plainVocab exOps exOps_over (by
    intro op hop
    simp only [exOps, List.mem_cons, List.not_mem_nil, or_false] at hop
    rcases hop with rfl | rfl | rfl | rfl | rfl | rfl | rfl
    · exact (by decide : fits64 10 = true)
    · exact (by decide : fits64 11 = true)
    · exact (by decide : fits64 12 = true)
    · exact (by decide : fits64 13 = true)
    · trivial
    · intro x hx
      simp only [List.mem_cons, List.not_mem_nil, or_false] at hx
      rcases hx with rfl | rfl | rfl
      · exact (by decide : fits64 14 = true)
      · trivial
      · trivial
    · trivial) true

end GB
