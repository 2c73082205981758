import Verif.Proofs.Literal
import Verif.Proofs.Tame
import Verif.Spec.View

/-! Observations of states that represent a specification. -/

set_option linter.unusedSectionVars false

namespace GB

variable {F : Type} [PyFloat F] [DecidableEq F] {V : Val F → Prop}

/-- `s` is an idle state representing `S`. -/
structure Shows (V : Val F → Prop) (s : St) (S : Spec F) : Prop where
  ex : ∃ A, AbsOk V A ∧ Rel A S ∧ s.work = A.conc
  idle : s.cur = none
  disk : s.disk = s.work

theorem after_of (hV : Vocab V) {ops : List (Op F)} (hops : ∀ op ∈ ops, op.Over V) {auto : Bool} {s : St}
    (hs : runOps ops (St.new auto) = (.ok (), s)) : ∃ A, After V ops auto s A := by
  obtain ⟨s', A, h⟩ := after_exists hV ops hops auto
  have : s' = s := by
    have := h.run.symm.trans hs
    simpa using this
  subst this
  exact ⟨A, h⟩

theorem After.shows {ops : List (Op F)} {auto : Bool} {s : St} {A : Abs F} (h : After V ops auto s A) :
    Shows V s (Spec.after ops) := ⟨⟨A, h.ok, h.rel, h.work⟩, h.idle, h.disk⟩

theorem shows_of (hV : Vocab V) {ops : List (Op F)} (hops : ∀ op ∈ ops, op.Over V) {auto : Bool} {s : St}
    (hs : runOps ops (St.new auto) = (.ok (), s)) : Shows V s (Spec.after ops) := by
  obtain ⟨A, h⟩ := after_of hV hops hs
  exact h.shows

theorem Shows.usable {s : St} {S : Spec F} (h : Shows V s S) : s.usable := St.usable_of_none h.idle

theorem Shows.exists_ (hV : Vocab V) {s : St} {S : Spec F} (h : Shows V s S) {e : Val F} (he : EdgeOver V e) :
    hgExists e s = (.ok (S.created e).isSome, s) := by
  obtain ⟨A, hA, hR, hw⟩ := h.ex
  have := existsM_run hV hA he h.usable hw
  unfold hgExists
  rw [this]
  congr 2
  rw [Bool.eq_iff_iff, decide_eq_true_eq]
  exact (hR.present e).symm

theorem Shows.pattern (hV : Vocab V) {s : St} {S : Spec F} (h : Shows V s S) {ps : List (Val F)}
    (hp : PatternOver V ps) : ∃ res, hgPattern2edges (.tup ps) s = (.ok res, s) ∧ res.Nodup ∧
      ∀ e, e ∈ res ↔ S.Present e ∧ Matches ps e.elems := by
  obtain ⟨A, hA, hR, hw⟩ := h.ex
  obtain ⟨res, h1, h2, h3⟩ := pattern2edges_run hV hA (b := false) hp h.usable hw
  refine ⟨res, h1, h2, fun e => ?_⟩
  rw [h3]
  exact and_congr_left fun _ => (hR.present e).symm

theorem Shows.star (hV : Vocab V) {s : St} {S : Spec F} (h : Shows V s S) {c : Val F} (hc : V c)
    (ha : c.isAtom = true) : ∃ res, hgStar c s = (.ok res, s) ∧ res.Nodup ∧
      ∀ e, e ∈ res ↔ S.Present e ∧ c ∈ e.elems := by
  obtain ⟨A, hA, hR, hw⟩ := h.ex
  obtain ⟨res, h1, h2, h3⟩ := star_run hV hA hc ha h.usable hw
  refine ⟨res, h1, h2, fun e => ?_⟩
  rw [h3]
  exact and_congr_left fun _ => (hR.present e).symm

theorem Shows.symbols (hV : Vocab V) {s : St} {S : Spec F} (h : Shows V s S) {r : Str}
    (h1 : ∀ c ∈ r, isSpace c = false) (h2 : r.head? ≠ some '(') :
    ∃ res, hgSymbolsWithRoot r s = (.ok res, s) ∧ res.Nodup ∧
      ∀ t, t ∈ res ↔ (r ++ lit "/") <+: t ∧ ∃ e, S.Present e ∧ Val.str t ∈ e.elems := by
  obtain ⟨A, hA, hR, hw⟩ := h.ex
  obtain ⟨res, e1, e2, e3⟩ := symbolsWithRoot_run hV hA h1 h2 h.usable hw
  refine ⟨res, e1, e2, fun t => ?_⟩
  rw [e3]
  refine and_congr_right fun _ => ⟨?_, ?_⟩
  · rintro ⟨e, he, hm⟩; exact ⟨e, (hR.present e).2 he, hm⟩
  · rintro ⟨e, he, hm⟩; exact ⟨e, (hR.present e).1 he, hm⟩

theorem Shows.sources (hV : Vocab V) {s : St} {S : Spec F} (h : Shows V s S) {e : Val F}
    (h1 : V (.str (lit "src/1"))) (h2 : V e) :
    ∃ res, hgSources e s = (.ok res, s) ∧ res.Nodup ∧ ∀ x, x ∈ res ↔ S.Present (support e x) := by
  obtain ⟨A, hA, hR, hw⟩ := h.ex
  obtain ⟨res, e1, e2, e3⟩ := sources_run hV hA h1 h2 h.usable hw
  refine ⟨res, e1, e2, fun t => ?_⟩
  rw [e3]
  exact (hR.present _).symm

theorem Shows.timestamp {s : St} {S : Spec F} (h : Shows V s S) {v : Val F} (hv : WfVal v) :
    hgTimestamp v s = (.ok ((S.known v).getD (-1)), s) := by
  obtain ⟨A, hA, hR, hw⟩ := h.ex
  unfold hgTimestamp
  rw [timestamp_run hA.wf hv h.idle hw, hR.known]
  rfl

/-- Two duplicate-free lists with the same elements have the same occurrences. -/
theorem occurrences_congr {v : Val F} {l m : List (Val F)} (hl : l.Nodup) (hm : m.Nodup)
    (h : ∀ x, x ∈ l ↔ x ∈ m) : occurrences v l = occurrences v m := by
  have hp : l.Perm m := (List.perm_ext_iff_of_nodup hl hm).2 h
  unfold occurrences
  exact (hp.map _).sum_nat

theorem Shows.lists {s : St} {S : Spec F} (h : Shows V s S) : ∃ l, Lists S l := by
  obtain ⟨A, hA, hR, hw⟩ := h.ex
  exact ⟨A.edges, hA.nodup, fun e => (hR.present e).symm⟩

theorem Shows.degree {s : St} {S : Spec F} (h : Shows V s S) {v : Val F} (hv : WfVal v) (ha : v.isAtom = true)
    {l : List (Val F)} (hl : Lists S l) : hgDegree v s = (.ok (occurrences v l : Nat), s) := by
  obtain ⟨A, hA, hR, hw⟩ := h.ex
  unfold hgDegree
  rw [degree_run hA.wf hv h.idle hw]
  have h1 : ((lookV v A.verts).map VEnt.deg).getD 0 = degOf v A.verts := rfl
  rw [h1, hR.deg v ha, occurrences_congr hA.nodup hl.1 (fun x => by rw [hl.2, ← hR.present]; rfl)]

theorem SameSet.of {α : Type} {P : α → Prop} {m m' : M (List α)} {s s' : St}
    (h : ∃ res, m s = (.ok res, s) ∧ res.Nodup ∧ ∀ x, x ∈ res ↔ P x)
    (h' : ∃ res, m' s' = (.ok res, s') ∧ res.Nodup ∧ ∀ x, x ∈ res ↔ P x) : SameSet (m s).1 (m' s').1 := by
  obtain ⟨r, h1, h2, h3⟩ := h
  obtain ⟨r', h1', h2', h3'⟩ := h'
  exact ⟨r, r', by rw [h1], by rw [h1'], h2, h2', fun x => (h3 x).trans (h3' x).symm⟩

/-- States that show the same edges have the same view. -/
theorem sameView_of (hV : Vocab V) {s s' : St} {S S' : Spec F} (h : Shows V s S) (h' : Shows V s' S')
    (hS : ∀ e, S.Present e ↔ S'.Present e) : SameView V s s' := by
  constructor
  · intro e he
    rw [h.exists_ hV he, h'.exists_ hV he]
    show Except.ok _ = Except.ok _
    congr 1
    rw [Bool.eq_iff_iff]
    exact hS e
  · intro ps hp
    refine SameSet.of (h.pattern hV hp) ?_
    simpa only [← hS] using h'.pattern hV hp
  · intro c hc ha
    refine SameSet.of (h.star hV hc ha) ?_
    simpa only [← hS] using h'.star hV hc ha
  · intro r hr
    refine SameSet.of (h.symbols hV hr.1 hr.2) ?_
    simpa only [← hS] using h'.symbols hV hr.1 hr.2
  · intro e h1 h2
    refine SameSet.of (h.sources hV h1 h2) ?_
    simpa only [← hS] using h'.sources hV h1 h2
  · intro v hv ha
    obtain ⟨l, hl⟩ := h.lists
    rw [h.degree hv ha hl, h'.degree hv ha (l := l) ⟨hl.1, fun e => (hl.2 e).trans (hS e)⟩]

/-- One more operation. -/
theorem Shows.op (hV : Vocab V) {s : St} {S : Spec F} (h : Shows V s S) {op : Op F} (ho : op.Over V) :
    ∃ s', op.run s = (.ok (), s') ∧ Shows V s' (S.op op) := by
  obtain ⟨A, hA, hR, hw⟩ := h.ex
  obtain ⟨A', hA', hR', s', e, st⟩ := Op.sim hV ho A S s hA hR h.idle hw
  exact ⟨s', e, ⟨A', hA', hR', st.work⟩, st.cur.trans h.idle, st.durable (.inl h.idle) h.disk⟩

/-- More operations. -/
theorem Shows.ops (hV : Vocab V) {s : St} {S : Spec F} (h : Shows V s S) {ops : List (Op F)}
    (ho : ∀ op ∈ ops, op.Over V) :
    ∃ s', runOps ops s = (.ok (), s') ∧ Shows V s' (ops.foldl Spec.op S) := by
  obtain ⟨A, hA, hR, hw⟩ := h.ex
  obtain ⟨A', hA', hR', s', e, st⟩ := runOps_from hV ops ho A S s hA hR h.idle hw
  exact ⟨s', e, ⟨A', hA', hR', st.work⟩, st.cur.trans h.idle, st.durable (.inl h.idle) h.disk⟩

theorem runOps_append {ops ops' : List (Op F)} {s s1 : St} (h : runOps ops s = (.ok (), s1)) :
    runOps (ops ++ ops') s = runOps ops' s1 := by
  unfold runOps at *
  induction ops generalizing s with
  | nil =>
    have : s = s1 := by simpa using (Prod.mk.inj (show (Except.ok (), s) = (Except.ok (), s1) from h)).2
    rw [this]; rfl
  | cons o l ih =>
    cases hr : o.run s with
    | mk r t =>
      cases r with
      | ok u =>
        rw [forEach, bind_run _ _ _ hr] at h
        rw [List.cons_append, forEach, bind_run _ _ _ hr]
        exact ih h
      | error er =>
        rw [forEach, bind_err _ _ _ hr] at h
        simp at h

end GB
