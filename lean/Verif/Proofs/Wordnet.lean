import Verif.Proofs.Buffer
import Verif.Spec.Wordnet

/-! The WordNet reader as a sequence of buffered beliefs. -/

set_option linter.unusedSectionVars false

namespace GB

variable {F : Type} [PyFloat F] [DecidableEq F] {V : Val F → Prop}

/-- Buffered beliefs in the given facts. -/
def beliefOps (es : List (Val F)) : List (BOp F) := es.map (BOp.addBelief theWordnet)

/-- `c` adds beliefs in `es`. -/
def Beliefs (bm : Int) (c : Call (BSt F) Unit) (es : List (Val F)) : Prop :=
  ∀ b, c b = bhRun bm (-1) (beliefOps es) b

theorem bhRun_append (bm ts : Int) (os os' : List (BOp F)) (b : BSt F) :
    bhRun bm ts (os ++ os') b = Call.bind (bhRun bm ts os) (fun _ => bhRun bm ts os') b := by
  induction os generalizing b with
  | nil => rfl
  | cons o os ih =>
    show bhRun bm ts (o :: (os ++ os')) b = Call.bind (bhRun bm ts (o :: os)) _ b
    unfold Call.bind
    rw [bhRun, bhRun]
    rcases h : o.run bm ts b with ⟨r, b'⟩
    cases r with
    | error e => rfl
    | ok u =>
      dsimp only
      rw [ih]
      rfl

theorem Beliefs.one (bm : Int) (e : Val F) : Beliefs bm (bhAddBelief bm theWordnet e (-1)) [e] := by
  intro b
  show _ = bhRun bm (-1) [BOp.addBelief theWordnet e] b
  rw [bhRun]
  show _ = match bhAddBelief bm theWordnet e (-1) b with | (.ok (), b') => _ | (.error e, b') => _
  rcases bhAddBelief bm theWordnet e (-1) b with ⟨r, b'⟩
  cases r <;> rfl

theorem Beliefs.nil (bm : Int) : Beliefs bm (Call.seq ([] : List (Call (BSt F) Unit))) [] := fun _ => rfl

theorem Beliefs.cons {bm : Int} {c : Call (BSt F) Unit} {cs : List (Call (BSt F) Unit)} {es fs : List (Val F)}
    (h1 : Beliefs bm c es) (h2 : Beliefs bm (Call.seq cs) fs) : Beliefs bm (Call.seq (c :: cs)) (es ++ fs) := by
  intro b
  unfold beliefOps
  rw [List.map_append, bhRun_append]
  show Call.bind c (fun _ => Call.seq cs) b = _
  have e1 : c = bhRun bm (-1) (beliefOps es) := funext h1
  have e2 : Call.seq cs = bhRun bm (-1) (beliefOps fs) := funext h2
  rw [e1, e2]
  rfl

theorem Beliefs.forEach {α : Type} {bm : Int} {f : α → Call (BSt F) Unit} {g : α → List (Val F)} {xs : List α}
    (h : ∀ x ∈ xs, Beliefs bm (f x) (g x)) : Beliefs bm (Call.forEach f xs) (xs.flatMap g) := by
  induction xs with
  | nil => exact fun _ => rfl
  | cons x xs ih =>
    intro b
    have e1 : f x = bhRun bm (-1) (beliefOps (g x)) := funext (h x (by simp))
    have e2 : Call.forEach f xs = bhRun bm (-1) (beliefOps (xs.flatMap g)) := funext (ih fun y hy => h y (by simp [hy]))
    rw [List.flatMap_cons]
    unfold beliefOps
    rw [List.map_append, bhRun_append]
    show Call.bind (f x) (fun _ => Call.forEach f xs) b = _
    rw [e1, e2]
    rfl

theorem lemma2symbol_sym (l : WLemma) : (lemma2symbol l : Val F) = l.sym := by
  simp [lemma2symbol, WLemma.sym, symBuild, pyJoin, lit]

theorem pos2symbol_word (pos : Str) : (pos2symbol pos : Val F) = posWord pos := by
  have hc : ∀ a : Str, (a = pos) = (pos = a) := fun a => propext eq_comm
  unfold pos2symbol posWord posWords
  simp only [List.find?, hc]
  by_cases h1 : pos = lit "n"
  · subst h1; rfl
  by_cases h2 : pos = lit "v"
  · subst h2; rfl
  by_cases h3 : pos = lit "a"
  · subst h3; rfl
  by_cases h4 : pos = lit "s"
  · subst h4; rfl
  by_cases h5 : pos = lit "r"
  · subst h5; rfl
  simp [h1, h2, h3, h4, h5]

theorem Beliefs.relationship (bm : Int) (rel : String) (a b : WLemma) :
    Beliefs (F := F) bm (addRelationship bm (lit rel) a b) [statement rel a b] := by
  unfold addRelationship statement
  rw [lemma2symbol_sym, lemma2symbol_sym]
  exact Beliefs.one bm _

/-- Statements relating `root` to the first lemmas. -/
def relStatements (root : WLemma) (rel : String) (ss : List (List WLemma)) : List (Val F) :=
  ss.flatMap fun ls => (ls.head?.map fun l => statement rel root l).toList

/-- Statements relating `root` to lemmas. -/
def lemStatements (root : WLemma) (rel : String) (ls : List WLemma) : List (Val F) :=
  ls.flatMap fun l => [statement rel root l]

theorem Beliefs.relationships (bm : Int) (root : WLemma) (rel : String) (ss : List (List WLemma)) (h : [] ∉ ss) :
    Beliefs (F := F) bm (processRelationships bm root (lit rel) ss) (relStatements root rel ss) := by
  unfold processRelationships relStatements
  apply Beliefs.forEach
  intro ls hls
  cases ls with
  | nil => exact absurd hls h
  | cons l ls => exact Beliefs.relationship bm _ _ _

theorem Beliefs.lemmaRelationships (bm : Int) (root : WLemma) (rel : String) (ls : List WLemma) :
    Beliefs (F := F) bm (processLemmaRelationships bm root (lit rel) ls) (lemStatements root rel ls) := by
  unfold processLemmaRelationships lemStatements
  apply Beliefs.forEach
  intro l _
  exact Beliefs.relationship bm _ _ _

/-- All statements of a synset, in the order in which they are added. -/
def synStatements (s : WSynset) : List (Val F) :=
  match s.lemmas with
  | [] => []
  | root :: rest =>
    [.tup [.str (lit "pos/gb"), root.lemma.sym, posWord s.pos]] ++
    (rest.flatMap (fun l => [statement "synonym/gb" root.lemma l.lemma]) ++
    (relStatements root.lemma "hypernym/gb" s.hypernyms ++
    (relStatements root.lemma "instance_hypernym/gb" s.instanceHypernyms ++
    (relStatements root.lemma "member_meronym/gb" s.memberMeronyms ++
    (relStatements root.lemma "attribute/gb" s.attributes ++
    (relStatements root.lemma "entailment/gb" s.entailments ++
    (relStatements root.lemma "cause/gb" s.causes ++
    (relStatements root.lemma "also_see/gb" s.alsoSees ++
    (relStatements root.lemma "verb_group/gb" s.verbGroups ++
    (relStatements root.lemma "similar_to/gb" s.similarTos ++
    ((root :: rest).flatMap (fun l =>
      lemStatements l.lemma "antonym/gb" l.antonyms ++
      (lemStatements l.lemma "pertainym/gb" l.pertainyms ++
      (lemStatements l.lemma "derivationally_related_form/gb" l.derived ++ []))) ++ [])))))))))))

theorem Beliefs.synset (bm : Int) (s : WSynset) (hne : s.lemmas ≠ [])
    (hr : ∀ rel ss, (rel, ss) ∈ s.related → [] ∉ ss) :
    Beliefs (F := F) bm (processSynset bm s) (synStatements s) := by
  cases hl : s.lemmas with
  | nil => contradiction
  | cons root rest =>
    have hp : processSynset (F := F) bm s = fun b => processSynset bm s b := rfl
    rw [hp]
    unfold processSynset synStatements
    rw [hl]
    dsimp only
    refine Beliefs.cons (by rw [lemma2symbol_sym, pos2symbol_word]; exact Beliefs.one bm _) ?_
    refine Beliefs.cons (Beliefs.forEach fun l _ => Beliefs.relationship bm _ _ _) ?_
    refine Beliefs.cons (Beliefs.relationships bm _ _ _ (hr "hypernym/gb" _ (by simp [WSynset.related]))) ?_
    refine Beliefs.cons (Beliefs.relationships bm _ _ _ (hr "instance_hypernym/gb" _ (by simp [WSynset.related]))) ?_
    refine Beliefs.cons (Beliefs.relationships bm _ _ _ (hr "member_meronym/gb" _ (by simp [WSynset.related]))) ?_
    refine Beliefs.cons (Beliefs.relationships bm _ _ _ (hr "attribute/gb" _ (by simp [WSynset.related]))) ?_
    refine Beliefs.cons (Beliefs.relationships bm _ _ _ (hr "entailment/gb" _ (by simp [WSynset.related]))) ?_
    refine Beliefs.cons (Beliefs.relationships bm _ _ _ (hr "cause/gb" _ (by simp [WSynset.related]))) ?_
    refine Beliefs.cons (Beliefs.relationships bm _ _ _ (hr "also_see/gb" _ (by simp [WSynset.related]))) ?_
    refine Beliefs.cons (Beliefs.relationships bm _ _ _ (hr "verb_group/gb" _ (by simp [WSynset.related]))) ?_
    refine Beliefs.cons (Beliefs.relationships bm _ _ _ (hr "similar_to/gb" _ (by simp [WSynset.related]))) ?_
    refine Beliefs.cons ?_ (Beliefs.nil bm)
    apply Beliefs.forEach
    intro l _
    exact Beliefs.cons (Beliefs.lemmaRelationships bm _ _ _) (Beliefs.cons (Beliefs.lemmaRelationships bm _ _ _)
      (Beliefs.cons (Beliefs.lemmaRelationships bm _ _ _) (Beliefs.nil bm)))

theorem mem_relStatements {root : WLemma} {rel : String} {ss : List (List WLemma)} {e : Val F} :
    e ∈ relStatements root rel ss ↔ ∃ l ls, (l :: ls) ∈ ss ∧ e = statement rel root l := by
  unfold relStatements
  rw [List.mem_flatMap]
  constructor
  · rintro ⟨ls, h1, h2⟩
    cases ls with
    | nil => simp at h2
    | cons l ls => exact ⟨l, ls, h1, by simpa using h2⟩
  · rintro ⟨l, ls, h1, h2⟩
    exact ⟨l :: ls, h1, by simpa using h2⟩

theorem mem_synStatements {s : WSynset} {root : WEntry} {rest : List WEntry} (hl : s.lemmas = root :: rest) {e : Val F} :
    e ∈ synStatements s ↔ States s root rest e := by
  unfold synStatements
  rw [hl]
  simp only [List.mem_append, List.mem_singleton, List.mem_flatMap, mem_relStatements, lemStatements,
    List.not_mem_nil, or_false]
  constructor
  · rintro (rfl | ⟨l, h, rfl⟩ | h)
    · exact .pos
    · exact .synonym h
    · rcases h with ⟨l, ls, h, rfl⟩ | ⟨l, ls, h, rfl⟩ | ⟨l, ls, h, rfl⟩ | ⟨l, ls, h, rfl⟩ | ⟨l, ls, h, rfl⟩ |
        ⟨l, ls, h, rfl⟩ | ⟨l, ls, h, rfl⟩ | ⟨l, ls, h, rfl⟩ | ⟨l, ls, h, rfl⟩ | h
      · exact .synset (ss := s.hypernyms) (by simp [WSynset.related]) h
      · exact .synset (ss := s.instanceHypernyms) (by simp [WSynset.related]) h
      · exact .synset (ss := s.memberMeronyms) (by simp [WSynset.related]) h
      · exact .synset (ss := s.attributes) (by simp [WSynset.related]) h
      · exact .synset (ss := s.entailments) (by simp [WSynset.related]) h
      · exact .synset (ss := s.causes) (by simp [WSynset.related]) h
      · exact .synset (ss := s.alsoSees) (by simp [WSynset.related]) h
      · exact .synset (ss := s.verbGroups) (by simp [WSynset.related]) h
      · exact .synset (ss := s.similarTos) (by simp [WSynset.related]) h
      · obtain ⟨l, hl, ⟨m, hm, rfl⟩ | ⟨m, hm, rfl⟩ | ⟨m, hm, rfl⟩⟩ := h
        · exact .lemma hl (ls := l.antonyms) (by simp [WEntry.related]) hm
        · exact .lemma hl (ls := l.pertainyms) (by simp [WEntry.related]) hm
        · exact .lemma hl (ls := l.derived) (by simp [WEntry.related]) hm
  · intro h
    cases h with
    | pos => exact .inl rfl
    | synonym h => exact .inr (.inl ⟨_, h, rfl⟩)
    | @synset rel ss l ls h1 h2 =>
      refine .inr (.inr ?_)
      simp only [WSynset.related, List.mem_cons, Prod.mk.injEq, List.not_mem_nil, or_false] at h1
      rcases h1 with ⟨rfl, rfl⟩ | ⟨rfl, rfl⟩ | ⟨rfl, rfl⟩ | ⟨rfl, rfl⟩ | ⟨rfl, rfl⟩ | ⟨rfl, rfl⟩ | ⟨rfl, rfl⟩ |
        ⟨rfl, rfl⟩ | ⟨rfl, rfl⟩
      · exact .inl ⟨_, _, h2, rfl⟩
      · exact .inr (.inl ⟨_, _, h2, rfl⟩)
      · exact .inr (.inr (.inl ⟨_, _, h2, rfl⟩))
      · exact .inr (.inr (.inr (.inl ⟨_, _, h2, rfl⟩)))
      · exact .inr (.inr (.inr (.inr (.inl ⟨_, _, h2, rfl⟩))))
      · exact .inr (.inr (.inr (.inr (.inr (.inl ⟨_, _, h2, rfl⟩)))))
      · exact .inr (.inr (.inr (.inr (.inr (.inr (.inl ⟨_, _, h2, rfl⟩))))))
      · exact .inr (.inr (.inr (.inr (.inr (.inr (.inr (.inl ⟨_, _, h2, rfl⟩)))))))
      · exact .inr (.inr (.inr (.inr (.inr (.inr (.inr (.inr (.inl ⟨_, _, h2, rfl⟩))))))))
    | @«lemma» rel ls l m h1 h2 h3 =>
      refine .inr (.inr (.inr (.inr (.inr (.inr (.inr (.inr (.inr (.inr (.inr ⟨l, h1, ?_⟩))))))))))
      simp only [WEntry.related, List.mem_cons, Prod.mk.injEq, List.not_mem_nil, or_false] at h2
      rcases h2 with ⟨rfl, rfl⟩ | ⟨rfl, rfl⟩ | ⟨rfl, rfl⟩
      · exact .inl ⟨m, h3, rfl⟩
      · exact .inr (.inl ⟨m, h3, rfl⟩)
      · exact .inr (.inr ⟨m, h3, rfl⟩)

theorem length_relStatements {root : WLemma} {rel : String} {ss : List (List WLemma)} (h : [] ∉ ss) :
    (relStatements (F := F) root rel ss).length = ss.length := by
  unfold relStatements
  induction ss with
  | nil => rfl
  | cons ls ss ih =>
    rw [List.flatMap_cons, List.length_append, ih (fun h' => h (by simp [h']))]
    cases ls with
    | nil => exact absurd (by simp) h
    | cons l ls => simp; omega

theorem length_lemStatements {root : WLemma} {rel : String} {ls : List WLemma} :
    (lemStatements (F := F) root rel ls).length = ls.length := by
  unfold lemStatements
  induction ls with
  | nil => rfl
  | cons l ls ih => rw [List.flatMap_cons, List.length_append, ih]; simp; omega

theorem length_synStatements {s : WSynset} (hne : s.lemmas ≠ [])
    (hr : ∀ rel ss, (rel, ss) ∈ s.related → [] ∉ ss) : (synStatements (F := F) s).length = s.count := by
  cases hl : s.lemmas with
  | nil => contradiction
  | cons root rest =>
    unfold synStatements WSynset.count
    rw [hl]
    have hsyn : ∀ rest : List WEntry, (rest.flatMap fun l =>
        [(statement "synonym/gb" root.lemma l.lemma : Val F)]).length = rest.length := by
      intro rest
      induction rest with
      | nil => rfl
      | cons x rest ih => rw [List.flatMap_cons, List.length_append, ih]; simp; omega
    have hlem : ∀ ls : List WEntry, (ls.flatMap fun l =>
        lemStatements (F := F) l.lemma "antonym/gb" l.antonyms ++
        (lemStatements l.lemma "pertainym/gb" l.pertainyms ++
        (lemStatements l.lemma "derivationally_related_form/gb" l.derived ++ []))).length =
        (ls.map fun l => (l.related.map fun r => r.2.length).sum).sum := by
      intro ls
      induction ls with
      | nil => rfl
      | cons l ls ih =>
        rw [List.flatMap_cons, List.length_append, ih]
        simp [length_lemStatements, WEntry.related]
    simp only [List.length_append, hsyn, hlem, List.length_singleton, List.length_nil]
    rw [length_relStatements (hr "hypernym/gb" _ (by simp [WSynset.related])),
      length_relStatements (hr "instance_hypernym/gb" _ (by simp [WSynset.related])),
      length_relStatements (hr "member_meronym/gb" _ (by simp [WSynset.related])),
      length_relStatements (hr "attribute/gb" _ (by simp [WSynset.related])),
      length_relStatements (hr "entailment/gb" _ (by simp [WSynset.related])),
      length_relStatements (hr "cause/gb" _ (by simp [WSynset.related])),
      length_relStatements (hr "also_see/gb" _ (by simp [WSynset.related])),
      length_relStatements (hr "verb_group/gb" _ (by simp [WSynset.related])),
      length_relStatements (hr "similar_to/gb" _ (by simp [WSynset.related]))]
    simp only [WSynset.related, List.map_cons, List.map_nil, List.sum_cons, List.sum_nil, List.length_cons]
    omega

/-- Buffer length after buffered beliefs. -/
theorem beliefs_buffer (hV : Vocab V) {A : Abs F} (hA : AbsOk V A) (es : List (Val F)) :
    ∀ {total : List (Val F)} {b : BSt F} (j : Nat), Buffered V A (-1) total b → b.buffer.length = 2 * j → j ≤ 500 →
    (∀ e ∈ es, BeliefOver V theWordnet e) →
    ∃ b', bhRun 1000 (-1) (beliefOps es) b = (.ok (), b') ∧
      Buffered V A (-1) (total ++ es.flatMap fun e => [e, support e theWordnet]) b' ∧
      b'.buffer.length = 2 * ((j + es.length) % 501) := by
  induction es with
  | nil =>
    intro total b j h hb hj _
    refine ⟨b, rfl, by simpa using h, ?_⟩
    rw [hb, List.length_nil, Nat.add_zero, Nat.mod_eq_of_lt (by omega)]
  | cons e es ih =>
    intro total b j h hb hj hes
    have he := hes e (by simp)
    have hov : ∀ x ∈ [e, support e theWordnet], EdgeOver V x := BOp.edges_over (o := .addBelief theWordnet e) he
    have hx := bhExtend_coll (b := false) (by simp) hov b.buffer
    obtain ⟨b1, h1, hB1⟩ := BOp.run_ok hV hA h (o := .addBelief theWordnet e) he 1000
    have hlen : b1.buffer.length = 2 * ((j + 1) % 501) := by
      have h1' := h1
      rw [BOp.run, bhAddBelief, beliefEdges_single he.edge] at h1'
      dsimp only at h1'
      rw [bhAdd, hx] at h1'
      dsimp only at h1'
      by_cases hl : ((b.buffer ++ [e, support e theWordnet]).length : Int) > 1000
      · rw [if_pos hl] at h1'
        have hj' : j = 500 := by
          rw [List.length_append, hb] at hl
          simp at hl
          omega
        have hfl : ∀ {b'' b3 : BSt F}, bhFlush (-1) b'' = (.ok (), b3) → b3.buffer = [] := by
          intro b'' b3 hf
          unfold bhFlush at hf
          split at hf
          · have := (Prod.mk.inj hf).2
            rw [← this]
          · exact absurd (Prod.mk.inj hf).1 (by simp)
        rcases hf : bhFlush (-1) ⟨b.base, b.buffer ++ [e, support e theWordnet]⟩ with ⟨r, b3⟩
        rw [hf] at h1'
        cases r with
        | error x => simp at h1'
        | ok u =>
          have e2 : b3 = b1 := by simpa using h1'
          rw [← e2, hfl hf, hj']; rfl
      · rw [if_neg hl] at h1'
        have e2 := (Prod.mk.inj h1').2
        rw [← e2]
        rw [List.length_append, hb] at hl ⊢
        simp at hl ⊢
        rw [Nat.mod_eq_of_lt (by omega)]
        omega
    obtain ⟨b2, h2, hB2, hl2⟩ := ih ((j + 1) % 501) hB1 hlen (by omega) (fun x hx => hes x (by simp [hx]))
    refine ⟨b2, ?_, ?_, ?_⟩
    · show bhRun 1000 (-1) (BOp.addBelief theWordnet e :: beliefOps es) b = _
      rw [bhRun, h1]; exact h2
    · rw [List.flatMap_cons, ← List.append_assoc]; exact hB2
    · rw [hl2, List.length_cons]
      omega

end GB
