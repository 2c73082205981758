import Verif.Model.Stages
import Verif.Model.Parser

/-
Model of gb/knowledge/extractor.py.  The hypergraph passed to the extractor is only stored, and `debug` is off.
-/

namespace GB

variable {F : Type}

/-- What a stage returns: a tree, or an edge. -/
inductive StageOut (F : Type) where
  | tree (h : SemTree)
  | edge (v : Val F)

/-- `str(last_stage_output)` (gb/knowledge/extractor.py:74, 82).  `pyStr` is Python's `str` of an edge. -/
def StageOut.str (pyStr : Val F → Str) (k : Nat) : StageOut F → Except PyErr Str
  | .tree h => (treeStr k h).map Prod.fst
  | .edge v => .ok (pyStr v)

/-- The names `create_stage` knows (gb/knowledge/extractor.py:39-51). -/
def stageNames : List Str := [lit "alpha", lit "beta", lit "gamma", lit "delta", lit "epsilon"]

/-- gb/knowledge/extractor.py:79-81: create a stage by name and call `process`.  `AlphaStage` has no `process`; edges,
which are strings or tuples, have no `root_id` and no `root`. -/
def runStage (k : Nat) (name : Str) (o : StageOut F) : Except PyErr (StageOut F) :=
  if name = lit "alpha" then .error .attributeError
  else if name = lit "beta" then
    match o with
    | .tree h => (betaStage k h).map (fun p => .tree p.2)
    | .edge _ => .error .attributeError
  else if name = lit "gamma" then
    match o with
    | .tree h => (gammaStage k h).map (fun p => .tree p.2)
    | .edge _ => .error .attributeError
  else if name = lit "delta" then
    match o with
    | .tree h => (deltaStage k h).map (fun p => .tree p.2)
    | .edge _ => .error .attributeError
  else if name = lit "epsilon" then
    match o with
    | .tree h => (epsilonStage k h).map (fun p => .edge p.1)
    | .edge _ => .error .attributeError
  else .error .runtimeError

/-- gb/knowledge/extractor.py:71-73: create the first stage and call `process_sentence`, which only `AlphaStage` has. -/
def runFirst (k : Nat) (name : Str) (sentence : List Tok) : Except PyErr (StageOut F) :=
  if name = lit "alpha" then (alphaStage k sentence SemTree.new).map (fun p => .tree p.2)
  else if name ∈ stageNames then .error .attributeError
  else .error .runtimeError

/-- The outcome of a call, and `extractor.outputs` after it. -/
structure Reading (F : Type) where
  result : Except PyErr (StageOut F)
  outputs : List Str

/-- A stage ran with this outcome: append the text of what it returned, then go on. -/
def logged (pyStr : Val F → Str) (k : Nat) (outputs : List Str) (o : Except PyErr (StageOut F))
    (next : StageOut F → List Str → Reading F) : Reading F :=
  match o with
  | .error e => ⟨.error e, outputs⟩
  | .ok out =>
    match out.str pyStr k with
    | .error e => ⟨.error e, outputs⟩
    | .ok s => next out (outputs ++ [s])

/-- gb/knowledge/extractor.py:78-86: the loop over the stages after the first. -/
def runRest (pyStr : Val F → Str) (k : Nat) : List Str → StageOut F → List Str → Reading F
  | [], o, outputs => ⟨.ok o, outputs⟩
  | name :: names, o, outputs => logged pyStr k outputs (runStage k name o) (runRest pyStr k names)

/-- gb/knowledge/extractor.py:64-86 `read_sentence`. -/
def readSentence (pyStr : Val F → Str) (k : Nat) (stages : List Str) (sentence : List Tok) : Reading F :=
  match stages with
  | [] => ⟨.error .indexError, []⟩
  | name :: names => logged pyStr k [] (runFirst k name sentence) (runRest pyStr k names)

/-- gb/knowledge/extractor.py:32: the default stages. -/
def defaultStages : List Str := stageNames

/-- gb/knowledge/extractor.py:62: `[self.read_sentence(Sentence(sent)) for sent in sents]`. -/
def readSentences (pyStr : Val F → Str) (k : Nat) (stages : List Str) : List (List Tok) → Except PyErr (List (StageOut F))
  | [] => .ok []
  | s :: ss => match (readSentence pyStr k stages s).result with
    | .error e => .error e
    | .ok o => match readSentences pyStr k stages ss with
      | .error e => .error e
      | .ok os => .ok (o :: os)

/-- gb/knowledge/extractor.py:57-62 `read_text`, of a text that spaCy parses as `d`; the parser is kept between calls,
with its table. -/
def readText (norm : Str → Str) (pyStr : Val F → Str) (k : Nat) (stages : List Str) (d : Doc) (tb : TokTable) :
    Except PyErr (List (StageOut F) × TokTable) :=
  match parseText norm k d tb with
  | .error e => .error e
  | .ok (sents, tb') => (readSentences pyStr k stages sents).map (·, tb')

end GB
