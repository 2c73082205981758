import Verif.Model.Batch
import Verif.Model.Backend
import Verif.Model.Symbol

/-
Model of gb/readers/wordnet.py.  The nltk corpus is a parameter: a list of synsets, each with what the reader asks of
it.  Printing is not modelled.
-/

namespace GB

variable {F : Type} [PyFloat F]

/-- A lemma: `lemma.name()` and `lemma.synset().name()`. -/
structure WLemma where
  name : Str
  synset : Str
  deriving DecidableEq, Repr

/-- A lemma of a synset with its relationships (gb/readers/wordnet.py:87-90). -/
structure WEntry where
  lemma : WLemma
  antonyms : List WLemma
  pertainyms : List WLemma
  derived : List WLemma
  deriving DecidableEq, Repr

/-- A synset (gb/readers/wordnet.py:59-90); each related synset is given by the list of its lemmas. -/
structure WSynset where
  pos : Str
  lemmas : List WEntry
  hypernyms : List (List WLemma)
  instanceHypernyms : List (List WLemma)
  memberMeronyms : List (List WLemma)
  attributes : List (List WLemma)
  entailments : List (List WLemma)
  causes : List (List WLemma)
  alsoSees : List (List WLemma)
  verbGroups : List (List WLemma)
  similarTos : List (List WLemma)
  deriving DecidableEq, Repr

/-- gb/readers/wordnet.py:27-29 `lemma2symbol`. -/
def lemma2symbol (l : WLemma) : Val F := .str (symBuild [l.name, lit "wn." ++ l.synset])

/-- gb/readers/wordnet.py:32-40 `pos2symbol`; `None` for any other part of speech. -/
def pos2symbol (pos : Str) : Val F :=
  if pos = lit "n" then .str (lit "noun/gb")
  else if pos = lit "v" then .str (lit "verb/gb")
  else if pos = lit "a" ∨ pos = lit "s" then .str (lit "adjective/gb")
  else if pos = lit "r" then .str (lit "adverb/gb")
  else .none

/-- The source of all beliefs (gb/readers/wordnet.py:46, 69). -/
def wnSource : Val F := .str (lit "wordnet/gb")

/-- gb/readers/wordnet.py:43-46 `add_relationship`. -/
def addRelationship (bufferMax : Int) (rel : Str) (l1 l2 : WLemma) : Call (BSt F) Unit :=
  bhAddBelief bufferMax wnSource (.tup [.str rel, lemma2symbol l1, lemma2symbol l2]) (-1)

/-- gb/readers/wordnet.py:49-52 `process_relationships`. -/
def processRelationships (bufferMax : Int) (root : WLemma) (rel : Str) (synsets : List (List WLemma)) :
    Call (BSt F) Unit :=
  Call.forEach (fun ls b => match ls with
    | [] => (.error .indexError, b)
    | l :: _ => addRelationship bufferMax rel root l b) synsets

/-- gb/readers/wordnet.py:55-57 `process_lemma_relationships`. -/
def processLemmaRelationships (bufferMax : Int) (root : WLemma) (rel : Str) (lemmas : List WLemma) :
    Call (BSt F) Unit :=
  Call.forEach (addRelationship bufferMax rel root) lemmas

/-- One call after another. -/
def Call.seq {σ : Type} (cs : List (Call σ Unit)) : Call σ Unit := Call.forEach (fun c => c) cs

/-- gb/readers/wordnet.py:60-90 `process_synset`. -/
def processSynset (bufferMax : Int) (s : WSynset) : Call (BSt F) Unit := fun b =>
  match s.lemmas with
  | [] => (.error .indexError, b)
  | root :: rest =>
    Call.seq
      ([bhAddBelief bufferMax wnSource (.tup [.str (lit "pos/gb"), lemma2symbol root.lemma, pos2symbol s.pos]) (-1),
        Call.forEach (fun (l : WEntry) => addRelationship bufferMax (lit "synonym/gb") root.lemma l.lemma) rest,
        processRelationships bufferMax root.lemma (lit "hypernym/gb") s.hypernyms,
        processRelationships bufferMax root.lemma (lit "instance_hypernym/gb") s.instanceHypernyms,
        processRelationships bufferMax root.lemma (lit "member_meronym/gb") s.memberMeronyms,
        processRelationships bufferMax root.lemma (lit "attribute/gb") s.attributes,
        processRelationships bufferMax root.lemma (lit "entailment/gb") s.entailments,
        processRelationships bufferMax root.lemma (lit "cause/gb") s.causes,
        processRelationships bufferMax root.lemma (lit "also_see/gb") s.alsoSees,
        processRelationships bufferMax root.lemma (lit "verb_group/gb") s.verbGroups,
        processRelationships bufferMax root.lemma (lit "similar_to/gb") s.similarTos,
        Call.forEach (fun (l : WEntry) => Call.seq
          [processLemmaRelationships bufferMax l.lemma (lit "antonym/gb") l.antonyms,
           processLemmaRelationships bufferMax l.lemma (lit "pertainym/gb") l.pertainyms,
           processLemmaRelationships bufferMax l.lemma (lit "derivationally_related_form/gb") l.derived])
          (root :: rest)] : List (Call (BSt F) Unit)) b

/-- gb/readers/wordnet.py:93-98 `read`: a new BatchHyperGraph with the default buffer of 1000, all synsets, then
`flush` with the default timestamp. -/
def wnRead (synsets : List WSynset) : Call (BSt F) Unit := fun b =>
  Call.bind (Call.forEach (processSynset 1000) synsets) (fun _ => bhFlush (-1)) ⟨b.base, []⟩

end GB
