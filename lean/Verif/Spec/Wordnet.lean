import Verif.Model.Wordnet

/-
Specification: which statements a lexical database makes.
-/

namespace GB

variable {F : Type} [PyFloat F]

/-- The symbol of a lemma: its name, and `wn.` with the name of its synset. -/
def WLemma.sym (l : WLemma) : Val F := .str (l.name ++ lit "/wn." ++ l.synset)

/-- The symbols of the parts of speech. -/
def posWords : List (String × String) :=
  [("n", "noun/gb"), ("v", "verb/gb"), ("a", "adjective/gb"), ("s", "adjective/gb"), ("r", "adverb/gb")]

/-- The symbol of a part of speech; a missing value if it has none. -/
def posWord (pos : Str) : Val F :=
  match posWords.find? fun p => lit p.1 = pos with
  | some p => .str (lit p.2)
  | none => .none

/-- The source of all statements. -/
def theWordnet : Val F := .str (lit "wordnet/gb")

/-- The relation `rel` between two lemmas, as an edge. -/
def statement (rel : String) (l1 l2 : WLemma) : Val F := .tup [.str (lit rel), l1.sym, l2.sym]

/-- The relations between synsets. -/
def WSynset.related (s : WSynset) : List (String × List (List WLemma)) :=
  [("hypernym/gb", s.hypernyms), ("instance_hypernym/gb", s.instanceHypernyms),
   ("member_meronym/gb", s.memberMeronyms), ("attribute/gb", s.attributes), ("entailment/gb", s.entailments),
   ("cause/gb", s.causes), ("also_see/gb", s.alsoSees), ("verb_group/gb", s.verbGroups),
   ("similar_to/gb", s.similarTos)]

/-- The relations between lemmas. -/
def WEntry.related (l : WEntry) : List (String × List WLemma) :=
  [("antonym/gb", l.antonyms), ("pertainym/gb", l.pertainyms), ("derivationally_related_form/gb", l.derived)]

/-- The synset, with first lemma `root`, states `e`. -/
inductive States (s : WSynset) (root : WEntry) (rest : List WEntry) : Val F → Prop where
  | pos : States s root rest (.tup [.str (lit "pos/gb"), root.lemma.sym, posWord s.pos])
  | synonym {l : WEntry} : l ∈ rest → States s root rest (statement "synonym/gb" root.lemma l.lemma)
  | synset {rel : String} {ss : List (List WLemma)} {l : WLemma} {ls : List WLemma} :
      (rel, ss) ∈ s.related → (l :: ls) ∈ ss → States s root rest (statement rel root.lemma l)
  | lemma {rel : String} {ls : List WLemma} {l : WEntry} {m : WLemma} :
      l ∈ root :: rest → (rel, ls) ∈ l.related → m ∈ ls → States s root rest (statement rel l.lemma m)

/-- The database states `e`. -/
def Stated (db : List WSynset) (e : Val F) : Prop :=
  ∃ s ∈ db, ∃ root rest, s.lemmas = root :: rest ∧ States s root rest e

/-- Every synset, and every related synset, has a lemma. -/
def HasLemmas (db : List WSynset) : Prop :=
  ∀ s ∈ db, s.lemmas ≠ [] ∧ ∀ rel ss, (rel, ss) ∈ s.related → [] ∉ ss

/-- Number of statements of a synset: one for the part of speech, one per further lemma, one per related synset,
one per lemma relation. -/
def WSynset.count (s : WSynset) : Nat :=
  1 + (s.lemmas.length - 1) + (s.related.map fun r => r.2.length).sum +
    (s.lemmas.map fun l => (l.related.map fun r => r.2.length).sum).sum

/-- A lemma that gives a usable symbol: no whitespace, the name not starting with '(', the synset name not empty and
not ending in ')' or in a last character. -/
structure WLemma.Clean (l : WLemma) : Prop where
  name : ∀ c ∈ l.name, isSpace c = false
  first : l.name.head? ≠ some '('
  synset : ∀ c ∈ l.synset, isSpace c = false
  nonempty : l.synset ≠ []
  last : ∀ c, l.synset.getLast? = some c → c ≠ ')' ∧ c.toNat ≠ 0x10FFFF ∧ c.toNat ≠ 0xD7FF

/-- Every lemma is clean and every part of speech is one of WordNet's five. -/
structure CleanDb (db : List WSynset) : Prop where
  pos : ∀ s ∈ db, s.pos ∈ ["n", "v", "a", "s", "r"].map lit
  entry : ∀ s ∈ db, ∀ l ∈ s.lemmas, l.lemma.Clean
  synset : ∀ s ∈ db, ∀ rel ss, (rel, ss) ∈ s.related → ∀ ls ∈ ss, ∀ l ∈ ls, l.Clean
  related : ∀ s ∈ db, ∀ l ∈ s.lemmas, ∀ rel ls, (rel, ls) ∈ l.related → ∀ m ∈ ls, m.Clean

end GB
