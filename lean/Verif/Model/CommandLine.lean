import Verif.Model.Params
import Verif.Model.Open
import Verif.Model.Wordnet
import Verif.Spec.Import

/-
Model of the commands of gb/gbrain.py (`create`, `wordnet`, `shell`) and of gb/tools/shell.py.  Not modelled: how click reads
the command line, colours, the logo that is printed when the module is imported, and the line that the WordNet reader prints
for every synset.
-/

namespace GB

/-- The options of the command line (gb/gbrain.py:29-35). -/
structure CliOpts where
  backend : Str
  db : Str
  dbuser : Str
  dbpass : Str
  deriving DecidableEq, Repr

/-- The defaults of gb/gbrain.py:30-33. -/
def CliOpts.default : CliOpts := ⟨lit "sqlite", lit "gb.db", lit "gb", lit "gb"⟩

/-- gb/gbrain.py:35-41 `cli`. -/
def CliOpts.params (o : CliOpts) : Params := cliParams o.backend o.db o.dbuser o.dbpass

/-- The commands (gb/gbrain.py:49-73). -/
inductive Command where
  | create
  | wordnet
  | shell
  deriving DecidableEq, Repr

/-- The files there are.  Two paths are taken to name two files (links and `./` are not modelled). -/
abbrev Files := Str → Option File

/-- `sqlite3.connect` makes a database of its own, gone when the process ends, for these two paths. -/
def isTemporary (path : Str) : Bool := path = [] ∨ path = lit ":memory:"

/-- The file that `sqlite3.connect(path)` opens: a path at which there is none gives a new one. -/
def Files.opened (fs : Files) (path : Str) : File :=
  if isTemporary path then File.new else (fs path).getD File.new

/-- The files when the one that was opened with `path` has become `f`. -/
def Files.put (fs : Files) (path : Str) (f : File) : Files := fun p =>
  if isTemporary path then fs p else if p = path then some f else fs p

/-- What a command prints at first (gb/gbrain.py:52, 60). -/
def Command.intro : Command → List Str
  | .create => [lit "creating hypergraph..."]
  | .wordnet => [lit "reading wordnet..."]
  | .shell => []

/-- What it prints after its work (gb/gbrain.py:54, 63, 72; gb/tools/shell.py:26-27 `run`). -/
def Command.outro : Command → List Str
  | .shell => [lit "Welcome to the GraphBrain shell.", lit "done."]
  | _ => [lit "done."]

/-- What is left of a command: what it printed, its exception if it raised one, the files. -/
structure Ran where
  out : List Str
  result : Except PyErr Unit
  files : Files

/-- gb/gbrain.py: the end of a command whose work had this result. -/
def Command.ended (c : Command) (r : Except PyErr Unit) (fs : Files) : Ran :=
  match r with
  | .ok () => ⟨c.intro ++ c.outro, .ok (), fs⟩
  | .error e => ⟨c.intro, .error e, fs⟩

/-! The WordNet reader with backend `null` -/

section
variable {F : Type} [PyFloat F]

/-- gb/readers/wordnet.py:60-90 `process_synset`, with any way to add a belief of WordNet.  `processSynset` is this with
`bhAddBelief`, see `processSynset_on`. -/
def processSynsetOn {σ : Type} (add : Val F → Call σ Unit) (s : WSynset) : Call σ Unit := fun b =>
  let rel (r : Str) (l1 l2 : WLemma) : Call σ Unit := add (.tup [.str r, lemma2symbol l1, lemma2symbol l2])
  let synsets (root : WLemma) (r : Str) (ss : List (List WLemma)) : Call σ Unit :=
    Call.forEach (fun ls b => match ls with
      | [] => (.error .indexError, b)
      | l :: _ => rel r root l b) ss
  match s.lemmas with
  | [] => (.error .indexError, b)
  | root :: rest =>
    Call.seq
      ([add (.tup [.str (lit "pos/gb"), lemma2symbol root.lemma, pos2symbol s.pos]),
        Call.forEach (fun (l : WEntry) => rel (lit "synonym/gb") root.lemma l.lemma) rest,
        synsets root.lemma (lit "hypernym/gb") s.hypernyms,
        synsets root.lemma (lit "instance_hypernym/gb") s.instanceHypernyms,
        synsets root.lemma (lit "member_meronym/gb") s.memberMeronyms,
        synsets root.lemma (lit "attribute/gb") s.attributes,
        synsets root.lemma (lit "entailment/gb") s.entailments,
        synsets root.lemma (lit "cause/gb") s.causes,
        synsets root.lemma (lit "also_see/gb") s.alsoSees,
        synsets root.lemma (lit "verb_group/gb") s.verbGroups,
        synsets root.lemma (lit "similar_to/gb") s.similarTos,
        Call.forEach (fun (l : WEntry) => Call.seq
          [Call.forEach (rel (lit "antonym/gb") l.lemma) l.antonyms,
           Call.forEach (rel (lit "pertainym/gb") l.lemma) l.pertainyms,
           Call.forEach (rel (lit "derivationally_related_form/gb") l.lemma) l.derived])
          (root :: rest)] : List (Call σ Unit)) b

/-- It is the function of Model/Wordnet.lean. -/
theorem processSynset_on (bufferMax : Int) (s : WSynset) :
    processSynset (F := F) bufferMax s = processSynsetOn (fun e => bhAddBelief bufferMax wnSource e (-1)) s := rfl

/-- gb/hypergraph/batch_hypergraph.py:35-50 `flush` and `add` with backend `null`, whose `add` returns its argument
(gb/hypergraph/null.py:35-38): the state is the buffer. -/
def nullBhAdd (bufferMax : Int) (edges : Val F) (buffer : List (Val F)) : Except PyErr (Val F) × List (Val F) :=
  match bhExtend buffer edges with
  | .error e => (.error e, buffer)
  | .ok b => if (b.length : Int) > bufferMax then (.ok edges, []) else (.ok edges, b)

/-- gb/hypergraph/hypergraph.py:113-127 `add_belief` of a BatchHyperGraph with backend `null`. -/
def nullBhAddBelief (bufferMax : Int) (source edges : Val F) : Call (List (Val F)) Unit := fun buffer =>
  match beliefEdges source edges with
  | .error e => (.error e, buffer)
  | .ok arg =>
    match nullBhAdd bufferMax arg buffer with
    | (.ok _, b) => (.ok (), b)
    | (.error e, b) => (.error e, b)

/-- gb/readers/wordnet.py:93-98 `read` with backend `null`. -/
def nullRead (synsets : List WSynset) : Except PyErr Unit :=
  match Call.forEach (processSynsetOn (nullBhAddBelief (F := F) 1000 wnSource)) synsets [] with
  | (.ok (), _) => .ok ()
  | (.error e, _) => .error e

end

section
variable (F : Type) [PyFloat F]

/-- The work of a command on an SQLite file that is opened: its result, and the file then.  (Without the tables the reader raises
`OperationalError`; this does not happen, see `C75_opens`.) -/
def Command.work (c : Command) (corpus : List WSynset) (f : File) : Except PyErr Unit × File :=
  match c with
  | .wordnet =>
    match f.contents with
    | none => (.error .runtimeError, f)
    | some db =>
      let r := wnRead (F := F) corpus ⟨reopen db false, []⟩
      (r.1, f.store r.2.base.disk)
  | _ => (.ok (), f)

/-- gb/gbrain.py:49-73: a command, with these options, where nltk has this corpus.  With backend `none` the hypergraph has no
attribute `backend`, which `BatchHyperGraph.__init__` asks for (gb/hypergraph/batch_hypergraph.py:31).  With backend
`mysql` the parameters lack the host, see `openMysql`. -/
def Command.run (c : Command) (o : CliOpts) (corpus : List WSynset) (fs : Files) : Ran :=
  match openHyperGraph o.params with
  | .error e => c.ended (.error e) fs
  | .ok .none => c.ended (if c = .wordnet then .error .attributeError else .ok ()) fs
  | .ok .null => c.ended (if c = .wordnet then nullRead (F := F) corpus else .ok ()) fs
  | .ok (.mysql ..) => c.ended (.error .keyError) fs
  | .ok (.sqlite path) =>
    let r := c.work F corpus (openFile (fs.opened path))
    c.ended r.1 (fs.put path r.2)

/-- What may be there after the process of the command died at some moment: between two statements of the opening, or in the
middle of the reading. -/
inductive Command.Dies (c : Command) (o : CliOpts) (corpus : List WSynset) (fs : Files) : Files → Prop where
  | before : c.Dies o corpus fs fs
  | opening {path : Str} (h : openHyperGraph o.params = .ok (.sqlite path)) (m : Nat) :
      c.Dies o corpus fs
        (fs.put path ((createTables.take m).foldl (fun f d => execOrIgnore false d f) (fs.opened path)))
  | reading {path : Str} (h : openHyperGraph o.params = .ok (.sqlite path)) (hc : c = .wordnet) {db d : DB}
      (hdb : (openFile (fs.opened path)).contents = some db)
      (hd : d ∈ bhCrash (wnRead (F := F) corpus) ⟨reopen db false, []⟩) :
      c.Dies o corpus fs (fs.put path ((openFile (fs.opened path)).store d))

end

end GB
