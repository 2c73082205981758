# Formal model of 52nlp/graphbrain in Lean 4

The repository holds a Python package (`/repo/gb`) and an older Clojure code base (`/repo/src`, not
installed by `setup.py`).  The model covers the Python package.  All paths below are relative to
`/repo` (sources) and `/verif/lean/Verif` (model).

Layout: `Py/` (Python strings and values, a concrete float type), `Model/` (the program, function by
function, every definition citing file and lines), `Spec/` (what the properties mean, without the
program), `Props/` (the properties, theorem names `Cnn_...`), `Proofs/` (everything else).

## 1. Trusted base

* Lean 4.33's kernel.  No axioms of our own, no `native_decide`/`bv_decide`, no unfinished proofs.
  `decide +kernel` is used for closed examples; it is evaluated by the kernel.
* The standard axioms `propext`, `Quot.sound`, `Classical.choice`; which of them each theorem uses is
  listed in section 7 (output of `#print axioms`).
* That the model says what the Python code does (sections 2 and 3): a reading of the source.  As a test of
  that reading, `Props/RepoTests.lean` runs the project's own unit tests on the model: every test method of
  `test_edge.py`, `test_symbol.py`, `test_sql.py`, `aux_backend.py` (SQLite) and `test_extractor.py` (spaCy's
  parses, which are input, written by hand; eight sentences, four stages) gives the result the project's
  authors expect, evaluated by the kernel except for the texts of the fourth stage, which `#guard` runs.
  These are tests and no claim rests on them.  Also trusted is that the statements in `Props/` and `Spec/` say what
  `properties.jsonl` says.
* Assumptions on the environment that occur as model parameters, not as axioms:
  * floats are an abstract type with `repr`, a partial `parse` and equality; `parse (repr x) = x` is a
    hypothesis (class) only for floats printed in plain decimal notation, and `Py/Half.lean` gives a
    concrete instance, so it is satisfiable;
  * spaCy's result is an arbitrary table of tokens with left and right children (`Doc`); NLTK's WordNet is
    an arbitrary finite database;
  * time stamps are arbitrary integers passed by the caller.

## 2. What is modelled

| source | Lean module | how |
|---|---|---|
| `gb/hypergraph/symbol.py` | `Model/Symbol.lean` | all functions; numpy `uint64` arithmetic as Nat mod 2^64 |
| `gb/hypergraph/edge.py` | `Model/Edge.lean` | all functions; recursion bounded by fuel `len+1`, proved sufficient (C04) |
| `gb/hypergraph/sql.py`: `permutate`, `nthperm`, `unpermutate`, `str_plus_1` ... | `Model/Perm.lean` | all |
| `gb/hypergraph/mysql.py` (rowcount, keys) with `gb/hypergraph/sql.py` | `Model/MySql.lean` | the methods of `SQL` that write, on a server that counts changed rows and has keys of k characters |
| `gb/hypergraph/mysql.py:51, 58` (charset, hence the collation) with `gb/hypergraph/sql.py` | `Model/Collation.lean` | all methods of `SQL` with every comparison done by character weights and padding; the weights are a parameter |
| several processes on one SQLite file (`gb/hypergraph/sql.py`, `sqlite.py`) | `Model/Concurrent.lean` | add, bulk add, remove as trees of transactions; all interleavings |
| the same, single statements (`gb/hypergraph/sql.py`: every writing method, `batch_exec`) | `Model/Statements.lean` | every method once more as a tree of SELECT / write / COMMIT requests; the file, the write lock with the open transaction, processes that are killed |
| the same as clients of a MySQL server (`gb/hypergraph/mysql.py:42` autocommit) | `Model/MyStatements.lean` | every writing method as a tree of statements, with the statements of `Model/MySql.lean`; every statement is a transaction of its own; deadlocks and lost connections are not modelled |
| `create_tables` and `exec_or_ignore` of `gb/hypergraph/sqlite.py` and `mysql.py` | `Model/Open.lean` | every statement; tables and columns may be missing; busy databases, several processes, sessions |
| `f_all` of `gb/hypergraph/sql.py` as a generator, and the reading methods with their cursors | `Model/Lazy.lean` | every cursor operation; own and shared cursors, unread rows, closed cursors; programs with any number of sequences |
| `gb/hypergraph/sql.py`: class `SQL`, `sqlite.py`, `mysql.py` | `Model/Sql.lean` | every method; two tables as lists of rows, the shared cursor, commits, autocommit |
| `gb/hypergraph/hypergraph.py` | `Model/HyperGraph.lean` | every method |
| `gb/hypergraph/batch_hypergraph.py`, `null.py`, `backend.py` | `Model/Batch.lean`, `Model/Backend.lean` | every method |
| `gb/gbrain.py`, `gb/tools/shell.py`, `gb/hypergraph/hypergraph.py` constructor | `Model/Params.lean`, `Model/CommandLine.lean` | the commands with their effect on files and their messages; not click itself, nor the logo |
| `gb/hypergraph/queries.py` | `Model/Queries.lean` | every function |
| `gb/readers/wordnet.py` | `Model/Wordnet.lean` | every function, over an arbitrary WordNet |
| `gb/nlp/nlp_token.py`, `sentence.py`, `parser.py` | `Model/Token.lean`, `Model/Parser.lean` | all that carries data |
| `gb/knowledge/semantic_tree.py` | `Model/SemTree.lean` | every method, on an explicit heap of elements and lists (aliasing matters) |
| `gb/knowledge/stages/alpha.py` | `Model/Alpha.lean` | every function |
| `gb/knowledge/stages/{beta,gamma,delta,epsilon}.py` | `Model/Stages.lean` | every function that is reachable |
| `gb/knowledge/extractor.py` | `Model/Extractor.lean` | every method |
| `gb/nlp/sentence.py`: `label_tree`, `__str__`; `nlp_token.py`: `__str__` | `Model/Display.lean` | all |
| `python/filter_wikidump.py` | `Model/WikiDump.lean` | all; the file is its decoded text |
| `gb/hypergraph/edge.py` (text), `sql.py`, `hypergraph.py` once more, with Python's recursion limit | `Model/Frames.lean` | every function and method that C01-C34 are about, with the number of stack frames left as an argument |
| `gb/hypergraph/sql.py`, `hypergraph.py` once more, with the character sets of a MySQL connection and its columns (`mysql.py:41-60`) | `Model/Encode.lean` | every method; the sets are parameters |
| the length of the columns, `VARCHAR(10000)` (`mysql.py:50, 57`) | `Model/Limit.lean` | `INSERT` of any server of `Model/Server.lean`; the length is a parameter; trailing spaces count |
| `gb/hypergraph/sql.py`, `hypergraph.py` with the database server as a parameter (`sqlite.py`, `mysql.py`) | `Model/Server.lean` | every method over a record of the nine statements; servers: SQLite, SQLite with 64-bit integers, MySQL with each deviation, MySQL with all |
| `destroy` as a step of a process among several | `Model/Destroy.lean` | all |
| operation histories | `Model/History.lean` | programs that call the above, as data |

Representation.  Python strings are lists of Unicode scalar values; Python values an inductive type
(`str`, `int`, `float`, `None`, sequences); exceptions are values; a method is a state
transformer that keeps the state reached when an exception is raised.

Database.  Two tables (lists of rows) in a *working* and a *disk* version.  `commit` copies working to
disk and records the snapshot in a ghost history; "a crash at any moment" is "any disk snapshot in that
history".  With autocommit (MySQL) every statement commits.  The cursor shared by `SQL.open_cursor` is a
three-valued state (absent, open, closed).

Trees of the knowledge package.  Python's nodes are objects that share child lists and that are changed in
place.  The model has a heap: elements, child lists, the id table of the `Tree` and its root; references
are indices.  Specifications talk about trees as values (`STree`); `Reads`, `Stands`, `Holds` connect both.

Processes.  A process is a tree of transactions (`Proc`): each step applies one method call, which is proved to commit at most
once, to the contents of the file, and goes on depending on what it saw.  A schedule picks any process for each step.
`Model/Statements.lean` refines this to single requests and SQLite's lock; C72 proves that nothing else can come about.

Recursion.  Unbounded Python recursion is modelled by a budget argument; the theorems say that for every large
enough budget the result is the same (`Yields`).  So Python's recursion limit is not part of the base model.  For the graph itself it is modelled in
`Model/Frames.lean` (C86: one frame per Python call, comprehension and generator, as CPython up to 3.11 counts; builtins and
the database driver none); for the knowledge package it is not: a sentence nested hundreds of levels deep raises `RecursionError`.

## 3. What is not modelled

* MySQL beyond C68, C74, C77, C88, C91 and C96: the lower end of the degree column; the clients of C74 compare
  exactly.  The four are about one deviation each; C89 is about all of them at once, for histories that meet none.  (Modelled: autocommit, parameters, `rowcount` counting changed rows only, prefix keys,
  the collation, the character sets of connection and columns.)
* The file system and SQLite's own crash safety: a commit is atomic and durable.
* Concurrent use beyond C65, C66, C69, C72, C73 and C74: what a program does after it caught the error of a lock timeout (such a
  process is taken to end), several threads on one connection, `destroy` under locks (as a step of a process it is modelled, C87), bulk additions inside a concurrent
  `batch_exec` (they raise even for one process, C35), deadlocks and lost connections of
  MySQL, killed MySQL clients beyond C74_any_time and C74_alone (which hold wherever the others stopped).
* `print`, the library `asciitree` behind `print_tree`; `scripts/`; the Clojure code.
* Integers beyond 64 bits in SQLite columns (`OverflowError`) outside C83: elsewhere time stamps are assumed to fit.
* The iteration order of Python sets: where a set is iterated (`remove_by_pattern`), the model goes through a list;
  `C33_any_order` says that the order does not matter.
* The token table of the parser object after `read_text` raised.
* spaCy, NLTK and numpy beyond what is said above; memory; the recursion limit outside C86.
* `gamma.process_entity2` and `add_to_relationships`: never called.

## 4. How each property is proved

| id | model | proof |
|---|---|---|
| C01-C03 | edge.py printing/parsing | structural induction; texts as lists of (open, atom, close) pieces, depth invariant of the tokenizer loop |
| C04 | budgeted str2edge | budget `len+1` always suffices: induction with a length argument |
| C05 | token_type, int() | induction on the string against a separate regular-expression-like specification |
| C06 | negative | case analysis; where it fails is characterised |
| C07, C08 | parts/build/str2symbol | induction on strings |
| C09 | hashed | induction, digit lemmas |
| C10, C11 | nthperm/unpermutate | induction on the lexicographic permutation generator |
| C12 | str_plus_1 | lexicographic order lemmas |
| C13-C17, C19, C21, C22, C24-C34, C47 | SQL backend + HyperGraph | one refinement invariant `Rel`: tables <-> abstract set of edges with degrees and time stamps (`Proofs/Rel`, `Ops`, `Query`); induction over histories (`Hist`, `View`) |
| C18, C20, C23, C35, C37, C39, C42, C44, C49 | as above | false of the code: counterexample theorems (universal where possible) and the strongest true restriction as `_partial` |
| C36, C38 | commit history | trace invariant over the snapshots |
| C40, C41, C48 | BatchHyperGraph | simulation by induction on the additions |
| C43 | Null | induction over histories |
| C45 | queries.py walk maps | induction over walks |
| C46 | edge.py | exact characterisation |
| C50 | wordnet.py | the statements as a pure function of the database; buffer simulation |
| C51, C52 | nlp | induction over token trees; the parser's table invariant over a history of texts |
| C53, C54 | alpha | heap invariant (`Stands`: the tree owns its nodes), refinement to the pure function `alphaTree` |
| C55, C56 | beta, gamma | refinement of the in-place rewriting to the pure functions `beta`, `gamma` |
| C57 | delta | invariant over the search (`World`, `Moves`): what is visible keeps its words, whatever is mutated |
| C58 | epsilon | refinement to the pure function `edge` |
| C59, C60, C61 | extractor | composition |
| C63 | filter_wikidump.py | induction over the lines; what the regular expressions find is characterised first |
| C64 | label_tree | induction over token trees; `OrderedDict` as an association list |
| C62 | delta's choice | the fit computed on the heap is the pure function `fit`; arg-max by induction over the candidates |
| C65, C66 | Model/Concurrent: every method call that commits is one step, processes as trees of steps, all interleavings | rely/guarantee: each process keeps to its own edges (`Safe`, `Only`), ownership invariant for edges touched by one process (`Track`), a "someone will still write it" invariant for edges added by several (`Will`); the decomposition into steps is proved to be that of the sequential model (`Impl`) |
| C67 | histories | simulation of the model by a tally (edges and one counter per vertex), on top of the abstract graph of C13 ff. |
| C68 | Model/MySql | equality of the two programs' runs, step by step, under the invariant of C67; invariants for histories without removals and with fresh stamps |
| C69 | Model/Concurrent | as C65, C66, with the guarantee of every process (rows it may touch, degrees it keeps) also for those that stop |
| C70 | queries.py filters | induction over the elements, with C67 for the degrees |
| C71 | delta stage, default pipeline | `Spec/Candidates.lean` describes the search on trees as values; relation `Reads` between heap and value, and a frame relation `Saves` (nodes may get new lists with the same contents, which is what flattening and marking do to shared elements of tidy trees); mutual induction over the tree and its arguments; tidiness of the extractor's trees by induction through beta and gamma |
| C72 | Model/Statements | the statement programs are proved equal to the sequential methods; a program of statements is turned into one of transactions (from the first write to the commit), a forward simulation `Mirror` shows that the lock makes this sound; a second simulation `Mimic` (fewer, larger transactions by a process alone) splits batches into calls; then C65, C66, C69 apply. Termination: lexicographic order on what remains of the programs |
| C73 | Model/Statements | through the refinement of C72: in the transaction model each such call is one transaction that changes anything (`OneShot`), so the part of the file that only this process works on (`part`: rows of its edges and the degrees of the watched symbols) moves from the state after k calls to that after k+1 in one step; `Proc.Along` carries this through all interleavings |
| C74 | Model/MyStatements | frame argument: a relation `Alike` between the shared contents and the contents if the client were alone (the same index rows, in the same order, of the edges that belong to it; the same vertex rows of what only it works with; known symbols have a row in both), preserved by its own statements on both sides (`Loc`, statement by statement) and by the statements of others on one side (`MyMoves`); degrees of shared symbols change by the same amounts on both sides, so they add up. The statement programs are proved equal to the methods of `Model/MySql.lean` |
| C75 | Model/Open | each statement of `create_tables` is done after it was made and stays done, and is a no-op when done; invariant over interleavings (what any process has made is done; until one has finished the file is the one the furthest process would have made alone); what a file says is invariant under all statements; sessions by induction with C38 |
| C76 | Model/Lazy, Spec/Lazy | the reading methods with explicit cursors agree with Model/Sql (result and connection) for every cursor state; simulation of generators by lazy sequences over any program (a generator on an own cursor holds the rows of the vertices still to come); reading changes nothing but the shared cursor; a returning call leaves the shared cursor without rows (counterexamples) |
| C77 | Model/Collation, Spec/Collation | the padded comparison of texts over characters that the weights keep apart is decided at the first difference (`Proofs/Pad`): ranges ending in a character with nothing between it and its successor are exact, those ending in `z` contain more rows, which the pattern filter removes; statement by statement the two programs do the same on tables whose texts are tidy (`Echoes`), then by induction along the invariant of C68 |
| C78 | Model/Concurrent, Model/Statements, Spec/Bounds | each process keeps a book (`Proc.Acts`): a purse of what it may still add to the degree and whether it knows the degree to be positive; a ledger of what it added and the edges it answers for; the sums over all processes are invariant under steps; carried to statements by C72_refines |
| C79 | Model/Concurrent, Model/Statements, Spec/Budget | each process keeps a budget of what it may still add to the degree and take from it; the sums of the budgets with the degree are bounded along every step (`Proofs/ConcBudget`); a pattern's budget is what it matches in a list that contains all rows of the index; carried to statements by C72_refines |
| C80 | Model/Batch, Spec/Import, Spec/Buffer | every call on the buffer either leaves the database alone or commits once, with an empty buffer (`Wrote`); so every commit holds what a prefix of the calls added (`Logged`); adding again what is there changes nothing |
| C81 | Model/Wordnet, Spec/Import | the reader is a sequence of buffered beliefs followed by a flush (C50); then as C80 |
| C82 | `Model/Sql.lean` (cursor states) | calls raise in the closed-cursor state by inspection of the first statement of each method (`Refuses`); the open-cursor state by the simulation `Sync` of C34; no commits by the invariant `Held` of C36; the half-done bulk addition by running both side by side |
| C83 | Model/Overflow.lean: additions whose statement parameters are checked | induction over the elements; queries look only at the index rows (a closed class of programs); degrees by counting |
| C84 | the parser, the five stages, the text of edges and the SQL graph together | structural induction over the extracted edge; then the history theorems; for edges starting with edges a frame invariant: only rows with shorter keys are touched |
| C85 | base model | simulation that carries the list of events; the account does not depend on the order of deletions (permutation argument) |
| C86 | Model/Frames.lean: every function with the number of frames left | induction on the nesting for printing and parsing; the hits of a query decide whether it can be decoded; simulation of histories |
| C87 | Model/Destroy.lean: destroy as one more step of a process (Model/Concurrent.lean) | invariants and what a process is still going to do, for all schedules |
| C88 | Model/Encode.lean: every statement with its text parameters checked against the sets | printing keeps the characters of a value; function by function equality; a closed class of programs that look only at the index; induction over the elements |
| C89 | Model/Server.lean: the methods over a record of nine statements; six servers | the single-deviation models by unfolding; servers that agree on the texts in use, function by function; then C77's invariant along the history |
| C90 | Model/MyStatements.lean: the statements of each client, interleaved | each client keeps a book of what it may still count, of the rows it saw or wrote, and of the edges it counted; every statement changes the tables as its book says (Proofs/MyBook, MyBudget, MyLedger); an invariant over all books |
| C91 | Model/Limit.lean: INSERT refuses longer texts, on every server of Model/Server.lean | pointwise equality of programs for texts that fit; a relation `Stops` between programs closed under sequencing; the refused addition is run on the abstract tables and is a stage of the unlimited one (C37) |
| C92 | Model/Statements.lean, Model/Concurrent.lean: any number of processes on one file | every process keeps a note of the rows of one edge that it saw or wrote, saw missing or deleted, and whether it set out to write or delete them (Proofs/ConcNote.lean); the notes of all processes together are an invariant of the system; C72_refines carries it to statements |
| C93 | Model/CommandLine.lean: the commands on a map from paths to files (Model/Open.lean), Spec/CommandLine.lean: runs of commands that end or die | invariant of runs: the file is well-formed and says what it said with a beginning of the list of statements; two beginnings of one list, the longer counts |
| C94 | Model/MyStatements.lean: every statement a transaction | the notes of C92, kept by the statements of a client (Proofs/MyNote.lean), with the same invariant of all notes together |
| C95 | Model/MyStatements.lean: every statement a transaction | each client counts the rows of the edge that it wrote; a count above zero says what rows there are, so that at most one client has one, and the insertions of that client succeed (Proofs/MyRuns.lean, Proofs/MyWhole.lean) |
| C96 | Model/Count.lean: UPDATE of a degree refuses numbers above b, on every server of Model/Server.lean | `Stops` (as C91) for C96_or_raises; a potential argument, a bound for the degree of each text that grows by what is added, for C96_same (Proofs/Count.lean, Proofs/CountTame.lean); the loop over the elements by induction for C96_accepts and C96_refused (Proofs/CountRun.lean) |
| C97 | Model/Caught.lean: calls with their results, exceptions swallowed, on any server of Model/Server.lean | a simulation between two runs (`Twin`: same index, index on disk, no open cursor): other calls follow (`Follows`), an addition follows or is refused before the index is touched (`frame_at`, `tried_add`, Proofs/Caught.lean); induction over the program with `Prim.sim` (Props/Caught.lean) |

## 5. Status

| id | title | status | theorems |
|---|---|---|---|
| C01 | Edge text round-trip | proved | C01_roundtrip, C01_roundtrip_nodes |
| C02 | Distinct edges have distinct text | proved | C02_text_injective, C02_nodes_injective |
| C03 | Shallow tokenisation | proved | C03_split_edge, C03_split_nodes, C03_nodes_edge_first_false |
| C04 | Parsing terminates and fails only with ordinary errors | proved | C04_parser_total, C04_recursion, C04_decreasing |
| C05 | Numeric token classification | proved | C05_integer, C05_double, C05_string, C05_int_roundtrip |
| C06 | Negation is an involution | proved | C06_involution, C06_flips, C06_of_positive, C06_edges, C06_edge_first, C06_number_first, C06_edge_isNegative |
| C07 | Symbol parts and build are inverse | proved | C07_build_parts, C07_parts_build, C07_root_nspace, C07_is_root, C07_atoms, C07_url_exception |
| C08 | str2symbol yields a separator-free symbol | proved | C08_separator_free, C08_pointwise, C08_own_root, C08_idempotent, C08_not_safe |
| C09 | Hash codes are symbol-safe | proved | C09_hashed, C09_hashed_eq_iff, C09_new_meaning, C09_new_meaning_safe, C09_new_meaning_nonroot |
| C10 | All permutations are enumerated exactly once | proved | C10_total, C10_complete, C10_lexicographic, C10_injective, C10_identity, C10_out_of_range |
| C11 | Un-permuting inverts permuting | proved | C11_inverse |
| C12 | Key-range queries are prefix queries | proved | C12_range_is_prefix, C12_defined_iff, C12_errors |
| C13 | exists reflects the history | proved | C13_exists, C13_literal |
| C14 | Adding twice is adding once | proved | C14_add_present, C14_add_twice |
| C15 | Removal is precise | proved | C15_remove, C15_remove_absent |
| C16 | Adding then removing a fresh edge restores every query result | proved | C16_add_remove |
| C17 | Pattern queries are sound and complete | proved | C17_pattern, C17_pattern_exists |
| C18 | Pattern queries work for every pattern | partial | C18_wildcards_counterexample, C18_edge_first_partial, C18_never_counterexample, C18_raises_counterexample |
| C19 | Star of a symbol is sound and complete | proved | C19_star |
| C20 | Star of an edge | partial | C20_absent_partial, C20_raises_counterexample, C20_never_counterexample, C20_right_iff, C20_wrong_counterexample |
| C21 | Symbols by root | proved | C21_symbols, C21_symbols_root |
| C22 | Degree of a symbol counts its occurrences | proved | C22_degree, C22_finite, C22_degree_star |
| C23 | Degree of an edge counts its occurrences | partial | C23_degree_partial, C23_added_later_counterexample, C23_removed_counterexample, C23_negative_counterexample |
| C24 | Timestamps | proved | C24_symbol_kept, C24_symbol_first, C24_timestamp, C24_edge |
| C25 | destroy empties the graph | proved | C25_destroy, C25_empty, C25_fresh |
| C26 | f_all visits every vertex exactly once | proved | C26_f_all, C26_known |
| C27 | Bulk operations equal one-by-one operations | proved | C27_add_many, C27_remove_many |
| C28 | Insertion order does not matter | proved | C28_order |
| C29 | No key conflicts | proved | C29_no_error, C29_keys |
| C30 | No phantom results | proved | C30_pattern, C30_star, C30_sources |
| C31 | Belief sources | proved | C31_sources, C31_add_belief |
| C32 | Removing beliefs | proved | C32_remove_belief |
| C33 | Removing by pattern | proved | C33_remove_by_pattern, C33_any_order |
| C34 | Batches equal sequential execution | proved | C34_batch, C34_batch_history |
| C35 | Any operation may be used inside a batch | partial | C35_harmless, C35_last, C35_bulk, C35_asked, C35_asked_empty, C35_exact, C35_degree_counterexample, C35_forever_counterexample, C35_bulk_add_never, C35_last_partial |
| C36 | Bulk add is atomic under crashes | proved | C36_bulk_add, C36_history, C36_batch, C36_mysql_counterexample, C36_batch_counterexample |
| C37 | Single add and remove are atomic under crashes | partial | C37_add_others_partial, C37_remove_others_partial, C37_repair_add_partial, C37_repair_remove_partial, C37_half_indexed_counterexample, C37_double_count_counterexample, C37_zombie_counterexample |
| C38 | Durability | proved | C38_batch, C38_durable, C38_raising, C38_reopen |
| C39 | A failed bulk add does not damage the connection | partial | C39_nothing_on_disk_partial, C39_recovery_partial, C39_counterexample |
| C40 | Buffered graph equals direct graph | proved | C40_buffered, C40_nothing_lost |
| C41 | Buffer bound | proved | C41_bound, C41_raising, C41_history |
| C42 | Flush is always safe; buffered timestamps are kept | partial | C42_flush_partial, C42_empty_counterexample, C42_timestamp_counterexample |
| C43 | The null backend never holds anything | proved | C43_null, C43_add, C43_no_error, C43_same_calls |
| C44 | Neighbourhood queries work | partial | C44_ego_counterexample, C44_ego_partial, C44_ego_typeError_counterexample, C44_intersect_counterexample, C44_vemap_counterexample, C44_vemap_left_counterexample, C44_walks_counterexample, C44_walks_exact_counterexample |
| C45 | Walk map gives shortest walk lengths | proved | C45_shortest, C45_order, C45_valid |
| C46 | Round-trip failures are exactly delimited | proved | C46_symbols_exact, C46_whitespace_exception, C46_floats_exact, C46_one_element, C46_empty_edge |
| C47 | Results do not depend on the commit mode | proved | C47_commit_mode, C47_results, C47_disk |
| C48 | Buffered additions are invisible until written | proved | C48_invisible, C48_still_absent |
| C49 | Every documented backend can be selected | partial | C49_cli_partial, C49_mysql_counterexample, C49_unknown, C49_mysql |
| C50 | The WordNet reader loads exactly the database's statements | proved | C50_contents, C50_sources, C50_clean, C50_pos_counterexample |
| C51 | The words below a token come in the order of the text | proved | C51_to_list, C51_chunk_str |
| C52 | The parser copies the dependency tree, whatever it read before | proved | C52_parse_text, C52_copy_unique |
| C53 | Alpha keeps every word | proved | C53_root, C53_words, C53_no_root |
| C54 | Alpha's tree is a function of the parse | proved | C54_tree, C54_one_word |
| C55 | Beta marks compounds and nothing else | proved | C55_beta, C55_mark, C55_words, C55_twice |
| C56 | Gamma drops nothing but articles | proved | C56_gamma, C56_words |
| C57 | Delta only moves relation words | proved | C57_delta |
| C58 | Epsilon turns the tree into its edge | proved | C58_epsilon, C58_covers, C58_named, C58_raises |
| C59 | A stage list runs exactly when it is well-formed | proved | C59_returns, C59_empty, C59_first, C59_unknown, C59_alpha, C59_after_epsilon, C59_outputs, C59_no_root |
| C60 | The pipeline turns every sentence into an edge made of its words | proved | C60_stages, C60_default |
| C61 | Reading texts gives one edge per sentence, whatever was read before | proved | C61_read_text, C61_no_root |
| C62 | Delta takes the first of the best fitting rearrangements | proved | C62_choice |
| C63 | The dump filter removes exactly the pages of other namespaces | proved | C63_filter, C63_cut, C63_lines, C63_twice |
| C64 | The tree shown for a sentence | proved | C64_merged, C64_tree, C64_missing, C64_no_root, C64_text |
| C65 | Processes that share an SQLite file | proved | C65_atomic, C65_terminates, C65_alone, C65_no_error, C65_any_time, C65_result, C65_adds, C65_add_remove_counterexample, C65_belief_counterexample |
| C66 | Degrees under concurrent use | partial | C66_degree_partial, C66_lost_update_counterexample, C66_double_count_counterexample |
| C67 | The degree of any vertex is a running counter | proved | C67_degree, C67_f_all, C67_edges, C67_never_too_much |
| C68 | A graph in MySQL behaves as one in SQLite | partial | C68_same_partial, C68_additions, C68_stamps, C68_again_counterexample, C68_long_counterexample |
| C69 | A killed process does not disturb the others | proved | C69_killed, C69_degree, C69_shared_counterexample |
| C70 | The filters of the intersection query | proved | C70_include, C70_interedge, C70_add_neighbours |
| C71 | The delta stage as a function of trees | proved | C71_found, C71_delta, C71_best, C71_rest, C71_itself, C71_fit, C71_default |
| C72 | Processes whose statements interleave, with batches | proved | C72_same_program, C72_refines, C72_no_error, C72_any_time, C72_result, C72_degree, C72_killed, C72_terminates |
| C73 | A call that adds edges in one transaction is all or nothing, among other processes too | proved | C73_all_or_nothing, C73_degrees, C73_add_list |
| C74 | Several clients of one MySQL database | proved | C74_same_program, C74_terminates, C74_alone, C74_order, C74_serial, C74_no_error, C74_result, C74_any_time, C74_new_symbol_counterexample, C74_same_edge_counterexample, C74_not_atomic_counterexample |
| C75 | Opening a database | proved | C75_opens, C75_again, C75_interrupted, C75_busy, C75_busy_counterexample, C75_concurrent, C75_concurrent_first, C75_sessions, C75_after_crash |
| C76 | f_all as a lazy sequence | proved | C76_same_calls, C76_lazy, C76_values, C76_late, C76_batch_alone, C76_batch_cut_counterexample, C76_batch_closed_counterexample, C76_batch_left_counterexample |
| C77 | The collation of the MySQL tables | proved | C77_same, C77_reads, C77_merged, C77_unfound, C77_case_counterexample, C77_accent_counterexample, C77_backquote_counterexample |
| C78 | Degrees while several processes add edges | proved | C78_upper, C78_positive, C78_never_below, C78_tight |
| C79 | Degrees while several processes add and remove edges | proved | C79_upper, C79_lower, C79_lower_known, C79_untouched, C79_tight |
| C80 | An import through a buffer that is cut off by a crash | proved | C80_crash, C80_resume, C80_tight, C80_mysql_counterexample |
| C81 | Reading WordNet again | proved | C81_crash, C81_resume, C81_twice, C81_parts |
| C82 | Recovering a session after an error | proved | C82_recover, C82_as_new, C82_cause, C82_results, C82_not_durable, C82_closes, C82_refuses, C82_half |
| C83 | Time stamps that do not fit | proved | C83_fits, C83_present, C83_absent, C83_bulk_present, C83_bulk_absent |
| C84 | What is read from a text can be stored | proved | C84_read_text, C84_store, C84_head_edge, C84_head_edge_lost, C84_one_word |
| C85 | Degrees, exactly | proved | C85_happens, C85_account, C85_since |
| C86 | Nesting and the recursion limit | proved | C86_print, C86_parse, C86_history, C86_reads, C86_all_or_nothing, C86_caught, C86_stuck, C86_seven_counterexample |
| C87 | Erasing a graph that others are using | proved | C87_atomic, C87_terminates, C87_no_error, C87_no_phantom, C87_restored, C87_erased, C87_own, C87_torn_counterexample, C87_star_counterexample |
| C88 | Characters that the database cannot take | proved | C88_same, C88_reads, C88_refused, C88_caught, C88_bulk, C88_unstorable |
| C89 | One program for every database; MySQL with all its deviations at once | proved | C89_instances, C89_portable, C89_mysql, C89_reads, C89_sqlite64 |
| C90 | Clients of one MySQL database that do not keep out of each other's way | proved | C90_upper, C90_lower, C90_lower_known, C90_errors, C90_edges, C90_added, C90_finished, C90_untouched, C90_positive, C90_never_below, C90_tight, C90_lost_count_counterexample, C90_added_star_counterexample |
| C91 | Columns of limited length | proved | C91_same, C91_or_raises, C91_mysql, C91_accepts, C91_refused, C91_long, C91_half, C91_half_indexed_counterexample, C91_counted_counterexample |
| C92 | Which edges are there when processes race | proved | C92_edges, C92_added, C92_removed, C92_finished, C92_all_returned, C92_both_counterexample, C92_added_star_counterexample, C92_pattern_counterexample |
| C93 | The commands of the command line | proved | C93_elsewhere, C93_done, C93_create, C93_create_dies, C93_wordnet, C93_repeated, C93_meanwhile, C93_mysql, C93_none, C93_null |
| C94 | Edges when MySQL clients race, with removals | proved | C94_removed, C94_finished, C94_all_returned, C94_both_counterexample, C94_raised_counterexample, C94_pattern_counterexample |
| C95 | MySQL clients that add the same edge, and raise | proved | C95_whole, C95_one_returned, C95_untouched |
| C96 | Degrees that do not fit the column | proved | C96_or_raises, C96_same, C96_mysql, C96_accepts, C96_refused, C96_retry_counterexample |
| C97 | Catching exceptions and going on | proved | C97_caught, C97_mysql, C97_edges, C97_degrees, C97_vertices_counterexample |

What is missing where the status is "partial":

* C18: False in general. Proved universally: all-wildcard patterns raise IndexError; for every graph, a pattern whose first given element is an edge never gives the right answer when the largest present edge with that element matches (it raises or lacks that edge), and it raises in the stated common case; the partial theorem covers edge-first patterns when no present edge contains that edge. Missing: nothing true remains (an example shows that outside these cases the answer can be right only by a misreading that happens to hit).
* C20: False in general. The exact condition is proved (C20_right_iff): the answer is right if and only if no present edge contains the edge asked for; otherwise the call raises or lacks an edge (C20_never_counterexample), universally raises in the common case, with a concrete wrong non-raising answer.
* C23: False in general. Proved for every vertex and every history in which the vertex is not created/removed while used as an element; universal counterexamples for the others. C85 gives the degree exactly for all histories.
* C35: False in general: degree/timestamp close the shared cursor; a bulk add or batch inside a batch always ends in an error. Proved exactly (C35_exact): after any history a batch of any calls returns iff none is a bulk addition or a batch and only the last may ask for a vertex known at that moment; and what happens in all other cases (C35_bulk: everything is done and durable, AttributeError only at the end; C35_asked: exactly the calls before the question are done).
* C37: False in general (three concrete counterexamples). Proved: other edges are unaffected at every crash point, degrees stay between, repeating the interrupted call repairs the index.
* C39: False in general (counterexample). Proved: nothing of the failed call reaches the disk at that point, and reopening recovers. C82 says exactly how later calls behave, and that batch_exec(()) repairs the session.
* C42: False in general: flushing an empty buffer raises, and timestamps are those of the flush (both proved universally). Proved: every non-empty buffer can be flushed.
* C44: False in general: the neighbourhood functions raise in every non-trivial call, proved universally. The partial theorem covers depth 0.
* C49: False for mysql from the command line (KeyError, proved). Proved: null and sqlite work from the command line, mysql with explicit parameters, other names raise RuntimeError.
* C66: False in general (two concrete schedules: a lost update of a new symbol, a double count of an edge added twice). Proved for symbols known before the processes start and programs without common edges (common symbols allowed).
* C68: False in general: re-adding an edge that is known with degree 0 and the same time stamp raises IntegrityError and leaves raised degrees (proved for all histories), and so do edges that agree in the first 250 characters (concrete). Proved: exact equality of runs for all histories whose edges fit into the keys and that meet none of these re-additions; in particular for histories without removals, and for histories that do not use a time stamp again after a removal.

## 6. Findings

Where a property is false of the code the model proves it; these are the defects met on the way.

Store and queries
* A pattern or star whose first given element is an edge strips the wrong prefix: `ValueError` or wrong edges
  (C18, C20); an all-wildcard pattern raises `IndexError` (C18).  Bare strings: `exists('abc')` iterates over the
  characters.
* `None` inside an edge acts as a wildcard; nested lists are stored but never match nested tuples; 7 and
  7.0 match one way only.
* Strings that look like numbers come back as numbers; `-` and `.` make parsing raise `ValueError`; edges of one element
  collapse; floats in exponent notation come back as strings (C46).
* Symbols that end in U+10FFFF or U+D7FF make `str_plus_1` raise (C12).
* The degree of an edge that is an element of other edges is reset when it is added or removed itself, and can become
  negative (C23).
* In a batch: `degree`/`timestamp` close the shared cursor and everything after fails; `add` with several edges raises
  `AttributeError` (but only at the end of the batch, after everything in it was done and committed); `remove` commits in
  the middle (C35).  A failed bulk add leaves the cursor set (C39); a `degree` or `timestamp` in such a session makes every
  later call raise; `batch_exec(())` repairs the session and commits what was done (C82).
* Single `add`/`remove` are not atomic under crashes: index rows without vertex, degrees counted twice, "zombies" (C37).
  With autocommit bulk add is not either.
* `BatchHyperGraph.flush` of an empty buffer raises `IndexError`; time stamps are replaced by the time of the flush; reads do
  not see the buffer (C42, C48).
* `Null.batch_exec` never calls the functions it is given (C43).
* `queries.ego` raises for every depth > 0; `intersect`, `vemap`, `walks` never work (C44).
* `-b mysql` on the command line raises `KeyError` (C49).
* The WordNet reader raises `IndexError` iff the number of statements is a multiple of 501 (C50).
* On MySQL, adding an absent edge that is known as a vertex with degree 0 and the very time stamp of the addition raises
  `IntegrityError` after the degrees of its elements were raised; so does an edge that agrees with a stored one in the first
  250 characters (C68).  The tables' case- and accent-insensitive
  collation makes an edge that differs only in case take the place of the stored one, merges degrees and stars of such symbols, and
  hides edges whose last element ends in an accented letter or a backquote (C77).
* An import into MySQL that was interrupted and is repeated can leave degrees counted twice (C80_mysql_counterexample); with SQLite it cannot.
* Two processes that add edges with the same new symbol can lose one of the two counts of its degree; two that add the same edge can
  count its symbols twice (C66; C78 says how far a degree can be off); one that removes while the other adds again can leave an index row without the others (C65);
  two that remove the same edge can leave its symbols with negative degrees (C79_tight).
* A process that adds a belief while another removes the last other belief in the same edge can end with a source of an
  edge that does not exist (C65_belief_counterexample): add_belief finds the edge present before remove_belief drops it.
* `exec_or_ignore` also ignores "database is locked" and a missing privilege: the constructor then returns without tables, and
  the first call raises `OperationalError` (C75_busy_counterexample).
* `f_all` inside a batch: a call between two values (or in the function) makes it stop silently after the values already
  handed out, or raise `ProgrammingError` (C76_batch_cut_counterexample, C76_batch_closed_counterexample).
* On MySQL (C74): two clients that add edges with the same new symbol, or the same edge: the slower one raises
  `IntegrityError` after it has raised degrees of symbols whose edge is then not added; and bulk additions, beliefs and
  batches of one client are visible in part to the others.

Symbols
* `negative` is not an involution for `~` and `~~x` (C06); `str2symbol` leaves tabs and newlines.

Knowledge extraction
* One sentence without a `ROOT` token makes the whole `read_text` raise `AttributeError` (C61).
* A sentence of one word or one name gives a plain string, not an edge (C60).
* epsilon raises `TypeError` if a word has no namespace; namespaces are set by beta only (C58).
* delta's `flatten` and the `compound` setter change nodes that are shared between candidates and with the original tree,
  so later candidates depend on earlier ones (on tidy trees they do not, C71; `((v to) (to a) (in b))` is an example where
  they do); the unmerged child is tried once per candidate of the child, so candidates are
  repeated; clones and new nodes have namespace `None`.
* `Token.parent` is set to the parser object; `label_tree` merges siblings with equal labels; `gamma.process_entity2` and
  `add_to_relationships` are never called.
* A time stamp that does not fit into 64 bits makes `add` raise after it has raised the degrees of the known elements (C83).

* **Edges of sentences that `add` cannot store** (C84). The delta stage often gives an edge whose first element is an
  edge, as in four of the seven sentences of the project's own test (`((is of) x y z)`). `HyperGraph.add` tests only
  `isinstance(edges[0], (list, tuple))` and takes such an edge for a collection: it stores `(is of)` as an edge and each symbol as the
  edge of its characters (`x`, `/`, `1`), whose permutations are written too (8 characters: 40320 rows), and returns
  the edge as if it had been stored. `exists` of the edge is False afterwards (C84_head_edge_lost). A sentence of one word
  gives a symbol, which is stored as an edge of characters in the same way (C84_one_word).

* **Edges that can be stored but not read** (C86). Printing an edge takes two stack frames per level of nesting, parsing it three. With
  the default recursion limit of 1000 an edge nested between about 332 and 497 levels is stored by `add` without an exception, but afterwards
  `exists`, `remove` and `add` of it, every pattern that it matches and `star` of each of its symbols raise
  `RecursionError`, in every session; `remove_by_pattern` too. Only a higher limit, or `destroy`, gets rid of it.

* **`destroy` while another process is adding** (C87). `add` of one edge is one transaction per row. A `destroy` in the middle
  leaves the rows written after it: `exists` of the edge is False, `star` of some of its symbols returns it (C87_torn_counterexample),
  `remove` does nothing, adding it again repairs it. If a symbol occurs twice in the edge, a second process that erases the graph and adds
  the same edge may find it already there, although most of its rows are lost (C87_star_counterexample).

* **Character sets of MySQL** (C88). `MySQLdb.connect` is called without `charset` (mysql.py:41), so texts are encoded with the
  client's default set. With latin1, any call that names another character (Łódź) raises `UnicodeEncodeError`, also a
  mere `exists` or `degree`; and so does looking up an edge whose last symbol ends in the last character of the set (ÿ), because
  the end of the range is that text with its last character replaced by the next one. A bulk `add` that meets such an edge
  leaves the earlier edges written and the connection's cursor open. With a connection that can send it, a character beyond U+FFFF (an
  emoji) is still refused by the columns (`CHARSET=utf8`): `add` then raises after it has counted the elements before that one,
  so their degrees stay too high for ever (C88_unstorable).

* **Lost counts on MySQL** (C90). Two clients that add different edges with the same new symbol may both succeed although the second
  overwrites the degree that the first wrote (`update_or_insert` sets it to 1): two edges, degree 1 (C90_lost_count_counterexample).
  Two clients that remove the same edge make degrees negative (C90_tight). And an edge that a client added without an exception exists, but
  `star` may not return it yet, because the client that was first is still writing its rows (C90_added_star_counterexample).

* **Columns of limited length** (C91). On MySQL an edge (or symbol) of more than 10000 characters is refused with `DataError`, but
  the elements before it were already counted, for ever (C91_counted_counterexample). An edge of four or more elements whose text just
  fits has rows in the index that do not: `add` raises, yet the edge exists, and `star` of some of its symbols does not return it
  (C91_half_indexed_counterexample); removing it repairs this (C91_half). (With keys of 250 characters such an edge usually fails
  with `IntegrityError` before, see C68.)

* **Degrees of 32 bits on MySQL** (C96). A symbol whose degree is 2147483647 makes `add` of any further edge with it raise `DataError`;
  the elements before it were already counted, and each retry counts them once more, with no edge added
  (C96_retry_counterexample). SQLite has no such limit below 64 bits.

## 7. Axioms each theorem depends on
* propext, Classical.choice, Quot.sound (384): C01_roundtrip, C01_roundtrip_nodes, C02_text_injective, C02_nodes_injective, C03_split_edge, C03_split_nodes, C03_nodes_edge_first_false, C04_parser_total, C04_recursion, C04_decreasing, C05_int_roundtrip, C06_involution, C06_flips, C06_edges, C06_edge_first, C06_number_first, C06_edge_isNegative, C07_build_parts, C07_parts_build, C07_root_nspace, C07_is_root, C07_atoms, C07_url_exception, C08_own_root, C08_not_safe, C09_hashed, C09_hashed_eq_iff, C09_new_meaning, C09_new_meaning_safe, C09_new_meaning_nonroot, C10_lexicographic, C10_injective, C12_range_is_prefix, C12_defined_iff, C13_exists, C13_literal, C14_add_present, C14_add_twice, C15_remove, C15_remove_absent, C16_add_remove, C17_pattern, C17_pattern_exists, C18_wildcards_counterexample, C18_edge_first_partial, C18_never_counterexample, C18_raises_counterexample, C19_star, C20_absent_partial, C20_raises_counterexample, C20_never_counterexample, C20_right_iff, C20_wrong_counterexample, C21_symbols, C21_symbols_root, C22_degree, C22_finite, C22_degree_star, C23_degree_partial, C23_added_later_counterexample, C23_removed_counterexample, C23_negative_counterexample, C24_symbol_kept, C24_symbol_first, C24_timestamp, C24_edge, C25_empty, C25_fresh, C26_f_all, C26_known, C27_add_many, C27_remove_many, C28_order, C29_no_error, C29_keys, C30_pattern, C30_star, C30_sources, C31_sources, C31_add_belief, C32_remove_belief, C33_remove_by_pattern, C33_any_order, C34_batch, C34_batch_history, C35_harmless, C35_last, C35_bulk, C35_asked, C35_asked_empty, C35_exact, C35_degree_counterexample, C35_forever_counterexample, C35_bulk_add_never, C35_last_partial, C36_bulk_add, C36_history, C36_batch, C36_mysql_counterexample, C36_batch_counterexample, C37_add_others_partial, C37_remove_others_partial, C37_repair_add_partial, C37_repair_remove_partial, C37_half_indexed_counterexample, C37_double_count_counterexample, C37_zombie_counterexample, C38_durable, C38_raising, C38_reopen, C39_nothing_on_disk_partial, C39_counterexample, C40_buffered, C40_nothing_lost, C41_bound, C41_raising, C41_history, C42_flush_partial, C42_empty_counterexample, C42_timestamp_counterexample, C43_null, C43_no_error, C43_same_calls, C44_ego_typeError_counterexample, C44_intersect_counterexample, C44_walks_exact_counterexample, C46_symbols_exact, C46_whitespace_exception, C46_floats_exact, C46_one_element, C46_empty_edge, C47_commit_mode, C47_results, C47_disk, C48_invisible, C48_still_absent, C49_cli_partial, C49_mysql_counterexample, C49_unknown, C49_mysql, C50_contents, C50_sources, C50_clean, C50_pos_counterexample, C51_chunk_str, C52_parse_text, C53_root, C53_words, C53_no_root, C54_tree, C54_one_word, C55_beta, C55_mark, C55_words, C55_twice, C56_gamma, C56_words, C57_delta, C58_epsilon, C58_covers, C58_named, C58_raises, C59_returns, C59_empty, C59_first, C59_unknown, C59_alpha, C59_after_epsilon, C59_outputs, C59_no_root, C60_stages, C60_default, C61_read_text, C61_no_root, C62_choice, C63_filter, C63_cut, C63_lines, C63_twice, C64_merged, C64_tree, C64_missing, C64_no_root, C64_text, C65_atomic, C65_terminates, C65_alone, C65_no_error, C65_any_time, C65_result, C65_adds, C65_add_remove_counterexample, C65_belief_counterexample, C66_degree_partial, C66_lost_update_counterexample, C66_double_count_counterexample, C67_degree, C67_f_all, C67_edges, C67_never_too_much, C68_same_partial, C68_additions, C68_stamps, C68_again_counterexample, C68_long_counterexample, C69_killed, C69_degree, C69_shared_counterexample, C70_include, C71_found, C71_delta, C71_best, C71_rest, C71_itself, C71_fit, C71_default, C72_same_program, C72_refines, C72_no_error, C72_any_time, C72_result, C72_degree, C72_killed, C72_terminates, C73_all_or_nothing, C73_degrees, C73_add_list, C74_same_program, C74_terminates, C74_alone, C74_order, C74_serial, C74_no_error, C74_result, C74_any_time, C74_new_symbol_counterexample, C74_same_edge_counterexample, C74_not_atomic_counterexample, C75_opens, C75_interrupted, C75_busy, C75_concurrent, C75_concurrent_first, C75_sessions, C75_after_crash, C76_same_calls, C76_lazy, C76_values, C76_late, C76_batch_alone, C76_batch_cut_counterexample, C76_batch_closed_counterexample, C76_batch_left_counterexample, C77_same, C77_reads, C77_merged, C77_unfound, C77_case_counterexample, C77_accent_counterexample, C77_backquote_counterexample, C78_upper, C78_positive, C78_never_below, C78_tight, C79_upper, C79_lower, C79_lower_known, C79_untouched, C79_tight, C80_crash, C80_resume, C80_tight, C80_mysql_counterexample, C81_crash, C81_resume, C81_twice, C81_parts, C82_as_new, C82_cause, C82_results, C82_not_durable, C82_closes, C82_refuses, C82_half, C83_fits, C83_present, C83_absent, C83_bulk_present, C83_bulk_absent, C84_read_text, C84_store, C84_head_edge, C84_head_edge_lost, C84_one_word, C85_happens, C85_account, C85_since, C86_print, C86_parse, C86_history, C86_reads, C86_all_or_nothing, C86_caught, C86_stuck, C86_seven_counterexample, C87_terminates, C87_no_error, C87_no_phantom, C87_restored, C87_erased, C87_own, C87_torn_counterexample, C87_star_counterexample, C88_same, C88_reads, C88_refused, C88_caught, C88_bulk, C88_unstorable, C89_instances, C89_portable, C89_mysql, C89_reads, C89_sqlite64, C90_upper, C90_lower, C90_lower_known, C90_errors, C90_edges, C90_added, C90_finished, C90_untouched, C90_positive, C90_never_below, C90_tight, C90_lost_count_counterexample, C90_added_star_counterexample, C91_same, C91_or_raises, C91_mysql, C91_accepts, C91_refused, C91_long, C91_half, C91_half_indexed_counterexample, C91_counted_counterexample, C92_edges, C92_added, C92_removed, C92_finished, C92_all_returned, C92_both_counterexample, C92_added_star_counterexample, C92_pattern_counterexample, C93_elsewhere, C93_done, C93_create, C93_create_dies, C93_wordnet, C93_repeated, C93_meanwhile, C93_mysql, C93_none, C93_null, C94_removed, C94_finished, C94_all_returned, C94_both_counterexample, C94_raised_counterexample, C94_pattern_counterexample, C95_whole, C95_one_returned, C95_untouched, C96_or_raises, C96_same, C96_mysql, C96_accepts, C96_refused, C96_retry_counterexample, C97_caught, C97_mysql, C97_edges, C97_degrees, C97_vertices_counterexample
* propext, Quot.sound (23): C05_integer, C05_double, C05_string, C08_separator_free, C08_pointwise, C08_idempotent, C10_total, C10_complete, C10_identity, C10_out_of_range, C11_inverse, C12_errors, C25_destroy, C44_ego_partial, C44_vemap_counterexample, C44_vemap_left_counterexample, C45_shortest, C45_order, C45_valid, C51_to_list, C70_interedge, C70_add_neighbours, C75_again
* propext (7): C06_of_positive, C38_batch, C39_recovery_partial, C44_walks_counterexample, C52_copy_unique, C75_busy_counterexample, C87_atomic
* none (3): C43_add, C44_ego_counterexample, C82_recover
