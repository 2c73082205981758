{"id": "C01", "title": "Edge text round-trip", "statement": "Printing an edge with edge2str and parsing the text with str2edge gives back the same edge, for every edge (arbitrarily nested, at least two elements per edge level) whose symbols are non-empty, contain no whitespace, do not start with '(' or end with ')' and do not look like a number, and whose numbers are integers or floats printed without exponent.", "quantifier": "every well-formed value: all nesting depths, all arities >= 2, all symbol strings, all integers, all plainly printed floats", "why_tests_cant": "the domain is an infinite recursive type; the parser decides nesting by counting parentheses at token ends, so only an induction over all shapes excludes a mis-grouping", "anchors": ["gb/hypergraph/edge.py:edge2str", "gb/hypergraph/edge.py:str2edge", "gb/hypergraph/edge.py:split_edge_str", "gb/hypergraph/edge.py:parsed_token"]}
{"id": "C02", "title": "Distinct edges have distinct text", "statement": "Two different well-formed edges or symbols never print to the same string, so the printed text can be used as a primary key.", "quantifier": "every pair of well-formed values", "why_tests_cant": "injectivity ranges over all pairs of an infinite type", "anchors": ["gb/hypergraph/edge.py:edge2str", "gb/hypergraph/edge.py:nodes2str", "gb/hypergraph/sql.py:SQL.add_str"]}
{"id": "C03", "title": "Shallow tokenisation", "statement": "split_edge_str of the text of an edge returns exactly the texts of its top-level elements in order, with the outer parentheses present, and also without them provided the first element is not itself an edge.", "quantifier": "every list of well-formed elements", "why_tests_cant": "unbounded arity and nesting; and the exception (first element an edge, no outer parentheses) is precisely the case the test-suite never exercises", "anchors": ["gb/hypergraph/edge.py:split_edge_str", "gb/hypergraph/edge.py:open_pars", "gb/hypergraph/edge.py:close_pars"]}
{"id": "C04", "title": "Parsing terminates and fails only with ordinary errors", "statement": "str2edge on any string whatsoever terminates; it either returns a value or raises IndexError or ValueError, and never any other error.", "quantifier": "every string", "why_tests_cant": "termination and the absence of other failures quantify over all strings, including malformed ones", "anchors": ["gb/hypergraph/edge.py:str2edge", "gb/hypergraph/edge.py:parsed_token", "gb/hypergraph/edge.py:open_pars", "gb/hypergraph/edge.py:close_pars", "gb/hypergraph/edge.py:token_type"]}
{"id": "C05", "title": "Numeric token classification", "statement": "token_type says INTEGER exactly for strings of the form -?[0-9]*, DOUBLE exactly for -?[0-9]*.[0-9]* where the sign may only be the first character and there is exactly one dot, STRING otherwise; integers printed by the system are always classified INTEGER and re-read as the same integer.", "quantifier": "every string; every integer", "why_tests_cant": "a regular language over all strings", "anchors": ["gb/hypergraph/edge.py:token_type", "gb/hypergraph/edge.py:parsed_token"]}
{"id": "C06", "title": "Negation is an involution", "statement": "For a non-empty symbol s, negative(negative(s)) = s holds exactly when s does not start with '~~' and is not the bare '~', and then negative flips is_negative; edges whose relation is such a symbol behave the same, their other elements untouched.", "quantifier": "every non-empty symbol and every non-empty edge whose first element is a symbol", "why_tests_cant": "for all strings; in fact fails for symbols starting with '~~' and for the bare '~', which tests do not reach", "anchors": ["gb/hypergraph/symbol.py:negative", "gb/hypergraph/symbol.py:is_negative", "gb/hypergraph/edge.py:negative", "gb/hypergraph/edge.py:is_negative"]}
{"id": "C07", "title": "Symbol parts and build are inverse", "statement": "build(parts(s)) = s for every concept symbol; parts(build(ps)) = ps for every non-empty list of slash-free strings (not forming a URL); root and nspace are the first and second part; is_root(s) holds exactly when a concept has no slash; URLs and numbers are their own root and have no namespace.", "quantifier": "every string and every list of strings", "why_tests_cant": "for all strings", "anchors": ["gb/hypergraph/symbol.py:parts", "gb/hypergraph/symbol.py:build", "gb/hypergraph/symbol.py:root", "gb/hypergraph/symbol.py:nspace", "gb/hypergraph/symbol.py:is_root", "gb/hypergraph/symbol.py:sym_type"]}
{"id": "C08", "title": "str2symbol yields a separator-free symbol", "statement": "The output of str2symbol contains no '/', space, '(' or ')' whatever the input, is therefore its own root, and converting twice gives the same as converting once.", "quantifier": "every input string (and, for the character set, every lower-casing function)", "why_tests_cant": "for all strings", "anchors": ["gb/hypergraph/symbol.py:str2symbol", "gb/hypergraph/symbol.py:symbol2str"]}
{"id": "C09", "title": "Hash codes are symbol-safe", "statement": "hashed(s) is the 64-bit value 31*(h+c) folded over the characters, printed as 1 to 16 lower-case hexadecimal digits without leading zero; new_meaning(root) is a symbol whose root is the given root and which parses back as itself; new_meaning of a non-root returns it unchanged.", "quantifier": "every string, every prefix, every random draw", "why_tests_cant": "modular arithmetic over all strings and all random outcomes", "anchors": ["gb/hypergraph/symbol.py:hashed", "gb/hypergraph/symbol.py:random_hash", "gb/hypergraph/symbol.py:new_meaning"]}
{"id": "C10", "title": "All permutations are enumerated exactly once", "statement": "For a list of k elements nthperm(l, n) for n = 0 .. k!-1 yields every reordering of positions exactly once, starting with the identity; nthperm raises for n >= k! when the list is non-empty.", "quantifier": "every list, every permutation index", "why_tests_cant": "k! grows beyond any test; completeness is needed for lookups to find an edge through any of its elements", "anchors": ["gb/hypergraph/sql.py:nthperm", "gb/hypergraph/sql.py:do_with_edge_permutations"]}
{"id": "C11", "title": "Un-permuting inverts permuting", "statement": "unpermutate(nthperm(l, n), n) = l for every list l and every n < len(l)!.", "quantifier": "every list and every permutation index", "why_tests_cant": "all sizes", "anchors": ["gb/hypergraph/sql.py:nthperm", "gb/hypergraph/sql.py:unpermutate"]}
{"id": "C12", "title": "Key-range queries are prefix queries", "statement": "For a non-empty string s whose last character has a successor, a key x satisfies s <= x < str_plus_1(s) exactly when s is a prefix of x; str_plus_1 of the empty string and of a string ending in the last code point raises.", "quantifier": "every pair of strings under code-point order", "why_tests_cant": "order-theoretic statement over all strings", "anchors": ["gb/hypergraph/sql.py:str_plus_1", "gb/hypergraph/sql.py:SQL.str2perms", "gb/hypergraph/sql.py:SQL.pattern2edges", "gb/hypergraph/sql.py:SQL.symbols_with_root"]}
{"id": "C13", "title": "exists reflects the history", "statement": "After any history of add, remove, destroy, belief and batch operations on well-formed edges, exists(e) is True exactly when e was added and neither removed nor wiped since.", "quantifier": "every finite history of operations and every edge of a vocabulary without two different values that compare equal in Python", "why_tests_cant": "unbounded histories; correctness of one edge depends on the index rows of all others not colliding", "anchors": ["gb/hypergraph/hypergraph.py:HyperGraph.exists", "gb/hypergraph/hypergraph.py:HyperGraph.add", "gb/hypergraph/hypergraph.py:HyperGraph.remove", "gb/hypergraph/sql.py:SQL.add_raw", "gb/hypergraph/sql.py:SQL.remove_raw"]}
{"id": "C14", "title": "Adding twice is adding once", "statement": "Adding an edge that is already present changes nothing observable: not the stored tables, degrees, timestamps or any query result.", "quantifier": "every reachable state, every present edge, every timestamp", "why_tests_cant": "quantifies over reachable states", "anchors": ["gb/hypergraph/sql.py:SQL.add_raw", "gb/hypergraph/sql.py:SQL.add"]}
{"id": "C15", "title": "Removal is precise", "statement": "remove(e) makes e absent, keeps every other edge, and is a no-op when e is absent.", "quantifier": "every reachable state, every edge", "why_tests_cant": "frame property over all other edges and states", "anchors": ["gb/hypergraph/sql.py:SQL.remove_raw", "gb/hypergraph/sql.py:SQL.remove_edge_permutations"]}
{"id": "C16", "title": "Adding then removing a fresh edge restores every query result", "statement": "If e is absent, add(e) followed by remove(e) leaves the set of edges, the result of every pattern and star query and the degree of every symbol as before.", "quantifier": "every reachable state, every absent edge", "why_tests_cant": "inverse law over all reachable states", "anchors": ["gb/hypergraph/sql.py:SQL.add_raw", "gb/hypergraph/sql.py:SQL.remove_raw"]}
{"id": "C17", "title": "Pattern queries are sound and complete", "statement": "pattern2edges(p) returns exactly the present edges that have the length of p and agree with p at every non-wildcard position, for every pattern with at least one non-wildcard position whose first non-wildcard element is a symbol or number.", "quantifier": "every reachable state and every pattern", "why_tests_cant": "unbounded states; completeness depends on some one of k! index rows being found", "anchors": ["gb/hypergraph/sql.py:SQL.pattern2edges", "gb/hypergraph/sql.py:edge_matches_pattern", "gb/hypergraph/sql.py:cur2edges"]}
{"id": "C18", "title": "Pattern queries work for every pattern", "statement": "pattern2edges(p) returns exactly the matching present edges also when p consists only of wildcards or when its first non-wildcard element is itself an edge.", "quantifier": "every reachable state and every pattern", "why_tests_cant": "expected from the documentation; false of the code: these patterns raise or return values never added", "anchors": ["gb/hypergraph/sql.py:SQL.pattern2edges", "gb/hypergraph/sql.py:cur2edges", "gb/hypergraph/sql.py:str_plus_1"]}
{"id": "C19", "title": "Star of a symbol is sound and complete", "statement": "star(c) for a symbol or number c returns exactly the present edges having c as an element.", "quantifier": "every reachable state and every atomic centre", "why_tests_cant": "as for patterns", "anchors": ["gb/hypergraph/sql.py:SQL.star", "gb/hypergraph/sql.py:SQL.str2perms"]}
{"id": "C20", "title": "Star of an edge", "statement": "star(c) for an edge c returns exactly the present edges having c as an element (documented: 'Entity can be atomic or an edge').", "quantifier": "every reachable state and every edge centre", "why_tests_cant": "false of the code as soon as some present edge contains c: it raises or returns edges never added; with no such edge the result is empty as expected", "anchors": ["gb/hypergraph/sql.py:SQL.star", "gb/hypergraph/sql.py:cur2edges", "gb/hypergraph/edge.py:split_edge_str"]}
{"id": "C21", "title": "Symbols by root", "statement": "symbols_with_root(r) returns exactly the strings starting with r + '/' that occur as elements of present edges; for concept symbols and slash-free r these are exactly the non-root symbols whose root is r.", "quantifier": "every reachable state and every root string", "why_tests_cant": "unbounded states", "anchors": ["gb/hypergraph/sql.py:SQL.symbols_with_root", "gb/hypergraph/symbol.py:root"]}
{"id": "C22", "title": "Degree of a symbol counts its occurrences", "statement": "degree(v) for a symbol or number v equals the total number of occurrences of v as an element in present edges, hence is never negative and is at least the size of star(v).", "quantifier": "every history and every atom", "why_tests_cant": "a counter maintained incrementally across unbounded histories", "anchors": ["gb/hypergraph/sql.py:SQL.degree", "gb/hypergraph/sql.py:SQL.inc_degree", "gb/hypergraph/sql.py:SQL.dec_degree", "gb/hypergraph/sql.py:SQL.add_raw", "gb/hypergraph/sql.py:SQL.remove_raw"]}
{"id": "C23", "title": "Degree of an edge counts its occurrences", "statement": "degree(e) for an edge e used as a vertex equals the number of its occurrences as an element in present edges and is never negative.", "quantifier": "every history and every edge", "why_tests_cant": "depends on the order of operations; false in general (adding an edge after it was already used resets its counter, removing it forgets it, it can become negative) and true for histories that add facts before, and remove them after, the edges mentioning them", "anchors": ["gb/hypergraph/sql.py:SQL.degree", "gb/hypergraph/sql.py:SQL.add_raw", "gb/hypergraph/sql.py:SQL.add_str", "gb/hypergraph/sql.py:SQL.remove_str"]}
{"id": "C24", "title": "Timestamps", "statement": "The timestamp of a present edge is the one given when it was last (re-)created; the timestamp of a symbol is the one given by the first addition mentioning it since the graph was last erased, and it survives removals; unknown vertices have timestamp -1.", "quantifier": "every history", "why_tests_cant": "history-dependent value", "anchors": ["gb/hypergraph/sql.py:SQL.timestamp", "gb/hypergraph/sql.py:SQL.add_str", "gb/hypergraph/sql.py:SQL.add_raw"]}
{"id": "C25", "title": "destroy empties the graph", "statement": "After destroy every exists is False, every query returns the empty set, every degree is 0, every timestamp is -1 and f_all yields nothing, and a subsequent history behaves as on a new graph.", "quantifier": "every state, even one that no well-formed history produces", "why_tests_cant": "all states", "anchors": ["gb/hypergraph/hypergraph.py:HyperGraph.destroy", "gb/hypergraph/sql.py:SQL.destroy"]}
{"id": "C26", "title": "f_all visits every vertex exactly once", "statement": "f_all applies the function exactly once to each known vertex - every present edge, every symbol ever mentioned since the last destroy, and edges mentioned as elements - with the same degree that degree(v) reports.", "quantifier": "every reachable state and every function", "why_tests_cant": "unbounded states", "anchors": ["gb/hypergraph/sql.py:SQL.f_all", "gb/hypergraph/edge.py:str2edge"]}
{"id": "C27", "title": "Bulk operations equal one-by-one operations", "statement": "add of a collection of edges leaves the same contents as adding them one by one in order with the same timestamp, and remove of a collection the same as removing one by one.", "quantifier": "every state, every non-empty collection of edges, every timestamp", "why_tests_cant": "all collections and states", "anchors": ["gb/hypergraph/sql.py:SQL.add", "gb/hypergraph/sql.py:SQL.remove"]}
{"id": "C28", "title": "Insertion order does not matter", "statement": "The set of edges and all symbol degrees after adding a collection of edges do not depend on the order in which they are added.", "quantifier": "every reachable state, every two orders of the same collection", "why_tests_cant": "order-independence over all permutations", "anchors": ["gb/hypergraph/sql.py:SQL.add"]}
{"id": "C29", "title": "No key conflicts", "statement": "No operation on well-formed edges ever raises a database integrity error or leaves two rows with the same key; the index holds exactly len! rows for each present edge and no others.", "quantifier": "every history", "why_tests_cant": "invariant over all histories", "anchors": ["gb/hypergraph/sql.py:SQL.update_or_insert", "gb/hypergraph/sql.py:SQL.write_edge_permutations"]}
{"id": "C30", "title": "No phantom results", "statement": "Every edge returned by pattern2edges, star (of a symbol) or sources was explicitly added (directly or as part of a belief) earlier in the history.", "quantifier": "every history and query", "why_tests_cant": "all histories", "anchors": ["gb/hypergraph/sql.py:SQL.pattern2edges", "gb/hypergraph/sql.py:SQL.star", "gb/hypergraph/hypergraph.py:HyperGraph.sources"]}
{"id": "C31", "title": "Belief sources", "statement": "After any history, sources(e) is exactly the set of sources s such that the edge (src/1, e, s) is present; add_belief(s, e) makes both e and s's support present and adds nothing else.", "quantifier": "every history, every fact and source", "why_tests_cant": "all histories", "anchors": ["gb/hypergraph/hypergraph.py:HyperGraph.add_belief", "gb/hypergraph/hypergraph.py:HyperGraph.sources"]}
{"id": "C32", "title": "Removing beliefs", "statement": "remove_belief(s, e) removes the support of s and removes the fact e exactly when no other source supports it; other facts and supports are untouched.", "quantifier": "every reachable state, every fact and source", "why_tests_cant": "all states", "anchors": ["gb/hypergraph/hypergraph.py:HyperGraph.remove_belief", "gb/hypergraph/hypergraph.py:HyperGraph.sources"]}
{"id": "C33", "title": "Removing by pattern", "statement": "remove_by_pattern(p) removes all edges matching p and no others.", "quantifier": "every reachable state and every supported pattern", "why_tests_cant": "all states", "anchors": ["gb/hypergraph/hypergraph.py:HyperGraph.remove_by_pattern"]}
{"id": "C34", "title": "Batches equal sequential execution", "statement": "batch_exec(fs) has the same final contents as running the functions one after the other outside a batch, for functions made of single-edge additions and removals and queries other than degree and timestamp.", "quantifier": "every reachable state and every list of such functions", "why_tests_cant": "all programs", "anchors": ["gb/hypergraph/hypergraph.py:HyperGraph.batch_exec", "gb/hypergraph/sql.py:SQL.batch_exec", "gb/hypergraph/sql.py:SQL.open_cursor", "gb/hypergraph/sql.py:SQL.close_cursor"]}
{"id": "C35", "title": "Any operation may be used inside a batch", "statement": "batch_exec works for functions that call any operation of the graph, including degree, timestamp and adding several edges at once.", "quantifier": "every program", "why_tests_cant": "false of the code: adding several edges inside a batch makes the batch raise at its end, and asking for the degree or timestamp of a known vertex closes the shared cursor so that every later operation raises", "anchors": ["gb/hypergraph/sql.py:SQL.batch_exec", "gb/hypergraph/sql.py:SQL.degree", "gb/hypergraph/sql.py:SQL.timestamp", "gb/hypergraph/sql.py:SQL.close_cursor"]}
{"id": "C36", "title": "Bulk add is atomic under crashes", "statement": "With the SQLite backend a crash at any moment during an add of a collection leaves on disk either the contents before or the contents after the whole call.", "quantifier": "every state, every collection, every crash point", "why_tests_cant": "crash points cannot be enumerated by unit tests", "anchors": ["gb/hypergraph/sql.py:SQL.add", "gb/hypergraph/sql.py:SQL.close_cursor", "gb/hypergraph/sqlite.py:SQLite"]}
{"id": "C37", "title": "Single add and remove are atomic under crashes", "statement": "A crash at any moment during the add or remove of one edge leaves on disk either the state before or the state after.", "quantifier": "every state, every edge, every crash point", "why_tests_cant": "false of the code: every statement is committed separately; a crash can leave incremented degrees without the edge, an edge visible to some queries only, or index rows of a removed edge", "anchors": ["gb/hypergraph/sql.py:SQL.add_raw", "gb/hypergraph/sql.py:SQL.remove_raw", "gb/hypergraph/sql.py:SQL.update_or_insert", "gb/hypergraph/sql.py:SQL.remove_edge_permutation"]}
{"id": "C38", "title": "Durability", "statement": "When an operation outside a batch returns without error, everything it did is on disk; a batch's effects are on disk when batch_exec returns.", "quantifier": "every state and operation", "why_tests_cant": "crash points", "anchors": ["gb/hypergraph/sql.py:SQL.close_cursor", "gb/hypergraph/sql.py:SQL.update_or_insert"]}
{"id": "C39", "title": "A failed bulk add does not damage the connection", "statement": "If an add of a collection raises, later operations behave as usual and are durable.", "quantifier": "every state and failing collection", "why_tests_cant": "false of the code: the shared cursor stays set, so later single operations are never committed until some other commit happens", "anchors": ["gb/hypergraph/sql.py:SQL.add", "gb/hypergraph/sql.py:SQL.open_cursor"]}
{"id": "C40", "title": "Buffered graph equals direct graph", "statement": "Adding edges through a BatchHyperGraph (directly or as beliefs) with one timestamp and then flushing a non-empty buffer leaves the same contents as adding them directly, for every buffer size; nothing is lost or duplicated.", "quantifier": "every sequence of additions, every buffer size, every initial state", "why_tests_cant": "all sequences and sizes", "anchors": ["gb/hypergraph/batch_hypergraph.py:BatchHyperGraph.add", "gb/hypergraph/batch_hypergraph.py:BatchHyperGraph.flush"]}
{"id": "C41", "title": "Buffer bound", "statement": "After every addition to a BatchHyperGraph the buffer holds at most buffer_max edges.", "quantifier": "every sequence of additions", "why_tests_cant": "invariant", "anchors": ["gb/hypergraph/batch_hypergraph.py:BatchHyperGraph.add"]}
{"id": "C42", "title": "Flush is always safe; buffered timestamps are kept", "statement": "flush can be called at any time, and each buffered edge keeps the timestamp it was added with.", "quantifier": "every sequence of buffered additions", "why_tests_cant": "false of the code: flushing an empty buffer raises IndexError and all buffered edges get the timestamp of the flush", "anchors": ["gb/hypergraph/batch_hypergraph.py:BatchHyperGraph.flush", "gb/readers/wordnet.py:read"]}
{"id": "C43", "title": "The null backend never holds anything", "statement": "With backend 'null', after any history every exists is False, every query is empty, degree is 0, timestamp is -1, sources is empty.", "quantifier": "every history", "why_tests_cant": "all histories", "anchors": ["gb/hypergraph/null.py:Null", "gb/hypergraph/hypergraph.py:HyperGraph"]}
{"id": "C44", "title": "Neighbourhood queries work", "statement": "ego(center, depth) returns the neighbourhood of center, and intersect(hg, seeds) the edges connecting the seeds.", "quantifier": "every state and argument", "why_tests_cant": "false of the code: ego raises TypeError for every depth >= 1 (it slices a set), so intersect raises for every non-empty seeds", "anchors": ["gb/hypergraph/hypergraph.py:HyperGraph.ego", "gb/hypergraph/queries.py:intersect", "gb/hypergraph/queries.py:node2edges"]}
{"id": "C45", "title": "Walk map gives shortest walk lengths", "statement": "walks2wmap maps each vertex on some walk to the length of the shortest walk through it, independently of the order of walks, and valid_walk accepts exactly walks all of whose non-seed steps have no shorter walk.", "quantifier": "every collection of walks", "why_tests_cant": "all collections and orders", "anchors": ["gb/hypergraph/queries.py:walks2wmap", "gb/hypergraph/queries.py:walk2wmap", "gb/hypergraph/queries.py:valid_walk", "gb/hypergraph/queries.py:valid_step"]}
{"id": "C46", "title": "Round-trip failures are exactly delimited", "statement": "An edge of two or more whitespace-free strings reads back as itself exactly when every one of them is non-empty, does not start with '(' or end with ')' and does not look like a number; a float element reads back exactly when it is printed without exponent; a one-element edge comes back as its element and the empty edge makes parsing raise IndexError.", "quantifier": "every list of whitespace-free strings, every float, every well-formed element", "why_tests_cant": "exact characterisation over all strings", "anchors": ["gb/hypergraph/edge.py:parsed_token", "gb/hypergraph/edge.py:str2edge", "gb/hypergraph/edge.py:edge2str"]}
{"id": "C47", "title": "Results do not depend on the commit mode", "statement": "Every operation gives the same result and leaves the same contents whether the connection commits automatically or not; what is on disk changes only at commits, and every commit writes exactly the contents of that moment.", "quantifier": "every history of operations, in every state, also failing ones", "why_tests_cant": "the two backends share one implementation; that commits are the only difference must hold for every history", "anchors": ["gb/hypergraph/sql.py:SQL.batch_exec", "gb/hypergraph/sql.py:SQL.close_cursor", "gb/hypergraph/sqlite.py:SQLite.__init__", "gb/hypergraph/mysql.py:MySQL.__init__"]}
{"id": "C48", "title": "Buffered additions are invisible until written", "statement": "An addition to a BatchHyperGraph that does not fill the buffer changes nothing in the database: every query, through either graph, answers as before; an absent edge stays absent until the flush.", "quantifier": "every state, every value added, every buffer size", "why_tests_cant": "all states and buffer fillings", "anchors": ["gb/hypergraph/batch_hypergraph.py:BatchHyperGraph.add", "gb/hypergraph/hypergraph.py:HyperGraph.exists"]}
{"id": "C49", "title": "Every documented backend can be selected", "statement": "hypergraph(params) opens the backend named in params for each of null, sqlite and mysql, and raises RuntimeError for any other name; every value the command line documents for --backend works.", "quantifier": "every parameter dictionary and every backend name", "why_tests_cant": "false of the code for mysql from the command line, where the keys the MySQL backend needs are never set: KeyError", "anchors": ["gb/hypergraph/hypergraph.py:init_backend", "gb/gbrain.py:cli", "gb/hypergraph/mysql.py:MySQL.__init__"]}
{"id": "C50", "title": "The WordNet reader loads exactly the database's statements", "statement": "After read, the graph contains what it contained before, the part-of-speech, synonym, synset-relation and lemma-relation statements of the lexical database, and for each the fact that wordnet/gb supports it; sources of each statement lists wordnet/gb. read returns normally unless the number of statements is a multiple of 501, when it raises IndexError after having written everything.", "quantifier": "every lexical database of any size and every history of the graph before reading", "why_tests_cant": "the failure depends on the number of statements modulo the buffer capacity", "anchors": ["gb/readers/wordnet.py:read", "gb/readers/wordnet.py:process_synset", "gb/readers/wordnet.py:add_relationship", "gb/hypergraph/batch_hypergraph.py:BatchHyperGraph.flush"]}
{"id": "C51", "title": "The words below a token come in the order of the text", "statement": "For a token that dominates a stretch of the text, to_list returns exactly the tokens of that stretch in text order, and chunk_str their words that are neither punctuation nor space, separated by single spaces.", "quantifier": "every projective dependency tree of any size and every token in it", "why_tests_cant": "trees of any depth and shape", "anchors": ["gb/nlp/nlp_token.py:Token.to_list", "gb/nlp/nlp_token.py:Token.to_word_token_list", "gb/nlp/nlp_token.py:Token.chunk_str", "gb/nlp/nlp_token.py:Token.is_word"]}
{"id": "C52", "title": "The parser copies the dependency tree, whatever it read before", "statement": "parse_text returns one list of tokens for each sentence; each token carries the lower-cased stripped word, lemma, shape, part of speech, dependency and entity type of the token it copies, and its left and right children are copies of that token's children in order. The result does not depend on the texts the same parser read before, nor on the order in which children and heads are met.", "quantifier": "every text and dependency tree, every history of parse_text calls on one parser", "why_tests_cant": "the parser keeps a table of tokens across calls: that it never mixes texts must hold for every history", "anchors": ["gb/nlp/parser.py:Parser.parse_text", "gb/nlp/parser.py:Parser.__spacy2token"]}
{"id": "C53", "title": "Alpha keeps every word", "statement": "The alpha stage turns a sentence with a root into a tree whose leaves are the tokens below the first root, each exactly once, except punctuation, tokens without relation and what is below these; every node of the tree has at least two elements and no element is in two places. A sentence without root raises AttributeError.", "quantifier": "every sentence, of any size and shape", "why_tests_cant": "the stage defers insertions through layers and rewrites the tree in place; that no word is lost or doubled must hold for every dependency tree", "anchors": ["gb/knowledge/stages/alpha.py:AlphaStage.process_sentence", "gb/knowledge/stages/alpha.py:AlphaStage.process_token", "gb/knowledge/stages/alpha.py:AlphaStage.process_child_token", "gb/knowledge/semantic_tree.py:Node.apply_layers", "gb/knowledge/semantic_tree.py:Node.apply_layer", "gb/knowledge/semantic_tree.py:Tree.remove_redundant_nesting", "gb/nlp/sentence.py:Sentence.root"]}
{"id": "C54", "title": "Alpha's tree is a function of the parse", "statement": "The tree alpha produces, and its printed form, is given by a recursive function of the dependency tree alone (nothing hidden in identifiers or earlier sentences matters); a one-word sentence gives that word.", "quantifier": "every sentence with a root", "why_tests_cant": "refinement of an imperative algorithm on a mutable heap by a pure function, for all inputs", "anchors": ["gb/knowledge/stages/alpha.py:AlphaStage", "gb/knowledge/semantic_tree.py:Tree", "gb/knowledge/semantic_tree.py:Node.new_layer", "gb/knowledge/semantic_tree.py:Node.nest"]}
{"id": "C55", "title": "Beta marks compounds and nothing else", "statement": "The beta stage keeps the tree and its words in order, sets the namespace of every element, and marks as compound exactly the nodes whose elements are all words with the same non-empty entity type, or below which all words have one of the dependencies pobj, compound, dobj, nsubj; running it twice changes nothing more.", "quantifier": "every tree whose nodes have at least two elements", "why_tests_cant": "all tree shapes", "anchors": ["gb/knowledge/stages/beta.py:BetaStage.process_entity", "gb/knowledge/stages/beta.py:is_compound_by_entity_type", "gb/knowledge/stages/beta.py:BetaStage.is_compound_by_deps", "gb/knowledge/semantic_tree.py:Node.compound"]}
{"id": "C56", "title": "Gamma drops nothing but articles", "statement": "The gamma stage loses no word except determiners with lemma 'the', 'an' or 'a'; the other words keep their order; every node still has at least two elements.", "quantifier": "every tree whose nodes have at least two elements", "why_tests_cant": "all tree shapes, after in-place rewriting", "anchors": ["gb/knowledge/stages/gamma.py:GammaStage.process_entity", "gb/knowledge/stages/gamma.py:GammaStage.process_entity1", "gb/knowledge/stages/gamma.py:GammaStage.combine_relationships", "gb/knowledge/semantic_tree.py:Node.add_to_first_child"]}
{"id": "C57", "title": "Delta only moves relation words", "statement": "The delta stage keeps every word exactly as often as before; all words that are not verbs, adverbs, adpositions or particles keep their order; a tree that is one word or name, or does not start with a relation, is left as it is; otherwise the result starts with a relation; if every node has at least two elements before, so has every node after.", "quantifier": "every tree, also when the search shares nodes between candidates", "why_tests_cant": "a search over candidate trees that mutates nodes shared between candidates; that no candidate loses words must hold for all of them", "anchors": ["gb/knowledge/stages/delta.py:DeltaStage.process_entity", "gb/knowledge/stages/delta.py:DeltaStage.find_candidates_r", "gb/knowledge/stages/delta.py:DeltaStage.node_fit", "gb/knowledge/semantic_tree.py:Node.clone", "gb/knowledge/semantic_tree.py:Node.flatten"]}
{"id": "C58", "title": "Epsilon turns the tree into its edge", "statement": "The epsilon stage returns the edge whose symbols are the words (and compound names) of the tree in order with their namespaces, each word used once, and changes nothing; it raises TypeError exactly when some word outside of all names has no namespace, and nothing else.", "quantifier": "every tree", "why_tests_cant": "all tree shapes; partial function whose exact domain matters", "anchors": ["gb/knowledge/stages/epsilon.py:EpsilonStage.build_hyperedges", "gb/knowledge/stages/epsilon.py:EpsilonStage.compound_node_to_hyperedges", "gb/knowledge/stages/epsilon.py:EpsilonStage.leaf_to_hyperedges"]}
{"id": "C59", "title": "A stage list runs exactly when it is well-formed", "statement": "read_sentence returns only if alpha comes first and nowhere else, epsilon last or not at all and all names are known; it then returns a tree, or an edge iff the last stage is epsilon, and outputs has one text per stage. Otherwise: IndexError for no stages, RuntimeError for an unknown name, AttributeError for alpha not first or anything after epsilon; after an exception outputs holds the texts of the stages before the failing one.", "quantifier": "every list of stage names and every sentence", "why_tests_cant": "all lists of names of any length", "anchors": ["gb/knowledge/extractor.py:Extractor.read_sentence", "gb/knowledge/extractor.py:Extractor.create_stage"]}
{"id": "C60", "title": "The pipeline turns every sentence into an edge made of its words", "statement": "With the default stages every sentence with a root yields an edge; its words are those below the root, each once, except punctuation, tokens without relation and what is below them, and possibly some leading articles; every tuple in it has at least two elements and every word the namespace 1; outputs has the texts of the five intermediate results. The same holds for alpha, any beta/gamma sequence, any number of deltas, epsilon, except that without beta or gamma having set namespaces TypeError may be raised.", "quantifier": "every sentence with a root and every stage list of that form", "why_tests_cant": "composition of five in-place tree rewritings over all dependency trees", "anchors": ["gb/knowledge/extractor.py:Extractor.read_sentence", "gb/knowledge/stages/alpha.py:AlphaStage", "gb/knowledge/stages/beta.py:BetaStage", "gb/knowledge/stages/gamma.py:GammaStage", "gb/knowledge/stages/delta.py:DeltaStage", "gb/knowledge/stages/epsilon.py:EpsilonStage"]}
{"id": "C61", "title": "Reading texts gives one edge per sentence, whatever was read before", "statement": "An extractor with the default stages reads any texts one after the other; each call returns one edge for each sentence, made of the words below the sentence's first root as in the pipeline property, independently of the texts read before. One sentence without root makes the whole call raise AttributeError.", "quantifier": "every sequence of texts whose sentences have roots", "why_tests_cant": "histories of calls on one extractor with a shared parser table", "anchors": ["gb/knowledge/extractor.py:Extractor.read_text", "gb/nlp/parser.py:Parser.parse_text"]}
{"id": "C62", "title": "Delta takes the first of the best fitting rearrangements", "statement": "If the tree is more than one word or name and starts with a relation, the delta stage replaces it by the candidate with the highest fit to the original (1000 for a matching number of relation parts and arguments, 100 for every relation part and neighbouring argument that are together in the original), the first one if several are equally good; every candidate has the words of the tree, reordered only as delta may.", "quantifier": "every tree that starts with a relation", "why_tests_cant": "arg-max over a search space that grows with the tree, computed while nodes are shared and changed in place", "anchors": ["gb/knowledge/stages/delta.py:DeltaStage.process_entity", "gb/knowledge/stages/delta.py:DeltaStage.node_fit", "gb/knowledge/stages/delta.py:DeltaStage.is_directly_under"]}
{"id": "C63", "title": "The dump filter removes exactly the pages of other namespaces", "statement": "filter_wikidump.py writes a dump of MediaWiki without the pages whose title has a colon, and everything else unchanged and in order; of any text it writes only lines of that text, and filtering its output again changes nothing. A page at the end of the file that is cut off before its title is lost.", "quantifier": "all dumps (any number of pages and lines); for the second part all texts", "why_tests_cant": "a state machine over files of any length", "anchors": ["python/filter_wikidump.py:main", "python/filter_wikidump.py:check_title"]}
{"id": "C64", "title": "The tree shown for a sentence", "statement": "Sentence.label_tree gives the tree of the root token: below each token its left and then its right children, as 'word/pos (dep) {entity}' with the side; siblings on the same side that look the same are merged into one entry (in the place of the first, with what is below the last), so tokens are missing exactly then; without root it is empty. str(sentence) is the words with spaces between them.", "quantifier": "all sentences with tokens nested to any depth", "why_tests_cant": "recursion over trees of any shape; depends on which texts coincide", "anchors": ["gb/nlp/sentence.py:Sentence.label_tree", "gb/nlp/sentence.py:token2label_tree", "gb/nlp/sentence.py:Sentence.__str__", "gb/nlp/nlp_token.py:Token.__str__"]}
{"id": "C65", "title": "Processes that share an SQLite file", "statement": "Several processes, each with its own connection, add edges (one or in bulk), remove them (one, several, by pattern), and add and remove beliefs of one graph. Whatever the interleaving, all calls return without an exception after finitely many steps; at every moment the queries of another connection succeed and say about edges that no process touches what they said before; if no process removes anything, in the end exactly the edges exist that existed before or were added by some process; and if no process removes, or asks for by pattern or as a source of a belief it removes, an edge that another process adds or removes, in the end exists, pattern2edges, star, symbols_with_root and sources answer as if the programs had run one after the other. (Waiting for locks longer than the driver's timeout is excluded.)", "quantifier": "every history before, any number of processes with programs of any length, every interleaving of their transactions", "why_tests_cant": "all schedules; the read-then-write sequences of add and remove are not in one transaction", "anchors": ["gb/hypergraph/sql.py:SQL.add", "gb/hypergraph/sql.py:SQL.add_raw", "gb/hypergraph/sql.py:SQL.remove", "gb/hypergraph/sql.py:SQL.remove_raw", "gb/hypergraph/sql.py:SQL.open_cursor", "gb/hypergraph/sql.py:SQL.close_cursor", "gb/hypergraph/sqlite.py:SQLite", "gb/hypergraph/hypergraph.py:HyperGraph.add_belief", "gb/hypergraph/hypergraph.py:HyperGraph.remove_belief", "gb/hypergraph/hypergraph.py:HyperGraph.remove_by_pattern"]}
{"id": "C66", "title": "Degrees under concurrent use", "statement": "After several processes have added and removed edges of one SQLite graph concurrently, the degree of every symbol is what it is when the programs run one after the other.", "quantifier": "every history before, any number of processes, every interleaving of their transactions, every symbol", "why_tests_cant": "all schedules; lost updates show only in particular interleavings", "anchors": ["gb/hypergraph/sql.py:SQL.add_raw", "gb/hypergraph/sql.py:SQL.inc_degree", "gb/hypergraph/sql.py:SQL.dec_degree", "gb/hypergraph/sql.py:SQL.add_str", "gb/hypergraph/sql.py:SQL.update_or_insert"]}
{"id": "C67", "title": "The degree of any vertex is a running counter", "statement": "After every history of calls that returned, degree(v) is, for every symbol, literal and edge v, the value of a counter kept for v: creating an edge raises the counters of its elements (from 0 if there was none) and sets that of the edge itself to 0; removing a present edge drops its own counter and lowers those of its elements; nothing else changes counters; vertices without counter have degree 0 and those with one are what f_all lists, with their counters. The counter never exceeds the number of occurrences in present edges.", "quantifier": "every history of calls and every vertex, including edges used as vertices (whose degree is not the number of occurrences)", "why_tests_cant": "all histories: what the degree is depends on the order in which an edge and the statements about it were added and removed", "anchors": ["gb/hypergraph/sql.py:SQL.add_raw", "gb/hypergraph/sql.py:SQL.remove_raw", "gb/hypergraph/sql.py:SQL.degree", "gb/hypergraph/sql.py:SQL.f_all", "gb/hypergraph/sql.py:SQL.inc_degree", "gb/hypergraph/sql.py:SQL.dec_degree"]}
{"id": "C68", "title": "A graph in MySQL behaves as one in SQLite", "statement": "Every history of calls has the same results and leaves the same contents in a MySQL database (whose rowcount after UPDATE counts changed rows, and whose primary keys are the first 250 characters) as in an SQLite database.", "quantifier": "every history of calls, every key length", "why_tests_cant": "all histories: the difference shows only if an UPDATE writes what is already there, or if two long texts agree in the beginning", "anchors": ["gb/hypergraph/sql.py:SQL.update_or_insert", "gb/hypergraph/sql.py:SQL.add_str", "gb/hypergraph/mysql.py:MySQL.create_tables"]}
{"id": "C69", "title": "A killed process does not disturb the others", "statement": "Some of the processes that work on one SQLite file are killed anywhere in their calls and leave what they were doing half done; the others go on and return. Then no query raises, and what exists, pattern2edges and star say about edges that the killed programs do not work on is as if only the others had run, one after the other (if none of these removes or asks for an edge another one works on). The same for the degree of a symbol known from the start, if the killed programs work on other edges, in which the symbol does not occur.", "quantifier": "every history before, any number of processes, every interleaving, every point at which processes are killed", "why_tests_cant": "all schedules and crash points", "anchors": ["gb/hypergraph/sql.py:SQL.add", "gb/hypergraph/sql.py:SQL.add_raw", "gb/hypergraph/sql.py:SQL.remove", "gb/hypergraph/sql.py:SQL.remove_raw", "gb/hypergraph/sql.py:SQL.open_cursor", "gb/hypergraph/sql.py:SQL.close_cursor"]}
{"id": "C70", "title": "The filters of the intersection query", "statement": "After any history include_edge(hg, edge) accepts an edge exactly when no element after the first has a degree above 250, and changes nothing; interedge(edge, verts) accepts an edge exactly when all its elements after the first are among verts; add_neighbours gives the union of the neighbours and the elements after the first.", "quantifier": "every history, every edge, every set of vertices", "why_tests_cant": "all histories and edges; the limit is exact", "anchors": ["gb/hypergraph/queries.py:exclude_edge", "gb/hypergraph/queries.py:include_edge", "gb/hypergraph/queries.py:interedge", "gb/hypergraph/queries.py:add_neighbours"]}
{"id": "C71", "title": "The delta stage as a function of trees", "statement": "For a tree in which every node has at least two elements and starts with a word or a name, and names are made of words and names, find_candidates gives exactly the rearrangements of the tree in a fixed order (each argument is left as it is, or dissolved in one of up to four ways: its relation before the relation, joined to one name, joined in the middle, or added as a part), and leaves the tree as it was; the stage replaces the tree by the first of those that fit best, which fits at least as well as the tree itself; trees that do not start with words that relate stay as they are. With the default stages the edge of a sentence is therefore a function of its dependency tree: epsilon of delta of gamma of beta of alpha.", "quantifier": "every such tree, of any depth and width, in every tree object; every sentence whose tree meets the condition", "why_tests_cant": "all trees; the number of candidates grows exponentially and they share elements that are changed in place", "anchors": ["gb/knowledge/stages/delta.py:DeltaStage.find_candidates", "gb/knowledge/stages/delta.py:DeltaStage.find_candidates_r", "gb/knowledge/stages/delta.py:DeltaStage.build_candidate", "gb/knowledge/stages/delta.py:DeltaStage.process_entity", "gb/knowledge/extractor.py:Extractor.read_sentence"]}
{"id": "C72", "title": "Processes whose statements interleave, with batches", "statement": "Several processes work on one SQLite file; their single SELECT, UPDATE, INSERT, DELETE and COMMIT requests interleave, a writing statement waits while another connection has an open write transaction, and a process can be killed or give up waiting between any two requests. They call add, bulk add, remove, remove_by_pattern, add_belief and remove_belief, also several of them (not bulk additions) inside one batch_exec. Every file content that comes about is one that the transactions of the sharing property produce with the batches replaced by their calls in order; so no call raises, at every moment other connections can query and see untouched edges unchanged, and in the end the result is that of the programs one after the other under the same conditions. Nobody waits for ever: there is no endless run, and when no request is possible every process that is left has returned and no transaction is open.", "quantifier": "every history before, any number of processes and calls, every interleaving of single statements, every kill point", "why_tests_cant": "all schedules at the granularity of statements, with locks", "anchors": ["gb/hypergraph/sql.py:SQL.open_cursor", "gb/hypergraph/sql.py:SQL.close_cursor", "gb/hypergraph/sql.py:SQL.batch_exec", "gb/hypergraph/sql.py:SQL.update_or_insert", "gb/hypergraph/sql.py:SQL.add_raw", "gb/hypergraph/sql.py:SQL.remove_raw", "gb/hypergraph/sql.py:SQL.remove_edge_permutation", "gb/hypergraph/sqlite.py:SQLite"]}
{"id": "C73", "title": "A call that adds edges in one transaction is all or nothing, among other processes too", "statement": "Several processes work on one SQLite file, their single statements interleave and any of them may be killed anywhere. A process that adds edges by add of a list, add_belief or batch_exec of additions is, at every moment, seen by a new connection to have made exactly its first k calls for some k: about all edges the others do not work on, exists, pattern2edges and star answer as after these k calls, so none of the edges of a call is there without the others; if the others do not work on its edges, the degrees of the symbols known from the start that occur in no edge the others work on are those after the same k calls. When the process has returned, k is the number of all its calls.", "quantifier": "every history before, any number of processes and calls, every interleaving of single statements, every kill point", "why_tests_cant": "all schedules and crash points at the granularity of statements", "anchors": ["gb/hypergraph/sql.py:SQL.open_cursor", "gb/hypergraph/sql.py:SQL.close_cursor", "gb/hypergraph/sql.py:SQL.batch_exec", "gb/hypergraph/sql.py:SQL.add", "gb/hypergraph/sql.py:SQL.add_raw", "gb/hypergraph/hypergraph.py:HyperGraph.add_belief", "gb/hypergraph/sqlite.py:SQLite"]}
{"id": "C74", "title": "Several clients of one MySQL database", "statement": "Several clients work on one MySQL database with autocommit, so that their single statements interleave, also those of one batch_exec or bulk addition. No client adds, removes or asks for an edge that another one adds or removes; the edges that different clients add, or find and remove, have in common only symbols that are known from the start, and none is an element of another's; what is added fits into the keys. Then a client that returns has the result (also the exception) it would have had alone, and exists, pattern2edges, degree and timestamp say about what belongs to it what they would say if it had been alone. When all have returned, their results and the answers to all queries, degrees and time stamps are those of the clients one after the other. At every moment no query raises and untouched edges are as before. If no client alone would raise, none does. There is no endless run.", "quantifier": "every history before, any number of clients and calls, every interleaving of single statements, every key length", "why_tests_cant": "all schedules at the granularity of statements", "anchors": ["gb/hypergraph/sql.py:SQL.update_or_insert", "gb/hypergraph/sql.py:SQL.add_raw", "gb/hypergraph/sql.py:SQL.remove_raw", "gb/hypergraph/sql.py:SQL.batch_exec", "gb/hypergraph/sql.py:SQL.open_cursor", "gb/hypergraph/sql.py:SQL.close_cursor", "gb/hypergraph/mysql.py:MySQL", "gb/hypergraph/hypergraph.py:HyperGraph.add_belief", "gb/hypergraph/hypergraph.py:HyperGraph.remove_belief"]}
{"id": "C75", "title": "Opening a database", "statement": "Opening an SQLite file (or MySQL database) makes the tables and columns that are missing and keeps everything that is there: vertices with their degrees and time stamps (0 and -1 where an older version had no column) and the index. Opening again changes nothing; an opening that was interrupted anywhere, or some statements of which failed because the database was busy, is completed by the next one with the same contents. Any number of processes may open one file at the same time: as soon as one has finished the file is as if it had been alone, and what the others still do disturbs nothing that it then writes. Work spread over any number of sessions has the same results and leaves the same contents as in one session; after a crash, opening gives what was on disk. (An opening whose statements found the database busy returns normally although tables may be missing.)", "quantifier": "every file with any subset of tables and columns, every point of interruption, every interleaving of the statements of any number of processes, every list of histories", "why_tests_cant": "all contents, interruption points, schedules and histories", "anchors": ["gb/hypergraph/sqlite.py:SQLite.create_tables", "gb/hypergraph/sqlite.py:exec_or_ignore", "gb/hypergraph/mysql.py:MySQL.create_tables", "gb/hypergraph/mysql.py:exec_or_ignore", "gb/hypergraph/sql.py:SQL.__init__"]}
{"id": "C76", "title": "f_all as a lazy sequence", "statement": "f_all returns a lazy sequence: nothing is read before its first value is asked for, and then it lists the vertices there are at that moment, each once with its degree, handing out one value of the function at a time and nothing after the last. Any number of sequences may be underway and be asked in any order, the program may make reading calls between two values, and the function itself may read the graph (stars, patterns, degrees, even another f_all), raise or handle exceptions: every value, answer and exception is the one it would be with no sequence around, and the graph is left as it was. A sequence first asked outside a batch may be continued inside one. (First asked inside a batch, a sequence shares its cursor with every other call: the next reading call makes it stop silently, degree or timestamp of a known vertex makes it raise, and it cannot be taken out of the batch. In SQLite the graph must not be changed while a sequence is underway.)", "quantifier": "every history, every number of sequences and every order of asking them, every function that reads the graph, every placement of reading calls, batches and operations", "why_tests_cant": "all interleavings of a generator with other calls", "anchors": ["gb/hypergraph/sql.py:SQL.f_all", "gb/hypergraph/sql.py:SQL.open_cursor", "gb/hypergraph/sql.py:SQL.close_cursor", "gb/hypergraph/sql.py:SQL.pattern2edges", "gb/hypergraph/sql.py:SQL.degree", "gb/hypergraph/sql.py:SQL.timestamp", "gb/hypergraph/sql.py:SQL.batch_exec", "gb/hypergraph/hypergraph.py:HyperGraph.f_all"]}
{"id": "C77", "title": "The collation of the MySQL tables", "statement": "The tables of the MySQL backend compare texts without regard to case and accents and pad them with spaces. If all texts are printable ASCII without capitals, none of them ending in a backquote (the roots asked for and the vertices whose degrees are asked for likewise; no removal by a pattern whose last text ends in z), then every history that fits the keys has the same results and leaves the same tables, commit by commit, as with exact comparison, and afterwards exists, star, symbols_with_root, degree and timestamp return the same, pattern2edges and sources the same sets. Otherwise: two vertices whose texts differ only in case or accents are one for degree and timestamp, and two such symbols for star and symbols_with_root, in every state of the tables; an edge whose last element ends in a character that is not lighter than the next code point (an accented letter before its like, a backquote) is never found by exists and never removed.", "quantifier": "every history, every vocabulary of such texts, every state of the tables, all weights that agree with utf8_general_ci on ASCII, every key length", "why_tests_cant": "all histories and all texts", "anchors": ["gb/hypergraph/sql.py:SQL.pattern2edges", "gb/hypergraph/sql.py:SQL.str2perms", "gb/hypergraph/sql.py:SQL.exists", "gb/hypergraph/sql.py:SQL.symbols_with_root", "gb/hypergraph/sql.py:SQL.update_or_insert", "gb/hypergraph/sql.py:SQL.degree", "gb/hypergraph/sql.py:SQL.timestamp", "gb/hypergraph/sql.py:str_plus_1", "gb/hypergraph/mysql.py:MySQL.create_tables"]}
{"id": "C78", "title": "Degrees while several processes add edges", "statement": "Several processes on one SQLite file add edges (one by one, in lists, as beliefs, in batches; possibly the same edges), and nobody removes. At every moment, whatever statement each is at and whichever of them were killed, the degree of a symbol is at most its degree at the start plus its occurrences in the edges that the processes are asked to add, counted as often as they are asked; it is positive as soon as an edge with the symbol exists or its star shows one; and if the symbol was known at the start, it is at least the number of its occurrences in the edges that exist, and at least the size of its star. (None of these can be improved: counting the same edge twice and losing a count of a new symbol both happen.)", "quantifier": "every history before, any number of processes, all programs of adding calls, every interleaving of their statements, every set of killed processes, every symbol", "why_tests_cant": "all schedules and crash points", "anchors": ["gb/hypergraph/sql.py:SQL.add", "gb/hypergraph/sql.py:SQL.add_raw", "gb/hypergraph/sql.py:SQL.inc_degree", "gb/hypergraph/sql.py:SQL.add_str", "gb/hypergraph/sql.py:SQL.batch_exec", "gb/hypergraph/sql.py:SQL.degree", "gb/hypergraph/hypergraph.py:HyperGraph.add_belief", "gb/hypergraph/sqlite.py:SQLite"]}
{"id": "C79", "title": "Degrees while several processes add and remove edges", "statement": "Several processes on one SQLite file add and remove edges (one by one, in lists, by a pattern, as beliefs, in batches; possibly the same edges). At every moment, whatever statement each is at and whichever of them were killed, the degree of a symbol is at most its degree at the start plus its occurrences in the edges that the processes are asked to add; at least minus its occurrences in the edges that they are asked to remove; and if the symbol was known at the start, at least its degree then less those occurrences (as often as they are asked; a pattern asks for every edge it matches among those present at the start or added). A symbol in none of these edges keeps its degree. (The lower bound is attained: if two processes remove the same edge the degree of its symbols can become -1.)", "quantifier": "every history before, any number of processes, all programs of adding and removing calls, every interleaving of their statements, every set of killed processes, every symbol", "why_tests_cant": "all schedules and crash points", "anchors": ["gb/hypergraph/sql.py:SQL.add", "gb/hypergraph/sql.py:SQL.remove", "gb/hypergraph/sql.py:SQL.remove_by_pattern", "gb/hypergraph/sql.py:SQL.inc_degree", "gb/hypergraph/sql.py:SQL.dec_degree", "gb/hypergraph/sql.py:SQL.batch_exec", "gb/hypergraph/sql.py:SQL.degree", "gb/hypergraph/hypergraph.py:HyperGraph.remove_belief", "gb/hypergraph/sqlite.py:SQLite"]}
{"id": "C80", "title": "An import through a buffer that is cut off by a crash", "statement": "Edges are added to an SQLite file through a BatchHyperGraph (singly, in lists, as beliefs, with flushes in between), and the process dies at any moment, also in the middle of a call. What is on disk is exactly what the graph would have if some of the first calls, complete ones, had been made on it directly; of the edges added by calls that had returned, at most buffer_max are missing. Making all the calls again after the crash, with a flush at the end, gives exactly the tables of an import without a crash (degrees and timestamps included).", "quantifier": "every history before, every sequence of buffered additions, every buffer size, every crash point, every timestamp", "why_tests_cant": "all crash points of all sequences", "anchors": ["gb/hypergraph/batch_hypergraph.py:BatchHyperGraph.add", "gb/hypergraph/batch_hypergraph.py:BatchHyperGraph.flush", "gb/hypergraph/sql.py:SQL.add", "gb/hypergraph/sql.py:SQL.close_cursor", "gb/hypergraph/hypergraph.py:HyperGraph.add_belief"]}
{"id": "C81", "title": "Reading WordNet again", "statement": "If the WordNet reader is killed at any moment, an SQLite graph has what it had before, some of the statements of the lexical database, and for exactly these the fact that WordNet supports them. Reading again after that has the same outcome and leaves the same tables as reading once without interruption. Reading twice leaves the tables of reading once; reading a database in two parts leaves the tables of reading it at once.", "quantifier": "every history before, every lexical database, every crash point", "why_tests_cant": "all databases and crash points", "anchors": ["gb/readers/wordnet.py:read", "gb/readers/wordnet.py:process_synset", "gb/hypergraph/batch_hypergraph.py:BatchHyperGraph", "gb/hypergraph/sql.py:SQL.add"]}
{"id": "C82", "title": "Recovering a session after an error", "statement": "Only a bulk addition or a batch that raised can leave something over in the session; after any other call, and after every call that returns, nothing is left over. With a leftover, single additions, removals and queries still give the usual results and contents, but in SQLite additions reach the disk no more; the elements of a bulk addition before the one at which it raised count as added. After a degree or time stamp of a known vertex in that state every call except an empty batch raises and changes nothing. batch_exec(()) works in every state whatsoever: it makes all that was done durable, and the session goes on as a new one opened on these contents.", "quantifier": "every state of tables and session, every call, with any arguments, and every history afterwards", "why_tests_cant": "all states, all arguments, all histories", "anchors": ["gb/hypergraph/sql.py:SQL.open_cursor", "gb/hypergraph/sql.py:SQL.close_cursor", "gb/hypergraph/sql.py:SQL.add", "gb/hypergraph/sql.py:SQL.batch_exec", "gb/hypergraph/sql.py:SQL.degree", "gb/hypergraph/sql.py:SQL.timestamp"]}
{"id": "C83", "title": "Time stamps that do not fit", "statement": "With SQLite, an addition whose time stamp does not fit into 64 bits has no effect and returns if the edge is present, and raises OverflowError if it is absent; then the edge is not there, no answer about edges and no time stamp changed, but the degrees of its elements before the first unknown one rose by their number of occurrences, durably. Several edges at once: the present ones are passed over, the first absent one raises, and leaves a cursor over. With a time stamp that fits, additions are what the other properties say.", "quantifier": "every history, edge and integer", "why_tests_cant": "all integers; the failure is between two commits", "anchors": ["gb/hypergraph/sql.py:SQL.add_raw", "gb/hypergraph/sql.py:SQL.add_str", "gb/hypergraph/sql.py:SQL.update_or_insert", "gb/hypergraph/sqlite.py:SQLite.create_tables"]}
{"id": "C84", "title": "What is read from a text can be stored", "statement": "With the default stages, a text whose sentences have roots and whose words contain no whitespace and do not start with '(' gives well-formed edges, which str2edge reads back from their text. Those that start with a symbol can be added to any graph, in one call; then each exists, star of each of its symbols and numbers contains it, symbols_with_root of each root of its symbols contains the symbol, and all other edges are as before. Edges that start with an edge cannot be stored with add: it takes them for collections, and their time stamp and degree stay as they were.", "quantifier": "every text, history of the graph, time stamp", "why_tests_cant": "all parse trees and all histories", "anchors": ["gb/knowledge/extractor.py:Extractor.read_text", "gb/knowledge/stages/epsilon.py:EpsilonStage", "gb/hypergraph/sql.py:SQL.add", "gb/hypergraph/edge.py:edge2str"]}
{"id": "C85", "title": "Degrees, exactly", "statement": "After any history the degree of any symbol, number or edge is the account of what happened to it: the account is opened with 0 when the vertex itself is created as an edge (also if it was open), or with the first created edge that has it as an element; it counts the occurrences in edges really created, subtracts those in edges really deleted, and is closed, without effect of later deletions, when the vertex itself is deleted as an edge or the graph is destroyed. So as long as an edge is there its degree is the occurrences created minus those deleted since it was created.", "quantifier": "every history over a vocabulary, every vertex", "why_tests_cant": "all histories, nesting of edges and orders of deletion", "anchors": ["gb/hypergraph/sql.py:SQL.degree", "gb/hypergraph/sql.py:SQL.inc_degree", "gb/hypergraph/sql.py:SQL.dec_degree", "gb/hypergraph/sql.py:SQL.add_raw", "gb/hypergraph/sql.py:SQL.remove_raw"]}
{"id": "C86", "title": "Nesting and the recursion limit", "statement": "Python raises RecursionError when its stack is full. If the elements of all edges are nested at most d levels and every call starts with at least 3d+14 frames left, no call notices the limit: every history and every query does what it does without one. Printing an edge takes exactly 2 frames per level and parsing it exactly 3. Whatever the nesting, adding or removing one edge and every query either do what they do without a limit, or raise RecursionError and change nothing (unless exactly 7 frames are left), so a program that catches the exceptions has the graph of the calls that did not raise. An edge nested too deeply to be read but not too deeply to be printed is stored, and is then stuck: asking for it, removing it, adding it again, every pattern it matches and the star of each of its symbols raise.", "quantifier": "every nesting, every number of free stack frames, every history over a vocabulary", "why_tests_cant": "all depths of nesting and all stack heights at which a call can start", "anchors": ["gb/hypergraph/edge.py:str2edge", "gb/hypergraph/edge.py:edge2str", "gb/hypergraph/edge.py:split_edge_str", "gb/hypergraph/sql.py:SQL.add_raw", "gb/hypergraph/sql.py:SQL.remove_raw", "gb/hypergraph/sql.py:SQL.pattern2edges", "gb/hypergraph/sql.py:cur2edges", "gb/hypergraph/sql.py:nthperm"]}
{"id": "C87", "title": "Erasing a graph that others are using", "statement": "When several processes use one SQLite file and some of them call destroy: no call raises; at every moment no query raises, and no edge is shown that neither existed before nor is added by a program; if every program that may take an edge away (by a removal or by destroy) adds it afterwards, the edge exists in the end, whatever the schedule; if every program that adds an edge calls destroy afterwards, no query shows it in the end; and when only one process calls destroy, then as soon as it has returned all queries say about the edges that no other process names what they would say had it run alone.", "quantifier": "all numbers of processes, all programs, all schedules, all histories before them", "why_tests_cant": "all interleavings of all programs with destroy", "anchors": ["gb/hypergraph/sql.py:SQL.destroy", "gb/hypergraph/sql.py:SQL.add", "gb/hypergraph/sql.py:SQL.remove", "gb/hypergraph/hypergraph.py:HyperGraph.destroy"]}
{"id": "C88", "title": "Characters that the database cannot take", "statement": "With any character set of the connection and any of the columns that contain ASCII: a history whose calls name only characters of the connection's set (for a looked-up edge or pattern, also the character after the last one) and add only edges over the columns' set behaves as if there were no character sets; a call naming anything else raises UnicodeEncodeError and changes nothing, so a program that catches it has the graph that its other calls make; a bulk addition stops at the first such edge, with the earlier ones added; and adding an edge that can be sent but not stored raises DataError, adds no edge, changes no answer about edges, and raises exactly the degrees of the elements before the first one that cannot be stored.", "quantifier": "all character sets, histories, edges, time stamps, with and without autocommit", "why_tests_cant": "all texts over all character sets", "anchors": ["gb/hypergraph/mysql.py:MySQL.__init__", "gb/hypergraph/mysql.py:MySQL.create_tables", "gb/hypergraph/sql.py:SQL.update_or_insert", "gb/hypergraph/sql.py:SQL.pattern2edges", "gb/hypergraph/sql.py:SQL.add_raw"]}
{"id": "C89", "title": "One program for every database; MySQL with all its deviations at once", "statement": "The SQL code is one program, run on a server that is a parameter. (1) The models of SQLite, of MySQL's row count and prefix keys, of its collation and of the character sets are this program on different servers, for every history and from every state. (2) On any server that does with the texts over a character set and with some range of time stamps what SQLite does, statement by statement, every history over such texts and stamps has the same results and leaves the same tables, commit by commit. (3) On a MySQL server with row count, prefix keys, collation, character sets and 64-bit integers at once, every history over printable ASCII without capitals (no text ending in a backquote, keys that fit, stamps that fit) has the same results, tables and later answers as on SQLite. (4) On SQLite with 64-bit integers, every history whose stamps fit runs as if integers had no bound.", "quantifier": "all servers, histories, vocabularies, character sets, collations that agree with utf8_general_ci on ASCII, key lengths, with and without autocommit", "why_tests_cant": "all histories on all servers", "anchors": ["gb/hypergraph/sql.py:SQL.update_or_insert", "gb/hypergraph/sql.py:SQL.pattern2edges", "gb/hypergraph/sql.py:SQL.add_raw", "gb/hypergraph/sql.py:SQL.remove_raw", "gb/hypergraph/mysql.py:MySQL.create_tables", "gb/hypergraph/sqlite.py:SQLite.__init__"]}
{"id": "C90", "title": "Clients of one MySQL database that do not keep out of each other's way", "statement": "Several clients of one MySQL database add and remove edges, no matter which, one by one, several at once, by patterns, as beliefs or in batches; their single statements interleave in any order, and any of them may stop for ever or raise. At every moment: the degree of a symbol is at most what it was plus its occurrences in the edges asked to be added; below zero it is by at most its occurrences in the edges asked to be removed, and a symbol known at the start has lost at most those; a symbol in none of these edges keeps its degree. No query raises, returns an edge that was neither there at the start nor asked for, or misses one that was there and that nobody is asked to remove. A client that returned did all its calls or raised an integrity error, the latter only if it adds. An edge that a client added without an exception, and nobody removes, exists. When all returned without an exception, queries return, of the edges that nobody removes, exactly those that were there or were asked for. If the clients only add, degrees are positive where an edge exists, and of a symbol known at the start at least the number of its occurrences in the edges.", "quantifier": "all histories, client programs, interleavings of statements, moments, symbols, edges, patterns, key lengths", "why_tests_cant": "all interleavings of the statements of any number of clients", "anchors": ["gb/hypergraph/mysql.py:MySQL", "gb/hypergraph/sql.py:SQL.add", "gb/hypergraph/sql.py:SQL.add_raw", "gb/hypergraph/sql.py:SQL.remove", "gb/hypergraph/sql.py:SQL.remove_by_pattern", "gb/hypergraph/sql.py:SQL.update_or_insert", "gb/hypergraph/sql.py:SQL.batch_exec", "gb/hypergraph/sql.py:SQL.degree"]}
{"id": "C91", "title": "Columns of limited length", "statement": "The columns of the MySQL tables hold texts of limited length, whatever the limit. On any server, from any state: a history in which every edge added fits (its text, and the texts of its rows in the index) runs as if there were no limit, and any other history either does the same as without a limit or raises DataError. After a history of fitting edges, adding an edge succeeds exactly if it is there already or fits. A refused addition leaves nothing open and nothing unwritten, changes no answer about other edges, and raises the degree of a symbol by at most its occurrences in the edge. If the text of the edge is too long, no answer about edges changes, and exactly its elements before the first one that is too long are counted. If only a row of its index is too long, the edge exists afterwards, is counted in full, adding it again does nothing, and removing it gives back the graph as it was.", "quantifier": "all servers, limits, histories, states, edges, time stamps", "why_tests_cant": "all lengths of columns and all texts", "anchors": ["gb/hypergraph/mysql.py:MySQL.create_tables", "gb/hypergraph/sql.py:SQL.add", "gb/hypergraph/sql.py:SQL.add_raw", "gb/hypergraph/sql.py:SQL.update_or_insert", "gb/hypergraph/sql.py:SQL.write_edge_permutations"]}
{"id": "C92", "title": "Which edges are there when processes race", "statement": "Several processes add edges to one SQLite file and remove edges from it, with no agreement among them: also the same edges, one by one, several at once, by patterns, as beliefs or in batches. At every moment, whatever statement each of them is at and whichever of them are killed: no query of a new connection raises; a query returns only edges that were there at the start or that some process is asked to add, each once, and all those that were there and that nobody is asked to remove. An edge that a process was asked to add exists from the moment when it returns, if nobody is asked to remove it. An edge that a process was asked to remove does not exist from the moment when it returns, if nobody is asked to add it. Once all processes that are asked to add an edge have returned, and nobody removes it, every query returns it; once all that remove it have returned, and nobody adds it, none does.", "quantifier": "all start histories, programs, schedules of statements, kill points, edges and queries", "why_tests_cant": "all interleavings of any number of processes that conflict", "anchors": ["gb/hypergraph/sql.py:SQL.add", "gb/hypergraph/sql.py:SQL.add_raw", "gb/hypergraph/sql.py:SQL.remove", "gb/hypergraph/sql.py:SQL.remove_raw", "gb/hypergraph/sql.py:SQL.exists", "gb/hypergraph/hypergraph.py:HyperGraph.remove_by_pattern", "gb/hypergraph/hypergraph.py:HyperGraph.remove_belief"]}
{"id": "C93", "title": "The commands of the command line", "statement": "`create` and `shell` on an SQLite file end well, whether or not the file is there or complete; the file is then complete and has exactly what it had; one that was complete is left untouched; killed at any moment they lose nothing, and the next one completes what was begun. `wordnet` reads the corpus into the file: in the end the file has exactly what it had, the statements of the corpus and WordNet's support for each. Whatever commands were run before with whatever options, and however many of them were killed at whatever moment, `wordnet` run to its end has the same result and leaves the same tables as if it had been the first; and at every moment in between the file has what it had at first and some of the statements, each with its support. No command touches a file that `--db` does not name, and none at all with another backend or a temporary database. A command says `done.` exactly if it raised nothing. With `--backend mysql` every command raises KeyError.", "quantifier": "all commands, options, files, corpora, histories of the file, sequences of commands and kill points", "why_tests_cant": "any file that is there, any sequence of runs, any kill point", "anchors": ["gb/gbrain.py:cli", "gb/gbrain.py:create", "gb/gbrain.py:wordnet", "gb/gbrain.py:shell", "gb/tools/shell.py:Shell", "gb/readers/wordnet.py:read", "gb/hypergraph/sqlite.py:SQLite.create_tables", "gb/hypergraph/hypergraph.py:HyperGraph.__init__"]}
{"id": "C94", "title": "Edges when MySQL clients race, with removals", "statement": "Clients of one MySQL database add edges and remove edges, also the same ones, with no agreement among them. An edge that a client was asked to remove does not exist as soon as that client returned, if no client is asked to add it, and so forever after. No query returns an edge that nobody is asked to add, once a client that was asked to remove it (itself or by a pattern that it matches) has returned and all others that may remove it. Every query returns every edge that nobody is asked to remove, if it was there at the start or if some client is asked to add it and all those have returned without an exception, wherever the clients are that are about other edges, and whether or not they raised. When all have returned without an exception, all queries agree about every edge that was only added or only removed.", "quantifier": "all histories, numbers of clients, programs and interleavings of single statements", "why_tests_cant": "every interleaving of the statements of any number of clients", "anchors": ["gb/hypergraph/mysql.py:MySQL.__init__", "gb/hypergraph/sql.py:SQL.add", "gb/hypergraph/sql.py:SQL.remove", "gb/hypergraph/sql.py:SQL.exists", "gb/hypergraph/sql.py:SQL.batch_exec", "gb/hypergraph/hypergraph.py:HyperGraph.remove_by_pattern", "gb/hypergraph/hypergraph.py:HyperGraph.remove_belief"]}
{"id": "C95", "title": "MySQL clients that add the same edge, and raise", "statement": "Clients of one MySQL database add and remove edges with no agreement among them, and all edges fit the key. If nobody is asked to remove an edge, and every client that is asked to add it has come to an end, by returning or by an exception, then either every query returns the edge or none does: a client that loses the race leaves no half-written edge. If one of these clients returned without an exception, every query returns the edge, even if all the others raised.", "quantifier": "all histories, numbers of clients, programs and interleavings of single statements", "why_tests_cant": "every interleaving of the statements of any number of clients, and every place at which one of them raises", "anchors": ["gb/hypergraph/mysql.py:MySQL.__init__", "gb/hypergraph/sql.py:SQL.add", "gb/hypergraph/sql.py:SQL.update_or_insert", "gb/hypergraph/sql.py:SQL.exists", "gb/hypergraph/hypergraph.py:HyperGraph.add"]}
{"id": "C96", "title": "Degrees that do not fit the column", "statement": "Where the degree column holds numbers up to b (2147483647 on MySQL), every history does what it does without a limit or raises DataError: no degree wraps around or is cut off. A history that adds no text more than b times runs as if there was no limit, on MySQL with all its deviations too. After a history that went well, adding an edge succeeds, exactly as without limit, if the edge is there or the degrees of its elements leave room for counting them as often as they occur in it, and raises DataError otherwise; then no answer about edges changed, and exactly the elements before the first full one were counted.", "quantifier": "all bounds, histories, states, edges and (for the first part) servers", "why_tests_cant": "every history and every degree, including those no test can reach (2147483647 additions)", "anchors": ["gb/hypergraph/mysql.py:MySQL.__init__", "gb/hypergraph/sql.py:SQL.inc_degree", "gb/hypergraph/sql.py:SQL.dec_degree", "gb/hypergraph/sql.py:SQL.add_raw"]}
{"id": "C97", "title": "Catching exceptions and going on", "statement": "A program that adds, removes, destroys and queries, one edge at a time and outside of batches, catches every exception and goes on. On SQLite with its 64-bit integers, on a server whose degrees are limited to any b of at least 1, with both, and on MySQL with its row count, its keys (where the texts of the added edges fit them) and limited degrees: only additions raise; every answer about edges, in the end and when the database is opened again, is that of a program on SQLite without limits that makes only the calls that returned; so the edges there are those the specification gives for the calls that returned. Degrees and time stamps are not, but no degree is above the bound, and f_all still answers.", "quantifier": "all lists of such calls, all time stamps, all bounds b, both commit modes, both servers and their combination", "why_tests_cant": "every program, with refusals anywhere in it, any number of them, and anything after them", "anchors": ["gb/hypergraph/sql.py:SQL.add_raw", "gb/hypergraph/sql.py:SQL.remove_raw", "gb/hypergraph/sql.py:SQL.update_or_insert", "gb/hypergraph/hypergraph.py:HyperGraph.add"]}
