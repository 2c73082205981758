import Verif.Model.HyperGraph
import Verif.Model.History
import Verif.Props.Knowledge
import Verif.Py.Half

/-
Validation of the model, not claims: the project's own unit tests, run on the model.  Every `example` below is one test
method of a file in /repo/gb/*/tests (numbers with a fraction use the floats of Py/Half).  They are tests of the model's
faithfulness: what the project's authors wrote down as the result of the code is the result of the model.

The inputs of gb/knowledge/tests/test_extractor.py are English sentences, parsed by spaCy, which is not modelled.  For
them the parse is written out by hand, in spaCy's vocabulary of tags and relations; the texts that the test expects of
the first three stages then follow from `C60_default` by evaluation in the kernel.  The text of the fourth is compared
by running the model (`#guard`), which is a test and nothing else.
-/

namespace GB

/-! ### gb/hypergraph/tests/test_edge.py -/

/-- `('is', 'graphbrain/1', 'great/1')`. -/
def rtIs : HVal := .tup [sy "is", sy "graphbrain/1", sy "great/1"]
/-- `('size', 'graphbrain/1', -7.0)`. -/
def rtSize : HVal := .tup [sy "size", sy "graphbrain/1", fl (-14)]
/-- `('src', 'graphbrain/1', ('size', 'graphbrain/1', -7.0))`. -/
def rtSrc : HVal := .tup [sy "src", sy "graphbrain/1", rtSize]
/-- `('says', 'mary/1', ('is', 'graphbrain/1', 'great/1'))`. -/
def rtSays : HVal := .tup [sy "says", sy "mary/1", rtIs]

/-- test_edge.py `test_split_edge_str`. -/
example : [lit "(is graphbrain/1 great/1)", lit "(size graphbrain/1 7)", lit "(size graphbrain/1 7.0)",
      lit "(size graphbrain/1 -7)", lit "(size graphbrain/1 -7.0)", lit "(src graphbrain/1 (is graphbrain/1 great/1))"].map
        splitEdgeStr =
    [.ok [lit "is", lit "graphbrain/1", lit "great/1"], .ok [lit "size", lit "graphbrain/1", lit "7"],
     .ok [lit "size", lit "graphbrain/1", lit "7.0"], .ok [lit "size", lit "graphbrain/1", lit "-7"],
     .ok [lit "size", lit "graphbrain/1", lit "-7.0"],
     .ok [lit "src", lit "graphbrain/1", lit "(is graphbrain/1 great/1)"]] := by decide +kernel

/-- test_edge.py `test_str2edge`. -/
example : [lit "(is graphbrain/1 great/1)", lit "(size graphbrain/1 7)", lit "(size graphbrain/1 7.0)",
      lit "(size graphbrain/1 -7)", lit "(size graphbrain/1 -7.0)", lit "(src graphbrain/1 (is graphbrain/1 great/1))"].map
        (str2edge (F := Half)) =
    [.ok rtIs, .ok (.tup [sy "size", sy "graphbrain/1", .int 7]), .ok (.tup [sy "size", sy "graphbrain/1", fl 14]),
     .ok (.tup [sy "size", sy "graphbrain/1", .int (-7)]), .ok rtSize,
     .ok (.tup [sy "src", sy "graphbrain/1", rtIs])] := by decide +kernel

/-- test_edge.py `test_edge2str`. -/
example : [rtIs, .tup [sy "size", sy "graphbrain/1", .int 7], .tup [sy "size", sy "graphbrain/1", fl 14], rtSize,
      .tup [sy "src", sy "graphbrain/1", rtIs]].map edge2str =
    [lit "(is graphbrain/1 great/1)", lit "(size graphbrain/1 7)", lit "(size graphbrain/1 7.0)",
     lit "(size graphbrain/1 -7.0)", lit "(src graphbrain/1 (is graphbrain/1 great/1))"] := by decide +kernel

/-- test_edge.py `test_is_negative`, `test_negative`. -/
example : edgeIsNegative (.tup [sy "~is", sy "graphbrain/1", sy "great/1"]) = .ok true ∧
    edgeIsNegative rtIs = .ok false ∧
    edgeNegative (.tup [sy "~is", sy "graphbrain/1", sy "great/1"]) = .ok rtIs ∧
    edgeNegative rtIs = .ok (.tup [sy "~is", sy "graphbrain/1", sy "great/1"]) := by decide +kernel

/-! ### gb/hypergraph/tests/test_symbol.py -/

/-- `test_hashed`. -/
example : hashed (lit "graphbrain/1") = lit "821dd667c0d1e35b" := by decide +kernel

/-- `test_sym_type` (`-8.5` for `-7.9`). -/
example : [sy "graphbrain/1", .int 42, fl (-17), sy "http://graphbrain.org", sy "https://graphbrain.org"].map symType =
    [.concept, .integer, .float, .url, .url] := by decide +kernel

/-- `test_parts`. -/
example : [sy "graphbrain/1", sy "graphbrain", sy "http://graphbrain.org", .int 1, fl 2].map symParts =
    [[sy "graphbrain", sy "1"], [sy "graphbrain"], [sy "http://graphbrain.org"], [.int 1], [fl 2]] := by decide +kernel

/-- `test_root`. -/
example : [sy "graphbrain/1", sy "graphbrain", sy "http://graphbrain.org", .int 1, fl 2].map symRoot =
    [.ok (sy "graphbrain"), .ok (sy "graphbrain"), .ok (sy "http://graphbrain.org"), .ok (.int 1), .ok (fl 2)] := by
  decide +kernel

/-- `test_nspace`. -/
example : [sy "graphbrain/1", sy "graphbrain", sy "http://graphbrain.org", .int 1, fl 2].map symNspace =
    [some (sy "1"), none, none, none, none] := by decide +kernel

/-- `test_is_root`. -/
example : [sy "graphbrain/1", sy "graphbrain", sy "http://graphbrain.org", .int 1, fl 2].map symIsRoot =
    [.ok false, .ok true, .ok true, .ok true, .ok true] := by decide +kernel

/-- `test_build`, `test_is_negative`, `test_negative`. -/
example : symBuild [lit "graphbrain", lit "1"] = lit "graphbrain/1" ∧ symIsNegative (lit "~is") = .ok true ∧
    symIsNegative (lit "is") = .ok false ∧ symNegative (lit "~is") = .ok (lit "is") ∧
    symNegative (lit "is") = .ok (lit "~is") := by decide +kernel

/-! ### gb/hypergraph/tests/test_sql.py -/

/-- `test_perms`. -/
example : ([0, 1, 2, 3, 4, 5] : List Int).map (nthperm ['a', 'b', 'c']) =
    [.ok ['a', 'b', 'c'], .ok ['a', 'c', 'b'], .ok ['b', 'a', 'c'], .ok ['b', 'c', 'a'], .ok ['c', 'a', 'b'],
     .ok ['c', 'b', 'a']] := by decide +kernel

/-- `test_unperm`. -/
example : [unpermutate ['a', 'b', 'c'] 0, unpermutate ['a', 'c', 'b'] 1, unpermutate ['b', 'a', 'c'] 2,
      unpermutate ['b', 'c', 'a'] 3, unpermutate ['c', 'a', 'b'] 4, unpermutate ['c', 'b', 'a'] 5] =
    List.replicate 6 (.ok ['a', 'b', 'c']) := by decide +kernel

/-! ### gb/hypergraph/tests/aux_backend.py, on the SQL backend (test_sqlite.py, test_mysql.py, test_hypergraph.py) -/

/-- `exists` before and after `remove` of what was added. -/
def rtOps (e : HVal) : M (List Bool) := do
  let _ ← hgAdd e (-1)
  let a ← hgExists e
  hgRemove e
  let b ← hgExists e
  pure [a, b]

/-- `test_ops_1` to `test_ops_6`. -/
example : [rtIs, .tup [sy "size", sy "graphbrain/1", .int 7], .tup [sy "size", sy "graphbrain/1", fl 14],
      .tup [sy "size", sy "graphbrain/1", .int (-7)], rtSize, rtSrc].map (fun e => (rtOps e (St.new false)).1) =
    List.replicate 6 (.ok [true, false]) := by decide +kernel

/-- `test_destroy`. -/
example : ((do
    let _ ← hgAdd rtSrc (-1)
    let a ← hgExists rtSrc
    hgDestroy
    let b ← hgExists rtSrc
    pure [a, b] : M (List Bool)) (St.new false)).1 = .ok [true, false] := by decide +kernel

/-- `test_pattern2edges`. -/
example : ((do
    let _ ← hgAdd rtIs (-1)
    let _ ← hgAdd rtSays (-1)
    let a ← hgPattern2edges (.tup [.none, sy "graphbrain/1", .none])
    let b ← hgPattern2edges (.tup [sy "is", sy "graphbrain/1", .none])
    let c ← hgPattern2edges (.tup [sy "x", .none, .none])
    let d ← hgPattern2edges (.tup [sy "says", .none, rtIs])
    hgRemove rtIs
    hgRemove rtSays
    pure [a, b, c, d] : M (List (List HVal))) (St.new false)).1 = .ok [[rtIs], [rtIs], [], [rtSays]] := by decide +kernel

/-- `test_star`. -/
example : ((do
    let _ ← hgAdd rtIs (-1)
    let a ← hgStar (sy "graphbrain/1")
    let b ← hgStar (sy "graphbrain/2")
    hgRemove rtIs
    pure [a, b] : M (List (List HVal))) (St.new false)).1 = .ok [[rtIs], []] := by decide +kernel

/-- `test_symbols_with_root`. -/
example : ((do
    let _ ← hgAdd rtIs (-1)
    let a ← hgSymbolsWithRoot (lit "graphbrain")
    let _ ← hgAdd (.tup [sy "is", sy "graphbrain/2", sy "great/1"]) (-1)
    let b ← hgSymbolsWithRoot (lit "graphbrain")
    hgRemove rtIs
    hgRemove (.tup [sy "is", sy "graphbrain/2", sy "great/1"])
    let c ← hgSymbolsWithRoot (lit "graphbrain")
    pure [a, b, c] : M (List (List Str))) (St.new false)).1 =
      .ok [[lit "graphbrain/1"], [lit "graphbrain/1", lit "graphbrain/2"], []] := by decide +kernel

/-- `test_degree`. -/
example : ((do
    let a ← hgDegree (sy "graphbrain/1")
    let _ ← hgAdd rtIs (-1)
    let b ← hgDegree (sy "graphbrain/1")
    let c ← hgDegree (sy "great/1")
    let _ ← hgAdd (.tup [sy "size", sy "graphbrain/1", .int 7]) (-1)
    let d ← hgDegree (sy "graphbrain/1")
    let e ← hgDegree (sy "great/1")
    hgRemove rtIs
    let f ← hgDegree (sy "graphbrain/1")
    let g ← hgDegree (sy "great/1")
    hgRemove (.tup [sy "size", sy "graphbrain/1", .int 7])
    let h ← hgDegree (sy "graphbrain/1")
    pure [a, b, c, d, e, f, g, h] : M (List Int)) (St.new false)).1 = .ok [0, 1, 1, 2, 1, 1, 0, 0] := by decide +kernel

/-- `test_timestamp`. -/
example : ((do
    hgDestroy
    let a ← hgTimestamp (sy "graphbrain/1")
    let _ ← hgAdd rtIs 123456789
    let b ← hgTimestamp (sy "graphbrain/1")
    let c ← hgTimestamp (sy "great/1")
    let d ← hgTimestamp rtIs
    hgRemove rtIs
    let e ← hgTimestamp (sy "graphbrain/1")
    let f ← hgTimestamp (sy "great/1")
    let g ← hgTimestamp rtIs
    pure [a, b, c, d, e, f, g] : M (List Int)) (St.new false)).1 =
      .ok [-1, 123456789, 123456789, 123456789, 123456789, 123456789, -1] := by decide +kernel

/-- `test_add_remove_multiple`. -/
example : ((do
    let _ ← hgAdd (.tup [rtIs, rtSrc]) (-1)
    let a ← hgExists rtIs
    let b ← hgExists rtSrc
    hgRemove (.tup [rtIs, rtSrc])
    let c ← hgExists rtIs
    let d ← hgExists rtSrc
    pure [a, b, c, d] : M (List Bool)) (St.new false)).1 = .ok [true, true, false, false] := by decide +kernel

/-- `test_batch_exec`. -/
example : ((do
    hgBatchExec [(do let _ ← hgAdd rtIs (-1)), (do let _ ← hgAdd rtSrc (-1))]
    let a ← hgExists rtIs
    let b ← hgExists rtSrc
    hgBatchExec [hgRemove rtIs, hgRemove rtSrc]
    let c ← hgExists rtIs
    let d ← hgExists rtSrc
    pure [a, b, c, d] : M (List Bool)) (St.new false)).1 = .ok [true, true, false, false] := by decide +kernel

/-- `test_f_all` (the sets of labels are compared as sorted by insertion). -/
example : ((do
    hgDestroy
    let _ ← hgAdd rtSize (-1)
    let _ ← hgAdd rtIs (-1)
    let _ ← hgAdd (.tup [sy "src", sy "mary/1", rtIs]) (-1)
    let a ← hgFAll fun (v : HVal) d => edge2str v ++ lit " " ++ intStr d
    hgDestroy
    let b ← hgFAll fun (v : HVal) d => edge2str v ++ lit " " ++ intStr d
    pure [a, b] : M (List (List Str))) (St.new false)).1 =
      .ok [[lit "size 1", lit "graphbrain/1 2", lit "-7.0 1", lit "(size graphbrain/1 -7.0) 0", lit "is 1",
        lit "great/1 1", lit "(is graphbrain/1 great/1) 1", lit "src 1", lit "mary/1 1",
        lit "(src mary/1 (is graphbrain/1 great/1)) 0"], []] := by decide +kernel

/-! ### gb/knowledge/tests/test_extractor.py -/

/-- A token of a hand-written parse: word, tag, relation, children to the left and right. -/
def rtTok (w p d : String) (l r : List Tok) (ent : String := "") : Tok :=
  .mk ⟨lit w, lit w, lit p, lit d, if ent = "" then none else some (lit ent), false⟩ l r

/-- `extractor.outputs[:4]` after `read_text`. -/
def rtOutputs (s : Tok) : List Str :=
  ((readSentence (F := Half) (fun _ => []) 400 defaultStages [s]).outputs).take 4

/-- The texts of the first three stages. -/
theorem rt_three {s : Tok} {a b c : Str} (hs : s.info.dep = lit "ROOT")
    (h : [(alphaTree s).text, (alphaTree s).beta.text, (alphaTree s).beta.gamma.text] = [a, b, c]) (pyStr : HVal → Str) :
    ∃ (v : HVal) (d : STree), Yields (fun k => readSentence pyStr k defaultStages [s])
      ⟨.ok (.edge v), [a, b, c, d.text, pyStr v]⟩ := by
  obtain ⟨v, _, d, _, _, _, _, _, _, _, _, _, _, hy⟩ := C60_default (F := Half) (pyStr := pyStr) (s := [s]) (x := s)
    (by rw [sentenceRoot, if_pos hs])
  injection h with h1 h
  injection h with h2 h
  injection h with h3 h
  rw [h1, h2, h3] at hy
  exact ⟨v, d, hy⟩

/-- "Some subspecies of mosquito might be 1st to be genetically wiped out." -/
def rtSentence1 : Tok := rtTok "be" "VERB" "ROOT"
  [rtTok "subspecies" "NOUN" "nsubj" [rtTok "some" "DET" "det" [] []] [rtTok "of" "ADP" "prep" [] [rtTok "mosquito" "NOUN" "pobj" [] []]],
   rtTok "might" "VERB" "aux" [] []]
  [rtTok "1st" "ADJ" "attr" [] [rtTok "wiped" "VERB" "relcl" [rtTok "to" "PART" "aux" [] [], rtTok "be" "VERB" "auxpass" [] [], rtTok "genetically" "ADV" "advmod" [] []] [rtTok "out" "PART" "prt" [] []]]]

/-- `test_1`. -/
example (pyStr : HVal → Str) : ∃ (v : HVal) (d : STree), Yields (fun k => readSentence pyStr k defaultStages [rtSentence1])
    ⟨.ok (.edge v), [
      lit "(might (be (some (of subspecies mosquito)) (1st (to (be (genetically (wiped out)))))))",
      lit "(might (be (some (of subspecies mosquito)) (1st (to (be (genetically (wiped out)))))))",
      lit "(might_be (some (of subspecies mosquito)) (1st (to_be_genetically wiped_out)))",
      d.text, pyStr v]⟩ :=
  rt_three (by decide +kernel) (by decide +kernel) pyStr

#guard rtOutputs rtSentence1 = [
  lit "(might (be (some (of subspecies mosquito)) (1st (to (be (genetically (wiped out)))))))",
  lit "(might (be (some (of subspecies mosquito)) (1st (to (be (genetically (wiped out)))))))",
  lit "(might_be (some (of subspecies mosquito)) (1st (to_be_genetically wiped_out)))",
  lit "(might_be (some (of subspecies mosquito)) (1st (to_be_genetically wiped_out)))"]

/-- "Telmo is going to the gym." -/
def rtSentence2 : Tok := rtTok "going" "VERB" "ROOT" [rtTok "telmo" "PROPN" "nsubj" [] [] , rtTok "is" "VERB" "aux" [] []]
  [rtTok "to" "ADP" "prep" [] [rtTok "gym" "NOUN" "pobj" [rtTok "the" "DET" "det" [] []] []], rtTok "." "PUNCT" "punct" [] []]

/-- `test_2`. -/
example (pyStr : HVal → Str) : ∃ (v : HVal) (d : STree), Yields (fun k => readSentence pyStr k defaultStages [rtSentence2])
    ⟨.ok (.edge v), [
      lit "(is (going telmo (to (the gym))))",
      lit "(is (going telmo (to (the gym))))",
      lit "(is_going telmo (to gym))",
      d.text, pyStr v]⟩ :=
  rt_three (by decide +kernel) (by decide +kernel) pyStr

#guard rtOutputs rtSentence2 = [
  lit "(is (going telmo (to (the gym))))",
  lit "(is (going telmo (to (the gym))))",
  lit "(is_going telmo (to gym))",
  lit "(is_going_to telmo gym)"]

/-- "Due to its location in the European Plain, Berlin is influenced by a temperate seasonal climate." -/
def rtSentence3 : Tok := rtTok "influenced" "VERB" "ROOT"
  [rtTok "due" "ADP" "prep" [] [rtTok "to" "ADP" "pcomp" [] [], rtTok "location" "NOUN" "pobj" [rtTok "its" "ADJ" "poss" [] []]
      [rtTok "in" "ADP" "prep" [] [rtTok "plain" "PROPN" "pobj" [rtTok "the" "DET" "det" [] [], rtTok "european" "PROPN" "compound" [] []] []]]],
   rtTok "," "PUNCT" "punct" [] [], rtTok "berlin" "PROPN" "nsubjpass" [] [], rtTok "is" "VERB" "auxpass" [] []]
  [rtTok "by" "ADP" "agent" [] [rtTok "climate" "NOUN" "pobj" [rtTok "a" "DET" "det" [] [], rtTok "temperate" "ADJ" "amod" [] [], rtTok "seasonal" "ADJ" "amod" [] []] []]]

/-- `test_3`. -/
example (pyStr : HVal → Str) : ∃ (v : HVal) (d : STree), Yields (fun k => readSentence pyStr k defaultStages [rtSentence3])
    ⟨.ok (.edge v), [
      lit "(is (by (influenced ((due to) (its (in location (the (european plain))))) berlin) (a (temperate (seasonal climate)))))",
      lit "(is (by (influenced ((due to) (its (in location (the european_plain)))) berlin) (a (temperate (seasonal climate)))))",
      lit "(is_by (influenced (due_to (its (in location european_plain))) berlin) (temperate (seasonal climate)))",
      d.text, pyStr v]⟩ :=
  rt_three (by decide +kernel) (by decide +kernel) pyStr

#guard rtOutputs rtSentence3 = [
  lit "(is (by (influenced ((due to) (its (in location (the (european plain))))) berlin) (a (temperate (seasonal climate)))))",
  lit "(is (by (influenced ((due to) (its (in location (the european_plain)))) berlin) (a (temperate (seasonal climate)))))",
  lit "(is_by (influenced (due_to (its (in location european_plain))) berlin) (temperate (seasonal climate)))",
  lit "((influenced_due_to is_by) (its (in location european_plain)) berlin (temperate (seasonal climate)))"]

/-- "Koikuchi shoyu, best known as soy sauce, is the mother of all sauces in Japan." -/
def rtSentence4 : Tok := rtTok "is" "VERB" "ROOT"
  [rtTok "shoyu" "PROPN" "nsubj" [rtTok "koikuchi" "PROPN" "compound" [] []]
     [rtTok "," "PUNCT" "punct" [] [], rtTok "known" "VERB" "acl" [rtTok "best" "ADV" "advmod" [] []] [rtTok "as" "ADP" "prep" [] [rtTok "sauce" "NOUN" "pobj" [rtTok "soy" "NOUN" "compound" [] []] []]]]]
  [rtTok "mother" "NOUN" "attr" [rtTok "the" "DET" "det" [] []]
     [rtTok "of" "ADP" "prep" [] [rtTok "sauces" "NOUN" "pobj" [rtTok "all" "DET" "det" [] []] []], rtTok "in" "ADP" "prep" [] [rtTok "japan" "PROPN" "pobj" [] []]]]

/-- `test_4`. -/
example (pyStr : HVal → Str) : ∃ (v : HVal) (d : STree), Yields (fun k => readSentence pyStr k defaultStages [rtSentence4])
    ⟨.ok (.edge v), [
      lit "(is ((koikuchi shoyu) (best (known (as (soy sauce))))) (the (of (in mother japan) (all sauces))))",
      lit "(is (koikuchi_shoyu (best (known (as soy_sauce)))) (the (of (in mother japan) (all sauces))))",
      lit "(is (koikuchi_shoyu (best_known_as soy_sauce)) (of (in mother japan) (all sauces)))",
      d.text, pyStr v]⟩ :=
  rt_three (by decide +kernel) (by decide +kernel) pyStr

#guard rtOutputs rtSentence4 = [
  lit "(is ((koikuchi shoyu) (best (known (as (soy sauce))))) (the (of (in mother japan) (all sauces))))",
  lit "(is (koikuchi_shoyu (best (known (as soy_sauce)))) (the (of (in mother japan) (all sauces))))",
  lit "(is (koikuchi_shoyu (best_known_as soy_sauce)) (of (in mother japan) (all sauces)))",
  lit "((is of) (koikuchi_shoyu (best_known_as soy_sauce)) (in mother japan) (all sauces))"]

/-- "Sweden is the third-largest country in the European Union by area." -/
def rtSentence5 : Tok := rtTok "is" "VERB" "ROOT" [rtTok "sweden" "PROPN" "nsubj" [] []]
  [rtTok "country" "NOUN" "attr" [rtTok "the" "DET" "det" [] [], rtTok "largest" "ADJ" "amod" [rtTok "third" "ADV" "advmod" [] [], rtTok "-" "PUNCT" "punct" [] []] []]
     [rtTok "in" "ADP" "prep" [] [rtTok "union" "PROPN" "pobj" [rtTok "the" "DET" "det" [] [], rtTok "european" "PROPN" "compound" [] []] []],
      rtTok "by" "ADP" "prep" [] [rtTok "area" "NOUN" "pobj" [] []]]]

/-- `test_5`. -/
example (pyStr : HVal → Str) : ∃ (v : HVal) (d : STree), Yields (fun k => readSentence pyStr k defaultStages [rtSentence5])
    ⟨.ok (.edge v), [
      lit "(is sweden (the (third (largest (in (by country area) (the (european union)))))))",
      lit "(is sweden (the (third (largest (in (by country area) (the european_union))))))",
      lit "(is sweden (third (largest (in (by country area) european_union))))",
      d.text, pyStr v]⟩ :=
  rt_three (by decide +kernel) (by decide +kernel) pyStr

#guard rtOutputs rtSentence5 = [
  lit "(is sweden (the (third (largest (in (by country area) (the (european union)))))))",
  lit "(is sweden (the (third (largest (in (by country area) (the european_union))))))",
  lit "(is sweden (third (largest (in (by country area) european_union))))",
  lit "(is_third sweden (largest (in (by country area) european_union)))"]

/-- "Sweden wants to fight our disposable culture with tax breaks for repairing old stuff." -/
def rtSentence6 : Tok := rtTok "wants" "VERB" "ROOT" [rtTok "sweden" "PROPN" "nsubj" [] []]
  [rtTok "fight" "VERB" "xcomp" [rtTok "to" "PART" "aux" [] []]
    [rtTok "culture" "NOUN" "dobj" [rtTok "our" "ADJ" "poss" [] [], rtTok "disposable" "ADJ" "amod" [] []] [],
     rtTok "with" "ADP" "prep" [] [rtTok "breaks" "NOUN" "pobj" [rtTok "tax" "NOUN" "compound" [] []]
        [rtTok "for" "ADP" "prep" [] [rtTok "repairing" "VERB" "pcomp" [] [rtTok "stuff" "NOUN" "dobj" [rtTok "old" "ADJ" "amod" [] []] []]]]]]]

/-- `test_6`. -/
example (pyStr : HVal → Str) : ∃ (v : HVal) (d : STree), Yields (fun k => readSentence pyStr k defaultStages [rtSentence6])
    ⟨.ok (.edge v), [
      lit "(wants sweden (to (fight (our (disposable culture)) (with ((for (repairing (old stuff))) (tax breaks))))))",
      lit "(wants sweden (to (fight (our (disposable culture)) (with ((for (repairing (old stuff))) tax_breaks)))))",
      lit "(wants sweden (to_fight (our (disposable culture)) (with ((for_repairing (old stuff)) tax_breaks))))",
      d.text, pyStr v]⟩ :=
  rt_three (by decide +kernel) (by decide +kernel) pyStr

#guard rtOutputs rtSentence6 = [
  lit "(wants sweden (to (fight (our (disposable culture)) (with ((for (repairing (old stuff))) (tax breaks))))))",
  lit "(wants sweden (to (fight (our (disposable culture)) (with ((for (repairing (old stuff))) tax_breaks)))))",
  lit "(wants sweden (to_fight (our (disposable culture)) (with ((for_repairing (old stuff)) tax_breaks))))",
  lit "((wants_to_fight with) sweden (our (disposable culture)) ((for_repairing (old stuff)) tax_breaks))"]

/-- "OpenCola is a brand of open-source cola, where the instructions for making it are freely available and modifiable." -/
def rtSentence7 : Tok := rtTok "is" "VERB" "ROOT" [rtTok "opencola" "PROPN" "nsubj" [] []]
  [rtTok "brand" "NOUN" "attr" [rtTok "a" "DET" "det" [] []]
     [rtTok "of" "ADP" "prep" [] [rtTok "cola" "NOUN" "pobj" [rtTok "source" "NOUN" "compound" [rtTok "open" "ADJ" "amod" [] []] []]
       [rtTok "are" "VERB" "relcl" [rtTok "where" "ADV" "advmod" [] [], rtTok "instructions" "NOUN" "nsubj" [rtTok "the" "DET" "det" [] []] [rtTok "for" "ADP" "prep" [] [rtTok "making" "VERB" "pcomp" [] []]], rtTok "it" "PRON" "nsubj" [] []]
         [rtTok "available" "ADJ" "acomp" [rtTok "freely" "ADV" "advmod" [] []] [rtTok "and" "CONJ" "cc" [] [], rtTok "modifiable" "ADJ" "conj" [] []]]]]]]

/-- `test_7`. -/
example (pyStr : HVal → Str) : ∃ (v : HVal) (d : STree), Yields (fun k => readSentence pyStr k defaultStages [rtSentence7])
    ⟨.ok (.edge v), [
      lit "(is opencola (a (of brand (((open source) cola) (where (are (the ((for making) instructions)) it (freely (and (available modifiable)))))))))",
      lit "(is opencola (a (of brand (((open source) cola) (where (are (the ((for making) instructions)) it (freely (and (available modifiable)))))))))",
      lit "(is opencola (of brand (((open source) cola) (where_are (for_making instructions) it (freely (and (available modifiable)))))))",
      d.text, pyStr v]⟩ :=
  rt_three (by decide +kernel) (by decide +kernel) pyStr

#guard rtOutputs rtSentence7 = [
  lit "(is opencola (a (of brand (((open source) cola) (where (are (the ((for making) instructions)) it (freely (and (available modifiable)))))))))",
  lit "(is opencola (a (of brand (((open source) cola) (where (are (the ((for making) instructions)) it (freely (and (available modifiable)))))))))",
  lit "(is opencola (of brand (((open source) cola) (where_are (for_making instructions) it (freely (and (available modifiable)))))))",
  lit "((is of) opencola brand ((open source cola) (where_are (for_making instructions) it (freely (and (available modifiable))))))"]

/-- "2016 Nobel Prize in Physiology or Medicine Is Awarded to Yoshinori Ohsumi." -/
def rtSentence8 : Tok := rtTok "awarded" "VERB" "ROOT"
  [rtTok "prize" "PROPN" "nsubjpass" [rtTok "2016" "NUM" "nummod" [] [], rtTok "nobel" "PROPN" "compound" [] [] "WORK_OF_ART"]
     [rtTok "in" "ADP" "prep" [] [rtTok "physiology" "PROPN" "pobj" [] [rtTok "or" "CONJ" "cc" [] [], rtTok "medicine" "PROPN" "conj" [] []]]] "WORK_OF_ART",
   rtTok "is" "VERB" "auxpass" [] []]
  [rtTok "to" "ADP" "prep" [] [rtTok "ohsumi" "PROPN" "pobj" [rtTok "yoshinori" "PROPN" "compound" [] []] []], rtTok "." "PUNCT" "punct" [] []]

/-- `test_8`. -/
example (pyStr : HVal → Str) : ∃ (v : HVal) (d : STree), Yields (fun k => readSentence pyStr k defaultStages [rtSentence8])
    ⟨.ok (.edge v), [
      lit "(is (awarded (2016 (in (nobel prize) (or (physiology medicine)))) (to (yoshinori ohsumi))))",
      lit "(is (awarded (2016 (in nobel_prize (or (physiology medicine)))) (to yoshinori_ohsumi)))",
      lit "(is_awarded (2016 (in nobel_prize (or (physiology medicine)))) (to yoshinori_ohsumi))",
      d.text, pyStr v]⟩ :=
  rt_three (by decide +kernel) (by decide +kernel) pyStr

#guard rtOutputs rtSentence8 = [
  lit "(is (awarded (2016 (in (nobel prize) (or (physiology medicine)))) (to (yoshinori ohsumi))))",
  lit "(is (awarded (2016 (in nobel_prize (or (physiology medicine)))) (to yoshinori_ohsumi)))",
  lit "(is_awarded (2016 (in nobel_prize (or (physiology medicine)))) (to yoshinori_ohsumi))",
  lit "(is_awarded_to (2016 (in nobel_prize (or (physiology medicine)))) yoshinori_ohsumi)"]

end GB
