import Verif.Model.History

/-
gb/hypergraph/edge.py, sql.py and hypergraph.py once more, with Python's limit on the depth of calls
(`sys.getrecursionlimit()`): every call of a Python function, and every list comprehension or generator expression that is
running, takes one frame of the stack (CPython up to 3.11; later versions need no frame for list comprehensions); when no
frame is left, `RecursionError` is raised.  The first argument of every definition is the number of frames that are left
where the function is called.  Builtin functions, and the methods of the database driver, take no frame.  The bodies are
those of Model/Edge.lean, Perm.lean, Sql.lean and HyperGraph.lean.

Simplification: CPython also counts the nesting of some builtin operations (comparing nested tuples); these are not deeper
than the calls counted here, for the edges that the functions below have read.
-/

namespace GB

variable {F : Type} [PyFloat F]

/-- Entering a Python function with `k` frames left. -/
def enter {α : Type} : Nat → (Nat → Except PyErr α) → Except PyErr α
  | 0, _ => .error .recursionError
  | k + 1, f => f k

/-- Entering a method with `k` frames left. -/
def enterM {α : Type} : Nat → (Nat → M α) → M α
  | 0, _ => raise .recursionError
  | k + 1, f => f k

/-! ### gb/hypergraph/edge.py -/

/-- gb/hypergraph/edge.py:34-39 `open_pars`. -/
def openParsR (k : Nat) (s : Str) : Except PyErr Nat := enter k fun _ => openPars s

/-- gb/hypergraph/edge.py:42-47 `close_pars`. -/
def closeParsR (k : Nat) (s : Str) : Except PyErr Nat := enter k fun _ => closePars s

/-- gb/hypergraph/edge.py:104-118: the loop of `split_edge_str`. -/
def splitLoopR (k : Nat) : Option Str → Int → List Str → Except PyErr (List Str)
  | _, _, [] => .ok []
  | cur, depth, tok :: stoks => do
    let o ← openParsR k tok
    let c ← closeParsR k tok
    let depth' := depth + o - c
    let cur' := match cur with
      | none => tok
      | some t => t ++ lit " " ++ tok
    if depth' = 0 then
      let rest ← splitLoopR k none depth' stoks
      .ok (cur' :: rest)
    else splitLoopR k (some cur') depth' stoks

/-- gb/hypergraph/edge.py:92-118 `split_edge_str`. -/
def splitEdgeStrR (k : Nat) (s : Str) : Except PyErr (List Str) :=
  enter k fun k =>
    match s with
    | [] => .error .indexError
    | c :: rest =>
      if c = '(' then splitLoopR k none 0 (pySplit rest.dropLast)
      else splitLoopR k none 0 (pySplit (c :: rest))

/-- gb/hypergraph/edge.py:83-89: the branch of `parsed_token` that calls `token_type`. -/
def parsedAtomR (k : Nat) (token : Str) : Except PyErr (Val F) := enter k fun _ => parsedAtom token

mutual
/-- gb/hypergraph/edge.py:121-128 `str2edge`. -/
def str2edgeR : Nat → Str → Except PyErr (Val F)
  | 0, _ => .error .recursionError
  | k + 1, s => do
    let tokens ← splitEdgeStrR k s
    let elements ← tokensR k tokens
    packEdge elements
/-- gb/hypergraph/edge.py:124: the generator expression in `str2edge`. -/
def tokensR : Nat → List Str → Except PyErr (List (Val F))
  | 0, _ => .error .recursionError
  | k + 1, tokens => mapE (parsedTokenR k) tokens
/-- gb/hypergraph/edge.py:78-89 `parsed_token`. -/
def parsedTokenR : Nat → Str → Except PyErr (Val F)
  | 0, _ => .error .recursionError
  | k + 1, token =>
    match token with
    | [] => .error .indexError
    | c :: t => if c = '(' then str2edgeR k (c :: t) else parsedAtomR k (c :: t)
end

/-- gb/hypergraph/symbol.py:56-72 `sym_type`, as far as edge.py uses it: whether the type is EDGE. -/
def isEdgeR (k : Nat) (v : Val F) : Except PyErr Bool := enter k fun _ => .ok v.isSeq

mutual
/-- gb/hypergraph/edge.py:142-147 `edge2str`. -/
def edge2strR : Nat → Val F → Except PyErr Str
  | 0, _ => .error .recursionError
  | k + 1, v => do
    let _ ← isEdgeR k v
    match v with
    | .seq _ xs => do
      let t ← nodes2strR k xs
      .ok (lit "(" ++ t ++ lit ")")
    | v => .ok (atomStr v)
/-- gb/hypergraph/edge.py:131-139 `nodes2str`. -/
def nodes2strR : Nat → List (Val F) → Except PyErr Str
  | 0, _ => .error .recursionError
  | k + 1, xs => do
    let ts ← mapE (fun x => do
      let b ← isEdgeR k x
      if b then edge2strR k x else .ok (atomStr x)) xs
    .ok (pyJoin (lit " ") ts)
end

/-! ### functions of gb/hypergraph/sql.py -/

/-- gb/hypergraph/sql.py:28-38 `nthperm`: a list comprehension at the start, a generator expression at the end. -/
def nthpermR {α : Type} (k : Nat) (li : List α) (n : Int) : Except PyErr (List α) :=
  enter k fun k => enter k fun _ => nthperm li n

/-- gb/hypergraph/sql.py:44-46: one turn of `do_with_edge_permutations`, up to the call of `f`; the list comprehension takes
a frame. -/
def permStrR (k : Nat) (edge : List (Val F)) (nperm : Nat) : Except PyErr Str := do
  let p ← nthpermR k edge nperm
  let ts ← enter k fun k => mapE (edge2strR k) p
  .ok (pyJoin (lit " ") ts ++ lit " " ++ natStr nperm)

/-- gb/hypergraph/sql.py:50-62 `unpermutate`. -/
def unpermutateR {α : Type} (k : Nat) (tokens : List α) (nper : Int) : Except PyErr (List α) :=
  enter k fun k => do
    enter k fun _ => .ok ()
    let indices ← nthpermR k (List.range tokens.length) nper
    let res ← unpermLoop tokens 0 (List.replicate tokens.length none) indices
    mapE (fun o => match o with
      | some x => .ok x
      | none => .error .typeError) res

/-- gb/hypergraph/sql.py:69-75: one turn of the loop of `cur2edges`. -/
def decodeRowR (k : Nat) (row : Str) : Except PyErr (Val F) := do
  let tokens ← splitEdgeStrR k row
  match tokens.getLast? with
  | none => .error .indexError
  | some last => do
    let nper ← pyInt last
    let tokens' ← unpermutateR k tokens.dropLast nper
    str2edgeR k (pyJoin (lit " ") tokens')

/-- gb/hypergraph/sql.py:65-76 `cur2edges`. -/
def cur2edgesR (k : Nat) (rows : List Str) : Except PyErr (List (Val F)) :=
  enter k fun k => do
    let edges ← mapE (decodeRowR k) rows
    .ok (pySet edges)

/-- gb/hypergraph/sql.py:79-83 `str_plus_1`. -/
def strPlus1R (k : Nat) (s : Str) : Except PyErr Str := enter k fun _ => strPlus1 s

/-- gb/hypergraph/sql.py:86-94 `edge_matches_pattern`. -/
def edgeMatchesPatternR (k : Nat) (edge pattern : Val F) : Except PyErr Bool :=
  enter k fun _ => edgeMatchesPattern edge pattern

/-! ### class SQL -/

/-- gb/hypergraph/sql.py:110-119 `open_cursor`. -/
def openCursorR (k : Nat) (loc : Bool) : M Cursor := enterM k fun _ => openCursor loc

/-- gb/hypergraph/sql.py:121-131 `close_cursor`. -/
def closeCursorR (k : Nat) (loc commit : Bool) : M Unit := enterM k fun _ => closeCursor loc commit

/-- A list comprehension over the columns (gb/hypergraph/sql.py:137, 138, 143) that does nothing but take a frame. -/
def comprR (k : Nat) : M Unit := enterM k fun _ => pure ()

/-- gb/hypergraph/sql.py:133-147 `update_or_insert` on table `vertices`. -/
def updateOrInsertVertexR (k : Nat) (id : Str) (deg ts : Int) : M Unit :=
  enterM k fun k => do
    let cur ← openCursorR k true
    comprR k
    let rowcount ← execWrite cur fun db => some (db.updateVertex id deg ts)
    if rowcount = 0 then
      comprR k
      execWrite cur fun db => db.insertVertex id deg ts
    closeCursorR k true true

/-- gb/hypergraph/sql.py:133-147 `update_or_insert` on table `perms`. -/
def updateOrInsertPermR (k : Nat) (id : Str) : M Unit :=
  enterM k fun k => do
    let cur ← openCursorR k true
    comprR k
    let rowcount ← execWrite cur fun db => some (db.updatePerm id)
    if rowcount = 0 then
      comprR k
      execWrite cur fun db => db.insertPerm id
    closeCursorR k true true

/-- gb/hypergraph/sql.py:149-153 `add_str`. -/
def addStrR (k : Nat) (vertStr : Str) (deg ts : Int) : M Unit :=
  enterM k fun k => updateOrInsertVertexR k vertStr deg ts

/-- gb/hypergraph/sql.py:155-157 `write_edge_permutation`. -/
def writeEdgePermutationR (F : Type) [PyFloat F] (k : Nat) (perm : Str) : M Unit :=
  enterM k fun k => do
    let eid ← liftE (edge2strR k (.str perm : Val F))
    updateOrInsertPermR k eid

/-- gb/hypergraph/sql.py:41-47 `do_with_edge_permutations`. -/
def doWithEdgePermutationsR (k : Nat) (edge : List (Val F)) (f : Nat → Str → M Unit) : M Unit :=
  enterM k fun k =>
    forEach (fun nperm => do
      let permS ← liftE (permStrR k edge nperm)
      f k permS) (List.range (factorial edge.length))

/-- gb/hypergraph/sql.py:159-161 `write_edge_permutations`. -/
def writeEdgePermutationsR (k : Nat) (edge : List (Val F)) : M Unit :=
  enterM k fun k => doWithEdgePermutationsR k edge (writeEdgePermutationR F)

/-- gb/hypergraph/sql.py:163-168 `remove_edge_permutation`. -/
def removeEdgePermutationR (F : Type) [PyFloat F] (k : Nat) (perm : Str) : M Unit :=
  enterM k fun k => do
    let eid ← liftE (edge2strR k (.str perm : Val F))
    execWrite .own fun db => some ((), db.deletePerm eid)
    commitM

/-- gb/hypergraph/sql.py:170-172 `remove_edge_permutations`. -/
def removeEdgePermutationsR (k : Nat) (edge : List (Val F)) : M Unit :=
  enterM k fun k => doWithEdgePermutationsR k edge (removeEdgePermutationR F)

/-- gb/hypergraph/sql.py:174-178 `remove_str`. -/
def removeStrR (k : Nat) (vertStr : Str) : M Unit :=
  enterM k fun k => do
    let cur ← openCursorR k true
    execWrite cur fun db => some ((), db.deleteVertex vertStr)
    closeCursorR k true true

/-- gb/hypergraph/sql.py:180-190 `str2perms`. -/
def str2permsR (k : Nat) (centerId : Str) : M (List (Val F)) :=
  enterM k fun k => do
    let startStr := centerId ++ lit " "
    let endStr ← liftE (strPlus1R k startStr)
    let cur ← openCursorR k true
    let rows ← execRead cur fun db => db.selectRange startStr endStr
    let edges ← liftE (cur2edgesR k rows)
    closeCursorR k true false
    pure (pySet edges)

/-- gb/hypergraph/sql.py:192-202 `pattern2edges`: a list comprehension at the start and one at the end, the latter calling
`edge_matches_pattern`. -/
def pattern2edgesR (k : Nat) (pattern : Val F) : M (List (Val F)) :=
  enterM k fun k => do
    let ps ← liftE pattern.iter
    comprR k
    let nodes := ps.filter fun n => !n.isNone
    let startStr ← liftE (nodes2strR k nodes)
    let endStr ← liftE (strPlus1R k startStr)
    let cur ← openCursorR k true
    let rows ← execRead cur fun db => db.selectRange startStr endStr
    let edges ← liftE (cur2edgesR k rows)
    closeCursorR k true false
    let res ← liftE (enter k fun k => filterE (fun e => edgeMatchesPatternR k e pattern) edges)
    pure (pySet res)

/-- gb/hypergraph/sql.py:204-206 `exists`. -/
def existsR (k : Nat) (vertex : Val F) : M Bool :=
  enterM k fun k => do
    let es ← pattern2edgesR k vertex
    pure (decide (es.length > 0))

/-- gb/hypergraph/sql.py:208-214 `inc_degree`. -/
def incDegreeR (k : Nat) (vertStr : Str) : M Bool :=
  enterM k fun k => do
    let cur ← openCursorR k true
    let rowcount ← execWrite cur fun db => some (db.bumpDegree 1 vertStr)
    closeCursorR k true true
    pure (decide (rowcount > 0))

/-- gb/hypergraph/sql.py:216-222 `dec_degree`. -/
def decDegreeR (k : Nat) (vertStr : Str) : M Bool :=
  enterM k fun k => do
    let cur ← openCursorR k true
    let rowcount ← execWrite cur fun db => some (db.bumpDegree (-1) vertStr)
    closeCursorR k true true
    pure (decide (rowcount > 0))

/-- gb/hypergraph/sql.py:228-230: the loop body of `add_raw`. -/
def addVertR (k : Nat) (ts : Int) (vert : Val F) : M Unit := do
  let vertStr ← liftE (edge2strR k vert)
  let known ← incDegreeR k vertStr
  if !known then addStrR k vertStr 1 ts

/-- gb/hypergraph/sql.py:224-233 `add_raw`. -/
def addRawR (k : Nat) (edge : Val F) (ts : Int) : M (Val F) :=
  enterM k fun k => do
    let present ← existsR k edge
    if !present then
      let verts ← liftE edge.iter
      forEach (addVertR k ts) verts
      let edgeStr ← liftE (edge2strR k edge)
      addStrR k edgeStr 0 ts
      writeEdgePermutationsR k verts
    pure edge

/-- gb/hypergraph/sql.py:235-245 `add`. -/
def sqlAddR (k : Nat) (edges : Val F) (ts : Int) : M (Val F) :=
  enterM k fun k => do
    let first ← liftE edges.head0
    if first.isSeq then
      let _ ← openCursorR k false
      let es ← liftE edges.iter
      forEach (fun e => do let _ ← addRawR k e ts) es
      closeCursorR k false true
    else
      let _ ← addRawR k edges ts
    pure edges

/-- gb/hypergraph/sql.py:247-253 `remove_raw`. -/
def removeRawR (k : Nat) (edge : Val F) : M Unit :=
  enterM k fun k => do
    let present ← existsR k edge
    if present then
      let verts ← liftE edge.iter
      forEach (fun v => do
        let vertStr ← liftE (edge2strR k v)
        let _ ← decDegreeR k vertStr) verts
      removeEdgePermutationsR k verts
      let edgeStr ← liftE (edge2strR k edge)
      removeStrR k edgeStr

/-- gb/hypergraph/sql.py:255-263 `remove`. -/
def sqlRemoveR (k : Nat) (edges : Val F) : M Unit :=
  enterM k fun k => do
    let first ← liftE edges.head0
    if first.isSeq then
      let es ← liftE edges.iter
      forEach (removeRawR k) es
    else
      removeRawR k edges

/-- gb/hypergraph/sql.py:265-271 `star`. -/
def sqlStarR (k : Nat) (center : Val F) : M (List (Val F)) :=
  enterM k fun k =>
    if center.isSeq then do
      let centerId ← liftE (edge2strR k center)
      str2permsR k centerId
    else str2permsR k (atomStr center)

/-- gb/hypergraph/sql.py:280-283: the loop body of `symbols_with_root`. -/
def rowFirstTokenR (k : Nat) (row : Str) : Except PyErr Str := do
  match ← splitEdgeStrR k row with
  | [] => .error .indexError
  | t :: _ => .ok t

/-- gb/hypergraph/sql.py:273-285 `symbols_with_root`. -/
def symbolsWithRootR (k : Nat) (root : Str) : M (List Str) :=
  enterM k fun k => do
    let startStr := root ++ lit "/"
    let endStr ← liftE (strPlus1R k startStr)
    let cur ← openCursorR k true
    let rows ← execRead cur fun db => db.selectRange startStr endStr
    let symbs ← liftE (mapE (rowFirstTokenR k) rows)
    closeCursorR k true false
    pure (strSet symbs)

/-- gb/hypergraph/sql.py:287-292 `destroy`. -/
def sqlDestroyR (k : Nat) : M Unit :=
  enterM k fun k => do
    let cur ← openCursorR k true
    execWrite cur fun db => some ((), { db with vertices := [] })
    execWrite cur fun db => some ((), { db with perms := [] })
    closeCursorR k true true

/-- gb/hypergraph/sql.py:294-304 `degree`. -/
def sqlDegreeR (k : Nat) (vertex : Val F) : M Int :=
  enterM k fun k => do
    let vertStr ← liftE (edge2strR k vertex)
    let cur ← openCursorR k true
    let rows ← execRead cur fun db => db.selectVertex vertStr
    match rows with
    | row :: _ => do
      closeDirect cur
      pure row.degree
    | [] => do
      closeCursorR k true false
      pure 0

/-- gb/hypergraph/sql.py:306-316 `timestamp`. -/
def sqlTimestampR (k : Nat) (vertex : Val F) : M Int :=
  enterM k fun k => do
    let vertStr ← liftE (edge2strR k vertex)
    let cur ← openCursorR k true
    let rows ← execRead cur fun db => db.selectVertex vertStr
    match rows with
    | row :: _ => do
      closeDirect cur
      pure row.timestamp
    | [] => do
      closeCursorR k true false
      pure (-1)

/-- gb/hypergraph/sql.py:318-323 `batch_exec`. -/
def sqlBatchExecR (k : Nat) (funs : List (Nat → M Unit)) : M Unit :=
  enterM k fun k => do
    let _ ← openCursorR k false
    forEach (fun f => f k) funs
    closeCursorR k false true

/-- gb/hypergraph/sql.py:325-334 `f_all`: the frame of the generator, entered by whoever consumes it; `f` takes a frame. -/
def sqlFAllR {β : Type} (k : Nat) (f : Val F → Int → β) : M (List β) :=
  enterM k fun k => do
    let cur ← openCursorR k true
    let rows ← execRead cur fun db => db.vertices
    let res ← liftE (mapE (fun row => do
      let v ← str2edgeR k row.id
      enter k fun _ => .ok (f v row.degree)) rows)
    closeCursorR k true false
    pure res

/-! ### gb/hypergraph/hypergraph.py -/

/-- gb/hypergraph/hypergraph.py:44-46 `exists`. -/
def hgExistsR (k : Nat) (vertex : Val F) : M Bool := enterM k fun k => existsR k vertex

/-- gb/hypergraph/hypergraph.py:48-51 `add`. -/
def hgAddR (k : Nat) (edges : Val F) (ts : Int) : M (Val F) := enterM k fun k => sqlAddR k edges ts

/-- gb/hypergraph/hypergraph.py:53-56 `remove`. -/
def hgRemoveR (k : Nat) (edges : Val F) : M Unit := enterM k fun k => sqlRemoveR k edges

/-- gb/hypergraph/hypergraph.py:58-61 `pattern2edges`. -/
def hgPattern2edgesR (k : Nat) (pattern : Val F) : M (List (Val F)) := enterM k fun k => pattern2edgesR k pattern

/-- gb/hypergraph/hypergraph.py:63-66 `star`. -/
def hgStarR (k : Nat) (center : Val F) : M (List (Val F)) := enterM k fun k => sqlStarR k center

/-- gb/hypergraph/hypergraph.py:68-70 `symbols_with_root`. -/
def hgSymbolsWithRootR (k : Nat) (root : Str) : M (List Str) := enterM k fun k => symbolsWithRootR k root

/-- gb/hypergraph/hypergraph.py:72-74 `destroy`. -/
def hgDestroyR (k : Nat) : M Unit := enterM k fun k => sqlDestroyR k

/-- gb/hypergraph/hypergraph.py:76-78 `degree`. -/
def hgDegreeR (k : Nat) (vertex : Val F) : M Int := enterM k fun k => sqlDegreeR k vertex

/-- gb/hypergraph/hypergraph.py:80-82 `timestamp`. -/
def hgTimestampR (k : Nat) (vertex : Val F) : M Int := enterM k fun k => sqlTimestampR k vertex

/-- gb/hypergraph/hypergraph.py:84-89 `batch_exec`. -/
def hgBatchExecR (k : Nat) (funs : List (Nat → M Unit)) : M Unit := enterM k fun k => sqlBatchExecR k funs

/-- gb/hypergraph/hypergraph.py:91-95 `f_all`: the call takes a frame and returns the generator, which is consumed by the
caller. -/
def hgFAllR {β : Type} (k : Nat) (f : Val F → Int → β) : M (List β) := do
  enterM k fun k => enterM k fun _ => pure ()
  sqlFAllR k f

/-- gb/hypergraph/hypergraph.py:97-101 `remove_by_pattern`. -/
def hgRemoveByPatternR (k : Nat) (pattern : Val F) : M Unit :=
  enterM k fun k => do
    let edges ← hgPattern2edgesR k pattern
    forEach (hgRemoveR k) edges

/-- gb/hypergraph/hypergraph.py:113-127 `add_belief`. -/
def hgAddBeliefR (k : Nat) (source edges : Val F) (ts : Int) : M Unit :=
  enterM k fun k => do
    let arg ← liftE (beliefEdges source edges)
    let _ ← hgAddR k arg ts

/-- gb/hypergraph/hypergraph.py:129-133 `sources`. -/
def hgSourcesR (k : Nat) (edge : Val F) : M (List (Val F)) :=
  enterM k fun k => do
    let edges ← hgPattern2edgesR k (.tup [.str constSource, edge, .none])
    let srcs ← liftE (enter k fun _ => mapE Val.item2 edges)
    pure (pySet srcs)

/-- gb/hypergraph/hypergraph.py:135-141 `remove_belief`. -/
def hgRemoveBeliefR (k : Nat) (source edge : Val F) : M Unit :=
  enterM k fun k => do
    hgRemoveR k (.tup [.str constSource, edge, source])
    let srcs ← hgSourcesR k edge
    if srcs.length = 0 then hgRemoveR k edge

/-! ### histories -/

/-- A read-only call (gb/hypergraph/hypergraph.py:44-95, 129-133); the result is discarded. -/
def Query.runR (k : Nat) : Query F → M Unit
  | .exists e => do let _ ← hgExistsR k e
  | .pattern ps => do let _ ← hgPattern2edgesR k (.tup ps)
  | .star c => do let _ ← hgStarR k c
  | .symbolsWithRoot r => do let _ ← hgSymbolsWithRootR k r
  | .sources e => do let _ ← hgSourcesR k e
  | .fAll => do let _ ← hgFAllR k (fun (v : Val F) (d : Int) => (v, d))

/-- A call allowed inside a batch (gb/hypergraph/hypergraph.py:48-101, 135-141). -/
def Prim.runR (k : Nat) : Prim F → M Unit
  | .add e ts => do let _ ← hgAddR k e ts
  | .remove e => hgRemoveR k e
  | .removeMany es => hgRemoveR k (.seq true es)
  | .removeByPattern ps => hgRemoveByPatternR k (.tup ps)
  | .removeBelief src e => hgRemoveBeliefR k src e
  | .destroy => hgDestroyR k
  | .query q => q.runR k

/-- A call (gb/hypergraph/hypergraph.py:44-141); the functions given to `batch_exec` take a frame each. -/
def Op.runR (k : Nat) : Op F → M Unit
  | .prim p => p.runR k
  | .addMany es ts => do let _ ← hgAddR k (.seq true es) ts
  | .addBelief src e ts => hgAddBeliefR k src e ts
  | .addBeliefs src es ts => hgAddBeliefR k src (.seq true es) ts
  | .batch ps => hgBatchExecR k (ps.map fun p k => enterM k fun k => p.runR k)
  | .degree v => do let _ ← hgDegreeR k v
  | .timestamp v => do let _ ← hgTimestampR k v

/-- A history of calls, each with `k` frames left. -/
def runOpsR (k : Nat) (ops : List (Op F)) : M Unit := forEach (Op.runR k) ops

/-- A call whose caller catches `RecursionError` and goes on.  This is not code of the repository, but what a program that
uses it may do. -/
def Prim.tryR (k : Nat) (p : Prim F) : M Unit := fun s =>
  match p.runR k s with
  | (.error .recursionError, s') => (.ok (), s')
  | r => r

end GB
