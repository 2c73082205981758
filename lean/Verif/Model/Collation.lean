import Verif.Model.MySql

/-
The MySQL backend with the collation of its tables.  `DEFAULT CHARSET=utf8` (gb/hypergraph/mysql.py:51, 58) gives the
columns the collation `utf8_general_ci`: two texts are compared character by character by the *weights* of the
characters, the shorter one being padded with spaces ("PAD SPACE").  Letters have the weight of their capital, accented
letters that of the letter without accent.  All comparisons of the statements are of this kind: `WHERE id=%s`,
`id>=%s AND id<%s`, and the uniqueness of the primary key, which is on the first `k` characters (`k` = 250).

The weights are a parameter `w` of the definitions; what a theorem needs to know about them is one of its hypotheses.
As in Model/MySql.lean, `rowcount` counts the rows whose contents changed (compared exactly).  The character
sets are in Model/Encode.lean.  Not modelled: the length limit 10000 of the columns.
-/

namespace GB

variable {F : Type} [PyFloat F] [DecidableEq F]

/-- The empty text, padded with spaces, is less than `t`. -/
def padBelow (w : Char → Nat) : Str → Bool
  | [] => false
  | b :: t => decide (w ' ' < w b) || (w ' ' == w b && padBelow w t)

/-- `s` is less than the empty text, padded with spaces. -/
def padAbove (w : Char → Nat) : Str → Bool
  | [] => false
  | a :: s => decide (w a < w ' ') || (w a == w ' ' && padAbove w s)

/-- `s < t` under the collation with weights `w`: the shorter text is padded with spaces. -/
def padLt (w : Char → Nat) : Str → Str → Bool
  | [], t => padBelow w t
  | a :: s, [] => padAbove w (a :: s)
  | a :: s, b :: t => decide (w a < w b) || (w a == w b && padLt w s t)

/-- `s <= t` under the collation. -/
def padLe (w : Char → Nat) (s t : Str) : Bool := !padLt w t s

/-- `s = t` under the collation. -/
def padEq (w : Char → Nat) (s t : Str) : Bool := !padLt w s t && !padLt w t s

/-- The weights of `utf8_general_ci` for ASCII and for the letters of Latin-1 (the table `plane00` of MySQL's
strings/ctype-utf8.c); for the other characters this is a simplification, they keep their code points.  Only the
examples and the counterexamples use this function; the theorems hold for all weights that agree with it on ASCII. -/
def generalCi (c : Char) : Nat :=
  let n := c.toNat
  if 97 ≤ n ∧ n ≤ 122 then n - 32
  else
    let m := if 0xE0 ≤ n ∧ n ≤ 0xFE ∧ n ≠ 0xF7 then n - 32 else n
    if 0xC0 ≤ m ∧ m ≤ 0xC5 then 65
    else if m = 0xC7 then 67
    else if 0xC8 ≤ m ∧ m ≤ 0xCB then 69
    else if 0xCC ≤ m ∧ m ≤ 0xCF then 73
    else if m = 0xD1 then 78
    else if 0xD2 ≤ m ∧ m ≤ 0xD6 then 79
    else if 0xD9 ≤ m ∧ m ≤ 0xDC then 85
    else if m = 0xDD ∨ n = 0xFF then 89
    else if n = 0xDF then 83
    else m

/-! ### statements -/

/-- `UPDATE vertices SET id=%s,degree=%s,timestamp=%s WHERE id=%s` (gb/hypergraph/sql.py:133-147). -/
def DB.coUpdateVertex (w : Char → Nat) (db : DB) (id : Str) (deg ts : Int) : Nat × DB :=
  (db.vertices.countP fun r => padEq w r.id id && decide (r ≠ ⟨id, deg, ts⟩),
   { db with vertices := db.vertices.map fun r => if padEq w r.id id then ⟨id, deg, ts⟩ else r })

/-- `INSERT INTO vertices (id,degree,timestamp) values (%s,%s,%s)` with `PRIMARY KEY (id(k))`
(gb/hypergraph/mysql.py:50). -/
def DB.coInsertVertex (w : Char → Nat) (k : Nat) (db : DB) (id : Str) (deg ts : Int) : Option (Unit × DB) :=
  if db.vertices.any fun r => padEq w (r.id.take k) (id.take k) then none
  else some ((), { db with vertices := db.vertices ++ [⟨id, deg, ts⟩] })

/-- `UPDATE perms SET id=%s WHERE id=%s` (gb/hypergraph/sql.py:133-147): rows that are equal under the collation get
the new spelling. -/
def DB.coUpdatePerm (w : Char → Nat) (db : DB) (id : Str) : Nat × DB :=
  (db.perms.countP fun r => padEq w r id && decide (r ≠ id),
   { db with perms := db.perms.map fun r => if padEq w r id then id else r })

/-- `INSERT INTO perms (id) values (%s)` with `PRIMARY KEY (id(k))` (gb/hypergraph/mysql.py:57). -/
def DB.coInsertPerm (w : Char → Nat) (k : Nat) (db : DB) (id : Str) : Option (Unit × DB) :=
  if db.perms.any fun r => padEq w (r.take k) (id.take k) then none
  else some ((), { db with perms := db.perms ++ [id] })

/-- `DELETE FROM perms WHERE id=%s` (gb/hypergraph/sql.py:163-168). -/
def DB.coDeletePerm (w : Char → Nat) (db : DB) (id : Str) : DB :=
  { db with perms := db.perms.filter fun r => !padEq w r id }

/-- `DELETE FROM vertices WHERE id=%s` (gb/hypergraph/sql.py:174-178). -/
def DB.coDeleteVertex (w : Char → Nat) (db : DB) (id : Str) : DB :=
  { db with vertices := db.vertices.filter fun r => !padEq w r.id id }

/-- `UPDATE vertices SET degree=degree+d WHERE id=%s` (gb/hypergraph/sql.py:208-222): all matching rows change. -/
def DB.coBumpDegree (w : Char → Nat) (db : DB) (d : Int) (id : Str) : Nat × DB :=
  (db.vertices.countP fun r => padEq w r.id id,
   { db with vertices := db.vertices.map fun r =>
      if padEq w r.id id then { r with degree := r.degree + d } else r })

/-- `SELECT id FROM perms WHERE id>=%s AND id<%s` (gb/hypergraph/sql.py:180-202, 273-285). -/
def DB.coSelectRange (w : Char → Nat) (db : DB) (lo hi : Str) : List Str :=
  db.perms.filter fun r => padLe w lo r && padLt w r hi

/-- `SELECT ... FROM vertices WHERE id=%s` (gb/hypergraph/sql.py:294-316). -/
def DB.coSelectVertex (w : Char → Nat) (db : DB) (id : Str) : List VRow :=
  db.vertices.filter fun r => padEq w r.id id

/-! ### methods of class SQL -/

/-- gb/hypergraph/sql.py:133-147 `update_or_insert` on table `vertices`. -/
def coUpdateOrInsertVertex (w : Char → Nat) (k : Nat) (id : Str) (deg ts : Int) : M Unit := do
  let cur ← openCursor true
  let rowcount ← execWrite cur fun db => some (db.coUpdateVertex w id deg ts)
  if rowcount = 0 then
    execWrite cur fun db => db.coInsertVertex w k id deg ts
  closeCursor true true

/-- gb/hypergraph/sql.py:133-147 `update_or_insert` on table `perms`. -/
def coUpdateOrInsertPerm (w : Char → Nat) (k : Nat) (id : Str) : M Unit := do
  let cur ← openCursor true
  let rowcount ← execWrite cur fun db => some (db.coUpdatePerm w id)
  if rowcount = 0 then
    execWrite cur fun db => db.coInsertPerm w k id
  closeCursor true true

/-- gb/hypergraph/sql.py:149-153 `add_str`. -/
def coAddStr (w : Char → Nat) (k : Nat) (vertStr : Str) (deg ts : Int) : M Unit :=
  coUpdateOrInsertVertex w k vertStr deg ts

/-- gb/hypergraph/sql.py:155-157 `write_edge_permutation`. -/
def coWriteEdgePermutation (w : Char → Nat) (k : Nat) (perm : Str) : M Unit :=
  coUpdateOrInsertPerm w k (edge2str (F := F) (.str perm))

/-- gb/hypergraph/sql.py:159-161 `write_edge_permutations`. -/
def coWriteEdgePermutations (w : Char → Nat) (k : Nat) (edge : List (Val F)) : M Unit :=
  doWithEdgePermutations edge (coWriteEdgePermutation (F := F) w k)

/-- gb/hypergraph/sql.py:163-168 `remove_edge_permutation`. -/
def coRemoveEdgePermutation (w : Char → Nat) (perm : Str) : M Unit := do
  execWrite .own fun db => some ((), db.coDeletePerm w (edge2str (F := F) (.str perm)))
  commitM

/-- gb/hypergraph/sql.py:170-172 `remove_edge_permutations`. -/
def coRemoveEdgePermutations (w : Char → Nat) (edge : List (Val F)) : M Unit :=
  doWithEdgePermutations edge (coRemoveEdgePermutation (F := F) w)

/-- gb/hypergraph/sql.py:174-178 `remove_str`. -/
def coRemoveStr (w : Char → Nat) (vertStr : Str) : M Unit := do
  let cur ← openCursor true
  execWrite cur fun db => some ((), db.coDeleteVertex w vertStr)
  closeCursor true true

/-- gb/hypergraph/sql.py:180-190 `str2perms`. -/
def coStr2perms (w : Char → Nat) (centerId : Str) : M (List (Val F)) := do
  let startStr := centerId ++ lit " "
  let endStr ← liftE (strPlus1 startStr)
  let cur ← openCursor true
  let rows ← execRead cur fun db => db.coSelectRange w startStr endStr
  let edges ← liftE (cur2edges rows)
  closeCursor true false
  pure (pySet edges)

/-- gb/hypergraph/sql.py:192-202 `pattern2edges`. -/
def coPattern2edges (w : Char → Nat) (pattern : Val F) : M (List (Val F)) := do
  let ps ← liftE pattern.iter
  let nodes := ps.filter fun n => !n.isNone
  let startStr := nodes2str nodes
  let endStr ← liftE (strPlus1 startStr)
  let cur ← openCursor true
  let rows ← execRead cur fun db => db.coSelectRange w startStr endStr
  let edges ← liftE (cur2edges rows)
  closeCursor true false
  let res ← liftE (filterE (fun e => edgeMatchesPattern e pattern) edges)
  pure (pySet res)

/-- gb/hypergraph/sql.py:204-206 `exists`. -/
def coExists (w : Char → Nat) (vertex : Val F) : M Bool := do
  let es ← coPattern2edges w vertex
  pure (decide (es.length > 0))

/-- gb/hypergraph/sql.py:208-214 `inc_degree`. -/
def coIncDegree (w : Char → Nat) (vertStr : Str) : M Bool := do
  let cur ← openCursor true
  let rowcount ← execWrite cur fun db => some (db.coBumpDegree w 1 vertStr)
  closeCursor true true
  pure (decide (rowcount > 0))

/-- gb/hypergraph/sql.py:216-222 `dec_degree`. -/
def coDecDegree (w : Char → Nat) (vertStr : Str) : M Bool := do
  let cur ← openCursor true
  let rowcount ← execWrite cur fun db => some (db.coBumpDegree w (-1) vertStr)
  closeCursor true true
  pure (decide (rowcount > 0))

/-- gb/hypergraph/sql.py:228-230: the loop body of `add_raw`. -/
def coAddVert (w : Char → Nat) (k : Nat) (ts : Int) (vert : Val F) : M Unit := do
  let vertStr := edge2str vert
  let known ← coIncDegree w vertStr
  if !known then coAddStr w k vertStr 1 ts

/-- gb/hypergraph/sql.py:227-232: what `add_raw` does with an edge that does not exist. -/
def coAddRest (w : Char → Nat) (k : Nat) (edge : Val F) (ts : Int) : M Unit := do
  let verts ← liftE edge.iter
  forEach (coAddVert w k ts) verts
  coAddStr w k (edge2str edge) 0 ts
  coWriteEdgePermutations w k verts

/-- gb/hypergraph/sql.py:224-233 `add_raw`. -/
def coAddRaw (w : Char → Nat) (k : Nat) (edge : Val F) (ts : Int) : M (Val F) := do
  let present ← coExists w edge
  if !present then coAddRest w k edge ts
  pure edge

/-- gb/hypergraph/sql.py:235-245 `add`. -/
def coAdd (w : Char → Nat) (k : Nat) (edges : Val F) (ts : Int) : M (Val F) := do
  let first ← liftE edges.head0
  if first.isSeq then
    let _ ← openCursor false
    let es ← liftE edges.iter
    forEach (fun e => do let _ ← coAddRaw w k e ts) es
    closeCursor false true
  else
    let _ ← coAddRaw w k edges ts
  pure edges

/-- gb/hypergraph/sql.py:250-253: what `remove_raw` does with an edge that exists. -/
def coRemoveRest (w : Char → Nat) (edge : Val F) : M Unit := do
  let verts ← liftE edge.iter
  forEach (fun v => do let _ ← coDecDegree w (edge2str v)) verts
  coRemoveEdgePermutations w verts
  coRemoveStr w (edge2str edge)

/-- gb/hypergraph/sql.py:247-253 `remove_raw`. -/
def coRemoveRaw (w : Char → Nat) (edge : Val F) : M Unit := do
  let present ← coExists w edge
  if present then coRemoveRest w edge

/-- gb/hypergraph/sql.py:255-263 `remove`. -/
def coRemove (w : Char → Nat) (edges : Val F) : M Unit := do
  let first ← liftE edges.head0
  if first.isSeq then
    let es ← liftE edges.iter
    forEach (coRemoveRaw w) es
  else
    coRemoveRaw w edges

/-- gb/hypergraph/sql.py:265-271 `star`. -/
def coStar (w : Char → Nat) (center : Val F) : M (List (Val F)) :=
  if center.isSeq then coStr2perms w (edge2str center) else coStr2perms w (atomStr center)

/-- gb/hypergraph/sql.py:273-285 `symbols_with_root`. -/
def coSymbolsWithRoot (w : Char → Nat) (root : Str) : M (List Str) := do
  let startStr := root ++ lit "/"
  let endStr ← liftE (strPlus1 startStr)
  let cur ← openCursor true
  let rows ← execRead cur fun db => db.coSelectRange w startStr endStr
  let symbs ← liftE (mapE rowFirstToken rows)
  closeCursor true false
  pure (strSet symbs)

/-- gb/hypergraph/sql.py:294-304 `degree`. -/
def coDegree (w : Char → Nat) (vertex : Val F) : M Int := do
  let vertStr := edge2str vertex
  let cur ← openCursor true
  let rows ← execRead cur fun db => db.coSelectVertex w vertStr
  match rows with
  | row :: _ => do
    closeDirect cur
    pure row.degree
  | [] => do
    closeCursor true false
    pure 0

/-- gb/hypergraph/sql.py:306-316 `timestamp`. -/
def coTimestamp (w : Char → Nat) (vertex : Val F) : M Int := do
  let vertStr := edge2str vertex
  let cur ← openCursor true
  let rows ← execRead cur fun db => db.coSelectVertex w vertStr
  match rows with
  | row :: _ => do
    closeDirect cur
    pure row.timestamp
  | [] => do
    closeCursor true false
    pure (-1)

/-! ### class HyperGraph -/

/-- gb/hypergraph/hypergraph.py:97-101 `remove_by_pattern`. -/
def coRemoveByPattern (w : Char → Nat) (pattern : Val F) : M Unit := do
  let edges ← coPattern2edges w pattern
  forEach (coRemove w) edges

/-- gb/hypergraph/hypergraph.py:113-127 `add_belief`. -/
def coAddBelief (w : Char → Nat) (k : Nat) (source edges : Val F) (ts : Int) : M Unit := do
  let arg ← liftE (beliefEdges source edges)
  let _ ← coAdd w k arg ts

/-- gb/hypergraph/hypergraph.py:129-133 `sources`. -/
def coSources (w : Char → Nat) (edge : Val F) : M (List (Val F)) := do
  let edges ← coPattern2edges w (.tup [.str constSource, edge, .none])
  let srcs ← liftE (mapE Val.item2 edges)
  pure (pySet srcs)

/-- gb/hypergraph/hypergraph.py:135-141 `remove_belief`. -/
def coRemoveBelief (w : Char → Nat) (source edge : Val F) : M Unit := do
  coRemove w (.tup [.str constSource, edge, source])
  let srcs ← coSources w edge
  if srcs.length = 0 then coRemove w edge

/-! ### histories -/

/-- A read-only call (gb/hypergraph/hypergraph.py:44-95, 129-133); the result is discarded.  `f_all` makes no
comparison. -/
def Query.coRun (w : Char → Nat) : Query F → M Unit
  | .exists e => do let _ ← coExists w e
  | .pattern ps => do let _ ← coPattern2edges w (.tup ps)
  | .star c => do let _ ← coStar w c
  | .symbolsWithRoot r => do let _ ← coSymbolsWithRoot w r
  | .sources e => do let _ ← coSources w e
  | .fAll => do let _ ← hgFAll (fun (v : Val F) (d : Int) => (v, d))

/-- A call allowed inside a batch (gb/hypergraph/hypergraph.py:48-101, 135-141).  `destroy` makes no comparison. -/
def Prim.coRun (w : Char → Nat) (k : Nat) : Prim F → M Unit
  | .add e ts => do let _ ← coAdd w k e ts
  | .remove e => coRemove w e
  | .removeMany es => coRemove w (.seq true es)
  | .removeByPattern ps => coRemoveByPattern w (.tup ps)
  | .removeBelief src e => coRemoveBelief w src e
  | .destroy => hgDestroy
  | .query q => q.coRun w

/-- A call (gb/hypergraph/hypergraph.py:44-141). -/
def Op.coRun (w : Char → Nat) (k : Nat) : Op F → M Unit
  | .prim p => p.coRun w k
  | .addMany es ts => do let _ ← coAdd w k (.seq true es) ts
  | .addBelief src e ts => coAddBelief w k src e ts
  | .addBeliefs src es ts => coAddBelief w k src (.seq true es) ts
  | .batch ps => hgBatchExec (ps.map (Prim.coRun w k))
  | .degree v => do let _ ← coDegree w v
  | .timestamp v => do let _ ← coTimestamp w v

/-- A history of calls. -/
def coRunOps (w : Char → Nat) (k : Nat) (ops : List (Op F)) : M Unit := forEach (Op.coRun w k) ops

end GB
