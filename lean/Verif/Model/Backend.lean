import Verif.Model.HyperGraph
import Verif.Spec.History

/-
Model of the backend interface (gb/hypergraph/backend.py), of class HyperGraph over an arbitrary backend
(gb/hypergraph/hypergraph.py), and of the null backend (gb/hypergraph/null.py).
-/

namespace GB

variable {F : Type} [PyFloat F]

/-- A method call on an object with state `σ`. -/
abbrev Call (σ α : Type) : Type := σ → Except PyErr α × σ

/-- Sequencing of calls; an exception stops and keeps the state reached. -/
def Call.bind {σ α β : Type} (x : Call σ α) (f : α → Call σ β) : Call σ β := fun s =>
  match x s with
  | (.ok a, s') => f a s'
  | (.error e, s') => (.error e, s')

/-- `for x in xs: f(x)`. -/
def Call.forEach {σ α : Type} (f : α → Call σ Unit) : List α → Call σ Unit
  | [], s => (.ok (), s)
  | x :: xs, s => Call.bind (f x) (fun _ => Call.forEach f xs) s

/-- gb/hypergraph/backend.py:22-79 `Backend`: the methods a backend provides. -/
structure Backend (F σ : Type) where
  «exists» : Val F → Call σ Bool
  add : Val F → Int → Call σ (Val F)
  remove : Val F → Call σ Unit
  pattern2edges : Val F → Call σ (List (Val F))
  star : Val F → Call σ (List (Val F))
  symbolsWithRoot : Str → Call σ (List Str)
  destroy : Call σ Unit
  degree : Val F → Call σ Int
  timestamp : Val F → Call σ Int
  batchExec : List (Call σ Unit) → Call σ Unit
  fAll : (Val F → Int → Val F × Int) → Call σ (List (Val F × Int))

/-- gb/hypergraph/sql.py: the SQL backend. -/
def sqlBackend : Backend F St where
  «exists» := existsM
  add := sqlAdd
  remove := sqlRemove
  pattern2edges := GB.pattern2edges
  star := sqlStar
  symbolsWithRoot := GB.symbolsWithRoot
  destroy := sqlDestroy
  degree := sqlDegree
  timestamp := sqlTimestamp
  batchExec := sqlBatchExec
  fAll := sqlFAll

/-- gb/hypergraph/null.py:25-82 `Null`. -/
def nullBackend : Backend F Unit where
  «exists» := fun _ s => (.ok false, s)                -- null.py:31-33
  add := fun edges _ s => (.ok edges, s)               -- null.py:35-38
  remove := fun _ s => (.ok (), s)                     -- null.py:40-43
  pattern2edges := fun _ s => (.ok [], s)              -- null.py:45-48
  star := fun _ s => (.ok [], s)                       -- null.py:50-53
  symbolsWithRoot := fun _ s => (.ok [], s)            -- null.py:55-57
  destroy := fun s => (.ok (), s)                      -- null.py:59-61
  degree := fun _ s => (.ok 0, s)                      -- null.py:63-65
  timestamp := fun _ s => (.ok (-1), s)                -- null.py:67-69
  batchExec := fun _ s => (.ok (), s)                  -- null.py:71-76: the functions are not called
  fAll := fun _ s => (.ok [], s)                       -- null.py:78-82

namespace Backend

variable {σ : Type} (B : Backend F σ)

/-- gb/hypergraph/hypergraph.py:97-101 `remove_by_pattern`. -/
def removeByPattern (pattern : Val F) : Call σ Unit :=
  Call.bind (B.pattern2edges pattern) fun edges => Call.forEach B.remove edges

/-- gb/hypergraph/hypergraph.py:104-111 `ego`: `edges[1:]` of a set raises `TypeError`. -/
def ego (center : Val F) (depth : Int) : Call σ (Option (List (Val F))) :=
  if depth > 0 then Call.bind (B.star center) fun _ s => (.error .typeError, s)
  else fun s => (.ok none, s)

/-- gb/hypergraph/hypergraph.py:113-127 `add_belief`. -/
def addBelief (source edges : Val F) (ts : Int) : Call σ Unit := fun s =>
  match beliefEdges source edges with
  | .error e => (.error e, s)
  | .ok arg => Call.bind (B.add arg ts) (fun _ s => (.ok (), s)) s

/-- gb/hypergraph/hypergraph.py:129-133 `sources`. -/
def sources (edge : Val F) : Call σ (List (Val F)) :=
  Call.bind (B.pattern2edges (.tup [.str constSource, edge, .none])) fun edges s =>
    (match mapE Val.item2 edges with
     | .ok srcs => .ok (pySet srcs)
     | .error e => .error e, s)

/-- gb/hypergraph/hypergraph.py:135-141 `remove_belief`. -/
def removeBelief (source edge : Val F) : Call σ Unit :=
  Call.bind (B.remove (.tup [.str constSource, edge, source])) fun _ =>
    Call.bind (B.sources edge) fun srcs s =>
      if srcs.length = 0 then B.remove edge s else (.ok (), s)

end Backend

/-! With the SQL backend these are the functions of `Model/HyperGraph.lean`. -/

theorem Call.bind_eq {α β : Type} (x : Call St α) (f : α → Call St β) :
    (Call.bind x f : Call St β) = ((M.bind x f : M β) : Call St β) := by
  funext s
  unfold Call.bind M.bind
  rcases x s with ⟨r, s'⟩
  cases r <;> rfl

theorem Call.forEach_eq {α : Type} (f : α → Call St Unit) (xs : List α) :
    (Call.forEach f xs : Call St Unit) = ((GB.forEach f xs : M Unit) : Call St Unit) := by
  induction xs with
  | nil => rfl
  | cons x xs ih =>
    show (fun s => Call.bind (f x) (fun _ => Call.forEach f xs) s) = _
    rw [ih]
    exact Call.bind_eq _ _

theorem sql_removeByPattern (pattern : Val F) :
    (sqlBackend (F := F)).removeByPattern pattern = hgRemoveByPattern pattern := by
  unfold Backend.removeByPattern
  rw [Call.bind_eq]
  have : (fun edges => Call.forEach (sqlBackend (F := F)).remove edges) = fun edges => GB.forEach hgRemove edges := by
    funext es
    exact Call.forEach_eq _ _
  rw [this]; rfl

theorem sql_ego (center : Val F) (depth : Int) :
    (sqlBackend (F := F)).ego center depth = hgEgo center depth := by
  unfold Backend.ego hgEgo
  split
  · rw [Call.bind_eq]; rfl
  · rfl

theorem sql_addBelief (source edges : Val F) (ts : Int) :
    (sqlBackend (F := F)).addBelief source edges ts = hgAddBelief source edges ts := by
  funext s
  unfold Backend.addBelief hgAddBelief
  show _ = M.bind (liftE (beliefEdges source edges)) _ s
  unfold M.bind liftE
  cases h : beliefEdges source edges with
  | error e => rfl
  | ok arg =>
    dsimp only
    rw [Call.bind_eq]; rfl

theorem sql_sources (edge : Val F) : (sqlBackend (F := F)).sources edge = hgSources edge := by
  unfold Backend.sources hgSources
  rw [Call.bind_eq]
  show M.bind (GB.pattern2edges (.tup [.str constSource, edge, .none])) _
    = M.bind (GB.pattern2edges (.tup [.str constSource, edge, .none])) _
  congr 1
  funext es s
  show _ = M.bind (liftE (mapE Val.item2 es)) _ s
  unfold M.bind liftE
  dsimp only
  cases mapE Val.item2 es <;> rfl

theorem sql_removeBelief (source edge : Val F) :
    (sqlBackend (F := F)).removeBelief source edge = hgRemoveBelief source edge := by
  unfold Backend.removeBelief hgRemoveBelief
  rw [sql_sources, Call.bind_eq]
  show M.bind (hgRemove _) _ = M.bind (hgRemove _) _
  congr 1
  funext u
  refine (Call.bind_eq _ _).trans ?_
  show M.bind (hgSources edge) _ = M.bind (hgSources edge) _
  congr 1
  funext srcs s
  split <;> rfl

/-! ### Histories over any backend -/

variable {σ : Type}

/-- A read-only call over a backend; the result is discarded. -/
def Query.runOn (B : Backend F σ) : Query F → Call σ Unit
  | .exists e => Call.bind (B.exists e) fun _ s => (.ok (), s)
  | .pattern ps => Call.bind (B.pattern2edges (.tup ps)) fun _ s => (.ok (), s)
  | .star c => Call.bind (B.star c) fun _ s => (.ok (), s)
  | .symbolsWithRoot r => Call.bind (B.symbolsWithRoot r) fun _ s => (.ok (), s)
  | .sources e => Call.bind (B.sources e) fun _ s => (.ok (), s)
  | .fAll => Call.bind (B.fAll fun v d => (v, d)) fun _ s => (.ok (), s)

/-- A primitive call over a backend. -/
def Prim.runOn (B : Backend F σ) : Prim F → Call σ Unit
  | .add e ts => Call.bind (B.add e ts) fun _ s => (.ok (), s)
  | .remove e => B.remove e
  | .removeMany es => B.remove (.seq true es)
  | .removeByPattern ps => B.removeByPattern (.tup ps)
  | .removeBelief src e => B.removeBelief src e
  | .destroy => B.destroy
  | .query q => q.runOn B

/-- A call over a backend. -/
def Op.runOn (B : Backend F σ) : Op F → Call σ Unit
  | .prim p => p.runOn B
  | .addMany es ts => Call.bind (B.add (.seq true es) ts) fun _ s => (.ok (), s)
  | .addBelief src e ts => B.addBelief src e ts
  | .addBeliefs src es ts => B.addBelief src (.seq true es) ts
  | .batch ps => B.batchExec (ps.map (Prim.runOn B))
  | .degree v => Call.bind (B.degree v) fun _ s => (.ok (), s)
  | .timestamp v => Call.bind (B.timestamp v) fun _ s => (.ok (), s)

/-- A history over a backend in which exceptions are caught after each call. -/
def runAll (B : Backend F σ) : List (Op F) → σ → σ
  | [], s => s
  | o :: os, s => runAll B os (o.runOn B s).2

end GB
