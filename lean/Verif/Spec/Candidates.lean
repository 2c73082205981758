import Verif.Spec.Delta
import Verif.Spec.Fit

/-
Which rearrangements of a tree the delta stage looks at, on trees as values.
-/

namespace GB

mutual
/-- A copy of a tree: the words are the same, new nodes have no namespace. -/
def STree.copy : STree → STree
  | .leaf ns tok => .leaf ns tok
  | .node _ c ts => .node none c (copyL ts)
/-- A copy of several trees. -/
def copyL : List STree → List STree
  | [] => []
  | t :: ts => t.copy :: copyL ts
end

/-- The parts of a relation: a word or a name is one part, any other node has its elements as parts. -/
def STree.parts : STree → List STree
  | .leaf ns tok => [.leaf ns tok]
  | .node ns true ts => [.node ns true ts]
  | .node _ false ts => ts

mutual
/-- Without brackets inside: every element of a node is replaced by its parts. -/
def STree.flat : STree → STree
  | .leaf ns tok => .leaf ns tok
  | .node ns c ts => .node ns c (flatL ts)
/-- The parts of several trees, without brackets inside. -/
def flatL : List STree → List STree
  | [] => []
  | t :: ts => t.flat.parts ++ flatL ts
end

/-- The relations that can be made of a relation `r` and the relation `f` of one of its arguments, in this order: `f`
before `r` (only as long as `r` has no argument yet); one name; the last part of `r` and the first part of `f` joined to
one name; `f` as one more part at the end. -/
def newRels (alone : Bool) (r f : STree) : List STree :=
  (if alone then [.node none false [f, r]] else []) ++
  (if r.terminal && f.terminal then [.node none true [r.copy, f]] else []) ++
  (if r.terminal && f.terminal then []
    else [.node none false (r.parts.dropLast ++ [.node none true (r.parts.getLast?.toList ++ f.parts.take 1)] ++ f.parts.drop 1)]) ++
  (if f.terminal then [.node none false ((if r.terminal then [r] else r.copy.parts) ++ [f])] else [])

/-- The tree `w` (a relation and the arguments it has so far) with the argument `c` dissolved in it: the relation of `c`
becomes part of the relation, and the arguments of `c` become arguments.  Only if `c` starts with words that relate. -/
def merged : List STree → STree → List (List STree)
  | r :: as, .node _ _ (f :: bs) =>
    if f.relates then (newRels as.isEmpty r f).map (fun rel => rel :: copyL as ++ bs) else []
  | _, _ => []

/-- A tree with this relation and these arguments; the relation without brackets inside. -/
def finished : List STree → STree
  | [] => .node none false []
  | r :: as => .node none false (r.flat :: as)

mutual
/-- All rearrangements of a tree, in the order in which they are found. -/
def STree.rearranged : STree → List STree
  | .leaf ns tok => [.leaf ns tok]
  | .node _ _ [] => []
  | .node _ _ (r :: ts) => rearrangedFrom ts [r]
/-- All rearrangements, where `w` is done and the arguments `ts` are to follow: for each rearrangement of the next
argument, those in which it is dissolved, and those in which the argument is left as it is. -/
def rearrangedFrom : List STree → List STree → List STree
  | [], w => [finished w]
  | t :: ts, w => t.rearranged.flatMap fun c =>
      (merged w c).flatMap (fun w' => rearrangedFrom ts w') ++ rearrangedFrom ts (copyL w ++ [t])
end

mutual
/-- A word, or a name made of words and names. -/
def STree.named : STree → Bool
  | .leaf _ _ => true
  | .node _ c ts => c && !ts.isEmpty && namedL ts
/-- All of them. -/
def namedL : List STree → Bool
  | [] => true
  | t :: ts => t.named && namedL ts
end

mutual
/-- Every node has at least two elements, the first of which is a word or a name; and names are made of words and
names. -/
def STree.tidy : STree → Bool
  | .leaf _ _ => true
  | .node _ c ts => decide (2 ≤ ts.length) && (if c then namedL ts else namedL (ts.take 1)) && tidyL ts
/-- All of them. -/
def tidyL : List STree → Bool
  | [] => true
  | t :: ts => t.tidy && tidyL ts
end

mutual
/-- The first element of every node that is not part of a name is a word or a name. -/
def STree.headed : STree → Bool
  | .leaf _ _ => true
  | .node _ true _ => true
  | .node _ false ts => (ts.take 1).all STree.terminal && headedL ts
/-- All of them. -/
def headedL : List STree → Bool
  | [] => true
  | t :: ts => t.headed && headedL ts
end

/-- The first of the trees that fit `o` best, where `b` comes before them. -/
def pickBest (o : STree) : List STree → STree → STree
  | [], b => b
  | c :: cs, b => pickBest o cs (if o.fit b < o.fit c then c else b)

/-- The fourth stage: a tree that starts with words that relate becomes the rearrangement that fits it best (the first
of several); other trees stay as they are. -/
def STree.delta (t : STree) : STree :=
  if t.terminal || !t.leads then t
  else match t.rearranged with
    | [] => t
    | c :: cs => pickBest t cs c

end GB
