import Verif.Spec.Stages
import Verif.Spec.Reads

/-
How well a rearranged tree fits the original: the number the delta stage gives to each candidate, on trees as values.
-/

namespace GB

mutual
/-- Equal trees: equal words (word, part of speech, relation) in the same places; marks and namespaces do not count. -/
def STree.alike : STree → STree → Bool
  | .leaf _ a, .leaf _ b => decide (a.word = b.word ∧ a.pos = b.pos ∧ a.dep = b.dep)
  | .node _ _ ts, .node _ _ us => alikeL ts us
  | .leaf _ _, .node _ _ _ => false
  | .node _ _ _, .leaf _ _ => false
/-- The same for several trees: as many, and equal one by one. -/
def alikeL : List STree → List STree → Bool
  | [], [] => true
  | t :: ts, u :: us => t.alike u && alikeL ts us
  | [], _ :: _ => false
  | _ :: _, [] => false
end

/-- The number of elements of a node; words and names count as one. -/
def STree.places : STree → Nat
  | .leaf _ _ => 1
  | .node _ c ts => if c then 1 else ts.length

/-- Have the two trees a word in common? -/
def STree.meets (a b : STree) : Bool :=
  a.leaves.any (fun x => b.leaves.any (fun y => decide (x.word = y.word ∧ x.pos = y.pos ∧ x.dep = y.dep)))

mutual
/-- Is there, in the tree, a node whose first element has a word of `p`, and another element of which is `c`?  Only
nodes that are reached without passing a first element or a name. -/
def STree.puts : STree → STree → STree → Bool
  | .leaf _ _, _, _ => false
  | .node _ true _, _, _ => false
  | .node _ false [], _, _ => false
  | .node _ false (r :: as), p, c => (r.meets p && as.any (fun a => a.alike c)) || putsL as p c
/-- In one of several trees. -/
def putsL : List STree → STree → STree → Bool
  | [], _, _ => false
  | t :: ts, p, c => t.puts p c || putsL ts p c
end

/-- 100 if true. -/
def points (b : Bool) : Nat := if b then 100 else 0

/-- The points for the parts `ps` of the relation and the arguments `as`: each part should be together with the
argument after it in the original. -/
def partPoints (original : STree) : List STree → List STree → Nat
  | p :: ps, a :: as => points (original.puts p a) + partPoints original ps as
  | _, _ => 0

/-- The fit of a candidate: 1000 if the number of parts of its relation is the number of gaps between its arguments (or
there is one part and one argument), and 100 for each part of the relation and argument next to it that are together in
the original.  (The first part has an argument on both sides.) -/
def STree.fit (original : STree) : STree → Nat
  | .node _ c (rel :: as) =>
    if rel.relates then
      (if (rel.places = 1 ∧ as.length = 1) ∨ rel.places + 1 = as.length then 1000 else 0) +
        (match rel, c, as with
          | .node _ false (p :: ps), false, a :: b :: as => points (original.puts p a) + partPoints original (p :: ps) (b :: as)
          | _, _, _ => 0)
    else 0
  | _ => 0

end GB
