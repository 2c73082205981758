import Verif.Spec.Stages
import Verif.Spec.Delta
import Verif.Spec.Epsilon
import Verif.Spec.Alpha
import Verif.Spec.Parse
import Verif.Model.Extractor

/-
What the extractor does, stage after stage.
-/

namespace GB

variable {F : Type}

/-- The stages `beta` and `gamma` in the given order. -/
def midTree : List Str → STree → STree
  | [], t => t
  | n :: ns, t => midTree ns (if n = lit "beta" then t.beta else t.gamma)

/-- The texts of the trees after each of these stages. -/
def midTexts : List Str → STree → List Str
  | [], _ => []
  | n :: ns, t => (if n = lit "beta" then t.beta else t.gamma).text :: midTexts ns (if n = lit "beta" then t.beta else t.gamma)

/-- The list of stages is one that can run to its end: `alpha` first and nowhere else, `epsilon` at the end or not at
all, and only known names. -/
def GoodStages (names : List Str) : Prop :=
  ∃ mid, (∀ n ∈ mid, n = lit "beta" ∨ n = lit "gamma" ∨ n = lit "delta") ∧
    (names = lit "alpha" :: mid ∨ names = lit "alpha" :: mid ++ [lit "epsilon"])

/-- With every large enough budget for recursion, the call gives this. -/
def Yields {α : Type} (f : Nat → α) (a : α) : Prop := ∃ N, ∀ k, N ≤ k → f k = a

/-- The edge is made of words, each once, that are the words below `x` except punctuation, tokens without relation and
what is below them, and perhaps without some articles.  Words that are not part of a name have the namespace 1, and every
tuple has at least two elements. -/
def Extracts (x : Tok) (v : Val F) : Prop :=
  Paired v ∧ ∃ (ws : List Word) (as us : List TokInfo), Covers v ws ∧ (∀ w ∈ ws, w.1 = some (lit "1")) ∧ as.Perm x.kept ∧ Thinned as us ∧ us.Perm (ws.map Prod.snd)

/-- The first token with the relation `ROOT` of a sentence is the one at position `j`. -/
def RootAt (d : Doc) (span : Nat × Nat) (j : Nat) : Prop :=
  span.1 ≤ j ∧ j < span.2 ∧ (∃ s, d.toks[j]? = some s ∧ s.dep = lit "ROOT") ∧
    ∀ i s, span.1 ≤ i → i < j → d.toks[i]? = some s → s.dep ≠ lit "ROOT"

/-- What the calls of `read_text` on one extractor return. -/
def readAll (norm : Str → Str) (pyStr : Val F → Str) (k : Nat) (stages : List Str) : List Doc → TokTable →
    Except PyErr (List (List (StageOut F)) × TokTable)
  | [], tb => .ok ([], tb)
  | d :: ds, tb =>
    match readText norm pyStr k stages d tb with
    | .error e => .error e
    | .ok (os, tb1) =>
      match readAll norm pyStr k stages ds tb1 with
      | .error e => .error e
      | .ok (outs, tb2) => .ok (os :: outs, tb2)

end GB
