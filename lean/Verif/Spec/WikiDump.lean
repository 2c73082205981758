import Verif.Py.Basic

/-
What a filtered dump should be, without the program.
-/

namespace GB

/-- The pieces around a title in a line: `<title>` after `a`, then the title, then `</title>` and `b`. -/
def TitleAt (line a t b : Str) : Prop := line = a ++ lit "<title>" ++ t ++ lit "</title>" ++ b ∧ '\n' ∉ t

/-- The title in a line: between the first `<title>` that is closed and the last `</title>`. -/
def HasTitle (line t : Str) : Prop := ∃ a b, TitleAt line a t b ∧
  ∀ a' t' b', TitleAt line a' t' b' → a.length < a'.length ∨ a' = a ∧ t'.length ≤ t.length

/-- There is no title in the line. -/
def NoTitle (line : Str) : Prop := ∀ a t b, ¬ TitleAt line a t b

/-- A line: no newline but at the end, and there. -/
def IsLine (l : Str) : Prop := ∃ s, l = s ++ ['\n'] ∧ '\n' ∉ s

/-- A page of a dump: its first line, with `<page>`; the lines before the title; the line with the title; the others; and
the line with `</page>`. -/
structure WikiPage where
  first : Str
  head : List Str
  titleLine : Str
  title : Str
  body : List Str
  last : Str

/-- All lines of a page. -/
def WikiPage.lines (p : WikiPage) : List Str := p.first :: p.head ++ p.titleLine :: p.body ++ [p.last]

/-- What makes a page a page: the lines are where they should be, and there is no other page in it. -/
structure WikiPage.Ok (p : WikiPage) : Prop where
  isLine : ∀ l ∈ p.lines, IsLine l
  first : lit "<page>" <:+: p.first
  head : ∀ l ∈ p.head, NoTitle l
  title : HasTitle p.titleLine p.title
  body : ∀ l ∈ p.body, ¬ lit "</page>" <:+: l ∧ ¬ lit "<page>" <:+: l
  last : lit "</page>" <:+: p.last
  lastNew : ¬ lit "<page>" <:+: p.last

/-- A dump: pages, and lines between them that do not open a page. -/
inductive WikiItem where
  | line (l : Str)
  | page (p : WikiPage)

/-- The lines. -/
def WikiItem.lines : WikiItem → List Str
  | .line l => [l]
  | .page p => p.lines

/-- As it should be. -/
def WikiItem.Ok : WikiItem → Prop
  | .line l => IsLine l ∧ ¬ lit "<page>" <:+: l
  | .page p => p.Ok

/-- Everything but the pages of other namespaces. -/
def WikiItem.Wanted : WikiItem → Bool
  | .line _ => true
  | .page p => !(p.title.contains ':')

/-- The text of a dump. -/
def dumpText (d : List WikiItem) : Str := (d.map fun i => i.lines.flatten).flatten

end GB
