import Verif.Py.Basic

/-
Model of python/filter_wikidump.py: a filter for dumps of MediaWiki.  The file is its text after decoding
and newline translation; what is written to the standard output is the result.
-/

namespace GB

/-- The lines a text file is iterated by (python/filter_wikidump.py:52): each with its newline. -/
def fileLines : Str → List Str
  | [] => []
  | c :: s =>
    if c = '\n' then [c] :: fileLines s
    else match fileLines s with
      | [] => [[c]]
      | l :: ls => (c :: l) :: ls

/-- `re.compile(p).search(s) is not None` for a pattern without special characters
(python/filter_wikidump.py:44-45, 54, 73). -/
def reFound (p : Str) : Str → Bool
  | [] => p.isPrefixOf []
  | c :: s => p.isPrefixOf (c :: s) || reFound p s

/-- `(.*)</title>` at the start of the string: the longest text without newline before a `</title>`
(python/filter_wikidump.py:46). -/
def titleRest : Str → Option Str
  | [] => none
  | c :: s =>
    let longer := if c = '\n' then none else (titleRest s).map (c :: ·)
    match longer with
    | some t => some t
    | none => if (lit "</title>").isPrefixOf (c :: s) then some [] else none

/-- `title.search(line)`, and `m.group(1)` (python/filter_wikidump.py:46, 61): the first place where
`<title>(.*)</title>` matches. -/
def titleSearch : Str → Option Str
  | [] => none
  | c :: s =>
    let here := if (lit "<title>").isPrefixOf (c :: s) then titleRest ((c :: s).drop 7) else none
    match here with
    | some t => some t
    | none => titleSearch s

/-- python/filter_wikidump.py:39-40 `check_title`. -/
def checkTitle (title : Str) : Bool := !(title.contains ':')

/-- The variable `state` (python/filter_wikidump.py:48). -/
inductive WikiState where
  | pageSearch
  | titleSearch
  | closePageSearch
  deriving DecidableEq, Repr

/-- The loop of `main` (python/filter_wikidump.py:52-77), over the lines that are left, with the variables `state` and
`buffer`; the text written. -/
def wikiLoop : WikiState → Str → List Str → Str
  | _, _, [] => []
  | .pageSearch, buffer, line :: lines =>
    if reFound (lit "<page>") line then wikiLoop .titleSearch line lines
    else line ++ wikiLoop .pageSearch buffer lines
  | .titleSearch, buffer, line :: lines =>
    match titleSearch line with
    | none => wikiLoop .titleSearch (buffer ++ line) lines
    | some t =>
      if checkTitle t then buffer ++ line ++ wikiLoop .pageSearch [] lines
      else wikiLoop .closePageSearch [] lines
  | .closePageSearch, buffer, line :: lines =>
    if reFound (lit "</page>") line then wikiLoop .pageSearch buffer lines
    else wikiLoop .closePageSearch buffer lines

/-- python/filter_wikidump.py:43-77 `main`. -/
def wikiMain (text : Str) : Str := wikiLoop .pageSearch [] (fileLines text)

end GB
