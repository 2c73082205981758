import Verif.Model.CommandLine

/-
What is meant by runs of the command line.
-/

namespace GB

variable (F : Type) [PyFloat F]

/-- From `fs` any number of commands were run one after the other, each with options of its own; each of them came to its end,
with an exception or not, or died at any moment. -/
inductive CliRuns (corpus : List WSynset) (fs : Files) : Files → Prop where
  | none : CliRuns corpus fs fs
  | ended {fs' : Files} (h : CliRuns corpus fs fs') (c : Command) (o : CliOpts) :
      CliRuns corpus fs (c.run F o corpus fs').files
  | died {fs' fs'' : Files} (h : CliRuns corpus fs fs') (c : Command) (o : CliOpts) (hd : c.Dies F o corpus fs' fs'') :
      CliRuns corpus fs fs''

/-- The options name an SQLite file that outlives the process. -/
def CliOpts.Keeps (o : CliOpts) : Prop := o.backend = lit "sqlite" ∧ o.db ≠ [] ∧ o.db ≠ lit ":memory:"

end GB
