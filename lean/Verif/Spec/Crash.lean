import Verif.Model.History

/-
What may be found on disk after a crash.
-/

namespace GB

/-- The contents that may be on disk if the process dies at any moment from the start of the call `m` in
state `s` until it returns or raises: those on disk at the start, and those of every commit the call makes
(`commits` records every commit, see `Tame.trace`). -/
def crashContents {α : Type} (m : M α) (s : St) : List DB :=
  s.disk :: (m s).2.commits.drop s.commits.length

/-- A new connection to a database file with these contents. -/
def reopen (db : DB) (auto : Bool) : St := ⟨db, db, [], none, auto⟩

end GB
