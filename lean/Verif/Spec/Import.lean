import Verif.Spec.Buffer
import Verif.Spec.Crash

/-
Imports through a BatchHyperGraph that are cut off by a crash.
-/

namespace GB

variable {F : Type} [PyFloat F]

/-- The contents that may be on disk if the process dies at any moment of the call `c` on a BatchHyperGraph (the buffer, being in
memory, is lost): those on disk at the start, and those of every commit the call makes. -/
def bhCrash {α : Type} (c : BSt F → Except PyErr α × BSt F) (b : BSt F) : List DB :=
  b.base.disk :: (c b).2.base.commits.drop b.base.commits.length

end GB
