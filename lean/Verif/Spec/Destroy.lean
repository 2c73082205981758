import Verif.Spec.Concurrent

/-
Programs of several processes, some of which erase the graph (`destroy`).
-/

namespace GB

variable {F : Type} [PyFloat F] [DecidableEq F]

/-- A writing call of a process, or `destroy`. -/
inductive DAct (F : Type) where
  | call (a : PAct F)
  | destroy

/-- The same call, as an operation of a single user. -/
def DAct.op : DAct F → Op F
  | .call a => a.op
  | .destroy => .prim .destroy

/-- The call may add `x`. -/
def DAct.Adds (x : Val F) : DAct F → Prop
  | .call a => a.Adds x
  | .destroy => False

/-- The call may take `x` away: it removes it, or it erases everything. -/
def DAct.Drops (x : Val F) : DAct F → Prop
  | .call a => a.Removes x
  | .destroy => True

/-- The call may add or remove `x`, other than by erasing everything. -/
def DAct.Names (x : Val F) : DAct F → Prop
  | .call a => a.Touches x
  | .destroy => False

/-- The call asks the graph for `x`, to decide about other edges. -/
def DAct.Sees (x : Val F) : DAct F → Prop
  | .call a => a.Sees x
  | .destroy => False

/-- A program: calls one after the other. -/
abbrev DProgram (F : Type) := List (DAct F)

/-- The program may add `x`. -/
def DProgram.Adds (p : DProgram F) (x : Val F) : Prop := ∃ a ∈ p, a.Adds x

/-- The program may take `x` away. -/
def DProgram.Drops (p : DProgram F) (x : Val F) : Prop := ∃ a ∈ p, a.Drops x

/-- Either the program never takes `x` away, or after the last time it may have done so it adds it. -/
def DProgram.RestoresLast (p : DProgram F) (x : Val F) : Prop :=
  ¬ p.Drops x ∨ ∃ pre post, p = pre ++ post ∧ ¬ DProgram.Drops post x ∧ DProgram.Adds post x

/-- Either the program never adds `x`, or after the last time it may have done so it erases the graph. -/
def DProgram.ErasesLast (p : DProgram F) (x : Val F) : Prop :=
  ¬ p.Adds x ∨ ∃ pre post, p = pre ++ post ∧ ¬ DProgram.Adds post x ∧ .destroy ∈ post

/-- No query raises, and all edges they know of satisfy `K`. -/
structure OnlyShows (V K : Val F → Prop) (s : St) : Prop where
  ex : ∀ e, EdgeOver V e → ∃ b, (hgExists e s).1 = .ok b ∧ (b = true → K e)
  pattern : ∀ ps, PatternOver V ps → ∃ r, (hgPattern2edges (.tup ps) s).1 = .ok r ∧ ∀ x ∈ r, K x
  star : ∀ c, V c → c.isAtom = true → ∃ r, (hgStar c s).1 = .ok r ∧ ∀ x ∈ r, K x
  sources : ∀ e, V (.str (lit "src/1")) → V e → ∃ r, (hgSources e s).1 = .ok r ∧ ∀ x ∈ r, K (support e x)

end GB
