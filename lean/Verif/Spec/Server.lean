import Verif.Model.Server
import Verif.Spec.Collation
import Verif.Spec.Encode

/-
Vocabulary of property C89: calls whose texts and time stamps are among given characters and numbers.
-/

namespace GB

variable {F : Type} [PyFloat F] [DecidableEq F]

/-- The time stamp of an addition is among the numbers `q`. -/
def Prim.Stamped (q : Int → Prop) : Prim F → Prop
  | .add _ n => q n
  | _ => True

/-- The same for all calls. -/
def Op.Stamped (q : Int → Prop) : Op F → Prop
  | .prim x => x.Stamped q
  | .addMany _ n => q n
  | .addBelief _ _ n => q n
  | .addBeliefs _ _ n => q n
  | .batch xs => ∀ x ∈ xs, x.Stamped q
  | _ => True

/-- The two servers do the same, statement by statement and in every state, with texts over the characters `p` and with
time stamps among the numbers `q`. -/
structure Server.Agree (p : Char → Bool) (q : Int → Prop) (a b : Server) : Prop where
  updateVertex : ∀ c t d n, t.all p = true → q n → a.updateVertex c t d n = b.updateVertex c t d n
  insertVertex : ∀ c t d n, t.all p = true → q n → a.insertVertex c t d n = b.insertVertex c t d n
  updatePerm : ∀ c t, t.all p = true → a.updatePerm c t = b.updatePerm c t
  insertPerm : ∀ c t, t.all p = true → a.insertPerm c t = b.insertPerm c t
  deletePerm : ∀ c t, t.all p = true → a.deletePerm c t = b.deletePerm c t
  deleteVertex : ∀ c t, t.all p = true → a.deleteVertex c t = b.deleteVertex c t
  bumpDegree : ∀ c d t, t.all p = true → a.bumpDegree c d t = b.bumpDegree c d t
  selectRange : ∀ c t u, t.all p = true → u.all p = true → a.selectRange c t u = b.selectRange c t u
  selectVertex : ∀ c t, t.all p = true → a.selectVertex c t = b.selectVertex c t

/-- The texts of the vocabulary are over the characters `p`, and so is the character after the last one of each. -/
def Fine (p : Char → Bool) (V : Val F → Prop) : Prop := ∀ v, V v → v.uses p = true ∧ v.endsWell p = true

/-- The texts that are asked for are over the characters `p`. -/
def Prim.AsksIn (p : Char → Bool) : Prim F → Prop
  | .query (.symbolsWithRoot r) => r.all p = true
  | _ => True

/-- The same for all calls. -/
def Op.AsksIn (p : Char → Bool) : Op F → Prop
  | .prim x => x.AsksIn p
  | .batch xs => ∀ x ∈ xs, x.AsksIn p
  | .degree v => v.uses p = true
  | .timestamp v => v.uses p = true
  | _ => True

end GB
