import Verif.Spec.History

/-
Vocabulary of property C88: which calls name only characters of a given set.
-/

namespace GB

variable {F : Type} [PyFloat F]

/-- The set contains the 128 characters of ASCII. -/
def HasAscii (p : Char → Bool) : Prop := ∀ c : Char, c.toNat < 128 → p c = true

mutual
/-- The strings in a value use only characters of the set.  (Integers are written in ASCII.) -/
def Val.uses (p : Char → Bool) : Val F → Bool
  | .str s => s.all p
  | .flt x => (PyFloat.repr x).all p
  | .seq _ xs => usesAll p xs
  | .int _ => true
  | .none => true
/-- The same for all elements of a list. -/
def usesAll (p : Char → Bool) : List (Val F) → Bool
  | [] => true
  | x :: xs => x.uses p && usesAll p xs
end

/-- The character after the last one of the text, if there is one, is in the set. -/
def nextIn (p : Char → Bool) (t : Str) : Bool :=
  match t.getLast? with
  | none => true
  | some c => !(c.toNat + 1).isValidChar || p (Char.ofNat (c.toNat + 1))

/-- For a symbol or decimal, the character after its last one is in the set. -/
def Val.endsWell (p : Char → Bool) : Val F → Bool
  | .str s => nextIn p s
  | .flt x => nextIn p (PyFloat.repr x)
  | _ => true

/-- A pattern or an edge can be looked up with the characters of the set: they are all there, and so is the one after the last
character. -/
def patSent (p : Char → Bool) (ps : List (Val F)) : Bool :=
  ps.all (fun x => x.uses p) &&
    match (ps.filter fun x => !x.isNone).getLast? with
    | none => true
    | some q => q.endsWell p

/-- What a reading call names is in the set. -/
def Query.sent (p : Char → Bool) : Query F → Bool
  | .exists e => patSent p e.elems
  | .pattern ps => patSent p ps
  | .star c => c.uses p
  | .symbolsWithRoot r => r.all p
  | .sources e => e.uses p && e.endsWell p
  | .fAll => true

/-- What the call names is in the set. -/
def Prim.sent (p : Char → Bool) : Prim F → Bool
  | .add e _ => patSent p e.elems
  | .remove e => patSent p e.elems
  | .removeMany es => es.all fun e => patSent p e.elems
  | .removeByPattern ps => patSent p ps
  | .removeBelief src e => patSent p [e, src] && patSent p e.elems
  | .destroy => true
  | .query q => q.sent p

/-- The same for all calls. -/
def Op.sent (p : Char → Bool) : Op F → Bool
  | .prim a => a.sent p
  | .addMany es _ => es.all fun e => patSent p e.elems
  | .addBelief src e _ => patSent p [e, src] && patSent p e.elems
  | .addBeliefs src es _ => es.all fun e => patSent p [e, src] && patSent p e.elems
  | .batch as => as.all fun a => a.sent p
  | .degree v => v.uses p
  | .timestamp v => v.uses p

/-- What the call adds, if it does, is in the set. -/
def Prim.stored (p : Char → Bool) : Prim F → Bool
  | .add e _ => e.uses p
  | _ => true

/-- The same for all calls. -/
def Op.stored (p : Char → Bool) : Op F → Bool
  | .prim a => a.stored p
  | .addMany es _ => es.all fun e => e.uses p
  | .addBelief src e _ => e.uses p && src.uses p
  | .addBeliefs src es _ => es.all fun e => e.uses p && src.uses p
  | .batch as => as.all fun a => a.stored p
  | _ => true

/-- The call names something that is not in the set before it has an effect. -/
def Op.refused (p : Char → Bool) : Op F → Bool
  | .prim (.removeMany es) => match es with
    | [] => false
    | e :: _ => !patSent p e.elems
  | .prim (.removeBelief src e) => !patSent p [e, src]
  | .prim a => !a.sent p
  | .degree v => !v.uses p
  | .timestamp v => !v.uses p
  | _ => false

/-- The elements of `e` before the first one with a character that is not in the set. -/
def goodPrefix (p : Char → Bool) (e : Val F) : List (Val F) := e.elems.takeWhile fun x => x.uses p

end GB
