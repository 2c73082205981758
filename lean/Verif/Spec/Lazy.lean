import Verif.Model.Lazy

/-
What a user may expect of `f_all` used as a lazy sequence, in terms of whole calls: a generator takes the list of the
vertices (what `list(hg.f_all(lambda x: x))` returns) when it is first asked, and then hands out one function value per
`next`; calls and operations do what they do when no generator exists.
-/

namespace GB

variable {F : Type} [PyFloat F] [DecidableEq F]

/-- A reading program, each call being the whole method. -/
def RProg.run {β : Type} : RProg F β → M β
  | .ret b => fun s => (.ok b, s)
  | .raise e => fun s => (.error e, s)
  | .call c k => fun s => (k (c.run s).1).run (c.run s).2

/-- A lazy sequence: not asked yet; the vertices still to come; over. -/
inductive Seq (F : Type) (β : Type) where
  | fresh (f : Val F → Int → RProg F β)
  | going (f : Val F → Int → RProg F β) (left : List (Val F × Int))
  | over

/-- Somebody took from it, and it is not over. -/
def Seq.underway {β : Type} : Seq F β → Bool
  | .going .. => true
  | _ => false

/-- The vertices, as `f_all` lists them at once (property C26). -/
def verticesNow (s : St) : List (Val F × Int) :=
  match (hgFAll (fun (v : Val F) (d : Int) => (v, d)) s).1 with
  | .ok vs => vs
  | .error _ => []

/-- The next value: of the next vertex, `none` after the last one.  If the function raises, the sequence is over. -/
def Seq.take {β : Type} (f : Val F → Int → RProg F β) : List (Val F × Int) → St →
    Except PyErr (Option β) × Seq F β × St
  | [], s => (.ok none, .over, s)
  | vd :: left, s =>
    match (f vd.1 vd.2).run s with
    | (.ok b, s') => (.ok (some b), .going f left, s')
    | (.error e, s') => (.error e, .over, s')

/-- `next` of a sequence. -/
def Seq.next {β : Type} (q : Seq F β) (s : St) : Except PyErr (Option β) × Seq F β × St :=
  match q with
  | .fresh f => Seq.take f (verticesNow s) s
  | .going f left => Seq.take f left s
  | .over => (.ok none, .over, s)

/-- One step of a program. -/
def Act.spec {β : Type} (s : St) (qs : List (Seq F β)) : Act F β → Out F β × St × List (Seq F β)
  | .make f => (.unit (.ok ()), s, qs ++ [.fresh f])
  | .next i =>
    match qs[i]? with
    | none => (.got (.error .keyError), s, qs)
    | some q => (.got (q.next s).1, (q.next s).2.2, qs.set i (q.next s).2.1)
  | .call c => (.answer (c.run s).1, (c.run s).2, qs)
  | .enter => (.unit (.ok ()), (openCursor false s).2, qs)
  | .leave => (.unit (closeCursor false true s).1, (closeCursor false true s).2, qs)
  | .op o _ => (.unit (o.run s).1, (o.run s).2, qs)

/-- A program. -/
def specActs {β : Type} : List (Act F β) → St → List (Seq F β) → List (Out F β) × St × List (Seq F β)
  | [], s, qs => ([], s, qs)
  | a :: as, s, qs =>
    let r := a.spec s qs
    let rs := specActs as r.2.1 r.2.2
    (r.1 :: rs.1, rs.2)

/-- What a program must respect: no sequence is asked for its first value inside a batch (`s.cur`), and in SQLite the
graph is not changed while a sequence is underway; operations are made outside a batch. -/
def Act.Fair {β : Type} (s : St) (qs : List (Seq F β)) : Act F β → Prop
  | .next i => (∃ f, qs[i]? = some (.fresh f)) → s.cur = none
  | .op _ _ => s.cur = none ∧ (s.autocommit = false → ∀ q ∈ qs, q.underway = false)
  | _ => True

/-- Every step of the program respects that. -/
def FairActs {β : Type} : List (Act F β) → St → List (Seq F β) → Prop
  | [], _, _ => True
  | a :: as, s, qs => a.Fair s qs ∧ FairActs as (a.spec s qs).2.1 (a.spec s qs).2.2

/-- The operations a program makes. -/
def Act.op? {β : Type} : Act F β → Option (Op F)
  | .op o _ => some o
  | _ => none

section
variable {β : Type}

/-- The outcomes of the steps `next i`. -/
def gots (i : Nat) : List (Act F β) → List (Out F β) → List (Out F β)
  | .next j :: as, o :: os => if j = i then o :: gots i as os else gots i as os
  | _ :: as, _ :: os => gots i as os
  | _, _ => []

/-- The `k`-th value of a sequence over the vertices `vs`. -/
def valueAt (b : Val F × Int → β) (vs : List (Val F × Int)) (k : Nat) : Out F β := .got (.ok ((vs[k]?).map b))

/-- How often generator `i` is asked. -/
def asks (i : Nat) : List (Act F β) → Nat
  | .next j :: as => if j = i then asks i as + 1 else asks i as
  | _ :: as => asks i as
  | [] => 0

/-- How many generators are made. -/
def makes : List (Act F β) → Nat
  | .make _ :: as => makes as + 1
  | _ :: as => makes as
  | [] => 0

end

/-- A step that makes a generator, asks one, or makes a reading call. -/
def Act.reads {β : Type} : Act F β → Bool
  | .make _ => true
  | .next _ => true
  | .call _ => true
  | _ => false

end GB
