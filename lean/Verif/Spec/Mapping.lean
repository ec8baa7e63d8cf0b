import Verif.Spec.View
import Verif.Spec.Dest
import Verif.Spec.OMap
import Verif.Model.Api

/-!
# Specification: nodes as insertion-ordered dictionaries

An interpreter of the mapping API in which a node is nothing but an ordered map.
It knows classes only by the values they refuse.
-/

namespace Verif

/-- Behaviors that hand keys and values through to the storage unchanged. -/
def Bhv.passes : Bhv → Bool
  | .nodeChildValidate | .nodespaces | .adopt | .attributes | .order | .asAttrAccess
  | .defaultInit | .nodify | .dictStorage | .odictStorage | .lifecycle | .cache | .invalidate
  | .volatileInvalidate | .unicodeAware | .getattrChildren | .uuidAware | .events => true
  | _ => false

/-- No `Lifecycle` to the right of a `Cache`. -/
def CacheLast : List Bhv → Prop
  | [] => True
  | b :: r => (b = .cache → Bhv.lifecycle ∉ r) ∧ CacheLast r

instance : (bs : List Bhv) → Decidable (CacheLast bs)
  | [] => isTrue trivial
  | b :: r =>
    have := instDecidableCacheLast r
    inferInstanceAs (Decidable ((b = .cache → Bhv.lifecycle ∉ r) ∧ CacheLast r))

/-- Classes assembled from pass-through behaviors above a `DictStorage` or
`OdictStorage`. -/
structure MapClass (c : ClassDef) : Prop where
  passes : ∀ b ∈ c.bhvs, b.passes = true
  stores : Bhv.dictStorage ∈ c.bhvs ∨ Bhv.odictStorage ∈ c.bhvs
  cacheLast : CacheLast c.bhvs

/-- Keys that are children's keys: with `Nodespaces`, strings not of the form
`__x__`. -/
def KeyFor (c : ClassDef) (k : Key) : Prop :=
  Bhv.nodespaces ∈ c.bhvs → ∃ s, k = .str s ∧ ¬ Reserved s

/-- The value a class refuses, with the message. -/
def refuses (c : ClassDef) : Val → Option String
  | .node _ => none
  | .data d =>
    if Bhv.nodeChildValidate ∈ c.bhvs ∧ c.allowNonNode = false then
      some (match d with
        | .cls _ => "It isn't allowed to use classes as values."
        | _ => "Non-node childs are not allowed.")
    else none

/-- What the classes of a program refuse. -/
def refOf (E : Env) (c : ClassId) (v : Val) : Option String := refuses (E.cls c) v

/-- All nodes created so far, their classes and contents. -/
structure MapSpec where
  n : Nat := 0
  cls : Nat → ClassId := fun _ => 0
  map : Nat → OMap Key Val := fun _ => OMap.empty

namespace MapSpec

/-- Replace the contents of a node. -/
def put (s : MapSpec) (o : Oid) (m : OMap Key Val) : MapSpec :=
  { s with map := fun p => if p = o then m else s.map p }

/-- `node[k] = v`. -/
def assign (ref : ClassId → Val → Option String) (s : MapSpec) (o : Oid) (k : Key) (v : Val) :
    Except Exc Unit × MapSpec :=
  match ref (s.cls o) v with
  | some m => (.error (.value m), s)
  | none => (.ok (), s.put o ((s.map o).set k v))

/-- `update`: assign until one is refused. -/
def assignAll (ref : ClassId → Val → Option String) (o : Oid) :
    List (Key × Val) → MapSpec → Except Exc Unit × MapSpec
  | [], s => (.ok (), s)
  | (k, v) :: r, s =>
    match assign ref s o k v with
    | (.ok _, s') => assignAll ref o r s'
    | (.error e, s') => (.error e, s')

/-- The mapping API on ordered maps. -/
def run (ref : ClassId → Val → Option String) (s : MapSpec) : Op → Except Exc Res × MapSpec
  | .new c _ _ =>
    (.ok (.val (.node s.n)),
      { n := s.n + 1
        cls := fun o => if o = s.n then c else s.cls o
        map := fun o => if o = s.n then OMap.empty else s.map o })
  | .get o k =>
    match (s.map o).val k with
    | some v => (.ok (.val v), s)
    | none => (.error (.key (.key k)), s)
  | .set o k v =>
    match assign ref s o k v with
    | (.ok _, s') => (.ok .unit, s')
    | (.error e, s') => (.error e, s')
  | .del o k =>
    if k ∈ (s.map o).keys then (.ok .unit, s.put o ((s.map o).del k))
    else (.error (.key (.key k)), s)
  | .getD o k d => (.ok (.val (((s.map o).val k).getD d)), s)
  | .contains o k => (.ok (.bool (decide (k ∈ (s.map o).keys))), s)
  | .keys o => (.ok (.keys (s.map o).keys), s)
  | .values o => (.ok (.vals (s.map o).values), s)
  | .items o => (.ok (.items (s.map o).items), s)
  | .len o => (.ok (.nat (s.map o).keys.length), s)
  | .setdefault o k v =>
    match (s.map o).val k with
    | some x => (.ok (.val x), s)
    | none =>
      match assign ref s o k v with
      | (.ok _, s') => (.ok (.val v), s')
      | (.error e, s') => (.error e, s')
  | .pop o k d =>
    match (s.map o).val k, d with
    | some v, _ => (.ok (.val v), s.put o ((s.map o).del k))
    | none, some d => (.ok (.val d), s)
    | none, none => (.error (.key (.key k)), s)
  | .popitem o =>
    match (s.map o).items.getLast? with
    | some (k, v) => (.ok (.item k v), s.put o ((s.map o).del k))
    | none => (.error (.key (.msg "popitem(): mapping is empty")), s)
  | .update o kvs =>
    match assignAll ref o kvs s with
    | (.ok _, s') => (.ok .unit, s')
    | (.error e, s') => (.error e, s')
  | .clear o => (.ok .unit, s.put o OMap.empty)
  | _ => (.error .unmodelled, s)

/-- A history on ordered maps. -/
def runAll (ref : ClassId → Val → Option String) :
    List Op → MapSpec → List (Except Exc Res) × MapSpec
  | [], s => ([], s)
  | op :: rest, s =>
    let x := run ref s op
    let y := runAll ref rest x.2
    (x.1 :: y.1, y.2)

end MapSpec

/-- The node and the keys a mapping operation is about; `none` for operations
outside the mapping API. -/
def Op.target : Op → Option (Oid × List Key)
  | .get o k | .del o k | .getD o k _ | .contains o k | .pop o k _ | .set o k _
  | .setdefault o k _ => some (o, [k])
  | .keys o | .values o | .items o | .len o | .popitem o | .clear o => some (o, [])
  | .update o kvs => some (o, kvs.map (·.1))
  | _ => none

/-- Mapping operations on existing nodes of pass-through classes. -/
def MapOp (E : Env) (s : MapSpec) (op : Op) : Prop :=
  (∃ c name parent, op = .new c name parent ∧ MapClass (E.cls c) ∧ (E.cls c).Accepts name parent) ∨
  (∃ o ks, op.target = some (o, ks) ∧ o < s.n ∧ ∀ k ∈ ks, KeyFor (E.cls (s.cls o)) k)

/-- Histories of such operations. -/
def MapHistory (E : Env) (ref : ClassId → Val → Option String) : List Op → MapSpec → Prop
  | [], _ => True
  | op :: rest, s => MapOp E s op ∧ MapHistory E ref rest (s.run ref op).2

end Verif
