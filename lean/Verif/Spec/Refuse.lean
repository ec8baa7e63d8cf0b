import Verif.Spec.Mapping

/-!
# Specification: ordered dictionaries that may refuse nodes

A node with `Reference` is an ordered map, too, but it may refuse to take or to give up
a node.  `Allows` says which results and which contents afterwards an operation may have;
it knows classes by the values they refuse and by whether they have `Reference`.
-/

namespace Verif

/-- Classes assembled from pass-through behaviors and `Reference`, without `Cache`, above a
`DictStorage` or `OdictStorage`. -/
structure RefMapClass (c : ClassDef) : Prop where
  passes : ∀ b ∈ c.bhvs, (b.passes = true ∨ b = .reference) ∧ b ≠ .cache
  stores : Bhv.dictStorage ∈ c.bhvs ∨ Bhv.odictStorage ∈ c.bhvs

/-- What the node may refuse to take: with `Reference`, nodes without `Reference` and nodes that
have children themselves. -/
def MayRefuse (E : Env) (s : MapSpec) (o : Oid) (v : Val) : Prop :=
  Bhv.reference ∈ (E.cls (s.cls o)).bhvs ∧ ∃ c, v = .node c ∧
    ¬ (c < s.n ∧ Bhv.reference ∈ (E.cls (s.cls c)).bhvs ∧ (s.map c).keys = [])

/-- What the node may refuse to give up: with `Reference`, nodes. -/
def MayKeep (E : Env) (s : MapSpec) (o : Oid) (v : Val) : Prop :=
  Bhv.reference ∈ (E.cls (s.cls o)).bhvs ∧ ∃ c, v = .node c

/-- `node[k] = v`: it is done, or the value is refused and nothing changes. -/
inductive Assigns (E : Env) (o : Oid) (k : Key) (v : Val) (s : MapSpec) : Except Exc Unit → MapSpec → Prop
  | done : refuses (E.cls (s.cls o)) v = none → Assigns E o k v s (.ok ()) (s.put o ((s.map o).set k v))
  | invalid (m : String) : refuses (E.cls (s.cls o)) v = some m → Assigns E o k v s (.error (.value m)) s
  | refused (e : Exc) : MayRefuse E s o v → Assigns E o k v s (.error e) s

/-- `del node[k]`: it is done, or the key is missing, or it is refused; then nothing changes. -/
inductive Deletes (E : Env) (o : Oid) (k : Key) (s : MapSpec) : Except Exc Unit → MapSpec → Prop
  | done : k ∈ (s.map o).keys → Deletes E o k s (.ok ()) (s.put o ((s.map o).del k))
  | missing : k ∉ (s.map o).keys → Deletes E o k s (.error (.key (.key k))) s
  | refused (e : Exc) (v : Val) : (s.map o).val k = some v → MayKeep E s o v → Deletes E o k s (.error e) s

/-- `update`: one assignment after the other, up to the first that fails. -/
inductive AssignsAll (E : Env) (o : Oid) : List (Key × Val) → MapSpec → Except Exc Unit → MapSpec → Prop
  | nil (s : MapSpec) : AssignsAll E o [] s (.ok ()) s
  | step {k : Key} {v : Val} {r : List (Key × Val)} {s s1 s2 : MapSpec} {x : Except Exc Unit} :
    Assigns E o k v s (.ok ()) s1 → AssignsAll E o r s1 x s2 → AssignsAll E o ((k, v) :: r) s x s2
  | stop {k : Key} {v : Val} {r : List (Key × Val)} {s s1 : MapSpec} {e : Exc} :
    Assigns E o k v s (.error e) s1 → AssignsAll E o ((k, v) :: r) s (.error e) s1

/-- `clear`: one deletion after the other, up to the first that fails. -/
inductive DeletesAll (E : Env) (o : Oid) : List Key → MapSpec → Except Exc Unit → MapSpec → Prop
  | nil (s : MapSpec) : DeletesAll E o [] s (.ok ()) s
  | step {k : Key} {r : List Key} {s s1 s2 : MapSpec} {x : Except Exc Unit} :
    Deletes E o k s (.ok ()) s1 → DeletesAll E o r s1 x s2 → DeletesAll E o (k :: r) s x s2
  | stop {k : Key} {r : List Key} {s s1 : MapSpec} {e : Exc} :
    Deletes E o k s (.error e) s1 → DeletesAll E o (k :: r) s (.error e) s1

/-- What an operation may return and leave behind. -/
inductive Allows (E : Env) (s : MapSpec) : Op → Except Exc Res → MapSpec → Prop
  /-- Reading, and creating a node: as for ordered dictionaries. -/
  | plain (op : Op) : (∀ o k v, op ≠ .set o k v) → (∀ o k, op ≠ .del o k) →
      (∀ o k v, op ≠ .setdefault o k v) → (∀ o k d, op ≠ .pop o k d) → (∀ o, op ≠ .popitem o) →
      (∀ o kvs, op ≠ .update o kvs) → (∀ o, op ≠ .clear o) →
      Allows E s op (s.run (refOf E) op).1 (s.run (refOf E) op).2
  | set {o k v x s'} : Assigns E o k v s x s' → Allows E s (.set o k v) (x.map fun _ => .unit) s'
  | del {o k x s'} : Deletes E o k s x s' → Allows E s (.del o k) (x.map fun _ => .unit) s'
  | setdefault_there {o k v y} : (s.map o).val k = some y → Allows E s (.setdefault o k v) (.ok (.val y)) s
  | setdefault_new {o k v x s'} : (s.map o).val k = none → Assigns E o k v s x s' →
      Allows E s (.setdefault o k v) (x.map fun _ => .val v) s'
  | pop_there {o k d v x s'} : (s.map o).val k = some v → Deletes E o k s x s' →
      (∀ e, x = .error e → e.isKey = true → d = none) →
      Allows E s (.pop o k d) (x.map fun _ => .val v) s'
  /-- A refused deletion that looks like a missing key. -/
  | pop_kept {o k d v e s'} : (s.map o).val k = some v → Deletes E o k s (.error e) s' → e.isKey = true →
      Allows E s (.pop o k (some d)) (.ok (.val d)) s'
  | pop_default {o k d} : (s.map o).val k = none → Allows E s (.pop o k (some d)) (.ok (.val d)) s
  | pop_missing {o k} : (s.map o).val k = none → Allows E s (.pop o k none) (.error (.key (.key k))) s
  | popitem {o k v x s'} : (s.map o).items.getLast? = some (k, v) → Deletes E o k s x s' →
      Allows E s (.popitem o) (x.map fun _ => .item k v) s'
  | popitem_empty {o} : (s.map o).keys = [] →
      Allows E s (.popitem o) (.error (.key (.msg "popitem(): mapping is empty"))) s
  | update {o kvs x s'} : AssignsAll E o kvs s x s' → Allows E s (.update o kvs) (x.map fun _ => .unit) s'
  | clear {o x s'} : DeletesAll E o (s.map o).keys s x s' → Allows E s (.clear o) (x.map fun _ => .unit) s'

/-- Mapping operations on existing nodes of such classes. -/
def RefMapOp (E : Env) (s : MapSpec) (op : Op) : Prop :=
  (∃ c name parent, op = .new c name parent ∧ RefMapClass (E.cls c) ∧ (E.cls c).Accepts name parent) ∨
  (∃ o ks, op.target = some (o, ks) ∧ o < s.n ∧ ∀ k ∈ ks, KeyFor (E.cls (s.cls o)) k)

/-- The nodes there are after an operation, and their classes. -/
def MapSpec.declare (s : MapSpec) : Op → MapSpec
  | .new c _ _ => { s with n := s.n + 1, cls := fun o => if o = s.n then c else s.cls o }
  | _ => s

/-- Histories of such operations. -/
def RefMapHistory (E : Env) : List Op → MapSpec → Prop
  | [], _ => True
  | op :: rest, s => RefMapOp E s op ∧ RefMapHistory E rest (s.declare op)

/-- What a history may return and leave behind. -/
inductive AllowsAll (E : Env) : List Op → MapSpec → List (Except Exc Res) → MapSpec → Prop
  | nil (s : MapSpec) : AllowsAll E [] s [] s
  | step {op : Op} {r : List Op} {s s1 s2 : MapSpec} {x : Except Exc Res} {xs : List (Except Exc Res)} :
    Allows E s op x s1 → AllowsAll E r s1 xs s2 → AllowsAll E (op :: r) s (x :: xs) s2

end Verif
