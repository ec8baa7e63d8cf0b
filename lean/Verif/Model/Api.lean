import Verif.Model.Mapping

/-!
# Histories of API calls

One constructor per public operation; a history is a list of operations, an
operation that raises leaves the heap it produced and the history goes on (the
caller caught the exception).
-/

namespace Verif

/-- Public operations.  `new` is calling a class, `setUuid` is assigning
`node.uuid` on a `Reference` node, `setFallbackKey` assigning `node.fallback_key`. -/
inductive Op where
  | new (c : ClassId) (name : Key) (parent : Option Oid)
  | get (o : Oid) (k : Key)
  | set (o : Oid) (k : Key) (v : Val)
  | del (o : Oid) (k : Key)
  | getD (o : Oid) (k : Key) (d : Val)
  | contains (o : Oid) (k : Key)
  | keys (o : Oid)
  | values (o : Oid)
  | items (o : Oid)
  | len (o : Oid)
  | setdefault (o : Oid) (k : Key) (v : Val)
  | pop (o : Oid) (k : Key) (d : Option Val)
  | popitem (o : Oid)
  | update (o : Oid) (kvs : List (Key × Val))
  | clear (o : Oid)
  | detach (o : Oid) (k : Key)
  | invalidate (o : Oid) (k : Key)
  | insertBefore (o n ref : Oid)
  | insertAfter (o n ref : Oid)
  | insertFirst (o n : Oid)
  | insertLast (o n : Oid)
  | swap (o a b : Oid)
  | attrs (o : Oid)
  | setUuid (o : Oid) (u : Option Nat)
  | setFallbackKey (o : Oid) (k : Key)

/-- Results. -/
inductive Res where
  | unit
  | val (v : Val)
  | bool (b : Bool)
  | nat (n : Nat)
  | keys (ks : List Key)
  | vals (vs : List Val)
  | items (kvs : List (Key × Val))
  | item (k : Key) (v : Val)
deriving DecidableEq

/-- Run one operation. -/
def exec (E : Env) : Op → M Res
  | .new c name parent => do let o ← newNode E c name parent; pure (.val (.node o))
  | .get o k => do let v ← getitem E o k; pure (.val v)
  | .set o k v => do setitem E o k v; pure .unit
  | .del o k => do delitem E o k; pure .unit
  | .getD o k d => do let v ← mget E o k d; pure (.val v)
  | .contains o k => do let b ← mcontains E o k; pure (.bool b)
  | .keys o => do let ks ← mkeys E o; pure (.keys ks)
  | .values o => do let vs ← mvalues E o; pure (.vals vs)
  | .items o => do let kvs ← mitems E o; pure (.items kvs)
  | .len o => do let n ← mlen E o; pure (.nat n)
  | .setdefault o k v => do let v ← msetdefault E o k v; pure (.val v)
  | .pop o k d => do let v ← mpop E o k d; pure (.val v)
  | .popitem o => do let kv ← mpopitem E o; pure (.item kv.1 kv.2)
  | .update o kvs => do mupdate E o kvs; pure .unit
  | .clear o => do mclear E o; pure .unit
  | .detach o k => do let v ← detach E o k; pure (.val v)
  | .invalidate o k => do invalidate E o k; pure .unit
  | .insertBefore o n ref => do insertAt E true o n ref; pure .unit
  | .insertAfter o n ref => do insertAt E false o n ref; pure .unit
  | .insertFirst o n => do insertEnd E true o n; pure .unit
  | .insertLast o n => do insertEnd E false o n; pure .unit
  | .swap o a b => do swapNodes E o a b; pure .unit
  | .attrs o => do let a ← attrs E o; pure (.val (.node a))
  | .setUuid o u => do setUuidRef o u; pure .unit
  | .setFallbackKey o k => do modO o fun ob => { ob with fallbackKey := some k }; pure .unit

/-- Run a history; the results of all operations and the final heap. -/
def execAll (E : Env) : List Op → World → List (Except Exc Res) × World
  | [], w => ([], w)
  | op :: rest, w =>
    let x := exec E op w
    let y := execAll E rest x.2
    (x.1 :: y.1, y.2)

/-- Heaps the API can produce from the empty one. -/
def Reachable (E : Env) (w : World) : Prop := ∃ ops, (execAll E ops {}).2 = w

end Verif
