import Verif.Model.Api

/-!
# Copies

`ClonableMapping.copy` and `deepcopy` (mapping.py:148-158), `Nodify.copy` (nodify.py:33-38) and
`UUIDAware` (common.py:179-211).  What the library calls is Python's `copy` module; it is modelled by
its effect on the heap.
-/

namespace Verif

/-! ### `copy.copy` -/

/-- `copy.copy(self)`, mapping.py:151-153: a new instance of the same class, without running
`__init__`, whose attributes are the attributes of the original.  The dictionaries that exist
already are shared; those that do not exist yet will be created separately.  The module looks up
`__setstate__` on the new instance: a class with `GetattrChildren` (common.py:133-137) turns this into
an item lookup, which raises `KeyError` as there is no such child. -/
def copyEnd (E : Env) (o : Oid) : M Oid := fun w =>
  if (bhvsOf E w o).contains .getattrChildren then (.error (.key (.key (.str "__setstate__".toList))), w)
  else (.ok w.nobj, { w with objs := upd w.objs w.nobj (w.objs o), nobj := w.nobj + 1 })

/-- `Nodify.copy` after `_next`, nodify.py:36-37. -/
def nodifyCopy (o new : Oid) : M Unit := do
  let ob ← getO o
  modO new fun nb => { nb with name := ob.name }
  modO new fun nb => { nb with parent := ob.parent }

/-- `copy`: `UUIDAware` (common.py:189-192) and `Nodify` (nodify.py:33-38) around `copy.copy`. -/
def copyPipe (E : Env) : List Bhv → Oid → M Oid
  | [], o => copyEnd E o
  | .uuidAware :: _, _ => M.raise .runtime
  | .nodify :: r, o => do
    let new ← copyPipe E r o
    nodifyCopy o new
    pure new
  | _ :: r, o => copyPipe E r o

/-- `node.copy()`. -/
def copyNode (E : Env) (o : Oid) : M Oid := fun w =>
  if (bhvsOf E w o).contains .nodify then copyPipe E (bhvsOf E w o) o w else (.error .attr, w)

/-! ### `copy.deepcopy` -/

/-- The node in a value. -/
def Val.nodes : Val → List Oid
  | .node c => [c]
  | .data _ => []

/-- The nodes in the values of a dictionary. -/
def nodesIn (d : Od Key Val) : List Oid := d.flatMap fun kv => kv.2.nodes

/-- The contents of a dictionary that may not exist yet. -/
def contents {K V : Type} (f : Ref → Od K V) : Option Ref → Od K V
  | none => []
  | some r => f r

/-- The nodes the attributes of `o` lead to: `__parent__`, `_storage`, `_cache`, `_nodespaces`,
`_index`, `_children`. -/
def World.next (w : World) (o : Oid) : List Oid :=
  (w.objs o).parent.toList ++ nodesIn (contents w.stores (w.objs o).storage) ++
    nodesIn (contents w.caches (w.objs o).cache) ++ nodesIn (contents w.nspaces (w.objs o).nodespaces) ++
    (contents w.idxs (w.objs o).index).map Prod.snd ++ nodesIn (w.objs o).fixed

/-- Add what the members of `S` lead to. -/
def World.spread (w : World) (S : List Oid) : List Oid :=
  (List.range w.nobj).filter fun p => S.contains p || S.any fun q => (w.next q).contains p

/-- `spread` repeated. -/
def World.spreads (w : World) : Nat → List Oid → List Oid
  | 0, S => S
  | n + 1, S => w.spreads n (w.spread S)

/-- Everything `copy.deepcopy(o)` comes across: all nodes the attributes of `o` lead to, the parent
and what it leads to included. -/
def World.reach (w : World) (o : Oid) : List Oid := w.spreads w.nobj [o]

/-- Where the copy of a node will be: behind all existing objects. -/
def World.moved (w : World) (L : List Oid) (p : Oid) : Oid := if p ∈ L then w.nobj + L.idxOf p else p

/-- Values with their nodes replaced. -/
def Val.moved (f : Oid → Oid) : Val → Val
  | .node c => .node (f c)
  | .data d => .data d

/-- Dictionaries with the nodes in their values replaced. -/
def moveVals (f : Oid → Oid) (d : Od Key Val) : Od Key Val := d.map fun kv => (kv.1, kv.2.moved f)

/-- The same for the index of `Reference`. -/
def moveIdx (f : Oid → Oid) (d : Od (Option Nat) Oid) : Od (Option Nat) Oid := d.map fun kv => (kv.1, f kv.2)

/-- The copy of an instance; the copies of its dictionaries will be found behind the existing ones. -/
def World.movedObj (w : World) (L : List Oid) (ob : Obj) : Obj :=
  { ob with
    parent := ob.parent.map (w.moved L)
    storage := ob.storage.map (w.nstore + ·)
    cache := ob.cache.map (w.ncache + ·)
    nodespaces := ob.nodespaces.map (w.nnspace + ·)
    index := ob.index.map (w.nidx + ·)
    fixed := moveVals (w.moved L) ob.fixed }

/-- Copies of the dictionaries that belong to members of `L`, behind the `n` existing ones. -/
def moveDicts {D : Type} (L : List Oid) (own : Oid → Option Ref) (n : Nat) (move : D → D) (empty : D)
    (f : Ref → D) : Ref → D := fun r =>
  if r < n then f r
  else if L.any fun q => own q == some (r - n) then move (f (r - n)) else empty

/-- The heap after `copy.deepcopy` of the nodes in `L`. -/
def World.deep (w : World) (L : List Oid) : World :=
  { w with
    objs := fun p => if p < w.nobj then w.objs p else
      match L[p - w.nobj]? with
      | some q => w.movedObj L (w.objs q)
      | none => {}
    nobj := w.nobj + L.length
    stores := moveDicts L (fun q => (w.objs q).storage) w.nstore (moveVals (w.moved L)) [] w.stores
    nstore := w.nstore + w.nstore
    caches := moveDicts L (fun q => (w.objs q).cache) w.ncache (moveVals (w.moved L)) [] w.caches
    ncache := w.ncache + w.ncache
    nspaces := moveDicts L (fun q => (w.objs q).nodespaces) w.nnspace (moveVals (w.moved L)) [] w.nspaces
    nnspace := w.nnspace + w.nnspace
    idxs := moveDicts L (fun q => (w.objs q).index) w.nidx (moveIdx (w.moved L)) [] w.idxs
    nidx := w.nidx + w.nidx }

/-- `copy.deepcopy(self)`, mapping.py:155-158: every instance that can be reached through instance
attributes is copied once, without running `__init__` (the `memo` of the module keeps sharing and
cycles), strings, numbers and uuids are taken over.  The module looks up `__deepcopy__` on every
instance: with `GetattrChildren` (common.py:133-137) this is an item lookup, which raises `KeyError`.
Not modelled: mutable values that are not nodes (the values of the model cannot change), the limit of
Python's recursion, instance attributes other than those of `Obj` — in particular `_treelock`
(locking.py:5-22), which makes `copy.deepcopy` raise `TypeError`. -/
def deepEnd (E : Env) (o : Oid) : M Oid := fun w =>
  if (w.reach o).any fun q => (bhvsOf E w q).contains .getattrChildren then
    (.error (.key (.key (.str "__deepcopy__".toList))), w)
  else (.ok (w.moved (w.reach o) o), w.deep (w.reach o))

/-- `node.uuid = self.uuid_factory()` where `node` provides `IUUIDAware`, common.py:206-208; the setter
of `Reference` (reference.py:73-84) is used if the class has it. -/
def assignUuid (E : Env) (override : Bool) (c : Oid) : M Unit := do
  let w ← M.getW
  if (bhvsOf E w c).contains .uuidAware then
    if override || (w.objs c).uuid.isNone then do
      let u ← freshUuid
      if (bhvsOf E w c).contains .reference then setUuidRef c (some u)
      else modO c fun ob => { ob with uuid := some u }
    else pure ()
  else pure ()

/-- `set_uuid_for(node, override, recursiv)`, common.py:204-211; the number bounds the recursion.
Values that are not nodes have no `values`, except dictionaries. -/
def setUuidFor (E : Env) (override recursiv : Bool) : Nat → Val → M Unit
  | 0, _ => M.raise .diverge
  | n + 1, .node c => do
    assignUuid E override c
    if recursiv then do
      let vs ← mvalues E c
      forU (setUuidFor E override recursiv n) vs
    else pure ()
  | n + 1, .data (.dict kvs) =>
    if recursiv then forU (fun kv => setUuidFor E override recursiv n (.data kv.2)) kvs else pure ()
  | _ + 1, .data (.opaque _) | _ + 1, .data (.cls _) => if recursiv then M.raise .unmodelled else pure ()
  | _ + 1, .data _ => if recursiv then M.raise .attr else pure ()

/-- `node.set_uuid_for(o, override, recursiv)` called from outside, common.py:204-211; the node it is
called on contributes only `uuid_factory`. -/
def setUuidForNode (E : Env) (override recursiv : Bool) (o : Oid) : M Unit := fun w =>
  setUuidFor E override recursiv (w.nobj + 1) (.node o) w

/-- `deepcopy`: `UUIDAware` (common.py:194-198) around `copy.deepcopy`. -/
def deepPipe (E : Env) : List Bhv → Oid → M Oid
  | [], o => deepEnd E o
  | .uuidAware :: r, o => do
    let c ← deepPipe E r o
    let w ← M.getW
    setUuidFor E true (clsOf E w o).overwriteRecursiv (w.nobj + 1) (.node c)
    pure c
  | _ :: r, o => deepPipe E r o

/-- `node.deepcopy()`. -/
def deepcopy (E : Env) (o : Oid) : M Oid := fun w =>
  if (bhvsOf E w o).contains .nodify then deepPipe E (bhvsOf E w o) o w else (.error .attr, w)

end Verif
