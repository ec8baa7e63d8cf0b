import Verif.World

/-!
# Item access through the plumbing pipeline

`__iter__`, `__setitem__`, `__init__`, `__getitem__`, `__delitem__`, `detach` and
`invalidate` of a plumbed class.  Each `...Pipe` function is a fold over the
behaviors of the class from left to right; behaviors that do not plumb the method
are skipped, `next` is the rest of the pipeline and the empty list is the endpoint.

Missing attributes raise `AttributeError`; the interplay with the `__getattr__`
of `GetattrChildren` is not modelled here.
-/

namespace Verif

/-- Behaviors of the class of `o`. -/
def bhvsOf (E : Env) (w : World) (o : Oid) : List Bhv := (clsOf E w o).bhvs

/-- One of the storage behaviors provides the item endpoint (storage.py:21-35). -/
def Bhv.isStorage : Bhv → Bool
  | .storage | .dictStorage | .odictStorage => true
  | _ => false

/-- The behavior that provides the attribute `storage`: the leftmost `default`
(storage.py:15-19, 40-43, 49-52). -/
def storageKind (bs : List Bhv) : Option Bhv := bs.find? Bhv.isStorage

/-! ### The lazily created dictionaries -/

/-- `self.storage`: storage.py:15-19 (abstract), 40-43 and 49-52 (an
`instance_property`, utils.py:208-224, created on first access).  A class without
storage behavior has no such attribute. -/
def storageRef (E : Env) (o : Oid) : M Ref := fun w =>
  match storageKind (bhvsOf E w o) with
  | none => (.error .attr, w)
  | some .storage => (.error .notImpl, w)
  | some _ =>
    match (w.objs o).storage with
    | some r => (.ok r, w)
    | none =>
      (.ok w.nstore,
        { w with
          objs := upd w.objs o { w.objs o with storage := some w.nstore }
          stores := upd w.stores w.nstore []
          nstore := w.nstore + 1 })

/-- `self.cache`, cache.py:73-78 (an `instance_property`). -/
def cacheRef (o : Oid) : M Ref := fun w =>
  match (w.objs o).cache with
  | some r => (.ok r, w)
  | none =>
    (.ok w.ncache,
      { w with
        objs := upd w.objs o { w.objs o with cache := some w.ncache }
        caches := upd w.caches w.ncache []
        ncache := w.ncache + 1 })

/-- The key `'__children__'`. -/
def childrenKey : Key := .str ['_', '_', 'c', 'h', 'i', 'l', 'd', 'r', 'e', 'n', '_', '_']

/-- The key `'__attrs__'`. -/
def attrsKey : Key := .str ['_', '_', 'a', 't', 't', 'r', 's', '_', '_']

/-- `self.nodespaces`, nodespace.py:16-26: created on first access with the
single entry `__children__`. -/
def nodespacesRef (o : Oid) : M Ref := fun w =>
  match (w.objs o).nodespaces with
  | some r => (.ok r, w)
  | none =>
    (.ok w.nnspace,
      { w with
        objs := upd w.objs o { w.objs o with nodespaces := some w.nnspace }
        nspaces := upd w.nspaces w.nnspace [(childrenKey, .node o)]
        nnspace := w.nnspace + 1 })

/-- `ob._index`, an attribute set by `Reference.__init__` (reference.py:35). -/
def indexRef (o : Oid) : M Ref := fun w =>
  match (w.objs o).index with
  | some r => (.ok r, w)
  | none => (.error .attr, w)

/-! ### `__iter__` -/

/-- What iterating yields: the keys in order, then either the end or an
exception.  (Generators raise when the consumer gets there.) -/
abbrev Iter := List Key × Option Exc

/-- The endpoint of `__iter__`: `FixedChildren` finalizes (common.py:116-118);
otherwise the leftmost override among `ChildFactory` (common.py:69-71) and the
storages (storage.py:33-35); otherwise `NotImplementedError`
(mapping.py:87-89). -/
def iterEnd (E : Env) (o : Oid) : M Iter := fun w =>
  let bs := bhvsOf E w o
  if bs.contains .fixedChildren then (.ok ((w.objs o).fixed.keys, none), w)
  else
    match bs.find? fun b => b.isStorage || b == .childFactory with
    | some .childFactory => (.ok ((clsOf E w o).factories.keys, none), w)
    | some _ =>
      match storageRef E o w with
      | (.ok r, w') => (.ok ((w'.stores r).keys, none), w')
      | (.error e, w') => (.error e, w')
    | none => (.error .notImpl, w)

/-- The loop of `Alias.__iter__`, alias.py:160-172. -/
def aliasIter (a : Option Aliaser) : List Key → Option Exc → Iter
  | [], e => ([], e)
  | k :: r, e =>
    match a with
    | none => let (ks, e') := aliasIter a r e; (k :: ks, e')
    | some al =>
      if al.truthy then
        match al.alias k with
        | .ok k' => let (ks, e') := aliasIter a r e; (k' :: ks, e')
        | .error x =>
          if x.isKey && al.enumerable then aliasIter a r e
          else ([], some x)
      else let (ks, e') := aliasIter a r e; (k :: ks, e')

/-- `__iter__`: `Alias` (alias.py:160-172) and `Cache` (cache.py:118-121) plumb
it. -/
def iterPipe (E : Env) : List Bhv → Oid → M Iter
  | [], o => iterEnd E o
  | .alias :: r, o => do
    let (ks, e) ← iterPipe E r o
    let w ← M.getW
    pure (aliasIter (clsOf E w o).aliaser ks e)
  | .cache :: r, o => iterPipe E r o
  | _ :: r, o => iterPipe E r o

/-- `iter(node)` / `node.iterkeys()` (mapping.py:123-127).  Not modelled: with `ChildFactory` `iterkeys`
is a method of its own (common.py:73), which `Alias` does not plumb. -/
def iter (E : Env) (o : Oid) : M Iter := fun w => iterPipe E (bhvsOf E w o) o w

/-! ### `__setitem__` -/

/-- `key.startswith('__') and key.endswith('__')`, nodespace.py:44, 57 (and 33-35
for a `str`). -/
def reserved (s : Str) : Bool := startsWith s ['_', '_'] && endsWith s ['_', '_']

/-- `Nodespaces.__setitem__`, nodespace.py:41-52.  Attribute writes to plain
values raise `AttributeError`; those to class objects and functions succeed (their
effect on the class or function is not modelled). -/
def nodespacesSet (next : Key → Val → M Unit) (o : Oid) (k : Key) (v : Val) : M Unit :=
  match k with
  | .str s =>
    if reserved s then
      match v with
      | .node c => do
        modO c fun ob => { ob with name := k }
        modO c fun ob => { ob with parent := some o }
        let r ← nodespacesRef o
        M.modifyW fun w => { w with nspaces := upd w.nspaces r ((w.nspaces r).set k v) }
      | .data (.cls _) | .data (.func _) => do
        let r ← nodespacesRef o
        M.modifyW fun w => { w with nspaces := upd w.nspaces r ((w.nspaces r).set k v) }
      | .data _ => M.raise .attr
    else next k v
  | k => M.raise (Aliaser.noStrMethod k)

/-- `NodeChildValidate.__setitem__`, common.py:144-150. -/
def validateSet (E : Env) (next : Key → Val → M Unit) (o : Oid) (k : Key) (v : Val) : M Unit := do
  let w ← M.getW
  if !(clsOf E w o).allowNonNode && v.isClass then
    M.raise (.value "It isn't allowed to use classes as values.")
  else if !(clsOf E w o).allowNonNode && !v.isNode then
    M.raise (.value "Non-node childs are not allowed.")
  else next k v

/-- `Adopt.__setitem__`, common.py:27-45. -/
def adoptSet (next : Key → Val → M Unit) (o : Oid) (k : Key) (v : Val) : M Unit :=
  match v with
  | .data _ => next k v
  | .node c => do
    let old ← getO c
    modO c fun ob => { ob with name := k }
    modO c fun ob => { ob with parent := some o }
    M.catchIf Exc.isAKV (next k v) fun e => do
      modO c fun ob => { ob with name := old.name }
      modO c fun ob => { ob with parent := old.parent }
      M.raise e

/-- The check of `Reference.__setitem__`, reference.py:42-48: skipped when the
value has no children (`StopIteration` of line 43). -/
def referenceCheck (E : Env) (o c : Oid) : M Unit := do
  let it ← iter E c
  match it with
  | ([], none) => pure ()
  | ([], some e) => M.raise e
  | (_ :: _, _) => do
    let si ← indexRef o
    let vi ← indexRef c
    let w ← M.getW
    if (w.idxs si).keys.any fun u => (w.idxs vi).keys.contains u then
      M.raise (.value "Node with uuid already exists")
    else pure ()

/-- `self._index.update(val._index)` and `val._index = self._index`,
reference.py:49-50. -/
def referenceMerge (o c : Oid) : M Unit := do
  let si ← indexRef o
  let vi ← indexRef c
  M.modifyW fun w => { w with idxs := upd w.idxs si ((w.idxs si).update (w.idxs vi)) }
  modO c fun ob => { ob with index := some si }

/-- `Reference.__setitem__`, reference.py:39-51. -/
def referenceSet (E : Env) (next : Key → Val → M Unit) (o : Oid) (k : Key) (v : Val) : M Unit :=
  match v with
  | .data _ => next k v
  | .node c => do
    referenceCheck E o c
    referenceMerge o c
    next k v

/-- `Lifecycle.__setitem__`, lifecycle.py:34-40. -/
def lifecycleSet (next : Key → Val → M Unit) (o : Oid) (k : Key) (v : Val) : M Unit := do
  next k v
  let ob ← getO o
  if ob.suppress then pure () else notify (.added v o k)

/-- `self.__parent__._notify_suppress` and `.events['modified']`,
lifecycle.py:67-69 and 74-76: needs a parent with the `Lifecycle` behavior. -/
def notifyModified (E : Env) (o : Oid) : M Unit := do
  let w ← M.getW
  match (w.objs o).parent with
  | none => M.raise .attr
  | some p =>
    if (bhvsOf E w p).contains .lifecycle then
      if (w.objs p).suppress then pure () else notify (.modified p)
    else M.raise .attr

/-- `del self.cache[key]` ignoring `KeyError`, cache.py:84-87, 104-107,
112-115. -/
def cacheDrop (o : Oid) (k : Key) : M Unit := do
  let r ← cacheRef o
  M.modifyW fun w => { w with caches := upd w.caches r ((w.caches r).del k) }

/-- `Alias`: translate the key (alias.py:129-132, 140-143, 151-154). -/
def unaliasKey (E : Env) (o : Oid) (k : Key) : M Key := fun w =>
  match (clsOf E w o).aliaser with
  | none => (.ok k, w)
  | some a => if a.truthy then (a.unalias k, w) else (.ok k, w)

/-- `Alias`: re-raise `KeyError` with the caller's key (alias.py:133-136,
144-147, 155-158). -/
def rekey {α : Type} (k : Key) (m : M α) : M α :=
  M.catchIf Exc.isKey m fun _ => M.raise (.key (.key k))

/-- The endpoint of `__setitem__`: `FixedChildren` finalizes (common.py:120-122),
storages override (storage.py:29-31), else mapping.py:71-73. -/
def setEnd (E : Env) (o : Oid) (k : Key) (v : Val) : M Unit := do
  let w ← M.getW
  if (bhvsOf E w o).contains .fixedChildren then M.raise .notImpl
  else if (bhvsOf E w o).any Bhv.isStorage then do
    let r ← storageRef E o
    M.modifyW fun w => { w with stores := upd w.stores r ((w.stores r).set k v) }
  else M.raise .notImpl

/-- `__setitem__`.  `UnicodeAware` (common.py:170-176) decodes `str` keys and
values, which in Python 3 leaves them as they are (utils.py:185-200). -/
def setPipe (E : Env) : List Bhv → Oid → Key → Val → M Unit
  | [], o, k, v => setEnd E o k v
  | .nodeChildValidate :: r, o, k, v => validateSet E (setPipe E r o) o k v
  | .nodespaces :: r, o, k, v => nodespacesSet (setPipe E r o) o k v
  | .adopt :: r, o, k, v => adoptSet (setPipe E r o) o k v
  | .reference :: r, o, k, v => referenceSet E (setPipe E r o) o k v
  | .lifecycle :: r, o, k, v => lifecycleSet (setPipe E r o) o k v
  | .attributesLifecycle :: r, o, k, v => do
    setPipe E r o k v
    notifyModified E o
  | .cache :: r, o, k, v => do
    cacheDrop o k
    setPipe E r o k v
  | .alias :: r, o, k, v => do
    let u ← unaliasKey E o k
    rekey k (setPipe E r o u v)
  | .unicodeAware :: r, o, k, v => setPipe E r o k v
  | _ :: r, o, k, v => setPipe E r o k v

/-- `node[k] = v`. -/
def setitem (E : Env) (o : Oid) (k : Key) (v : Val) : M Unit := fun w =>
  setPipe E (bhvsOf E w o) o k v w

/-! ### Constructors -/

/-- A new instance without attributes. -/
def alloc (c : ClassId) : M Oid := fun w =>
  (.ok w.nobj, { w with objs := upd w.objs w.nobj { cls := c }, nobj := w.nobj + 1 })

/-- `uuid.uuid4()`: never returned before, never the nil uuid. -/
def freshUuid : M Nat := fun w => (.ok w.nuuid, { w with nuuid := w.nuuid + 1 })

/-- `x is not None and int(x) or None`, reference.py:76, 80: the nil uuid also
becomes `None`. -/
def iuuid : Option Nat → Option Nat
  | some (n + 1) => some (n + 1)
  | _ => none

/-- `Reference.uuid` setter, reference.py:73-84. -/
def setUuidRef (o : Oid) (u : Option Nat) : M Unit := do
  let r ← indexRef o
  let w ← M.getW
  if ((w.idxs r).get? (iuuid u)).any fun x => x ≠ o then
    M.raise (.value "Given uuid was already used for another Node")
  else do
    M.modifyW fun w =>
      { w with idxs := upd w.idxs r (((w.idxs r).del (iuuid (w.objs o).uuid)).set (iuuid u) o) }
    modO o fun ob => { ob with uuid := u }

/-- `Reference.__init__` before `_next`, reference.py:35-36. -/
def referenceInit (o : Oid) : M Unit := do
  M.modifyW fun w =>
    { w with
      objs := upd w.objs o { w.objs o with index := some w.nidx }
      idxs := upd w.idxs w.nidx []
      nidx := w.nidx + 1 }
  let u ← freshUuid
  setUuidRef o (some u)

/-- `__init__`: `Reference` (reference.py:33-37), `Lifecycle` (lifecycle.py:29-32),
`UUIDAware` (common.py:184-187, the assignment going through the setter of `Reference` if the class
has both), `FixedChildren` (common.py:98-106, `mk` builds one
child) around `DefaultInit` (nodify.py:22-25).  The hand-written
`NodeAttributes.__init__` (attributes.py:24-28) has the same effect on name and
parent and is represented by `DefaultInit`; a class with neither keeps the class
attributes `None`. -/
def initPipe (E : Env) (mk : ClassId → M Oid) :
    List Bhv → List Bhv → Oid → Key → Option Oid → M Unit
  | all, [], o, name, parent =>
    if all.contains .defaultInit then do
      modO o fun ob => { ob with name := name }
      modO o fun ob => { ob with parent := parent }
    else pure ()
  | all, .reference :: r, o, name, parent => do
    referenceInit o
    initPipe E mk all r o name parent
  | all, .lifecycle :: r, o, name, parent => do
    initPipe E mk all r o name parent
    notify (.created o)
  | all, .uuidAware :: r, o, name, parent => do
    initPipe E mk all r o name parent
    let u ← freshUuid
    if all.contains .reference then setUuidRef o (some u) else modO o fun ob => { ob with uuid := some u }
  | all, .fixedChildren :: r, o, name, parent => do
    initPipe E mk all r o name parent
    modO o fun ob => { ob with fixed := [] }
    let w ← M.getW
    let rec loop : List (Key × ClassId) → M Unit
      | [] => pure ()
      | (k, c) :: rest => do
        let child ← mk c
        modO child fun ob => { ob with name := k }
        modO child fun ob => { ob with parent := some o }
        modO o fun ob => { ob with fixed := ob.fixed.set k (.node child) }
        loop rest
    loop (clsOf E w o).fixed
  | all, _ :: r, o, name, parent => initPipe E mk all r o name parent

/-- `Class(name=name, parent=parent)`; the number bounds the nesting of
`FixedChildren` constructors. -/
def newNodeN (E : Env) : Nat → ClassId → Key → Option Oid → M Oid
  | 0, _, _, _ => M.raise .diverge
  | n + 1, c, name, parent => do
    let o ← alloc c
    initPipe E (fun c' => newNodeN E n c' .none none) (E.cls c).bhvs (E.cls c).bhvs o name parent
    pure o

/-- Whether the constructor accepts `name` and `parent`: `DefaultInit` (nodify.py:22-25) does.  Without
it the arguments end up in `object.__init__`, which refuses them; `Events.__new__` (events.py:235-242)
passes them on to `object.__new__`, which refuses them too. -/
def ClassDef.takesArgs (c : ClassDef) : Bool := c.bhvs.contains .defaultInit && !c.bhvs.contains .events

/-- `Class(name=name, parent=parent)`; `None` for both stands for `Class()`.  Arguments the class does
not accept are a `TypeError`; the model raises it before the instance exists, as nothing but that
instance would be affected. -/
def newNode (E : Env) (c : ClassId) (name : Key) (parent : Option Oid) : M Oid :=
  if (E.cls c).takesArgs || (name == .none && parent.isNone) then newNodeN E E.depth c name parent
  else M.raise .type

/-! ### `__getitem__` -/

/-- `d[k]` on a dictionary: the value or `KeyError(k)`. -/
def lookup (d : Od Key Val) (k : Key) : Except Exc Val :=
  match d.get? k with
  | some v => .ok v
  | none => .error (.key (.key k))

/-- The endpoint of `__getitem__`: `FixedChildren` (common.py:112-114), storage
(storage.py:21-23), else mapping.py:26-28. -/
def getEnd (E : Env) (o : Oid) (k : Key) : M Val := do
  let w ← M.getW
  if (bhvsOf E w o).contains .fixedChildren then M.ofExcept (lookup (w.objs o).fixed k)
  else if (bhvsOf E w o).any Bhv.isStorage then do
    let r ← storageRef E o
    let w ← M.getW
    M.ofExcept (lookup (w.stores r) k)
  else M.raise .notImpl

/-- `Nodespaces.__getitem__`, nodespace.py:28-39. -/
def nodespacesGet (next : Key → M Val) (o : Oid) (k : Key) : M Val :=
  match k with
  | .str s =>
    if reserved s then do
      let r ← nodespacesRef o
      let w ← M.getW
      M.ofExcept (lookup (w.nspaces r) k)
    else next k
  | k => next k

/-- `Cache.__getitem__`, cache.py:93-100. -/
def cacheGet (next : Key → M Val) (o : Oid) (k : Key) : M Val := do
  let r ← cacheRef o
  let w ← M.getW
  match (w.caches r).get? k with
  | some v => pure v
  | none => do
    let v ← next k
    M.modifyW fun w => { w with caches := upd w.caches r ((w.caches r).set k v) }
    let w ← M.getW
    M.ofExcept (lookup (w.caches r) k)

/-- `ChildFactory.__getitem__`, common.py:75-82. -/
def childFactoryGet (E : Env) (next : Key → M Val) (o : Oid) (k : Key) : M Val :=
  M.catchIf Exc.isKey (next k) fun _ => do
    let w ← M.getW
    match (clsOf E w o).factories.get? k with
    | none => M.raise (.key (.key k))
    | some c => do
      let child ← newNode E c .none none
      setitem E o k (.node child)
      pure (.node child)

/-- `__getitem__`.  `fb o k e` is the `except KeyError` branch of
`Fallback.__getitem__` (fallback.py:62-67). -/
def getPipe (E : Env) (fb : Oid → Key → Exc → M Val) : List Bhv → Oid → Key → M Val
  | [], o, k => getEnd E o k
  | .nodespaces :: r, o, k => nodespacesGet (getPipe E fb r o) o k
  | .fallback :: r, o, k => M.catchIf Exc.isKey (getPipe E fb r o k) fun e => fb o k e
  | .cache :: r, o, k => cacheGet (getPipe E fb r o) o k
  | .alias :: r, o, k => do
    let u ← unaliasKey E o k
    rekey k (getPipe E fb r o u)
  | .childFactory :: r, o, k => childFactoryGet E (getPipe E fb r o) o k
  | .unicodeAware :: r, o, k => getPipe E fb r o k
  | _ :: r, o, k => getPipe E fb r o k

/-- `with fallback_processing() as count: body`, fallback.py:13-22: the exit
code runs on every path. -/
def fbGuard {α : Type} (body : Int → M α) : M α := fun w =>
  match w.fb with
  | none => (.error .attr, w)
  | some n =>
    match body (n + 1) { w with fb := some (n + 1) } with
    | (r, w') => (r, { w' with fb := w'.fb.map (· - 1) })

/-- `__getitem__` while a fallback search is running: `count > 0`, the
`KeyError` is re-raised (fallback.py:63-64). -/
def getitem0 (E : Env) (o : Oid) (k : Key) : M Val := fun w =>
  getPipe E
    (fun _ _ e => fbGuard fun count => if count > 0 then M.raise e else M.raise .unmodelled)
    (bhvsOf E w o) o k w

/-- `path` (nodify.py:50-55) as the list of names from `o` upwards, i.e. before
`reverse`; `none` when the parents form a cycle and the loop does not end. -/
def namesUp (w : World) : Nat → Oid → Option (List Key)
  | 0, _ => none
  | n + 1, o =>
    match (w.objs o).parent with
    | none => some [(w.objs o).name]
    | some p => (namesUp w n p).map ((w.objs o).name :: ·)

/-- `node.path`, nodify.py:50-55 with utils.LocationIterator (utils.py:40-47).
A chain longer than the number of objects is a cycle. -/
def pathOf (w : World) (o : Oid) : Option (List Key) :=
  (namesUp w (w.nobj + 1) o).map List.reverse

/-- `node.path` as a computation. -/
def path (o : Oid) : M (List Key) := fun w =>
  match pathOf w o with
  | some p => (.ok p, w)
  | none => (.error .diverge, w)

/-- Truth value of a key used as `fallback_key` (fallback.py:31). -/
def keyTruthy : Key → Bool
  | .none => false
  | .str s => !s.isEmpty
  | .int i => i != 0
  | .bytes b => !b.isEmpty

/-- `getattr(parent, 'fallback_key', _marker)` when it is true (fallback.py:31): the
instance attribute, else the class attribute, of any node; the default `_marker` is an
empty dictionary and false. -/
def activeFallback (E : Env) (w : World) (o : Oid) : Option Key :=
  match (w.objs o).fallbackKey <|> (clsOf E w o).fallbackKey with
  | some k => if keyTruthy k then some k else none
  | none => none

/-- `'fallback_key'`, fallback.py:31. -/
def fallbackName : Str := "fallback_key".toList

/-- Whether `getattr(parent, 'fallback_key', _marker)` (fallback.py:31) finds no attribute and
is passed on to the items by `GetattrChildren.__getattr__` (common.py:132-137). -/
def asksChildren (E : Env) (w : World) (o : Oid) : Bool :=
  (bhvsOf E w o).contains .getattrChildren && !(bhvsOf E w o).contains .fallback &&
    ((w.objs o).fallbackKey <|> (clsOf E w o).fallbackKey).isNone

/-- `current.get(name, _marker)` for `current` in fallback.py:42: `none` is
`_marker`.  Plain values have no `get`; dictionaries do and are not modelled. -/
def fbChild (E : Env) (cur : Val) (name : Key) : M (Option Val) :=
  match cur with
  | .node c => M.catchIf Exc.isKey (do let v ← getitem0 E c name; pure (some v)) fun _ => pure none
  | .data (.dict _) => M.raise .unmodelled
  | .data _ => M.raise .attr

/-- The loop fallback.py:41-46.  The result is the final `current`, or the node
at which a name was missing (`Sum.inr`). -/
def fbWalk (E : Env) : List Key → Val → M (Val ⊕ Oid)
  | [], cur => pure (.inl cur)
  | name :: rest, cur => do
    let nxt ← fbChild E cur name
    match nxt, cur with
    | some v, _ => fbWalk E rest v
    | none, .node c => pure (.inr c)
    | none, .data _ => M.raise .attr

/-- `_to_root` (fallback.py:25-34) calling `_to_leaf` (fallback.py:37-46) in tail
position; `none` is `_marker`.  A parent with `GetattrChildren` and no attribute `fallback_key`
is asked for the item of that name: `KeyError` without it, and with it the search is not
modelled. -/
def toRoot (E : Env) : Nat → Oid → List Key → List Oid → M (Option Val)
  | 0, _, _, _ => M.raise .diverge
  | n + 1, node, p, visited => do
    let w ← M.getW
    match (w.objs node).parent with
    | none => pure none
    | some parent =>
      match activeFallback E w parent with
      | none =>
        if asksChildren E w parent then do
          let _ ← getitem0 E parent (.str fallbackName)
          M.raise .unmodelled
        else toRoot E n parent p visited
      | some fk =>
        if visited.contains node then toRoot E n parent p visited
        else do
          let start ← getitem0 E parent fk
          match start with
          | .data _ => M.raise .attr
          | .node s => do
            let sp ← path s
            let res ← fbWalk E (p.drop sp.length) (.node s)
            match res with
            | .inl v => pure (some v)
            | .inr c => toRoot E n c p (node :: visited)

/-- Bound on the number of `_to_root` calls of one search: each `_to_leaf` marks
another node as visited and between two of them the search only climbs. -/
def fbFuel (w : World) : Nat := (w.nobj + 1) * (w.nobj + 2)

/-- The `except KeyError` branch of `Fallback.__getitem__`, fallback.py:62-67. -/
def fbHandler (E : Env) (o : Oid) (k : Key) (e : Exc) : M Val :=
  fbGuard fun count =>
    if count > 0 then M.raise e
    else do
      let p ← path o
      let w ← M.getW
      let v ← toRoot E (fbFuel w) o (p ++ [k]) []
      match v with
      | some v => pure v
      | none => M.raise e

/-- `node[k]`. -/
def getitem (E : Env) (o : Oid) (k : Key) : M Val := fun w =>
  getPipe E (fbHandler E) (bhvsOf E w o) o k w

/-! ### `__delitem__` -/

/-- The loop of `Reference._to_delete`, reference.py:98-104, over the remaining
keys; `rec` is `_to_delete` of a child. -/
def toDeleteLoop (E : Env) (rec : Oid → M (List Nat)) (o : Oid) : List Key → M (List Nat)
  | [] => pure []
  | k :: r => do
    let here ← M.catchIf Exc.isAttr
      (do
        let v ← getitem E o k
        match v with
        | .data _ => M.raise .attr
        | .node c => do
          let w ← M.getW
          if (bhvsOf E w c).contains .reference then rec c else M.raise .attr)
      (fun _ => pure [])
    let rest ← toDeleteLoop E rec o r
    pure (here ++ rest)

/-- `Reference._to_delete`, reference.py:95-105.  The number bounds the depth of
the recursion. -/
def toDelete (E : Env) : Nat → Oid → M (List Nat)
  | 0, _ => M.raise .diverge
  | n + 1, o => do
    let ob ← getO o
    match ob.uuid with
    | none => M.raise .type
    | some u => do
      let it ← iter E o
      let below ← toDeleteLoop E (toDelete E n) o it.1
      match it.2 with
      | some e => M.raise e
      | none => pure (u :: below)

/-- `for iuuid in ...: del self._index[iuuid]`, reference.py:58-59. -/
def indexDelete (o : Oid) : List Nat → M Unit
  | [] => pure ()
  | u :: r => do
    let i ← indexRef o
    let w ← M.getW
    if (w.idxs i).has (some u) then do
      M.modifyW fun w => { w with idxs := upd w.idxs i ((w.idxs i).del (some u)) }
      indexDelete o r
    else M.raise (.key (.uuid (some u)))

/-- reference.py:57-59 for the child found: only nodes with `_to_delete` are
taken out of the index. -/
def referenceUnindex (E : Env) (o : Oid) (todel : Val) : M Unit :=
  match todel with
  | .data _ => pure ()
  | .node c => do
    let w ← M.getW
    if (bhvsOf E w c).contains .reference then do
      let us ← toDelete E (w.nobj + 1) c
      indexDelete o us
    else pure ()

/-- `Reference.__delitem__`, reference.py:53-60. -/
def referenceDel (E : Env) (next : Key → M Unit) (o : Oid) (k : Key) : M Unit := do
  let todel ← getitem E o k
  referenceUnindex E o todel
  next k

/-- `Nodespaces.__delitem__`, nodespace.py:54-62. -/
def nodespacesDel (next : Key → M Unit) (o : Oid) (k : Key) : M Unit :=
  match k with
  | .str s =>
    if reserved s then do
      let r ← nodespacesRef o
      let w ← M.getW
      if (w.nspaces r).has k then
        M.modifyW fun w => { w with nspaces := upd w.nspaces r ((w.nspaces r).del k) }
      else M.raise (.key (.key k))
    else next k
  | k => M.raise (Aliaser.noStrMethod k)

/-- `Lifecycle.__delitem__`, lifecycle.py:42-49. -/
def lifecycleDel (E : Env) (next : Key → M Unit) (o : Oid) (k : Key) : M Unit := do
  let v ← getitem E o k
  next k
  let ob ← getO o
  if ob.suppress then pure () else notify (.removed v o k)

/-- The endpoint of `__delitem__`: `FixedChildren` (common.py:108-110), storage
(storage.py:25-27), else mapping.py:67-69. -/
def delEnd (E : Env) (o : Oid) (k : Key) : M Unit := do
  let w ← M.getW
  if (bhvsOf E w o).contains .fixedChildren then M.raise .notImpl
  else if (bhvsOf E w o).any Bhv.isStorage then do
    let r ← storageRef E o
    let w ← M.getW
    if (w.stores r).has k then
      M.modifyW fun w => { w with stores := upd w.stores r ((w.stores r).del k) }
    else M.raise (.key (.key k))
  else M.raise .notImpl

/-- `__delitem__`. -/
def delPipe (E : Env) : List Bhv → Oid → Key → M Unit
  | [], o, k => delEnd E o k
  | .nodespaces :: r, o, k => nodespacesDel (delPipe E r o) o k
  | .reference :: r, o, k => referenceDel E (delPipe E r o) o k
  | .lifecycle :: r, o, k => lifecycleDel E (delPipe E r o) o k
  | .attributesLifecycle :: r, o, k => do
    delPipe E r o k
    notifyModified E o
  | .cache :: r, o, k => do
    cacheDrop o k
    delPipe E r o k
  | .alias :: r, o, k => do
    let u ← unaliasKey E o k
    rekey k (delPipe E r o u)
  | .unicodeAware :: r, o, k => delPipe E r o k
  | _ :: r, o, k => delPipe E r o k

/-- `del node[k]`. -/
def delitem (E : Env) (o : Oid) (k : Key) : M Unit := fun w =>
  delPipe E (bhvsOf E w o) o k w

end Verif
