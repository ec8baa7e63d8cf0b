import Verif.Model.Items

/-!
# The mapping API built on item access, and `Nodify`

behaviors/mapping.py, behaviors/nodify.py, behaviors/cache.py (`invalidate`),
behaviors/order.py, behaviors/attributes.py, utils.node_by_path.
-/

namespace Verif

/-- `for x in xs: f(x)` collecting results. -/
def forM' {α β : Type} (f : α → M β) : List α → M (List β)
  | [] => pure []
  | x :: r => do
    let y ← f x
    let ys ← forM' f r
    pure (y :: ys)

/-- `for x in xs: f(x)`. -/
def forU {α : Type} (f : α → M Unit) : List α → M Unit
  | [] => pure ()
  | x :: r => do
    f x
    forU f r

/-- The exception that ends an iteration, if any. -/
def endIter : Option Exc → M Unit
  | none => pure ()
  | some e => M.raise e

/-- `ReadMapping.get`, mapping.py:36-43. -/
def mget (E : Env) (o : Oid) (k : Key) (dflt : Val) : M Val :=
  M.catchIf Exc.isKey (getitem E o k) fun _ => pure dflt

/-- `ReadMapping.__contains__`, mapping.py:45-59, and `has_key`,
mapping.py:164-168. -/
def mcontains (E : Env) (o : Oid) (k : Key) : M Bool :=
  M.catchIf Exc.isKey (do let _ ← getitem E o k; pure true) fun _ => pure false

/-- `EnumerableMapping.keys`, mapping.py:81-85. -/
def mkeys (E : Env) (o : Oid) : M (List Key) := do
  let it ← iter E o
  endIter it.2
  pure it.1

/-- `EnumerableMapping.values`, mapping.py:91-97, and `itervalues`,
mapping.py:129-136.  The keys are collected before the values are read; Python reads each value while
the iteration is going on, which makes a difference only where reading a value writes to the storage
iterated over. -/
def mvalues (E : Env) (o : Oid) : M (List Val) := do
  let it ← iter E o
  let vs ← forM' (getitem E o) it.1
  endIter it.2
  pure vs

/-- `EnumerableMapping.items`, mapping.py:99-105, and `iteritems`,
mapping.py:138-145. -/
def mitems (E : Env) (o : Oid) : M (List (Key × Val)) := do
  let it ← iter E o
  let vs ← forM' (fun k => do let v ← getitem E o k; pure (k, v)) it.1
  endIter it.2
  pure vs

/-- `EnumerableMapping.__len__`, mapping.py:107-111. -/
def mlen (E : Env) (o : Oid) : M Nat := do
  let ks ← mkeys E o
  pure ks.length

/-- `ExtendedWriteMapping.clear`, mapping.py:174-179. -/
def mclear (E : Env) (o : Oid) : M Unit := do
  let ks ← mkeys E o
  forU (delitem E o) ks

/-- `ExtendedWriteMapping.update` with the pairs of its argument followed by the
keyword pairs, mapping.py:181-193.  The pairs of a node are complete before the first is
written (`items()` is a list); the model assumes the same of every other argument. -/
def mupdate (E : Env) (o : Oid) (kvs : List (Key × Val)) : M Unit :=
  forU (fun kv => setitem E o kv.1 kv.2) kvs

/-- `setdefault`, mapping.py:195-203 and the identical `Adopt.setdefault`,
common.py:47-54. -/
def msetdefault (E : Env) (o : Oid) (k : Key) (v : Val) : M Val :=
  M.catchIf Exc.isKey (getitem E o k) fun _ => do
    setitem E o k v
    pure v

/-- `ExtendedWriteMapping.pop`, mapping.py:205-216; `none` is `UNSET`. -/
def mpop (E : Env) (o : Oid) (k : Key) (dflt : Option Val) : M Val :=
  M.catchIf Exc.isKey
    (do
      let v ← getitem E o k
      delitem E o k
      pure v)
    fun e =>
      match dflt with
      | none => M.raise e
      | some d => pure d

/-- `ExtendedWriteMapping.popitem`, mapping.py:218-226. -/
def mpopitem (E : Env) (o : Oid) : M (Key × Val) := do
  let ks ← mkeys E o
  match ks.reverse with
  | [] => M.raise (.key (.msg "popitem(): mapping is empty"))
  | k :: _ => do
    let v ← getitem E o k
    delitem E o k
    pure (k, v)

/-! ### Nodify -/

/-- `root`, nodify.py:57-63: the last object of `LocationIterator`. -/
def rootN (w : World) : Nat → Oid → Option Oid
  | 0, _ => none
  | n + 1, o =>
    match (w.objs o).parent with
    | none => some o
    | some p => rootN w n p

/-- `node.root`. -/
def rootOf (w : World) (o : Oid) : Option Oid := rootN w (w.nobj + 1) o

/-- `acquire(interface)`, nodify.py:71-79, `p` is the test in lines 75-77.
Nodes are always true (`__nonzero__`, nodify.py:130-134).  The outer `none` is an
endless loop. -/
def acquireN (w : World) (p : Oid → Bool) : Nat → Option Oid → Option (Option Oid)
  | _, none => some none
  | 0, some _ => none
  | n + 1, some o => if p o then some (some o) else acquireN w p n (w.objs o).parent

/-- `node.acquire(interface)`. -/
def acquire (w : World) (p : Oid → Bool) (o : Oid) : Option (Option Oid) :=
  acquireN w p (w.nobj + 1) (w.objs o).parent

/-- `filteredvalues(interface)`, nodify.py:81-89. -/
def filteredvalues (E : Env) (p : Val → Bool) (o : Oid) : M (List Val) := do
  let vs ← mvalues E o
  pure (vs.filter p)

/-- `Nodify.detach`, nodify.py:65-69. -/
def detachEnd (E : Env) (o : Oid) (k : Key) : M Val := do
  let v ← getitem E o k
  delitem E o k
  pure v

/-- The loop of `Reference._index_nodes`, reference.py:108-117, for one value;
`rec` is the recursive call.  A node has the attribute `uuid` if its class has
`Reference` or `UUIDAware`. -/
def indexNodesStep (E : Env) (rec : Oid → M Unit) (o : Oid) (v : Val) : M Unit :=
  match v with
  | .data _ => pure ()
  | .node c => do
    let w ← M.getW
    if (bhvsOf E w c).contains .reference || (bhvsOf E w c).contains .uuidAware then
      match (w.objs c).uuid with
      | none => M.raise .type
      | some u => do
        let i ← indexRef o
        M.modifyW fun w => { w with idxs := upd w.idxs i ((w.idxs i).set (some u) c) }
        modO c fun ob => { ob with index := some i }
        if (bhvsOf E w c).contains .reference then rec c else M.raise .attr
    else pure ()

/-- `Reference._index_nodes`, reference.py:107-117. -/
def indexNodes (E : Env) : Nat → Oid → M Unit
  | 0, _ => M.raise .diverge
  | n + 1, o => do
    let vs ← mvalues E o
    forU (indexNodesStep E (indexNodes E n) o) vs

/-- `Reference.detach` after `_next`, reference.py:65-66. -/
def referenceDetach (E : Env) (v : Val) : M Unit :=
  match v with
  | .data _ => M.raise .attr
  | .node c => do
    let w ← M.getW
    if (bhvsOf E w c).contains .reference || (bhvsOf E w c).contains .uuidAware then
      match (w.objs c).uuid with
      | none => M.raise .type
      | some u => do
        M.modifyW fun w =>
          { w with
            objs := upd w.objs c { w.objs c with index := some w.nidx }
            idxs := upd w.idxs w.nidx [(some u, c)]
            nidx := w.nidx + 1 }
        if (bhvsOf E w c).contains .reference then indexNodes E (w.nobj + 1) c
        else M.raise .attr
    else M.raise .attr

/-- `detach`: `Reference` (reference.py:62-67) and `Lifecycle`
(lifecycle.py:51-58) around `Nodify.detach`. -/
def detachPipe (E : Env) : List Bhv → Oid → Key → M Val
  | [], o, k => detachEnd E o k
  | .reference :: r, o, k => do
    let v ← detachPipe E r o k
    referenceDetach E v
    pure v
  | .lifecycle :: r, o, k => do
    modO o fun ob => { ob with suppress := true }
    let v ← detachPipe E r o k
    modO o fun ob => { ob with suppress := false }
    notify (.detached v o k)
    pure v
  | _ :: r, o, k => detachPipe E r o k

/-- `node.detach(k)`. -/
def detach (E : Env) (o : Oid) (k : Key) : M Val := fun w =>
  detachPipe E (bhvsOf E w o) o k w

/-! ### Invalidation -/

/-- `Invalidate.invalidate`, cache.py:35-43. -/
def invalidateDel (E : Env) (o : Oid) (k : Key) : M Unit :=
  if k = .none then do
    let ks ← mkeys E o
    forU (delitem E o) ks
  else delitem E o k

/-- `VolatileStorageInvalidate.invalidate`, cache.py:52-67. -/
def invalidateVolatile (E : Env) (o : Oid) (k : Key) : M Unit := do
  let r ← storageRef E o
  if k = .none then
    M.modifyW fun w => { w with stores := upd w.stores r [] }
  else do
    let ks ← mkeys E o
    if ks.contains k then
      M.modifyW fun w => { w with stores := upd w.stores r ((w.stores r).del k) }
    else M.raise (.key (.key k))

/-- `invalidate(key=None)`: `Cache` (cache.py:80-91) around the leftmost of
`Invalidate` and `VolatileStorageInvalidate`.  In `Cache.invalidate` the loop
variable of line 89 is named `key` too, so after dropping a non-empty cache
line 91 passes the last cached key on. -/
def invalidatePipe (E : Env) : List Bhv → List Bhv → Oid → Key → M Unit
  | all, [], o, k =>
    match all.find? fun b => b == .invalidate || b == .volatileInvalidate with
    | some .invalidate => invalidateDel E o k
    | some _ => invalidateVolatile E o k
    | none => M.raise .attr
  | all, .cache :: r, o, k => do
    if k = .none then do
      let c ← cacheRef o
      let w ← M.getW
      let passed := ((w.caches c).keys.getLast?).getD .none
      M.modifyW fun w => { w with caches := upd w.caches c [] }
      invalidatePipe E all r o passed
    else do
      cacheDrop o k
      invalidatePipe E all r o k
  | all, _ :: r, o, k => invalidatePipe E all r o k

/-- `node.invalidate(key)`; `Key.none` is the default `None`. -/
def invalidate (E : Env) (o : Oid) (k : Key) : M Unit := fun w =>
  invalidatePipe E (bhvsOf E w o) (bhvsOf E w o) o k w

/-! ### Order -/

/-- `Order._validateinsertion`, order.py:51-59, with `Reference.node`,
reference.py:91-93.  `node.uuid` exists if the class has `Reference` or
`UUIDAware`.  A node with `GetattrChildren` (common.py:132-137) and no `Reference` answers
`hasattr(self, 'node')` with its item `node`; that is not modelled. -/
def validateInsertion (E : Env) (o n : Oid) : M Unit := do
  let w ← M.getW
  if (w.objs n).name = .none then M.raise (.value "Given node has no __name__ set.")
  else if (bhvsOf E w o).contains .reference then do
    if (bhvsOf E w n).contains .reference || (bhvsOf E w n).contains .uuidAware then
      match (w.objs n).uuid with
      | none => M.raise .type
      | some u => do
        let i ← indexRef o
        if ((w.idxs i).get? (some u)).isSome then
          M.raise (.key (.msg "Given node already contained in tree."))
        else pure ()
    else M.raise .attr
  else if (bhvsOf E w o).contains .getattrChildren then M.raise .unmodelled
  else pure ()

/-- `storage.insertbefore` / `storage.insertafter` with the `except KeyError` of
order.py:36-39, 45-48.  A plain `dict` (`DictStorage`) has no such method. -/
def storageInsert (E : Env) (before : Bool) (o : Oid) (ref new : Key) (v : Val) : M Unit := do
  let r ← storageRef E o
  let w ← M.getW
  if storageKind (bhvsOf E w o) = some .odictStorage then
    if (w.stores r).has ref then
      if (w.stores r).has new then M.raise .unmodelled
      else
        M.modifyW fun w =>
          { w with
            stores := upd w.stores r
              (if before then (w.stores r).insertBefore ref new v
               else (w.stores r).insertAfter ref new v) }
    else M.raise (.value "Given reference node not child of self.")
  else M.raise .attr

/-- `Order.insertbefore` (order.py:33-40) and `Order.insertafter`
(order.py:42-49). -/
def insertAt (E : Env) (before : Bool) (o n ref : Oid) : M Unit := do
  validateInsertion E o n
  let w ← M.getW
  storageInsert E before o (w.objs ref).name (w.objs n).name (.node n)
  setitem E o (w.objs n).name (.node n)

/-- `Order.insertfirst`, order.py:15-22 (`first = true`), and
`Order.insertlast`, order.py:24-31.  A first/last value that is no node has no
`name`. -/
def insertEnd (E : Env) (first : Bool) (o n : Oid) : M Unit := do
  let ks ← mkeys E o
  match (if first then ks.head? else ks.getLast?) with
  | none => do
    let w ← M.getW
    setitem E o (w.objs n).name (.node n)
  | some k => do
    let v ← getitem E o k
    match v with
    | .node ref => insertAt E first o n ref
    | .data _ => do
      validateInsertion E o n
      M.raise .attr

/-- `Order.swap`, order.py:11-13, on the contract of `odict.swap`. -/
def swapNodes (E : Env) (o a b : Oid) : M Unit := do
  let r ← storageRef E o
  let w ← M.getW
  if storageKind (bhvsOf E w o) = some .odictStorage then
    if (w.objs a).name = (w.objs b).name then M.raise .unmodelled
    else if (w.stores r).has (w.objs a).name then
      if (w.stores r).has (w.objs b).name then
        M.modifyW fun w =>
          { w with stores := upd w.stores r ((w.stores r).swap (w.objs a).name (w.objs b).name) }
      else M.raise (.key (.key (w.objs b).name))
    else M.raise (.key (.key (w.objs a).name))
  else M.raise .attr

/-! ### Attributes -/

/-- `Attributes.attrs`, attributes.py:46-56, without the `AttributeAccess`
wrapper.  Without the `Nodespaces` behavior there is no `nodespaces`. -/
def attrs (E : Env) (o : Oid) : M Oid := do
  let w ← M.getW
  if (bhvsOf E w o).contains .attributes && (bhvsOf E w o).contains .nodespaces then do
    let r ← nodespacesRef o
    let w ← M.getW
    match (w.nspaces r).get? attrsKey with
    | some (.node a) => pure a
    | some (.data _) => M.raise .unmodelled
    | none => do
      let a ← newNode E (clsOf E w o).attrsFactory attrsKey (some o)
      M.modifyW fun w => { w with nspaces := upd w.nspaces r ((w.nspaces r).set attrsKey (.node a)) }
      pure a
  else M.raise .attr

/-! ### Lookup by path -/

/-- The loop of `node_by_path`, utils.py:235-238.  Subscripting a value that is
no node is not modelled further (`TypeError`). -/
def walk (E : Env) : Val → List Key → M Val
  | v, [] => pure v
  | .node o, k :: r => do
    let v ← getitem E o k
    walk E v r
  | .data _, _ :: _ => M.raise .type

/-- `str.strip('/')`. -/
def stripSlash (s : Str) : Str :=
  ((s.dropWhile (· = '/')).reverse.dropWhile (· = '/')).reverse

/-- `str.split('/')`. -/
def splitSlash : Str → List Str
  | [] => [[]]
  | c :: r =>
    if c = '/' then [] :: splitSlash r
    else
      match splitSlash r with
      | [] => [[c]]
      | x :: xs => (c :: x) :: xs

/-- `node_by_path(root, path)` for a `str` path, utils.py:227-238. -/
def nodeByStrPath (E : Env) (root : Oid) (p : Str) : M Val :=
  let s := stripSlash p
  walk E (.node root) (if s = [] then [] else (splitSlash s).map Key.str)

/-- `node_by_path(root, path)` for a list of names, utils.py:233-238. -/
def nodeByPath (E : Env) (root : Oid) (p : List Key) : M Val := walk E (.node root) p

end Verif
