# Formal model of `node` (bluedynamics/node)

## What is verified

A hand-written Lean 4 model of the Python package in `/repo/src/node`, read as
text and transcribed function by function, and theorems about that model.
Nothing is extracted from or executed against the Python code.

### Trusted base

* Lean 4.33.0's kernel. No `sorry`, no added axioms, no `native_decide`, no
  `bv_decide`. Theorems depend at most on `propext`, `Classical.choice` and
  `Quot.sound`; the axioms of every claimed theorem are listed in `AXIOMS.txt`
  (written by `tools/axioms.sh` from `#print axioms`).
* The transcription: each definition of the model cites the file and lines it
  models; simplifications are stated there.
* The semantics of Python ≥ 3.7 the transcription assumes: `dict` is insertion
  ordered, `KeyError`/`AttributeError`/`ValueError`/... are caught by exactly the
  `except` clauses naming them, `finally` and `with` run their exit code on every
  path. `compat.IS_PY2` is false.
* The contracts of external packages:
  * `plumber`: `plumb` methods run as a left-to-right pipeline around one
    endpoint; the endpoint is chosen `finalize` over `override` over `default`,
    leftmost `override` first.
  * `odict` (source not available here): an insertion-ordered mapping with
    `insertbefore`, `insertafter`, `swap`; inserting relative to a missing key is
    a `KeyError` without effect; inserting a key that already exists and swapping
    a key with itself are outside the contract (explicit error value in the model).
  * `zope.interface`, `zope.component.objectEventNotify`: `providedBy` is a fixed
    predicate per class; notification appends to a log, together with the children
    subscribers would see (subscribers to zope events neither raise nor modify nodes).
  * `uuid.uuid4()` never returns a value it returned before and never the nil uuid.
    Where nodes may have been given uuids by hand, theorems state as a hypothesis
    that uuids in use are not drawn again (`Issued`, C58; freshness in `Grown`, C15).
  * `copy.copy` and `copy.deepcopy` by their effect on the heap: a new instance
    sharing the attributes, and a copy of everything reachable through instance
    attributes with the memo keeping sharing and cycles.
  * `json.loads(json.dumps(t))` is the function `dumps` of the model on trees of
    JSON values.
  * `threading.RLock`: owner and count semantics. `threading.local`: attributes set
    in one thread do not exist in others.

### Which code is modelled

All paths below `/repo/src/node`.

| Model | Code |
| --- | --- |
| `Model/Aliaser` | `behaviors/alias.py` aliasers (14-120) |
| `Model/Items` | `__getitem__`, `__setitem__`, `__delitem__`, `__iter__`, `__init__` of `behaviors/{alias,attributes,cache,common,fallback,lifecycle,mapping,nodespace,nodify,reference,storage}.py` |
| `Model/Mapping` | the other methods of `mapping.py`, `nodify.py` (`root`, `path`, `acquire`, `filteredvalues`, `detach`), `cache.py` (`invalidate`), `order.py`, `attributes.py`, `utils.node_by_path` |
| `Model/Update` | `mapping.py` `update` with its arguments |
| `Model/Api` | the operations a program can do, and histories of them |
| `Model/Index` | `reference.py` `NodeIndex`, `node` |
| `Model/Copy` | `mapping.py` 148-158, `nodify.py` 33-38, `common.py` `UUIDAware` |
| `Model/Repr` | `nodify.py` `noderepr`, `treerepr` |
| `Model/TestTree` | `testing/base.py` `create_tree` |
| `Model/Debug` | `utils.py` `debug`, `nodify.py` `__repr__`, `__str__`, `attributes.py` `__repr__` |
| `Model/Events` | `behaviors/events.py` |
| `Model/Locking` | `locking.py` |
| `Model/Serializer` | `serializer.py` with the shipped serializers |
| `Model/Registry` | `serializer.py` with any registered callbacks; the shipped ones give `Model/Serializer` (shipped_default, shipped_decode) |
| `Model/Utils` | `utils.py` `ReverseMapping`, `StrCodec` |
| `Model/AttrAccess` | `utils.py` `AttributeAccess` |
| `Model/Getattr` | `behaviors/common.py` `GetattrChildren`, what `locking.py:9` and `order.py:57` ask of nodes with it |
| `Model/InstanceProperty` | `utils.py` `instance_property` |
| `Model/Tester` | `testing/base.py` `ResultWriter`, `BaseTester.run` |
| `Model/Report` | `testing/base.py` `BaseTester.combined`, `BaseTester.wherefrom` |
| `Model/Relocate` | assignments to `__name__` and `__parent__` (`nodify.py:30-31`) between operations |
| `Model/Subscribers` | `lifecycle.py` with subscribers that read, write and raise; events of children made by a `ChildFactory` during reads not passed on |
| `Model/FullMapping` | `testing/fullmapping.py` `FullMappingTester` |

### Not modelled

`printtree`, the addresses in `__repr__`, logging, `interfaces.py`
(only what `providedBy` answers), `testing/env.py`, `testing/profiling.py`,
Python 2 branches, unhashable keys, keys that are
floats or booleans, subclasses overriding methods by hand, subscribers of zope
lifecycle events that raise or write (outside `Model/Subscribers`), interfaces provided by single instances, keyword
arguments in serialized data (`kw`) that are nodes or give a parent,
insertions of `Order` into nodes with `GetattrChildren` and without `Reference`, and the search for
fallbacks past such nodes that have an item `fallback_key`
(`hasattr` and `getattr` with a default then read items, see C88; the model raises `unmodelled`;
other attributes missing in such nodes raise `KeyError`, where the model says `AttributeError`),
the attributes `context` and `_node` of attribute nodes, `deepcopy`
of a tree holding a `TreeLock` (`TypeError`), garbage collection, memory exhaustion
and the interpreter's recursion limit.

## Shape of the model

* `Verif.Base` strings (`List Char`), keys, data values, exceptions.
* `Verif.Odict` the ordered mapping used for `dict` and `odict`.
* `Verif.World` object heap: nodes with name, parent, class and references to
  separately allocated storage, cache, nodespace and index dictionaries (so sharing
  by `copy()` and by `Reference` is expressible), event log, thread-local counter.
  `M α = World → Except Exc α × World`: the state written before an exception
  stays written.
* `Verif.Model.*` the code. A class is a list of behaviors; `__getitem__`,
  `__setitem__`, `__delitem__`, `__iter__`, `detach`, `invalidate`, `copy`,
  `deepcopy`, `__init__` are folds of the plumbing methods over that list, so
  theorems quantify over arbitrary compositions. Some settings that are class
  attributes in the code may be given per instance in the model (`fallback_key`).
* `Verif.Spec.*` specifications that do not use the model's helpers: ordered maps,
  where an assignment goes, trees and locations, fallback search, index trees,
  subscriber sets, nested suppression, shapes of trees, JSON values, child
  factories, isomorphism and separation of copies.
* `Verif.Lemmas.*` what proofs need. Most results about arbitrary stacks come from
  inductions over the behavior list with a relation on worlds as parameter
  (`Pres`, `SetPrims`, `DelPrims`, `ApiPrims`, `Sep`).
* `Verif.Props.*` the property theorems, each next to a concrete instance
  (`Verif.Sample` has the classes of the package and reachable heaps for these).
* `Verif.Conformance.*` the repository's own unit tests, transcribed statement by
  statement and run on the model by `decide +kernel`. These are tests of the model
  against outcomes pinned down by the authors of the code (where a transcription
  differs from the test, its comment says so); no property rests on them.
* Subsystems that do not touch the node heap (events, locks, codecs, instance
  properties, the tester) have state spaces and namespaces of their own.

Recursion that Python does not bound (`LocationIterator`, `_to_delete`,
`_index_nodes`, fallback search, deepcopy, serializing) carries fuel; running out
of fuel is the distinguished error `Exc.diverge`. The theorems either show it does
not happen or cover it as one more exception.

### Statements that are false of the code

Property statements were written from the API before proving and are not rewritten
to fit. Where the code deviates, a theorem `cNN_refuted…` gives a reachable witness,
and theorems with the suffix `_partial` say how far the property does hold.

### Testing the theorems

`tools/seed.py` applies an edit of `seeded/seeds.json` to a scratch copy, replaces
each proof that breaks by `sorry`, rebuilds until nothing else breaks, and reports the
broken theorems and the claimed theorems that rest on them; `seeded/LOG.jsonl` has one
line per attempt, and what was tightened. Until S140 the tool had a fault: several errors
in one proof could make it replace later, unrelated proofs as well, so `failed_theorems` and
`claimed_theorems_lost` of these lines may list theorems that survive. Lines with
`"rerun": true` are from the corrected tool and supersede the earlier lines of the same id.

### Deviations found

1. `SuffixAliaser.unalias` with an empty suffix returns `''` (slice `[:-0]`): c27_refuted_suffix; non-strict dictionaries collide: c27_refuted_dict; an empty `DictAliaser` is false and lets everything pass: c29_refuted; a dictionary may give one child two keys (c68_refuted), and a key that is no string makes `in` raise (c68_refuted_contains).
2. `Cache.invalidate()` re-uses the name `key` as loop variable, so only the last cached key is passed on: c32_refuted.
3. `Reference.__setitem__` skips the duplicate check for childless values: c16_refuted; the index of merged descendants is not updated: c19_refuted; a deleted leaf added again is never found, a deleted subtree is refused: c20_leaf_lost, c20_subtree_refused; the nil uuid is stored under `None`: c18_refuted; `detach` of an ordinary value removes it and raises: c13_refuted.
4. `Lifecycle.detach` of a missing key leaves notification off: c35_refuted.
5. `Adopt` does not revert on `NotImplementedError`: c07_refuted. `del` and `detach` keep name and parent of the removed node: c10_stale.
6. `insertbefore`/`insertafter` write the storage before the validated set: c08_refuted, c24_refuted; on aliased nodes they store the node twice: c21_refuted, c22_refuted; a node named `__attrs__` becomes a child and the attributes at once: c26_refuted.
7. `AttributesLifecycle` raises `AttributeError` after the write if the parent has no `Lifecycle`: c02_refuted, c36_raises_after_write.
8. `Cache` or `Alias` left of `Lifecycle`/`Reference`: deletion re-populates the cache (c31_refuted, c31_refuted_reference), or fails by alias (c28_refuted). `Cache` left of `Alias` or `Fallback` keeps stale values: c31_refuted_alias, c31_refuted_fallback; so does one between `Alias` and `ChildFactory`: c31_refuted_factory.
9. Thread-local data exist in the importing thread only: c41_refuted, c41_refuted_fallback.
10. `suppress_events` marks events when constructed, not when entered: c39_unentered, c39_reused. `dispatch` walks the live list: c38_refuted. Decorated subscribers are not told of deletions: c40_refuted. `__events__` is shared between base and subclasses: c42_refuted.
11. `copy()` shares storage, cache, nodespaces and index: c59_refuted. `deepcopy` of a non-root node copies its parents and siblings (c60_parents_copied), which keep their uuids (c58_refuted_parents); attribute nodes keep theirs (c58_refuted_attrs); plain values make it raise (c58_refuted_values). Nodes with `GetattrChildren` cannot be copied: c60_refuted_getattr.
12. Creating a tree lock races: c50_refuted, c51_refuted.
13. `AttributeAccess` and names such as `context`: c54_refuted.
14. Serializer: bytes in names raise, marker-like strings and dictionaries are changed, existing children are replaced, and nodes with `attribute_access_for_attrs` cannot be written at all (`node.attrs.items()` is an attribute lookup): c46_refuted_access, c46_refuted_bytes, c46_refuted_class, c47_refuted, c48_refuted, c49_refuted. `deserialize` with a root that raises leaves a half read tree below the root: c69_refuted.
15. `Invalidate` over `ChildFactory` raises for listed children never read: c56_refuted_invalidate; storage left of `ChildFactory` hides the listed keys: c56_refuted_keys.
16. `instance_property` functions that raise or read themselves run more than once: c55_refuted. `treerepr` depends on insertion order for keys with equal text: c61_refuted. `SystemExit` ends a tester run: c62_refuted. A declared fallback child that is missing raises `KeyError` for the fallback key: c44_missing_fallback. A path to a node can be made cyclic: c12_cycle; `acquire` then returns the node itself or does not end: c11_refuted. A string attribute spelling a uuid in another way is rewritten by the round trip: c64_refuted. `pop` with a default returns the default for a key that is there: c65_refuted. `__children__` is in a `Node` that has no keys: c66_refuted. The mapping tester reports `copy` of `UUIDAware` nodes as failed: c67_refuted.
17. `Events.__new__` passes constructor arguments to `object.__new__`, so a class with `Events` cannot be called with a name or a parent; neither can classes without `DefaultInit`: c73_refuted_events, c73_refuted_init. At most one node of a tree with `Reference` can have the uuid `None`: c71_refuted_none. `deepcopy` of `Reference` nodes that are not `UUIDAware` repeats their uuids: c72_refuted_copy.
18. `insertfirst` and `insertlast` check nothing if there are no children, and reference nodes (also those of `swap`) are looked up by name only: c74_refuted_nameless, c74_refuted_present, c74_refuted_stranger, c74_refuted_swap.
19. `UnicodeAware` asks for `str`, so in Python 3 it leaves bytes alone and has no effect at all: c75_refuted, c75_bytes_kept.
20. After a subtree was moved by `detach` and `insertbefore`, as the documentation of `IOrder` says, the nodes strictly below the moved one no longer find the rest of the tree: c76_refuted.
21. `BaseTester.wherefrom` goes on after the first base that has the function and does not look further up than the bases: c79_refuted.
22. Lifecycle subscribers are called before the behaviors to the left of `Lifecycle` are done: `Adopt` takes a `KeyError`, `ValueError` or `AttributeError` of a subscriber for a failed assignment and resets the location of the child that has been stored, nodes with `UUIDAware` are announced without uuid, and `Reference` separates the index after `detached` was sent: c80_refuted.
