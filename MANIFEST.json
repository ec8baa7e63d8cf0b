{
 "claims": [
  {
   "property": "C01",
   "status": "proved",
   "theorems": [
    "Verif.c01_refines",
    "Verif.c01_noninterference"
   ],
   "note": "All histories over pass-through classes (MapClass), including BaseNode, OrderedNode, NodeAttributes. Constructor calls in these histories have arguments the class takes (C73)."
  },
  {
   "property": "C02",
   "status": "partial",
   "theorems": [
    "Verif.c02_set_ok",
    "Verif.c02_set_err",
    "Verif.c02_set_partial",
    "Verif.c02_del_ok",
    "Verif.c02_del_err",
    "Verif.c02_del_partial",
    "Verif.c02_refuted",
    "Verif.c02_refuted_factory"
   ],
   "note": "Proved for every stack without AttributesLifecycle. Deletion: for classes whose deletions read nothing that makes children (DelReads): no Reference, or no ChildFactory in the program; with Lifecycle no ChildFactory and no Fallback in the class, or no ChildFactory in the program. AttributesLifecycle notifies after the write and may raise there: c02_set_err/c02_del_err describe that case exactly, c02_refuted is a concrete history. c02_refuted_factory: deleting on a Reference node reads through the deleted subtree and makes the factory children below it."
  },
  {
   "property": "C03",
   "status": "proved",
   "theorems": [
    "Verif.c03_reads_change_nothing",
    "Verif.c03_histories",
    "Verif.c03_factories_write"
   ],
   "note": "For every program whose classes have no ChildFactory; c03_factories_write shows the restriction is needed."
  },
  {
   "property": "C04",
   "status": "partial",
   "theorems": [
    "Verif.c04_prefix",
    "Verif.c04_contents_partial",
    "Verif.c04_held_partial",
    "Verif.c04_refuted"
   ],
   "note": "c04_prefix: every class: the assignments run left to right up to the first that raises, and update raises that in the state that assignment leaves. c04_held_partial: for every class without AttributesLifecycle that state has the children of the assignments before it; c04_contents_partial gives the contents for classes that neither translate nor redirect keys. c04_refuted: with AttributesLifecycle the pair whose assignment raised is stored (as C02). The argument of update is taken to be read completely before the first assignment."
  },
  {
   "property": "C05",
   "status": "proved",
   "theorems": [
    "Verif.c05_children",
    "Verif.c05_no_effect",
    "Verif.c05_refused"
   ],
   "note": "Every stack containing NodeChildValidate, every history of the modelled API; the exact ValueError for NodeChildValidate leftmost, as in all shipped classes."
  },
  {
   "property": "C06",
   "status": "proved",
   "theorems": [
    "Verif.c06_adopted",
    "Verif.c06_any_stack",
    "Verif.c06_data"
   ],
   "note": ""
  },
  {
   "property": "C07",
   "status": "partial",
   "theorems": [
    "Verif.c07_handled_partial",
    "Verif.c07_concrete_partial",
    "Verif.c07_refuted"
   ],
   "note": "Adopt reverts on AttributeError, KeyError and ValueError only. Proved for those and for all classes with a concrete storage (where no other exception occurs); refuted for NotImplementedError."
  },
  {
   "property": "C08",
   "status": "partial",
   "theorems": [
    "Verif.c08_located_partial",
    "Verif.c08_one_place_partial",
    "Verif.c08_factory_partial",
    "Verif.c08_refuted"
   ],
   "note": "Proved for histories in which a node is only put where it is not yet contained (TreeHistory) on classes with Adopt and without alias: containment implies location and a node sits in one place; c08_factory_partial covers programs with child factories. c08_refuted: a failed insertbefore leaves a child that does not know its parent."
  },
  {
   "property": "C09",
   "status": "proved",
   "theorems": [
    "Verif.c09_path",
    "Verif.c09_lookup",
    "Verif.c09_string",
    "Verif.c09_path_partial",
    "Verif.c09_lookup_partial",
    "Verif.c09_string_partial",
    "Verif.c09_cached_partial"
   ],
   "note": "For every heap and every class: a node found from a parentless root along keys, each node on the way being located where it is found (LocatedAt: name = key, parent = finder). Nodes on the way may have Alias, Cache, Nodespaces, FixedChildren, ChildFactory, Fallback. WF (lookup only): every node has dictionaries of its own, true of every reachable heap; shallow copies sharing a dictionary are outside. The _partial theorems derive the location from the history (C08)."
  },
  {
   "property": "C10",
   "status": "partial",
   "theorems": [
    "Verif.c10_refuted",
    "Verif.c10_identify",
    "Verif.c10_identify_partial",
    "Verif.c10_stale"
   ],
   "note": "False for arbitrary trees: c10_refuted puts a node in two places of its parent. Proved for every heap and class for nodes located where they are found (c10_identify), in particular in heaps of tree histories. c10_stale: a deleted node keeps its path."
  },
  {
   "property": "C11",
   "status": "partial",
   "theorems": [
    "Verif.c11_nearest_partial",
    "Verif.c11_none_partial",
    "Verif.c11_not_self_partial",
    "Verif.c11_first",
    "Verif.c11_end",
    "Verif.c11_endless",
    "Verif.c11_refuted"
   ],
   "note": "As stated for all histories that put no node below itself. c11_first, c11_end and c11_endless say for every history what acquire returns, also on cycles. c11_refuted: on a cycle acquire can return the node itself, or not end."
  },
  {
   "property": "C12",
   "status": "proved",
   "theorems": [
    "Verif.c12_finite",
    "Verif.c12_irreflexive",
    "Verif.c12_path",
    "Verif.c12_root",
    "Verif.c12_cycle"
   ],
   "note": "For every program, also with child factories, and every history of any operations that never puts a node below itself and uses nodes that exist: parent chains are finite, path and root end with the right result. c12_cycle shows that the condition in the claim is needed: the code does not prevent cycles."
  },
  {
   "property": "C13",
   "status": "partial",
   "theorems": [
    "Verif.c13_removes",
    "Verif.c13_returns",
    "Verif.c13_missing",
    "Verif.c13_succeeds",
    "Verif.c13_refuted"
   ],
   "note": "Removal, value and missing key for classes whose reads and deletions make no children (DetachReads: the class has no child factory; Fallback or Reference only in programs without child factories); success for classes without Reference, factories or not. c13_refuted: with Reference an ordinary value is removed and AttributeError raised."
  },
  {
   "property": "C14",
   "status": "proved",
   "theorems": [
    "Verif.c14_filtered",
    "Verif.c14_mem",
    "Verif.c14_of_values"
   ],
   "note": "Every node with storage, without alias and factory, against the ordered map; every class against values()."
  },
  {
   "property": "C15",
   "status": "proved",
   "theorems": [
    "Verif.c15_exact",
    "Verif.c15_index",
    "Verif.c15_steps",
    "Verif.c15_cached"
   ],
   "note": "For every Env, every class with Reference once and no key-changing behavior, and every history of creating nodes, assigning new childless nodes and ordinary values where no node is replaced, deleting, detaching, setting unused uuids, reading and refused assignments (inductive Grown). Creation assumes the drawn uuid is not one a live node was given by hand. Classes that also have UUIDAware are included, and so is set_uuid_for on any node of the forest (Grown.uuids).  Histories include insertbefore, insertafter, insertfirst, insertlast of new childless nodes, refused insertions, and swap. With a Cache right of Reference, after any history whose heap without caches is Grown: c15_cached.  Grown also covers making attributes, giving values to attributes and loading trees with deserialize, with and without a parent. It also covers keys, values, items, len, get, in, pop, popitem, clear, update and setdefault. Histories go on after deepcopy, either in the copied tree or in those that were there."
  },
  {
   "property": "C16",
   "status": "partial",
   "theorems": [
    "Verif.c16_partial",
    "Verif.c16_grown_partial",
    "Verif.c16_refuted",
    "Verif.c16_cached_partial"
   ],
   "note": "Proved for values that have children, on any well formed heap. False for childless values: the code skips the check (reference.py:43); witness c16_refuted.  The same with a Cache right of Reference: c16_cached_partial."
  },
  {
   "property": "C17",
   "status": "proved",
   "theorems": [
    "Verif.c17_split",
    "Verif.c17_cached"
   ],
   "note": "In every state of a Grown history, for every subtree. Also with a Cache right of Reference: c17_cached."
  },
  {
   "property": "C18",
   "status": "partial",
   "theorems": [
    "Verif.c18_refused",
    "Verif.c18_set_partial",
    "Verif.c18_grown",
    "Verif.c18_refuted"
   ],
   "note": "Proved for every uuid but the nil uuid, which the setter stores under None (c18_refuted)."
  },
  {
   "property": "C19",
   "status": "partial",
   "theorems": [
    "Verif.c19_partial",
    "Verif.c19_refuted",
    "Verif.c19_cached_partial"
   ],
   "note": "Proved for the nodes of the receiving tree and the merged root; false for every node strictly below it: c19_partial also shows these still find exactly the nodes of the old tree; witness c19_refuted. The same with a Cache right of Reference: c19_cached_partial."
  },
  {
   "property": "C20",
   "status": "partial",
   "theorems": [
    "Verif.c20_detach_partial",
    "Verif.c20_detach_subtree_partial",
    "Verif.c20_leaf_lost",
    "Verif.c20_subtree_refused",
    "Verif.c20_refuted",
    "Verif.c20_cached_partial",
    "Verif.c20_cached_leaf_lost",
    "Verif.c20_cached_subtree_refused"
   ],
   "note": "False: c20_leaf_lost and c20_subtree_refused show it fails for every leaf and every subtree of every tree. Proved if the node is taken out by detach instead of del, for leaves and for subtrees of any size, also put in at another place of the tree.  The same with a Cache right of Reference: c20_cached_partial, c20_cached_leaf_lost, c20_cached_subtree_refused."
  },
  {
   "property": "C21",
   "status": "partial",
   "theorems": [
    "Verif.c21_placed_partial",
    "Verif.c21_adopted_partial",
    "Verif.c21_succeeds",
    "Verif.c21_refuted",
    "Verif.c21_reference_succeeds"
   ],
   "note": "False for aliased nodes, where insertbefore returns and stores the node twice (c21_refuted). Proved for classes without Alias: placement, order of the rest and adoption for every successful insertbefore/insertafter; c21_succeeds gives success for plain ordered classes.  c21_reference_succeeds gives success for Reference trees. Nodes with GetattrChildren are excluded from c21_succeeds: there _validateinsertion reads the item 'node' (C88)."
  },
  {
   "property": "C22",
   "status": "partial",
   "theorems": [
    "Verif.c22_ends_partial",
    "Verif.c22_refuted"
   ],
   "note": "False for aliased nodes (c22_refuted). Proved for classes without Alias: every successful insertfirst/insertlast."
  },
  {
   "property": "C23",
   "status": "proved",
   "theorems": [
    "Verif.c23_swap",
    "Verif.c23_involutive",
    "Verif.c23_succeeds"
   ],
   "note": "swap exchanges exactly two positions, is an involution, and succeeds for two distinct located children."
  },
  {
   "property": "C24",
   "status": "partial",
   "theorems": [
    "Verif.c24_failed_partial",
    "Verif.c24_cause",
    "Verif.c24_refuted",
    "Verif.c24_refuted_reference"
   ],
   "note": "False as stated: a failure raised by the validated set after the storage write leaves the node behind (c24_refuted, c24_refuted_reference). Proved: which failures change nothing, and that the others can only come from the set."
  },
  {
   "property": "C25",
   "status": "proved",
   "theorems": [
    "Verif.c25_reserved",
    "Verif.c25_other",
    "Verif.c25_alias",
    "Verif.c25_children",
    "Verif.c25_read",
    "Verif.c25_children_overwritten"
   ],
   "note": "c25_reserved/other/alias: for classes whose reads and deletions make no children (DetachReads/DelReads), other classes of the program may have child factories; c25_children: every program, for nodes whose class has no ChildFactory, over histories that do anything to other nodes and to the node itself what Spares lists. With Alias left of Nodespaces the translated key counts (c25_alias). '__children__' can be overwritten like any nodespace (c25_children_overwritten)."
  },
  {
   "property": "C26",
   "status": "partial",
   "theorems": [
    "Verif.c26_create",
    "Verif.c26_again",
    "Verif.c26_stable",
    "Verif.c26_keys",
    "Verif.c26_keys_partial",
    "Verif.c26_write",
    "Verif.c26_refuted",
    "Verif.c26_without"
   ],
   "note": "Holds except for keys(): insertbefore/insertafter of a node named '__attrs__' brings the name into keys() (c26_refuted); no other operation does: c26_keys_partial covers every history of mapping operations, constructions and attrs accesses, for all programs including those with child factories. c26_stable: for every history that does not assign or delete '__attrs__' of the node itself (operations on other nodes are arbitrary), every program, nodes whose class has no ChildFactory. c26_again and c26_stable are about classes with Attributes and Nodespaces; creating the attributes needs a factory that takes name and parent (C73)."
  },
  {
   "property": "C27",
   "status": "partial",
   "theorems": [
    "Verif.c27_inverse_partial",
    "Verif.c27_total",
    "Verif.c27_dict_total",
    "Verif.c27_dict",
    "Verif.c27_refuted_suffix",
    "Verif.c27_refuted_dict"
   ],
   "note": "Inverse proved for every aliaser without empty suffixes whose dictionaries have each key once and, if not strict, list every alias also as key. False otherwise: SuffixAliaser('') and PrefixSuffixAliaser(prefix) slice [:-0]; a non-strict DictAliaser collides."
  },
  {
   "property": "C28",
   "status": "partial",
   "theorems": [
    "Verif.c28_get",
    "Verif.c28_set",
    "Verif.c28_del",
    "Verif.c28_keys",
    "Verif.c28_readback",
    "Verif.c28_lawful",
    "Verif.c28_any_get",
    "Verif.c28_any_set",
    "Verif.c28_any_del",
    "Verif.c28_any_keys",
    "Verif.c28_any_readback",
    "Verif.c28_refuted"
   ],
   "note": "c28_any_get, c28_any_keys and c28_any_readback hold with any behaviors around one Alias (no Cache for reading, no ChildFactory for iterating); c28_any_set and c28_any_del say what an assignment or deletion that returns did. That they return is shown for pass-through behaviors around Alias (c28_set, c28_del: no Lifecycle, Reference, Fallback) and is false with Lifecycle to the right of Alias, where a child cannot be deleted by its alias (c28_refuted). Missing: exact conditions for returning with Reference; Cache is covered by c28_get if cached values agree with the storage, as they do after histories as in C31 (c31_agrees)."
  },
  {
   "property": "C29",
   "status": "partial",
   "theorems": [
    "Verif.c29_get_partial",
    "Verif.c29_set_partial",
    "Verif.c29_del_partial",
    "Verif.c29_keys_partial",
    "Verif.c29_shown_partial",
    "Verif.c29_refuted"
   ],
   "note": "For non-empty strict dictionaries; c29_shown_partial (listing succeeds and shows exactly the listed keys that stand for stored ones) for pass-through behaviors around Alias. An empty DictAliaser is false in Python and everything passes (c29_refuted)."
  },
  {
   "property": "C30",
   "status": "proved",
   "theorems": [
    "Verif.c30_get",
    "Verif.c30_del",
    "Verif.c30_missing"
   ],
   "note": "c30_get and c30_del for any behaviors to the right of Alias."
  },
  {
   "property": "C31",
   "status": "partial",
   "theorems": [
    "Verif.c31_all_partial",
    "Verif.c31_transparent_partial",
    "Verif.c31_refuted",
    "Verif.c31_refuted_reference",
    "Verif.c31_refuted_alias",
    "Verif.c31_refuted_fallback",
    "Verif.c31_refuted_factory",
    "Verif.c31_agrees",
    "Verif.c31_agrees_keys"
   ],
   "note": "c31_all_partial covers every operation of the API except invalidate() without a key on a caching node (see C32), and every stack whose Cache has no Reference, Lifecycle, Alias, Fallback or further Cache to its right (no Alias at all if a ChildFactory stands to its right); it gives equal results and equal heaps up to the caches. False for each of Lifecycle, Reference, Alias and Fallback right of a Cache, and for Alias left and ChildFactory right of it (c31_refuted and the others). c31_agrees and c31_agrees_keys: after such histories the caches hold what is stored, which is what C09, C28, C30 and C66 assume of classes with Cache."
  },
  {
   "property": "C32",
   "status": "partial",
   "theorems": [
    "Verif.c32_empty_partial",
    "Verif.c32_cached",
    "Verif.c32_refuted",
    "Verif.c32_invalidate_partial"
   ],
   "note": "False as stated (c32_refuted): with a non-empty cache only the last cached key is removed from the storage (c32_cached describes exactly what happens). Holds when nothing is cached (c32_empty_partial). For Invalidate instead of VolatileStorageInvalidate: with nothing cached the node lists nothing afterwards and other nodes keep what they have (c32_invalidate_partial)."
  },
  {
   "property": "C33",
   "status": "partial",
   "theorems": [
    "Verif.c33_key_partial",
    "Verif.c33_delete_partial",
    "Verif.c33_refuted",
    "Verif.c33_refuted_alias"
   ],
   "note": "c33_key_partial: VolatileStorageInvalidate with any number of Cache behaviors, for classes with a storage and without Alias and ChildFactory; c33_delete_partial: Invalidate over pass-through classes with a coherent cache. Keys other than None. False with Cache left of Lifecycle, where the child is read into the cache again before it is deleted (c33_refuted), and for VolatileStorageInvalidate with Alias, where the call returns and removes nothing (c33_refuted_alias)."
  },
  {
   "property": "C34",
   "status": "proved",
   "theorems": [
    "Verif.c34_set",
    "Verif.c34_set_plain",
    "Verif.c34_del",
    "Verif.c34_del_plain",
    "Verif.c34_replay",
    "Verif.c34_factory"
   ],
   "note": "For every class with one Lifecycle at any position. c34_set/c34_del: exact log for each outcome, with the children as seen by the subscriber (c34_del: classes whose deletions read nothing that makes children, DelReads); c34_replay: over every history of mapping operations and constructors, of all programs, the events reconstruct the children (Alias and Nodespaces not right of Lifecycle); what child factories make on a read is announced as well (c34_factory). Hypothesis: the node's switch _notify_suppress is off (see C35)."
  },
  {
   "property": "C35",
   "status": "partial",
   "theorems": [
    "Verif.c35_detach",
    "Verif.c35_raise",
    "Verif.c35_partial",
    "Verif.c35_refuted"
   ],
   "note": "A detach that returns emits exactly one detached event and the node goes on notifying; a detach that raises emits nothing but leaves the node switched off, so the second half of the property is false (c35_refuted). For classes whose deletions read nothing that makes children (DelReads)."
  },
  {
   "property": "C36",
   "status": "proved",
   "theorems": [
    "Verif.c36_set",
    "Verif.c36_del",
    "Verif.c36_owner_set",
    "Verif.c36_owner_del",
    "Verif.c36_raises_after_write"
   ],
   "note": "For every attributes class with one AttributesLifecycle at any position; owner = parent, which must have Lifecycle, otherwise the operation raises AttributeError after the write, without event (c36_raises_after_write). Deletion for classes without Reference, or environments without ChildFactory classes (DelReads). The owner gets no event while it is switched off, as it is after a detach that raised (C35)."
  },
  {
   "property": "C37",
   "status": "proved",
   "theorems": [
    "Verif.Events.c37_ordered_set",
    "Verif.Events.c37_unknown"
   ],
   "note": "Every history of register_event, bind and unbind on all instances, told from the history alone."
  },
  {
   "property": "C38",
   "status": "partial",
   "theorems": [
    "Verif.Events.c38_append_partial",
    "Verif.Events.c38_once_partial",
    "Verif.Events.c38_all_partial",
    "Verif.Events.c38_scripted_partial",
    "Verif.Events.c38_nobody",
    "Verif.Events.c38_refuted",
    "Verif.Events.c38_refuted_other",
    "Verif.Events.c38_unbinding_partial",
    "Verif.Events.c38_shrink_partial",
    "Verif.Events.c38_prefix_partial"
   ],
   "note": "False as stated: dispatch walks the live list, so a subscriber unbinding itself makes the next one be passed over. Proved for all subscribers that do not take single subscribers out of the running list; they may bind, raise, and unbind whole events. For subscribers that unbind anything but bind nothing: the dispatch ends and calls some of the subscribers bound at its start, in order, each at most once (c38_unbinding_partial). For subscribers doing anything: as long as none of the first n subscribers is taken out, these are called first and in order (c38_prefix_partial)."
  },
  {
   "property": "C39",
   "status": "proved",
   "theorems": [
    "Verif.Events.c39_nesting",
    "Verif.Events.c39_subscribers",
    "Verif.Events.c39_restored",
    "Verif.Events.c39_count",
    "Verif.Events.c39_start",
    "Verif.Events.c39_unentered",
    "Verif.Events.c39_reused"
   ],
   "note": "All programs of with blocks, dispatches, assignments, exceptions and handlers, subscribers running such programs to any depth. Managers used outside a with statement are witnessed separately (c39_unentered, c39_reused)."
  },
  {
   "property": "C40",
   "status": "partial",
   "theorems": [
    "Verif.Events.c40_stored_first",
    "Verif.Events.c40_same",
    "Verif.Events.c40_assign_partial",
    "Verif.Events.c40_delete_partial",
    "Verif.Events.c40_history_partial",
    "Verif.Events.c40_refuted"
   ],
   "note": "False for decorated subscribers, which are not told of deletions (c40_refuted), and for deleting an attribute that was never assigned, which raises KeyError (c40_delete_partial). c40_history_partial gives every call of every history for subscribers that return and leave the attribute, its subscriptions and the suppressions alone; c40_stored_first and c40_same hold for subscribers doing anything but changing the attribute."
  },
  {
   "property": "C41",
   "status": "partial",
   "theorems": [
    "Verif.Events.c41_refuted",
    "Verif.Events.c41_dispatch_partial",
    "Verif.Events.c41_block_partial",
    "Verif.Events.c41_foreign_partial",
    "Verif.Events.c41_assign_partial",
    "Verif.c41_fallback_partial",
    "Verif.c41_present_partial",
    "Verif.c41_fallback_forever_partial",
    "Verif.c41_refuted_fallback"
   ],
   "note": "False as stated: thread-local data exist in the importing thread only. Proved what happens in all other threads: AttributeError, nobody called, for every program."
  },
  {
   "property": "C42",
   "status": "partial",
   "theorems": [
    "Verif.Events.c42_refuted",
    "Verif.Events.c42_rule_partial",
    "Verif.Events.c42_home",
    "Verif.Events.c42_roots_partial"
   ],
   "note": "False as stated, in both directions. Proved: the exact rule for every hierarchy, and the claim for hierarchies where only classes without base declare events."
  },
  {
   "property": "C43",
   "status": "proved",
   "theorems": [
    "Verif.c43_any",
    "Verif.c43_local",
    "Verif.c43_cached"
   ],
   "note": "c43_any: for every class in which no Fallback stands right of a ChildFactory, whatever the lookup without Fallback returns is returned, so no search is started. c43_local (children and nodespaces; no Alias/Cache/ChildFactory) and c43_cached (stored children with coherent Cache, ChildFactory) say what that is in terms of the contents of the node."
  },
  {
   "property": "C44",
   "status": "partial",
   "theorems": [
    "Verif.c44_refuted",
    "Verif.c44_outcome",
    "Verif.c44_terminates",
    "Verif.c44_pure",
    "Verif.c44_complete",
    "Verif.c44_nearest",
    "Verif.c44_missing_fallback",
    "Verif.c44_cached_outcome",
    "Verif.c44_cached_terminates",
    "Verif.c44_cached_pure",
    "Verif.c44_cached_complete",
    "Verif.c44_cached_nearest",
    "Verif.c44_asked"
   ],
   "note": "False as stated: c44_refuted, a plain value on the way gives AttributeError. Termination, soundness (Found), purity, the nearest fallback deciding, and completeness of KeyError for every finite tree and every assignment of fallback keys. Partial: the nodes met are read without Alias and ChildFactory (Cache is covered by the c44_cached theorems, after any history in which Cache is transparent, as in C31); a plain value on the way gives AttributeError instead of KeyError (Blocked); a declared but missing fallback child gives KeyError for the fallback key (c44_missing_fallback). An ancestor with GetattrChildren and without an attribute fallback_key ends the search with KeyError('fallback_key') (c44_asked); the other theorems are about trees without such nodes."
  },
  {
   "property": "C45",
   "status": "proved",
   "theorems": [
    "Verif.c45_balanced",
    "Verif.c45_history",
    "Verif.c45_reachable"
   ],
   "note": "For every operation and history, every class (child factories included), every outcome: the counter is unchanged, hence -1 in every reachable state. Threads other than the importing one are outside the model (see C41)."
  },
  {
   "property": "C46",
   "status": "partial",
   "theorems": [
    "Verif.Ser.c46_roundtrip_partial",
    "Verif.Ser.c46_frame",
    "Verif.Ser.c46_shape",
    "Verif.Ser.c46_refuted_bytes",
    "Verif.Ser.c46_refuted_class",
    "Verif.Ser.c46_refuted_access",
    "Verif.Ser.c46_cached_partial"
   ],
   "note": "Proved for every reachable heap and every finite well-located tree whose classes are found by their dotted names and are read item by item (no alias, cache, child factory, fixed children), whose names are not bytes and whose attribute values survive in the sense of C47: serialize then deserialize gives a tree of the same classes, names, attributes and child order, made of new nodes, and the original is left alone. c46_shape: every well-located tree has such a shape. Full claim refuted: names made of bytes raise, and a class whose __module__ and __name__ belong to another class comes back as that class. Also false for nodes with attribute_access_for_attrs: node.attrs.items() in serialize_node_attributes is then an attribute lookup and raises AttributeError (c46_refuted_access); the round trip is proved for trees without it, whose attributes class takes a name and a parent. Trees of caching nodes, after histories in which Cache is transparent (C31): c46_cached_partial."
  },
  {
   "property": "C47",
   "status": "partial",
   "theorems": [
    "Verif.Ser.c47_iff_partial",
    "Verif.Ser.c47_pure",
    "Verif.Ser.c47_refuted"
   ],
   "note": "False as stated: json hands dictionaries through, so UNSET, uuids and classes inside of a dictionary come back as their encoding, strings that look like markers are decoded, reserved keys are taken for markers (c47_refuted). c47_iff_partial characterises exactly the values that survive, for all values of any nesting; c47_pure adds that neither direction touches the heap."
  },
  {
   "property": "C48",
   "status": "partial",
   "theorems": [
    "Verif.Ser.c48_written_partial",
    "Verif.Ser.c48_exactly",
    "Verif.Ser.c48_refuted",
    "Verif.Ser.c46_refuted_access",
    "Verif.Ser.c48_cached_partial"
   ],
   "note": "For every readable finite tree without bytes, in every reachable heap, simple mode writes the JSON value given by the specification, and two trees are written alike exactly if they agree in names, children, attributes and, with include_class, class names. Refuted for names made of bytes, which raise. Nodes with attribute_access_for_attrs cannot be written (c46_refuted_access, every mode). Trees of caching nodes, after histories in which Cache is transparent (C31): c48_cached_partial."
  },
  {
   "property": "C49",
   "status": "partial",
   "theorems": [
    "Verif.Ser.c49_below_partial",
    "Verif.Ser.c49_one_partial",
    "Verif.Ser.c49_roundtrip_partial",
    "Verif.Ser.c49_refuted",
    "Verif.Ser.c49_cached_partial"
   ],
   "note": "Proved for every list of buildable trees with distinct names unused by the root: exactly one new child per tree is appended, located below the root, everything else stays. For one tree without the condition on names: the key of that name holds the new tree, all other keys stay. Refuted: a child with the same name is replaced. Trees of caching nodes, after histories in which Cache is transparent (C31): c49_cached_partial."
  },
  {
   "property": "C50",
   "status": "partial",
   "theorems": [
    "Verif.Locking.c50_refuted",
    "Verif.Locking.c50_same_lock",
    "Verif.Locking.c50_settled",
    "Verif.Locking.c50_partial",
    "Verif.Locking.c50_first",
    "Verif.Locking.c50_case"
   ],
   "note": "Refuted as stated (c50_refuted): two threads may both read a missing _treelock, create a lock each and both be inside. Proved for every schedule of any number of threads: exclusion per lock, and exclusion per tree once the root has its lock and nobody is about to replace it (in particular if it exists before the threads start, or the creator was alone)."
  },
  {
   "property": "C51",
   "status": "partial",
   "theorems": [
    "Verif.Locking.c51_refuted",
    "Verif.Locking.c51_count",
    "Verif.Locking.c51_balanced",
    "Verif.Locking.c51_finished",
    "Verif.Locking.c51_release",
    "Verif.Locking.c51_reenter_partial",
    "Verif.Locking.c51_progress",
    "Verif.Locking.c51_two_trees",
    "Verif.Locking.c51_case",
    "Verif.Locking.c51_raise_case"
   ],
   "note": "Balance (held exactly as often as before, on return and on exception, release never fails) is proved for every schedule. Re-entrance is proved once the tree has its lock (c51_reenter_partial) and refuted during the creation race (c51_refuted: a thread inside a locked method blocks on the replacement lock). Beyond the statement: threads locking one tree only cannot deadlock (c51_progress); with two trees they can (c51_two_trees)."
  },
  {
   "property": "C52",
   "status": "proved",
   "theorems": [
    "Verif.Utils.c52_decode_encode",
    "Verif.Utils.c52_encode_idem",
    "Verif.Utils.c52_decode_idem",
    "Verif.Utils.c52_encode_decode",
    "Verif.Utils.c52_text",
    "Verif.Utils.c52_encodes",
    "Verif.Utils.c52_soft",
    "Verif.Utils.c52_strict",
    "Verif.Utils.c52_undecodable",
    "Verif.Utils.utf8_lawful",
    "Verif.Utils.c52_decode_proper",
    "Verif.Utils.c52_encode_proper"
   ],
   "note": "For every encoding in which decoding undoes encoding and decoded text can be encoded; utf8_lawful shows UTF-8 (on text without lone surrogates) to be one. Text that cannot be encoded makes encode raise; c52_encodes says when encode returns."
  },
  {
   "property": "C53",
   "status": "proved",
   "theorems": [
    "Verif.Utils.c53_getitem",
    "Verif.Utils.c53_missing",
    "Verif.Utils.c53_get",
    "Verif.Utils.c53_contains",
    "Verif.Utils.c53_views"
   ],
   "note": "For every mapping and every equality relation between values; contexts whose reads have no effects."
  },
  {
   "property": "C54",
   "status": "partial",
   "theorems": [
    "Verif.c54_get_partial",
    "Verif.c54_set_partial",
    "Verif.c54_accepts_partial",
    "Verif.c54_other_errors",
    "Verif.c54_refuted"
   ],
   "note": "Proved for names that are no attribute of the view itself (not 'context', not a dunder of object). Refuted for those: reading gives the attribute of the view while assigning writes the child."
  },
  {
   "property": "C55",
   "status": "partial",
   "theorems": [
    "Verif.InstProp.c55_never_again",
    "Verif.InstProp.c55_same",
    "Verif.InstProp.c55_once_partial",
    "Verif.InstProp.c55_refuted",
    "Verif.InstProp.c55_refuted_reentrant"
   ],
   "note": "For arbitrary functions: no run starts after one returned, and every later read returns the value of an earlier one. At most one run for functions that return and do not read themselves in a circle. Refuted for functions that raise (they run again) and for functions that read their own property (two runs may return)."
  },
  {
   "property": "C56",
   "status": "partial",
   "theorems": [
    "Verif.c56_keys",
    "Verif.c56_first_partial",
    "Verif.c56_later_partial",
    "Verif.c56_reads_partial",
    "Verif.c56_deleted_partial",
    "Verif.c56_invalidated_partial",
    "Verif.c56_refuted_invalidate",
    "Verif.c56_refuted_keys",
    "Verif.c56_hidden",
    "Verif.c56_cached_keys",
    "Verif.c56_cached_reads_partial",
    "Verif.c56_cached_deleted_partial",
    "Verif.c56_cached_invalidated_partial"
   ],
   "note": "Proved for every factory table and every sequence of reads, for classes in which ChildFactory stands left of a concrete storage and that have none of Alias, Cache, FixedChildren, AttributesLifecycle, Fallback: the keys are the listed ones in every state, all reads of a key return one child, one new node per key in the order of first reads, nothing else changes; after a delete (classes without Reference) or an invalidate (VolatileStorageInvalidate) the next read makes a new node. Missing: factories are modelled as classes, not arbitrary callables; the excluded behaviors. Refuted in general: Invalidate.invalidate() raises KeyError if a listed child was never read; with the storage left of ChildFactory only the children read so far are listed. The same with a Cache, after any history in which it is transparent as in C31: the c56_cached theorems."
  },
  {
   "property": "C57",
   "status": "proved",
   "theorems": [
    "Verif.c57_made",
    "Verif.c57_kept",
    "Verif.c57_read",
    "Verif.c57_keys",
    "Verif.c57_refused"
   ],
   "note": "Every program, ChildFactory classes included, every history. The location of a fixed child is fixed at construction; assigning that child to another node re-locates it."
  },
  {
   "property": "C58",
   "status": "partial",
   "theorems": [
    "Verif.c58_copy_raises",
    "Verif.c58_fresh_partial",
    "Verif.c58_returns_partial",
    "Verif.c58_original",
    "Verif.c58_root_only",
    "Verif.c58_refuted_values",
    "Verif.c58_refuted_attrs",
    "Verif.c58_refuted_parents"
   ],
   "note": "Proved: copy always raises RuntimeError and changes nothing; deepcopy leaves all old uuids alone (every class, returning or raising); with overwrite_recursiv_on_copy=False exactly the root gets a new uuid; otherwise every UUIDAware node in the tree below the copy gets a uuid no other node has, and everything else is as in the original, for trees whose nodes can be read item by item (no Alias, ChildFactory, FixedChildren); such a deepcopy returns if all items are nodes. uuid4 is assumed never to return a uuid in use: hypothesis Issued, which holds after every history that assigns no uuid but None (issued_execAll in C72). False: plain values below a node make it raise AttributeError (c58_refuted_values), attribute nodes keep their uuid (c58_refuted_attrs), copies of parents and siblings keep theirs (c58_refuted_parents)."
  },
  {
   "property": "C59",
   "status": "partial",
   "theorems": [
    "Verif.c59_refuted",
    "Verif.c59_refuted_attrs",
    "Verif.c59_copied",
    "Verif.c59_independent_partial",
    "Verif.c59_shared",
    "Verif.c59_no_nodify"
   ],
   "note": "False as stated: copy.copy shares storage, cache, nodespaces and index (c59_refuted, c59_refuted_attrs). Proved: what copy returns (c59_copied); the claim for nodes that had no dictionaries yet when copied, for any sequence of assignments and deletions (c59_independent_partial, classes whose deletions call no child factories); and that otherwise node and copy show the same items, nodespaces and cache for ever, whatever operations of the API follow, on any nodes, in any heap (c59_shared)."
  },
  {
   "property": "C60",
   "status": "partial",
   "theorems": [
    "Verif.c60_isomorphic_partial",
    "Verif.c60_shape_partial",
    "Verif.c60_raised",
    "Verif.c60_original_unchanged",
    "Verif.c60_copy_in_hand",
    "Verif.c60_copy_unchanged",
    "Verif.c60_refuted_getattr",
    "Verif.c60_parents_copied",
    "Verif.c60_no_nodify",
    "Verif.Ser.c60_shape_uuid_partial"
   ],
   "note": "Proved for every class: operations given only the copy never change the original (c60_original_unchanged, c60_copy_in_hand), operations given only the original and later nodes never change the copy (c60_copy_unchanged), a deepcopy that raises leaves the old nodes alone (c60_raised). For roots without UUIDAware: the copy is isomorphic node by node and keeps the tree shape; with UUIDAware too, for trees read item by item, up to the new uuids (c60_shape_uuid_partial, C58). False for GetattrChildren (KeyError, c60_refuted_getattr); a non-root deepcopy copies parents and siblings too (c60_parents_copied). Trees holding a TreeLock (TypeError) and the recursion limit are not modelled."
  },
  {
   "property": "C61",
   "status": "partial",
   "theorems": [
    "Verif.c61_text",
    "Verif.c61_places",
    "Verif.c61_below",
    "Verif.c61_nodes",
    "Verif.c61_order_partial",
    "Verif.c61_case",
    "Verif.c61_refuted"
   ],
   "note": "What is printed is proved in full: one line per place, in document order, indentation by depth, each node once in a tree. Independence of the insertion order is proved for unordered nodes whose keys have different texts; refuted for keys as 1 and '1'."
  },
  {
   "property": "C62",
   "status": "partial",
   "theorems": [
    "Verif.Tester.c62_report_partial",
    "Verif.Tester.c62_order_partial",
    "Verif.Tester.c62_missing",
    "Verif.Tester.c62_direct",
    "Verif.Tester.c62_failures_go_on",
    "Verif.Tester.c62_refuted"
   ],
   "note": "Proved for tests that return or raise an Exception. Refuted for tests that raise something else (SystemExit), which end the run without direct_error. A name listed twice is reported once, at its first place, with its last outcome."
  },
  {
   "property": "C63",
   "status": "partial",
   "theorems": [
    "Verif.c63_unnamed",
    "Verif.c63_contained",
    "Verif.c63_grown",
    "Verif.c63_not_child_partial",
    "Verif.c63_refuted",
    "Verif.c63_no_uuid"
   ],
   "note": "False as stated: a class with Reference asks the inserted node for its uuid first, so for a node of a class without uuids AttributeError is raised instead of ValueError (c63_refuted); the refusal and the unchanged heap are c63_no_uuid. c63_not_child_partial: above an OdictStorage, with Reference for a node whose uuid the index does not know (TakenForNew), without Reference for classes without GetattrChildren (C88). The others are for every class."
  },
  {
   "property": "C64",
   "status": "partial",
   "theorems": [
    "Verif.Ser.c64_again_partial",
    "Verif.Ser.c64_roundtrip_partial",
    "Verif.Ser.c64_deepcopy_partial",
    "Verif.Ser.c64_refuted",
    "Verif.Ser.c64_cached_partial",
    "Verif.Ser.c64_uuid_partial"
   ],
   "note": "Refuted as stated: a string attribute that spells a uuid in an unusual way is read back as the uuid and written normally (c64_refuted). Proved: writing twice, in any modes; the round trip for trees whose attribute values survive; deep copies, also with UUIDAware, where all uuids in use must have been drawn (c64_uuid_partial). Trees of caching nodes, after histories in which Cache is transparent (C31): c64_cached_partial."
  },
  {
   "property": "C65",
   "status": "partial",
   "theorems": [
    "Verif.c65_refines_partial",
    "Verif.c65_refused_partial",
    "Verif.c65_refuted",
    "Verif.c65_cached_partial"
   ],
   "note": "Refuted in one point: pop with a default returns the default for a key that is there when the deletion is refused with KeyError (c65_refuted). Proved: every history returns what the specification of ordered dictionaries with refusals allows, for programs without ChildFactory, and classes without Cache (c65_refines_partial) or with a Cache that has no Reference, Lifecycle, Alias, Fallback to its right, in histories in which Cache is transparent as in C31 (c65_cached_partial); a raising operation other than update and clear leaves all contents unchanged."
  },
  {
   "property": "C66",
   "status": "partial",
   "theorems": [
    "Verif.c66_readers_partial",
    "Verif.c66_fallback_partial",
    "Verif.c66_alias_partial",
    "Verif.c66_refuted",
    "Verif.c66_cached_partial"
   ],
   "note": "Proved for every heap and node whose class stores its children and has neither Alias, ChildFactory nor Fallback, and whose cache (if any) agrees with the storage; with Nodespaces for keys that are no dunder names. With Fallback the listing readers agree and every listed key is answered from the listing; for other keys in and get answer as [] does, which finds values in fallbacks by design (c66_fallback_partial). For aliased nodes all readers agree on one list of pairs whose keys are the aliases of the stored keys. Refuted in general: '__children__' is in a Node that has no keys. With Cache, agreement follows from the history: c66_cached_partial."
  },
  {
   "property": "C67",
   "status": "partial",
   "theorems": [
    "Verif.FullMapping.c67_accepts_partial",
    "Verif.FullMapping.c67_reference_partial",
    "Verif.FullMapping.c67_refuted",
    "Verif.FullMapping.c67_cached_partial",
    "Verif.FullMapping.c67_cached_reference_partial"
   ],
   "note": "Proved for all classes of pass-through behaviors with a storage and Nodify (and Adopt with node_checks), without Cache, in any heap (c67_accepts_partial), and for all classes with Reference (among them Node) in trees grown through the API, where also node(uuid) answers as before on all nodes (c67_reference_partial, assuming that all uuids in use were drawn from uuid4); any node_checks and direct_error. Refuted for UUIDAware, whose copy raises. The same with a Cache, after any history in which it is transparent (c67_cached_partial, c67_cached_reference_partial). Missing: stacks with Fallback (a concrete run accepts one). With node_checks the child class must take a name (C73), as the tester calls it with one."
  },
  {
   "property": "C68",
   "status": "partial",
   "theorems": [
    "Verif.c68_inverse_partial",
    "Verif.c68_apart_partial",
    "Verif.c68_text",
    "Verif.c68_foreign_partial",
    "Verif.c68_other_partial",
    "Verif.c68_refuted",
    "Verif.c68_refuted_type",
    "Verif.c68_refuted_contains"
   ],
   "note": "Refuted for dictionaries that list a key twice (one child, two keys) and for keys that are no strings (AttributeError or TypeError instead of KeyError). Proved for all chains of prefixes, non-empty suffixes and one-to-one dictionaries, on strings; for nodes: foreign keys are refused by every operation on any class with pass-through behaviors left of Alias, and writing one key leaves what is behind the others."
  },
  {
   "property": "C69",
   "status": "partial",
   "theorems": [
    "Verif.Ser.c69_refuted",
    "Verif.Ser.c69_existing",
    "Verif.Ser.c69_root",
    "Verif.Ser.c69_new",
    "Verif.Ser.c69_plain",
    "Verif.Ser.c69_no_class",
    "Verif.Ser.c69_unknown_class",
    "Verif.Ser.c69_bad_class",
    "Verif.Ser.c69_no_name",
    "Verif.Ser.c69_no_record",
    "Verif.Ser.c69_kw_no_object",
    "Verif.Ser.c69_kw_unknown",
    "Verif.Ser.c69_object",
    "Verif.Ser.c69_no_object"
   ],
   "note": "False with a root: node_factory sets the node on the root before its children are read, so data with a malformed child raise and leave a half read tree below the root (c69_refuted). Proved for every JSON value and class: without a root no existing node changes, whatever the outcome (c69_existing), and all returned nodes are new (c69_new); with a root only what is connected with it changes (c69_root); data without nodes change nothing (c69_plain); records that cannot be read at the top are refused with the stated exception and nothing changes, also with a root (c69_no_class, c69_unknown_class, c69_bad_class, c69_no_name, c69_no_record). ImportError and AttributeError of resolve are not told apart in the model. Keyword arguments in the data (kw) that are no object, or that the class does not take, are refused with TypeError and nothing changes (c69_kw_no_object, c69_kw_unknown); a node, an unknown object or a parent given as kw are not modelled.  References to objects (__ob__) that cannot be found are refused as well, those that can give the object (c69_no_object, c69_object)."
  },
  {
   "property": "C70",
   "status": "proved",
   "theorems": [
    "Verif.c70_isolated",
    "Verif.c70_existing",
    "Verif.c70_disjoint",
    "Verif.c70_local"
   ],
   "note": "For every class of the model, every operation of Op, every interleaving and every outcome. Event subscribers are not part of the nodes; the log of events, the supply of uuids and the recursion counter of Fallback are shared by all and not part of what is compared."
  },
  {
   "property": "C71",
   "status": "partial",
   "theorems": [
    "Verif.c71_rest_partial",
    "Verif.c71_fills_partial",
    "Verif.c71_override_partial",
    "Verif.c71_returns_partial",
    "Verif.c71_again_partial",
    "Verif.c71_one",
    "Verif.c71_refuted_values",
    "Verif.c71_refuted_none",
    "Verif.c71_index"
   ],
   "note": "Proved for trees whose nodes can be read item by item (no Alias, ChildFactory, FixedChildren; see Open), both values of override, also when the call raises: nothing but the uuids of UUIDAware nodes of the tree changes, gaps are filled with uuids no node had before and no other node has, a second call changes no uuid, and the call returns if all items are nodes. recursiv=False is proved for every class. The assumption that all uuids in use were handed out by uuid4 (Issued) holds after every history that assigns no uuid but None (issued_execAll, C72). False for trees with plain values: AttributeError (c71_refuted_values); and two nodes of one tree of Reference nodes cannot both be given the uuid None (c71_refuted_none). In a forest of Reference trees the call also keeps the uuid index exact, with either value of override and recursiv, returning or raising (c71_index)."
  },
  {
   "property": "C72",
   "status": "proved",
   "theorems": [
    "Verif.c72_new",
    "Verif.c72_kept",
    "Verif.c72_unique",
    "Verif.c72_identity",
    "Verif.c72_refuted_assign",
    "Verif.c72_refuted_copy"
   ],
   "note": "For every class and every history without assignments of uuids (c72_unique: without assignments of uuids other than None). uuid4 is modelled as a counter, that is, it never returns a uuid a second time. Outside the claim: a caller can assign the uuid of a node of another tree (c72_refuted_assign), and deepcopy of a Reference node that is not UUIDAware repeats its uuid (c72_refuted_copy; for UUIDAware trees see C58)."
  },
  {
   "property": "C73",
   "status": "partial",
   "theorems": [
    "Verif.c73_located_partial",
    "Verif.c73_fixed_partial",
    "Verif.c73_refuses",
    "Verif.c73_refuted_init",
    "Verif.c73_refuted_events"
   ],
   "note": "Proved for all classes with DefaultInit and without Events, in every well-formed state: the call succeeds and the node has the given name and parent, is empty, and existing nodes stay as they are (c73_located_partial); with FixedChildren, provided the declarations are not circular and use distinct keys, every declared child exists under its key, of its class and located there (c73_fixed_partial). False for the others: without DefaultInit and with Events the arguments are refused with TypeError, leaving everything as it was (c73_refuses, for all of them)."
  },
  {
   "property": "C74",
   "status": "partial",
   "theorems": [
    "Verif.c74_swap_partial",
    "Verif.c74_unordered",
    "Verif.c74_swap_unordered",
    "Verif.c74_ends_nameless_partial",
    "Verif.c74_ends_present_partial",
    "Verif.c74_refuted_nameless",
    "Verif.c74_refuted_error",
    "Verif.c74_refuted_present",
    "Verif.c74_refuted_stranger",
    "Verif.c74_refuted_swap"
   ],
   "note": "Proved for arguments of swap whose name is no key (for insertbefore and insertafter see C63); for insertfirst/insertlast at nodes that have children; without ordered storage for insertbefore, insertafter and swap. False otherwise: at a node without children insertfirst/insertlast check nothing (a nameless node becomes the child None, or AttributeError with Nodespaces; a node of the tree is put in twice), and reference nodes are looked up by name only, so a foreign node named like a child is accepted. Swapping a node with itself is outside the model (it depends on odict). c74_unordered excludes GetattrChildren (C88)."
  },
  {
   "property": "C75",
   "status": "partial",
   "theorems": [
    "Verif.c75_refuted",
    "Verif.c75_bytes_kept",
    "Verif.c75_set",
    "Verif.c75_get",
    "Verif.c75_del"
   ],
   "note": "False: in Python 3 the behavior asks for str, which is text already, and lets bytes pass (c75_refuted; c75_bytes_kept for every class without Alias). Proved: that it makes no difference wherever it stands in a class (c75_set, c75_get, c75_del), so text is left as it is."
  },
  {
   "property": "C76",
   "status": "partial",
   "theorems": [
    "Verif.c76_move_partial",
    "Verif.c76_leaf",
    "Verif.c76_refuted",
    "Verif.c76_cached_partial",
    "Verif.c76_cached_leaf"
   ],
   "note": "False for the nodes strictly below the moved one, which keep the index of the detached subtree and find nothing outside of it (c76_refuted, as C19). Proved in every state of a Grown history, for subtrees of any size: both calls return, placement, order and values of the rest, parent, nodes and uuids, and lookup from every node that is not strictly below the moved one; for childless nodes the resulting forest is again one C15 is about (c76_leaf). The environment has no child factories.  The same with a Cache right of Reference: c76_cached_partial, c76_cached_leaf."
  },
  {
   "property": "C77",
   "status": "proved",
   "theorems": [
    "Verif.Ser.c77_alike",
    "Verif.Ser.c77_extra",
    "Verif.Ser.c77_order"
   ],
   "note": "For every JSON value, class table, state and root: values that are alike (same but for other members, order and the way of saying that there are no children or attributes, at any depth) give the same result and the same heap."
  },
  {
   "property": "C78",
   "status": "proved",
   "theorems": [
    "Verif.Ser.c78_registry",
    "Verif.Ser.c78_calls",
    "Verif.Ser.c78_unprovided",
    "Verif.Ser.c78_added",
    "Verif.Ser.shipped_default",
    "Verif.Ser.shipped_decode",
    "Verif.Ser.c78_attrs"
   ],
   "note": "c78_registry: contents and order of the registry for every sequence of registrations; c78_calls: which callbacks are called, for callbacks that return and leave the heap alone; c78_added: compatibility for every tree, in every state, for callbacks that add members json can write and leave the heap alone. shipped_default and shipped_decode: with the callbacks of the package the encoder and decoder are those of C46-C49. Interfaces provided by single instances are not modelled.  c78_attrs: attributes begun by another callback are kept and the node's own come behind."
  },
  {
   "property": "C79",
   "status": "partial",
   "theorems": [
    "Verif.Tester.c79_origin_partial",
    "Verif.Tester.c79_lines",
    "Verif.Tester.c79_combined",
    "Verif.Tester.c79_refuted"
   ],
   "note": "combined and the order of both reports are proved in full. wherefrom is false as stated (c79_refuted): the loop over the bases goes on after a hit and looks no further up. c79_origin_partial says for every hierarchy exactly when a line is right, whatever the resolution order, of which only the first two classes and that all bases are in it are used; class names are not empty and have no blanks."
  },
  {
   "property": "C80",
   "status": "partial",
   "theorems": [
    "Verif.c80_set_partial",
    "Verif.c80_attrs_set_partial",
    "Verif.c80_del_partial",
    "Verif.c80_attrs_del_partial",
    "Verif.c80_detach_partial",
    "Verif.c80_new_partial",
    "Verif.c80_raise_partial",
    "Verif.c80_nobody",
    "Verif.c80_refuted"
   ],
   "note": "For every subscriber, given as an arbitrary computation on the heap. c80_refuted: false where a behavior to the left of Lifecycle has work to do afterwards or catches what the subscriber raises. Partial: with Adopt or Alias to the left the subscriber must not raise what these catch; for detach no Reference to the left; for constructors no UUIDAware to the left and no FixedChildren; one Lifecycle or AttributesLifecycle per class, deletion and detach for classes whose deletions read nothing that makes children (DelReads). c80_nobody: without subscribers these are the operations of all other theorems, for every stack."
  },
  {
   "property": "C81",
   "status": "proved",
   "theorems": [
    "Verif.c81_results",
    "Verif.c81_mapping",
    "Verif.c81_finite",
    "Verif.c81_rename",
    "Verif.c81_elsewhere",
    "Verif.c81_move",
    "Verif.c81_cut",
    "Verif.c81_endless"
   ],
   "note": "c81_results: all programs over classes without Fallback and AttributesLifecycle; c81_mapping: programs over mapping classes, whatever other classes exist; locations in states reached by programs that put no node below itself (c81_finite and after), c81_endless in any state."
  },
  {
   "property": "C82",
   "status": "proved",
   "theorems": [
    "Verif.c82_get",
    "Verif.c82_stable",
    "Verif.c82_default",
    "Verif.c82_contains",
    "Verif.c82_again"
   ],
   "note": "For every composition of behaviors and every well-formed heap. c82_stable: with one Cache at most, everything every node has stays."
  },
  {
   "property": "C83",
   "status": "proved",
   "theorems": [
    "Verif.c83_shown",
    "Verif.c83_read",
    "Verif.c83_others",
    "Verif.c83_keys",
    "Verif.c83_alike"
   ],
   "note": "Every composition of behaviors and every well-formed heap (no shared dictionaries, see C59). c83_keys is for classes with Cache at most once; 'about the same entry' is slot (Spec/Shown.lean). Stated for assignments that return; C02 is about those that raise."
  },
  {
   "property": "C84",
   "status": "partial",
   "theorems": [
    "Verif.c84_refuted",
    "Verif.c84_gone_partial",
    "Verif.c84_read_partial",
    "Verif.c84_absent",
    "Verif.c84_others_partial",
    "Verif.c84_keys_partial",
    "Verif.c84_again"
   ],
   "note": "False with Cache left of Lifecycle or Reference (c84_refuted): Cache drops the value, then the behavior to its right reads the item it is about to delete, which caches it again. Shown for all other compositions and orders (Unread); the two statements about what stays are for classes with Cache at most once, and if Reference or Lifecycle reads the item before it is deleted, for keys whose reading runs no factory and no search: the class has neither ChildFactory nor Fallback, or it has no Alias and the item is there (Unasked); with Reference, which reads all nodes below, no class has ChildFactory or Fallback."
  },
  {
   "property": "C85",
   "status": "partial",
   "theorems": [
    "Verif.c85_refuted",
    "Verif.c85_pop_refuted",
    "Verif.c85_pop_partial",
    "Verif.c85_pop_found_partial",
    "Verif.c85_pop_absent_partial",
    "Verif.c85_pop_frame_partial",
    "Verif.c85_popitem_partial",
    "Verif.c85_setdefault_there",
    "Verif.c85_setdefault_absent",
    "Verif.c85_update",
    "Verif.c85_update_frame",
    "Verif.c85_clear_partial",
    "Verif.c85_clear_empty_partial",
    "Verif.c85_clear_alias_partial"
   ],
   "note": "False with Cache left of Lifecycle or Reference, where deleting does not remove (c85_refuted), and for pop with a default of a value found by Fallback, which is read but cannot be deleted, so the default is returned (c85_pop_refuted). setdefault and update are shown in full. pop, popitem and clear are shown for all other orders (Unread); what stays under the condition of C84 (Unasked; for clear the same for all keys, Unasking). pop with a default is shown up to a KeyError raised by the deletion. That clear leaves an empty listing is for classes with a storage and without ChildFactory, without Alias (Concrete) or with one whose aliaser can be inverted (c85_clear_alias_partial)."
  },
  {
   "property": "C86",
   "status": "partial",
   "theorems": [
    "Verif.c86_refuted",
    "Verif.c86_logs_partial",
    "Verif.c86_same_partial",
    "Verif.c86_appends",
    "Verif.c86_unprintable"
   ],
   "note": "False if an argument is a NodeAttributes object without a parent: its __repr__ raises AttributeError and the function is not called (c86_refuted, c86_unprintable for all functions). Shown for all other arguments and arbitrary functions on the heap. Arguments are nodes and plain values; plain values are taken to be printable."
  },
  {
   "property": "C87",
   "status": "partial",
   "theorems": [
    "Verif.c87_tree",
    "Verif.c87_returns_partial",
    "Verif.c87_refuted",
    "Verif.c87_reference"
   ],
   "note": "c87_tree: whatever the composition, a call that returns has made exactly that tree, for classes that do not translate keys (no Alias). c87_returns_partial: it returns for all classes with a concrete storage and without Alias, FixedChildren and AttributesLifecycle, so for Node with Reference and for classes with Cache, Lifecycle, Fallback or ChildFactory (not together with Reference). c87_refuted: it does not return for a class without a storage. c87_reference: for classes with Reference that take a name and a parent create_tree returns and the tree is indexed; it is one of the trees grown through the API (Grown), so C15 and what follows from it apply."
  },
  {
   "property": "C88",
   "status": "partial",
   "theorems": [
    "Verif.c88_written",
    "Verif.c88_shadowed",
    "Verif.c88_sound",
    "Verif.c88_absent_partial",
    "Verif.c88_deleted_partial",
    "Verif.c88_never_no_partial",
    "Verif.c88_lock",
    "Verif.c88_lock_child",
    "Verif.c88_lock_created",
    "Verif.c88_order",
    "Verif.c88_refuted"
   ],
   "note": "The first half is proved for every composition (c88_written, c88_shadowed, c88_sound). The second half is false (c88_refuted): __getattr__ lets the KeyError of the item through, so hasattr and getattr with a default raise it (c88_absent_partial, c88_deleted_partial; proved where no factory and no fallback is asked, and for names the alias table knows), and hasattr never answers False (c88_never_no_partial). As a consequence TreeLock raises KeyError('_treelock') for trees whose root has GetattrChildren (c88_lock), takes a child of that name for the lock (c88_lock_child), and the insertions of Order raise KeyError('node') (c88_order); other roots get a lock (c88_lock_created)."
  },
  {
   "property": "C89",
   "status": "partial",
   "theorems": [
    "Verif.c89_others_partial",
    "Verif.c89_keys_partial",
    "Verif.c89_shown_partial",
    "Verif.c89_refuted"
   ],
   "note": "Proved for every node whose class has no ChildFactory, in every program, child factories elsewhere included; c89_refuted shows that the exception is needed: deleting below Reference reads, and thereby makes, children of other nodes with factories. c89_shown_partial excepts Cache, whose dictionary is filled by reads of the node itself. Trees sharing dictionaries after copy() are C59's subject."
  },
  {
   "property": "C90",
   "status": "proved",
   "theorems": [
    "Verif.c90_location",
    "Verif.c90_path"
   ],
   "note": "For all programs and histories; name and parent are only assigned through operations of the API (direct assignment of __name__ and __parent__ is C81's subject)."
  },
  {
   "property": "C91",
   "status": "partial",
   "theorems": [
    "Verif.c91_loaded_partial",
    "Verif.c91_below_partial",
    "Verif.c91_found_partial",
    "Verif.c91_refuted"
   ],
   "note": "As stated false: data that lists two children of one name loads, the second replaces the first and the first is still found (c91_refuted). Proved for data that stands for a tree with distinct sibling names whose classes are Reference classes (attributes without Reference), in every forest grown through the API in which no uuid yet to be drawn is in use: deserialize returns a new tree of that shape, and node(uuid) asked on any node of it or of any other tree answers exactly with that tree's node (c91_loaded_partial); the same below a parent under a free name (c91_below_partial, c91_found_partial). The result is again such a forest, so further trees can be loaded."
  },
  {
   "property": "C92",
   "status": "proved",
   "theorems": [
    "Verif.c92_asked",
    "Verif.c92_original",
    "Verif.c92_grown",
    "Verif.c92_same"
   ],
   "note": "For every forest of Reference trees grown through the API (Grown, C15) in a heap without dangling references (Intact, which histories that use existing nodes have). For nodes with UUIDAware, whose copies get new uuids, all uuids in use must have been drawn (Issued), as uuid4 is assumed never to return one in use. The histories of C15 now go on after deepcopy, in the copied tree or in the trees that were there (Grown.copyOf, Grown.copied). Without UUIDAware the copy answers with the copy of what the original answers (c92_same). TreeLocks and the recursion limit are not modelled, as in C60."
  },
  {
   "property": "C93",
   "status": "proved",
   "theorems": [
    "Verif.c93_drain",
    "Verif.c93_refill",
    "Verif.c93_reference"
   ],
   "note": "For the histories of C01 (pass-through classes): d.length calls of popitem() return the reversed items, one more raises KeyError('popitem(): mapping is empty'), keys() is empty then, other nodes keep their mapping; update with the items is accepted, because what a node holds its class takes (Taken), and restores every mapping. c93_reference: the same for nodes of Reference trees grown through the API (Grown of C15), where popitem() is never refused; afterwards node(uuid) answers None for every node that was below."
  },
  {
   "property": "C94",
   "status": "proved",
   "theorems": [
    "Verif.c94_alone",
    "Verif.c94_interleave"
   ],
   "note": "For the histories of C01 (pass-through classes): c94_alone compares the whole continuation with its operations on the one node, results in order and final mapping; c94_interleave compares two interleavings. Op.isOn and resultsOn select the operations on a node and their results."
  },
  {
   "property": "C95",
   "status": "proved",
   "theorems": [
    "Verif.c95_arguments",
    "Verif.c95_update",
    "Verif.c95_values",
    "Verif.c95_merge"
   ],
   "note": "updateWith models update with its arguments. c95_update: the node's ordered map is that of assigning the pairs of the argument (for a node its items) and the keywords one after the other (OMap.setAll), other nodes keep theirs; c95_values and c95_merge say what this means for values and keys. For values the class refuses see C04."
  },
  {
   "property": "C96",
   "status": "proved",
   "theorems": [
    "Verif.c96_sort",
    "Verif.c96_only_order"
   ],
   "note": "Selection sort by swaps, for every permutation of the keys. Children must be nodes named after their keys, since swap finds them by name (children placed elsewhere too are not)."
  },
  {
   "property": "C97",
   "status": "proved",
   "theorems": [
    "Verif.c97_relative",
    "Verif.c97_ancestor",
    "Verif.c97_compose",
    "Verif.c97_compose_string",
    "Verif.c97_relative_any",
    "Verif.c97_ancestor_any"
   ],
   "note": "The first two for histories that keep each node in one place (as in C09, which is refuted otherwise); the composition laws for all states.  The _any theorems: for every heap and class, for nodes located where they are found."
  },
  {
   "property": "C98",
   "status": "proved",
   "theorems": [
    "Verif.c98_alone",
    "Verif.c98_interleave"
   ],
   "note": "popitem chooses a key and update names several, so they are left out of the sequence looked at (not of the history before it)."
  },
  {
   "property": "C99",
   "status": "partial",
   "theorems": [
    "Verif.Locking.c99_serial_partial",
    "Verif.Locking.c99_settled",
    "Verif.Locking.c99_refuted"
   ],
   "note": "False while the lock is being created (c99_refuted: both threads come in and an update is lost, as in C50). Proved for every schedule once the root has its lock and nobody is about to replace it: in particular if it exists before the threads start."
  },
  {
   "property": "C100",
   "status": "partial",
   "theorems": [
    "Verif.Ser.c100_identify_partial",
    "Verif.Ser.c100_nodes_partial",
    "Verif.Ser.c100_refuted",
    "Verif.Ser.c100_every_partial"
   ],
   "note": "c100_identify_partial: data of two trees, in any two reachable heaps, are equal exactly if the shapes (classes, names, attributes, children in order) are equal, for trees whose classes are found by their dotted name and whose attributes survive serialization (as in C46). c100_nodes_partial: the same in terms of the nodes of one heap. False as stated: c100_refuted, a uuid and the text it is written as give the same data. c100_every_partial: for every such shape there are data from which it is read in every state, and which are what is written for it."
  },
  {
   "property": "C101",
   "status": "partial",
   "theorems": [
    "Verif.Ser.c101_alike_partial",
    "Verif.Ser.c101_deepcopy_partial",
    "Verif.Ser.c101_roundtrip_partial",
    "Verif.Ser.c101_data_partial",
    "Verif.Ser.c101_refuted"
   ],
   "note": "For trees of located nodes whose classes do not translate keys, make up children or keep them a second time: same classes, names and order of children give the same text (c101_alike_partial), so deep copies (c101_deepcopy_partial), what is read back (c101_roundtrip_partial) and trees with equal data (c101_data_partial) print alike. False as stated: c101_refuted, a class with the dotted name of another one comes back as the other one and prints differently."
  },
  {
   "property": "C102",
   "status": "partial",
   "theorems": [
    "Verif.c102_set_partial",
    "Verif.c102_insert_partial",
    "Verif.c102_end_partial",
    "Verif.c102_back_partial",
    "Verif.c102_succeeds",
    "Verif.c102_refuted",
    "Verif.c102_detach_partial"
   ],
   "note": "For nodes with a storage and without Alias, keys that are not nodespaces, and classes whose deletions read only what is there: adding and deleting (c102_set_partial, c102_insert_partial, c102_end_partial), deleting and putting back (c102_back_partial) leave all mappings as they were; the deletion succeeds in pass-through classes (c102_succeeds). False as stated: c102_refuted, with Alias an inserted node stays behind under another key. c102_detach_partial: the same for detach."
  },
  {
   "property": "C103",
   "status": "proved",
   "theorems": [
    "Verif.c103_idle",
    "Verif.c103_later"
   ],
   "note": "stays selects the operations that have to stay; the history before the sequence is arbitrary."
  },
  {
   "property": "C104",
   "status": "proved",
   "theorems": [
    "Verif.c104_shown",
    "Verif.c104_heap"
   ],
   "note": "aim q is the same operation on the node q; the two nodes may live in the same heap or in the heaps of two different histories.  c104_heap compares whole heaps, for continuations that also make nodes."
  },
  {
   "property": "C105",
   "status": "proved",
   "theorems": [
    "Verif.c105_order"
   ],
   "note": "Assignments of nodes are never refused by these classes, so no hypothesis on their results is needed."
  },
  {
   "property": "C106",
   "status": "proved",
   "theorems": [
    "Verif.c106_opaque"
   ],
   "note": "That the renamed program is a history too only asks for keys of children on nodes with nodespaces; the names given to constructors are not keys and stay."
  }
 ]
}