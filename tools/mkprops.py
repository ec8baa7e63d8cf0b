#!/usr/bin/env python3
"""Writes /verif/properties.jsonl (kept as a script so ids stay in order)."""
import json
P = []
def p(title, statement, quantifier, why, anchors):
    P.append(dict(id="C%02d" % (len(P) + 1), title=title, statement=statement,
                  quantifier=quantifier, why_tests_cant=why, anchors=anchors))

B = "src/node/behaviors/"
# --- mapping -----------------------------------------------------------------
p("Ordered-mapping refinement",
  "For nodes of the shipped classes BaseNode and OrderedNode (and any class whose behaviors do not translate, intercept or redirect keys), every history of item access, assignment, deletion, get, in, keys, values, items, len, setdefault, pop, popitem, update and clear on any number of nodes returns exactly what an insertion-ordered dictionary per node would return, and an operation on one node never changes the mapping of another node.",
  "every finite sequence of mapping operations on every population of nodes, all keys and values",
  "A test runs one short script of operations on one node; the claim is about all histories and about non-interference between all nodes.",
  [B+"mapping.py: ReadMapping, EnumerableMapping, IterableMapping, ExtendedWriteMapping", B+"storage.py: Storage, DictStorage, OdictStorage", B+"common.py: Adopt, NodeChildValidate", "src/node/base.py: BaseNode, OrderedNode"])
p("Failed assignment and failed deletion leave every mapping unchanged",
  "Whatever behaviors a node class is assembled from and in whatever order, node[key] = val and del node[key] either take effect exactly once, on the key handed to the storage, or raise and leave the stored children of every node exactly as they were.",
  "every class assembled from the item behaviors, every state, key, value and kind of exception",
  "There are unboundedly many behavior stacks and states; tests instantiate a handful.",
  [B+"common.py: Adopt, NodeChildValidate, UnicodeAware", B+"nodespace.py: Nodespaces", B+"reference.py: Reference", B+"lifecycle.py: Lifecycle", B+"cache.py: Cache", B+"alias.py: Alias", B+"storage.py: Storage"])
p("Reading never modifies the children",
  "node[key], get, in, keys, values, items and len never change the stored children of any node and never change any node's name or parent, for every behavior stack without child factories.",
  "every program whose classes have no ChildFactory, every state and key",
  "Absence of side effects has to hold in every state.",
  [B+"mapping.py: ReadMapping, EnumerableMapping", B+"cache.py: Cache.__getitem__", B+"fallback.py: Fallback.__getitem__", B+"nodespace.py: Nodespaces.__getitem__"])
p("update applies a prefix",
  "update(pairs) assigns the pairs left to right; if the i-th assignment raises, the exception propagates and the node holds exactly the result of the assignments before it.",
  "every list of pairs, every failing position",
  "The failing position and the list are unbounded.",
  [B+"mapping.py: ExtendedWriteMapping.update"])
p("Only nodes become children unless explicitly allowed",
  "As long as allow_non_node_childs is False no sequence of mapping operations (assignment, update, setdefault, insertion through attribute access) stores anything but a node under a key, and classes are rejected with ValueError.",
  "every history of operations, every value",
  "It is an invariant over all histories.",
  [B+"common.py: NodeChildValidate.__setitem__"])
# --- adoption ----------------------------------------------------------------
p("Assignment adopts the child",
  "After node[key] = child succeeds on a class with Adopt, child.name is the key and child.parent is node, and name and parent of every other node are unchanged.",
  "every behavior stack with Adopt whose earlier behaviors pass the key through, every state",
  "All stacks and all states.",
  [B+"common.py: Adopt.__setitem__", B+"nodespace.py: Nodespaces.__setitem__"])
p("Failed assignment does not adopt",
  "If node[key] = child raises, child.name and child.parent (and those of every other node) are what they were before.",
  "every behavior stack, every exception",
  "Tests raise one KeyError from one fake dict; the claim covers every failure.",
  [B+"common.py: Adopt.__setitem__"])
p("Containment and location agree",
  "In every tree built by assigning nodes that are not already contained somewhere, and by deleting and detaching, each child stored under a key has that key as its name and its container as its parent.",
  "every history of create, assign, delete, pop, clear and detach operations",
  "Invariant over all histories.",
  [B+"common.py: Adopt", B+"nodify.py: Nodify.detach"])
p("Path lookup inverts path",
  "For every node reachable from a parentless root, node_by_path(root, node.path[1:]) is that node, its root property is that root, and the same holds for the '/'-joined string if all names are non-empty strings without '/'.",
  "every well-located tree, every depth",
  "Depth and shape are unbounded.",
  ["src/node/utils.py: node_by_path, LocationIterator", B+"nodify.py: Nodify.path, Nodify.root"])
p("Paths identify nodes",
  "Two nodes of the same tree with equal path are the same node.",
  "every pair of nodes of every tree",
  "Unbounded trees.",
  [B+"nodify.py: Nodify.path"])
p("acquire returns the nearest matching ancestor",
  "acquire(x) returns the closest strict ancestor that provides x (or is an instance of x), and None exactly if there is none; the node itself is never returned.",
  "every parent chain, every interface",
  "Unbounded chain length.",
  [B+"nodify.py: Nodify.acquire"])
p("Locations stay acyclic",
  "Assigning a node that is not the target itself and not one of its ancestors keeps every parent chain finite, so path and root terminate in every state reached by such assignments and deletions.",
  "every history of assignments that do not put a node below itself",
  "Non-termination appears only in particular states.",
  [B+"common.py: Adopt.__setitem__", "src/node/utils.py: LocationIterator"])
p("detach removes exactly one child",
  "detach(key) returns the child stored at key, removes exactly that key from exactly that node, and leaves the whole subtree of the child untouched; for a missing key it raises KeyError and changes nothing.",
  "every node, key and subtree",
  "Unbounded subtrees.",
  [B+"nodify.py: Nodify.detach"])
p("filteredvalues selects in order",
  "filteredvalues(iface) returns exactly the children providing iface, in the order of values().",
  "every node, every interface",
  "All mappings and predicates.",
  [B+"nodify.py: Nodify.filteredvalues, Nodify.filtereditervalues"])
# --- reference ---------------------------------------------------------------
p("The reference index is exact for trees grown leaf by leaf",
  "In every tree of Reference nodes built by assigning new childless nodes to unused keys and by detaching and deleting subtrees, node(uuid) asked on any node of the tree returns the node of that tree carrying the uuid, and None exactly if there is none.",
  "every such history, every node asked, every uuid",
  "Invariant over all histories and tree shapes.",
  [B+"reference.py: Reference.__init__, __setitem__, __delitem__, detach, _to_delete, _index_nodes, node"])
p("A node cannot be put into a reference tree twice",
  "Assigning a node whose uuid is already in the index of the tree raises ValueError and leaves the tree, the index and the location of the node unchanged.",
  "every tree, every node already contained",
  "All trees and all positions; tests only try a node with children.",
  [B+"reference.py: Reference.__setitem__"])
p("Detaching splits the index",
  "After detach of a subtree from a reference tree, the index of the detached root contains exactly the uuids of its subtree, every node of the subtree shares it, and the remaining tree's index contains exactly the remaining uuids.",
  "every tree, every subtree",
  "Unbounded subtrees.",
  [B+"reference.py: Reference.detach, _index_nodes, _to_delete"])
p("Setting a uuid re-indexes",
  "Setting node.uuid to an unused uuid makes node findable under the new uuid, unfindable under the old one and changes no other entry; setting it to a uuid of another node of the tree raises ValueError and changes nothing.",
  "every tree and uuid",
  "All states; the nil uuid and None are corner cases.",
  [B+"reference.py: Reference.uuid"])
p("Merging trees merges the index",
  "After tree[key] = subtree of Reference nodes, every node of the merged tree finds every node of the merged tree by uuid.",
  "every pair of trees, every node asked",
  "Unbounded trees; the tests only compare the two roots.",
  [B+"reference.py: Reference.__setitem__"])
p("A deleted node can be added again",
  "After x = node[key]; del node[key] on a Reference node, assigning x again succeeds, x is found by its uuid and can be deleted again.",
  "every tree and key",
  "History-dependent.",
  [B+"reference.py: Reference.__delitem__, __setitem__"])
# --- order -------------------------------------------------------------------
p("insertbefore and insertafter place the node",
  "If insertbefore(new, ref) (insertafter) succeeds for a node named by an unused key, the key sequence is the old one with the new key directly before (after) ref's key, all other positions and values unchanged, and new is adopted.",
  "every node, every position, every length",
  "All lengths and positions.",
  [B+"order.py: Order.insertbefore, insertafter"])
p("insertfirst and insertlast place the node at the ends",
  "insertfirst (insertlast) of a node named by an unused key makes its key the first (last) of keys(), for empty and non-empty nodes.",
  "every node, every length",
  "All lengths.",
  [B+"order.py: Order.insertfirst, insertlast"])
p("swap exchanges exactly two positions",
  "swap(a, b) exchanges the positions of the two keys, keeps every other position and every key/value association, and swapping twice restores the order.",
  "every node, every pair of different children",
  "All lengths and positions.",
  [B+"order.py: Order.swap"])
p("A failed insertion changes nothing",
  "If insertbefore or insertafter raises, the children of the node, their order and the location of the new node are unchanged.",
  "every failure cause",
  "The failing write happens after the storage was already written.",
  [B+"order.py: Order.insertbefore, insertafter, _validateinsertion"])
# --- nodespaces / attributes -------------------------------------------------
p("Nodespaces and children are disjoint",
  "Reading, writing or deleting a key of the form __x__ never touches the children (keys, values, order), reading, writing or deleting any other key never touches the nodespaces, and node['__children__'] is the node itself unless that very name was assigned or deleted.",
  "every key, every history of programs whose classes have no ChildFactory",
  "All keys, including degenerate ones like '__' and '___'.",
  [B+"nodespace.py: Nodespaces"])
p("attrs is one stable object, separate from the children",
  "The first access of attrs creates one attributes node located at ('__attrs__', node); every later access returns the same object unless the name __attrs__ itself is assigned or deleted; attrs never shows up in keys(), and writing attributes never changes the children.",
  "every history of accesses and writes",
  "All histories.",
  [B+"attributes.py: Attributes.attrs, NodeAttributes"])
# --- alias -------------------------------------------------------------------
p("unalias inverts alias",
  "For every prefix aliaser, suffix aliaser, prefix-suffix aliaser and chain, unalias(alias(key)) == key for every key; for an aliaser built from a dictionary this holds for every listed key.",
  "every aliaser configuration, every key",
  "All strings, including empty prefixes and suffixes.",
  [B+"alias.py: PrefixAliaser, SuffixAliaser, PrefixSuffixAliaser, AliaserChain, DictAliaser"])
p("The aliased view is a faithful view",
  "On a node with Alias and an aliaser whose unalias inverts alias: reading, writing and deleting alias(k) acts on the stored key k, iteration yields alias(k) for each stored k in storage order, and each iterated key can be read back.",
  "every invertible aliaser, every node state",
  "All aliasers and states.",
  [B+"alias.py: Alias"])
p("A dictionary aliaser whitelists",
  "On a node with Alias and a strict DictAliaser, keys that are not listed can be neither read, written, deleted nor seen in iteration.",
  "every dictionary (including the empty one), every key",
  "All dictionaries; truthiness of an empty dictionary is a corner case.",
  [B+"alias.py: Alias, DictAliaser"])
p("Alias reports errors with the caller's key",
  "If the storage lacks a key, reading or deleting its alias raises KeyError carrying the alias the caller used.",
  "every aliaser, every missing key",
  "All keys.",
  [B+"alias.py: Alias.__getitem__, __delitem__, __setitem__"])
# --- cache -------------------------------------------------------------------
p("The cache is transparent",
  "A node class with Cache above a storage returns, for every history of mapping operations, exactly the same results as the class without Cache.",
  "every history, every placement of Cache among pass-through behaviors",
  "Stale entries appear only after particular interleavings of reads and writes.",
  [B+"cache.py: Cache"])
p("invalidate() without key drops everything",
  "After invalidate() on a caching node whose storage is volatile, both the cache and the storage are empty.",
  "every cache content and storage content",
  "Tests only use a cache with one entry or an empty one.",
  [B+"cache.py: Cache.invalidate, Invalidate.invalidate, VolatileStorageInvalidate.invalidate"])
p("invalidate(key) drops one entry",
  "invalidate(key) removes the child from cache and storage, leaves every other entry alone, and raises KeyError if the key is not a key of the node.",
  "every state and key",
  "All states.",
  [B+"cache.py: Cache.invalidate, Invalidate.invalidate, VolatileStorageInvalidate.invalidate"])
# --- lifecycle ---------------------------------------------------------------
p("Lifecycle events mirror successful operations",
  "On a Lifecycle node each successful assignment emits exactly one added event (child, parent, key), each successful deletion exactly one removed event, in order and after the change; failed operations emit nothing.",
  "every history of operations, including failing ones",
  "All histories.",
  [B+"lifecycle.py: Lifecycle.__setitem__, __delitem__"])
p("detach emits one detached event and restores notification",
  "detach(key) emits exactly one detached event and no removed event, and after detach returned or raised the node notifies again as before.",
  "every state, including a missing key",
  "The failing path is not tested.",
  [B+"lifecycle.py: Lifecycle.detach"])
p("Attribute changes emit modified events",
  "Each successful write or delete on lifecycle-aware attributes emits exactly one modified event for the owning node, failing ones emit none.",
  "every history",
  "All histories.",
  [B+"lifecycle.py: AttributesLifecycle"])
# --- events ------------------------------------------------------------------
p("Subscriptions behave like an ordered set",
  "After any history of register_event, bind and unbind, the subscribers of an event are those bound and not unbound since, each once, in order of first binding; binding to an undeclared event raises and binds nothing for it.",
  "every history",
  "All histories.",
  [B+"events.py: Events.register_event, bind, unbind"])
p("dispatch notifies every subscriber exactly once",
  "dispatch(event) calls every subscriber bound to the event when dispatch starts exactly once, in binding order.",
  "every subscriber list, every behavior of the subscribers (including re-entrant bind and unbind)",
  "Subscribers that change the subscriptions while being notified are not tested.",
  [B+"events.py: Events.dispatch"])
p("Event suppression nests",
  "Inside suppress_events() nothing is delivered, inside suppress_events(x) exactly the listed events are withheld, and leaving all contexts in any properly nested order (also by exceptions) restores delivery.",
  "every nesting of contexts, every list of events",
  "Unbounded nesting.",
  [B+"events.py: suppress_events, Events.dispatch"])
p("Event attributes dispatch exactly on change",
  "Assigning an EventAttribute stores the value first and dispatches it to decorated and bound subscribers exactly if the value differs from the previous one (or always, with always_dispatch); deleting dispatches UNSET and restores the default.",
  "every history of assignments and deletions",
  "All histories.",
  [B+"events.py: EventAttribute.__set__, __get__, __delete__, _subscribers"])
p("Dispatching and fallback lookup work in every thread",
  "dispatch, suppress_events and a fallback lookup of a missing key behave the same in every thread.",
  "every thread of the process",
  "Tests run in the importing thread only.",
  [B+"events.py: suppress_events.data, _attribute_subscribers", B+"fallback.py: fallback_processing.data"])
p("Events declared by a class stay with it",
  "bind accepts an event exactly if it was registered on the instance or declared by the instance's class or one of its base classes.",
  "every class hierarchy",
  "All hierarchies.",
  [B+"events.py: event_dispatcher_metclass_hook, Events.bind"])
# --- fallback ----------------------------------------------------------------
p("Local values win over fallbacks",
  "If a key is present on a Fallback node, its own value is returned and no other node is consulted.",
  "every tree and key",
  "All trees.",
  [B+"fallback.py: Fallback.__getitem__"])
p("Fallback lookup terminates and is sound",
  "For every finite tree with acyclic parents a fallback lookup terminates; the value it returns is the value at the remaining subpath below a declared fallback child of an ancestor, and if nothing is found KeyError is raised.",
  "every tree, every assignment of fallback keys",
  "Termination over all configurations.",
  [B+"fallback.py: _to_root, _to_leaf, Fallback.__getitem__"])
p("The fallback recursion guard is balanced",
  "After every lookup, successful or not, the processing counter has its previous value, so the next lookup of a missing key searches fallbacks again.",
  "every history of lookups, every outcome",
  "All outcomes.",
  [B+"fallback.py: fallback_processing, Fallback.__getitem__"])
# --- serializer --------------------------------------------------------------
p("Node trees survive serialization",
  "For every well-located tree of nodes, deserialize(serialize(tree)) is a tree of the same shape: same class, name, order of children at every position.",
  "every finite tree",
  "Unbounded trees.",
  ["src/node/serializer.py: serialize, deserialize, NodeEncoder.default, NodeDecoder.decode, node_factory, serialize_node, deserialize_node"])
p("Attribute values survive serialization",
  "For every attribute value built from None, booleans, integers, strings, UNSET, UUIDs, references to classes and functions, lists and dictionaries, decoding the encoded value yields an equal value.",
  "every value of this grammar, arbitrarily nested",
  "Arbitrary nesting and strings that look like markers.",
  ["src/node/serializer.py: NodeEncoder.default, NodeDecoder.decode, serialize_node_attributes, deserialize_node_attributes"])
p("Simple mode drops exactly the type information",
  "serialize(tree, simple_mode=True) contains exactly name, children and attributes of each node, in the same shape, and the class only with include_class=True.",
  "every finite tree",
  "Unbounded trees.",
  ["src/node/serializer.py: NodeEncoder.default"])
p("Deserializing below a root attaches the tree",
  "deserialize(data, root=r) adds exactly one child to r per serialized node, located below r, keeping r's other children.",
  "every tree, every root",
  "All roots and trees.",
  ["src/node/serializer.py: deserialize, NodeDecoder.node_factory, NodeDecoder.decode"])
# --- locking -----------------------------------------------------------------
p("The tree lock excludes other threads",
  "At no time do two threads execute locktree-decorated methods (or TreeLock bodies) of nodes of the same tree at once.",
  "every schedule of every number of threads",
  "Schedules cannot be enumerated by tests.",
  ["src/node/locking.py: TreeLock.__init__, acquire, release, locktree"])
p("The tree lock is re-entrant and always released",
  "A thread holding the tree lock can enter further locked methods of the tree, and after a locked method returned or raised the lock is held exactly as often as before.",
  "every nesting depth, every outcome",
  "Unbounded nesting.",
  ["src/node/locking.py: TreeLock, locktree"])
# --- utils -------------------------------------------------------------------
p("Text codec laws",
  "On nested lists, tuples and dictionaries of text and bytes, decode(encode(x)) == decode(x), encode and decode are idempotent, decode(encode(x)) == x if x contains only text, and undecodable bytes are returned unchanged in soft mode and raise otherwise.",
  "every nested structure",
  "Arbitrary nesting and arbitrary byte strings.",
  ["src/node/utils.py: StrCodec.encode, StrCodec.decode"])
p("ReverseMapping is the inverse view",
  "ReverseMapping(m)[v] is the first key of m whose value equals v and raises KeyError exactly if there is none; keys, values, items and len are those of m with the roles exchanged.",
  "every mapping, including ones with equal values under several keys",
  "All mappings.",
  ["src/node/utils.py: ReverseMapping"])
p("Attribute access maps to item access",
  "For an attribute-access view a of a node, a.k = v stores v under k, a.k reads the value stored under k, a missing k raises AttributeError.",
  "every name and value",
  "All names, including those that exist on the view object itself.",
  ["src/node/utils.py: AttributeAccess", B+"common.py: AsAttrAccess, GetattrChildren"])
p("Instance properties are computed once",
  "However often an instance_property is read, its function runs at most once per instance and every read returns the same object.",
  "every history of reads on every number of instances",
  "All histories.",
  ["src/node/utils.py: instance_property"])
p("Child factories build each child once",
  "On a ChildFactory node every listed key can be read, the first read creates and stores one child, later reads return the same child until it is deleted or invalidated, and the listed keys are always the keys of the node.",
  "every factory table, every history of reads",
  "All histories.",
  [B+"common.py: ChildFactory"])
p("Fixed children are read-only",
  "A FixedChildren node holds, from construction on, exactly its declared children, in order, each located at (key, node) when construction ends; no operation of the mapping API adds, removes or replaces one.",
  "every table of factories, every history of operations",
  "All histories.",
  [B+"common.py: FixedChildren"])
p("Deep copies get fresh uuids",
  "deepcopy of a UUIDAware tree gives every node of the copy a new uuid (only the root of the copy if overwrite_recursiv_on_copy is False), leaves the uuids of the original alone, and copy always raises.",
  "every tree",
  "Unbounded trees.",
  [B+"common.py: UUIDAware.deepcopy, set_uuid_for, copy"])
p("Copies are independent of the original",
  "After c = node.copy(), assigning or deleting items of c does not change the items of node.",
  "every node, every later operation",
  "History-dependent.",
  [B+"mapping.py: ClonableMapping.copy", B+"nodify.py: Nodify.copy", B+"storage.py: DictStorage.storage, OdictStorage.storage"])
p("Deep copies are isomorphic and disjoint",
  "deepcopy yields a tree of the same shape and names made of new objects only; no later operation on the copy changes the original and vice versa.",
  "every tree, every later operation",
  "Unbounded trees.",
  [B+"mapping.py: ClonableMapping.deepcopy"])
p("treerepr is canonical",
  "treerepr prints each node of the tree exactly once, children indented by two more prefixes below their parent, and for unordered nodes does not depend on the order in which children were added.",
  "every tree, every insertion order",
  "All permutations.",
  [B+"nodify.py: Nodify.treerepr, noderepr"])
p("The tester reports every contract method once, in order",
  "BaseTester.run reports for each contract method, in order, OK exactly if its test returned; a missing test method raises ContractError; failures do not stop later tests unless direct_error is set.",
  "every contract list, every outcome of the tests",
  "All outcome combinations.",
  ["src/node/testing/base.py: BaseTester.run, ResultWriter"])
p("Insertions refuse unnamed, contained and misplaced nodes",
  "insertbefore and insertafter raise ValueError for a node without a name, KeyError for a node whose uuid is already known to the tree's index, and ValueError if the reference node's name is no key of the node; in each case the children, their order and all locations stay as they are.",
  "every tree, every node and reference node",
  "All states of the index.",
  [B+"order.py: Order._validateinsertion, insertbefore, insertafter"])
p("Serialization is stable",
  "Serializing a tree twice gives the same data; a tree deserialized from the data of a node, and a deep copy of the node, serialize to the same data as the node itself, in every mode (full, simple, with or without class).",
  "every tree of nodes with any attributes, every mode",
  "Unbounded trees and all attribute values.",
  ["src/node/serializer.py: serialize, deserialize, NodeEncoder, NodeDecoder", B+"mapping.py: ClonableMapping.deepcopy"])
p("Nodes with Reference are ordered dictionaries that may refuse nodes",
  "Under every history of mapping operations, Node and AttributedNode (and every class with Reference and pass-through behaviors) return what an insertion-ordered dictionary returns, or an assignment or deletion of a node is refused with an exception that leaves the contents of every node unchanged; values that are no nodes and leaves with Reference are never refused; pop returns the default only for keys that are missing.",
  "every history of mapping operations on any number of nodes",
  "History-dependent: the index decides what is refused.",
  [B+"reference.py: Reference.__setitem__, __delitem__", B+"mapping.py: FullMapping", "src/node/base.py: Node, AttributedNode"])
p("All ways of reading a node agree",
  "keys, values, items, len, in, [] and get of a node show one and the same ordered list of pairs: k in node exactly if k is among the keys, node[k] and get(k, default) answer with the value paired with k or KeyError and the default, len counts the pairs.",
  "every state of every node, every key",
  "The methods take different paths through the behaviors; all states and keys.",
  [B+"mapping.py: Mapping, EnumerableMapping", B+"nodespace.py: Nodespaces.__getitem__", B+"alias.py: Alias.__getitem__, __iter__"])
p("The mapping tester accepts nodes",
  "FullMappingTester run on a new node whose class is composed of a storage of the library, Nodify and any of the library's behaviors that keep children as they are (with Adopt if node_checks is on) ends normally and reports OK for each of the twenty methods; afterwards the node is empty again and has its name and parent, and every node that existed before has the children, name and parent it had.",
  "every such class, every surrounding tree, with and without node_checks and direct_error",
  "All compositions of behaviors and all surrounding trees; the repository runs the tester on a handful of classes.",
  ["src/node/testing/fullmapping.py: FullMappingTester", "src/node/testing/base.py: BaseTester.run", B+"mapping.py: FullMapping"])
p("Aliases are unambiguous",
  "A key accepted by a prefix, suffix, dictionary or chained aliaser is the alias of the key it stands for: unalias(k) returns u only if alias(u) == k. Hence on a node with Alias two different keys never reach the same child, and a key that is no alias raises KeyError, is not in the node, and cannot be written or deleted.",
  "every aliaser, every key, every aliased node and value",
  "Tests try single aliasers on a few keys; that no two of all keys meet and that each foreign key is refused in all operations is a statement about all of them.",
  [B+"alias.py:25-39", B+"alias.py:52-64", B+"alias.py:77-89", B+"alias.py:104-112", B+"alias.py:127-172"])
p("Reading serialized data leaves existing nodes alone",
  "deserialize(data) makes new nodes only and changes no existing node, whatever the data are and whether it returns or raises. With a root it changes only what is connected with the root, and if it raises, the root and everything else are as before. Data without nodes change nothing. A record without class or name, or with a class that cannot be found, is refused with KeyError, ImportError or AttributeError.",
  "every JSON value, well formed or not, every surrounding heap, every root",
  "All JSON values: tests try a few well-formed ones.",
  ["src/node/serializer.py: NodeDecoder.decode, NodeDecoder.node_factory, deserialize_node, deserialize_node_attributes"])
p("Programs that share no node do not influence each other's nodes",
  "If several parts of a program work with nodes in turn, and each uses only nodes it created itself or got from its own operations, then no operation of one of them, successful or not, changes anything another part can get at (children, names, parents, attributes, caches, indexes), nor any node that existed before; and no node can be got at by two of them. An operation changes only nodes that are connected with the nodes it is given.",
  "every interleaving of operations on nodes of any classes",
  "All interleavings and all classes: state shared between instances, such as a dictionary on the class or a shared index, shows only in some of them.",
  [B+"storage.py: DictStorage, OdictStorage", B+"reference.py: Reference.__init__, __setitem__", B+"nodespace.py: Nodespaces.nodespaces", B+"cache.py: Cache.cache", "src/node/utils.py: instance_property"])
p("set_uuid_for fills the gaps",
  "set_uuid_for(node, override=False, recursiv=True) gives each UUIDAware node of the tree below node that has no uuid a new one that no other node has, and leaves every uuid that is there alone; doing it again changes nothing. With override=True each UUIDAware node of the tree gets a new one. With recursiv=False only the node itself is touched. Nothing but uuids changes.",
  "every tree of nodes, every distribution of missing uuids",
  "All trees and all distributions of gaps; uniqueness is a statement about all nodes.",
  [B+"common.py: UUIDAware.set_uuid_for", B+"reference.py: Reference.uuid"])
p("Uuids identify nodes",
  "A node made by calling a class with UUIDAware or Reference has a uuid; as long as no uuid is assigned from outside, no operation on any node, successful or not, changes it, and no other node ever has the same.",
  "every history of constructing nodes and mapping, ordering, attribute and detach operations, every class",
  "A statement about all pairs of nodes at all times.",
  [B+"common.py: UUIDAware.__init__", B+"reference.py: Reference.__init__, Reference.__setitem__, Reference.uuid"])
p("Constructors put nodes in place",
  "Every node class can be called with a name and a parent; the node returned is new and empty and has exactly this name and parent, and no other node changes.",
  "every composition of behaviors, every name, every parent, every state",
  "All compositions of behaviors: whether the arguments get through depends on which behaviors define __init__ and __new__.",
  [B+"nodify.py: DefaultInit.__init__", B+"events.py: Events.__new__", B+"reference.py: Reference.__init__", B+"common.py: UUIDAware.__init__, FixedChildren.__init__", B+"lifecycle.py: Lifecycle.__init__"])
p("The ends, swapping and missing order are checked",
  "insertfirst and insertlast raise ValueError for a node without a name and KeyError for a node that is already in the tree of a Reference node; swap raises KeyError if one of its arguments is not a child, and insertbefore and insertafter raise ValueError if the reference node is not a child; on a node whose storage keeps no order, all of them raise AttributeError. After each of these exceptions no children, order, names, parents or indexes have changed.",
  "every node with Order, every node given, every state",
  "All states of the node, among them the empty one, and all nodes that may be given as reference node.",
  [B+"order.py: Order.swap, insertfirst, insertlast, insertbefore, insertafter, _validateinsertion", B+"reference.py: Reference.node"])
p("UnicodeAware nodes know text only",
  "On a node with UnicodeAware, bytes given as key mean the text they encode: assigning under the bytes stores under the text, and reading and deleting by either find the same child; bytes given as value are stored as text. Text is left as it is.",
  "every class with UnicodeAware, every key and value",
  "All compositions: whether the key reaches the storage as text depends on every behavior around.",
  [B+"common.py: UnicodeAware", "src/node/interfaces.py: IUnicodeAware"])

p("Moving nodes",
  "Detaching a child and inserting it with insertbefore or insertafter beside a child of any node outside its subtree, under a name that is free there, succeeds: the node then stands directly before or after the reference node, all other children keep their order and values, its parent is the new container, the tree has the same nodes with the same uuids as before, and every node of the tree still finds every other by uuid.",
  "every tree of ordered Reference nodes, every subtree, every target",
  "A test moves one node in one small tree; which lookups survive depends on which node shares which index object, for every shape of the moved subtree and every node asked.",
  [B + "order.py:33-59", B + "reference.py:39-67", B + "reference.py:95-117", B + "nodify.py:65-69", "src/node/interfaces.py:423-441"])

p("Records are read by their known members",
  "deserialize reads the members class, name, kw, children and attrs of a node record. Other members in the record or beside it, the order of the members, and whether a record without children or attributes has an empty list, null or no such member, make no difference to what is returned or raised and to the resulting nodes.",
  "every JSON value with records at any depth, every state, every root",
  "All JSON values: a test adds a member to one record.",
  ["src/node/serializer.py: NodeDecoder.decode, NodeDecoder.node_factory, deserialize_node, deserialize_node_attributes"])
p("Registered serializers extend the format",
  "For every node, the callbacks registered for the interfaces and classes it provides are called once each, in the order of the first registration for these; registering again replaces the callback in its place. Callbacks for what no node provides make no difference. Serializers that only add members of other names to the records change nothing for readers who do not know them: serialize raises as before or writes data from which deserialize gives the same nodes as before.",
  "every sequence of registrations, every callback, every tree, every state",
  "All sequences of registrations and all callbacks; the compatibility of two formats is a statement about all trees.",
  ["src/node/serializer.py: _serializer_registry, serializer, deserializer, NodeEncoder.default, NodeDecoder.decode"])

p("The tester's reports are complete and name the right classes",
  "combined has one line for every name reported by run, with what was reported for it, sorted by name. wherefrom has one line for every entry of the contract, sorted by name, each with the name of the class whose body contains the function an instance of the tested class has under that name, or the note that there is none.",
  "every contract, every set of tests, every class hierarchy",
  "All hierarchies: a test knows one class with one base.",
  ["src/node/testing/base.py: BaseTester.combined, BaseTester.wherefrom"])

p("Lifecycle subscribers are called when the operation is complete",
  "A subscriber of a lifecycle event finds the nodes as they are after the operation that sent the event, whatever it looks at: assigning, deleting, detaching, creating a node and changing attributes with subscribers has the effect of the same operation without subscribers followed by what the subscribers do. If a subscriber changes nodes this is all that is added, and if it raises, the operation stays done and the exception reaches the caller.",
  "every subscriber, also ones that write and raise, every composition with Lifecycle or AttributesLifecycle, every state",
  "Quantifies over all programs a subscriber can be; a test registers one that notes the events.",
  [B+"lifecycle.py: Lifecycle, AttributesLifecycle", B+"common.py: Adopt.__setitem__, UUIDAware.__init__", B+"reference.py: Reference.detach"])

p("Writing down another location",
  "Assigning __name__ or __parent__ of a node changes no children, no order of children and no result of any operation, except those that look at locations by contract: path, root and acquire, Fallback, events of attributes, insertbefore, insertafter, insertfirst, insertlast and swap. path, root and acquire follow the assignment for the node and for the nodes located below it and stay the same for every other node. They end for every node as long as no node is given a parent located below it.",
  "every program of node operations with assignments in between over classes without Fallback and AttributesLifecycle, every node asked afterwards",
  "All programs and all positions of the assignments in them, and all nodes of all trees.",
  [B+"nodify.py: Nodify.__name__, __parent__, path, root, acquire", B+"common.py: Adopt.__setitem__", B+"order.py: Order"])

p("Reading what is there",
  "For a key a node has (in its storage or fixed children under the key Alias translates it to, in its cache, or among its nodespaces) node[key] and node.get(key) return that value and key in node is True. No child factory and no fallback search runs, no event is sent, no node changes; only the cache of that node may gain an entry. Reading again, any number of times, returns the same.",
  "every composition of behaviors, every heap in which nodes share no dictionaries, every node and key",
  "All compositions of behaviors and all states of caches; tests try a few classes each.",
  [B+"cache.py: Cache.__getitem__", B+"alias.py: Alias.__getitem__", B+"nodespace.py: Nodespaces.__getitem__", B+"common.py: ChildFactory.__getitem__", B+"fallback.py: Fallback.__getitem__"])

p("Reading back what was written",
  "If node[key] = value does not raise, node[key] and node.get(key) return exactly that value afterwards and key in node is True, also if another value was cached or stored before, if the key is translated, reserved for a nodespace, known to a child factory or found by a fallback. Under every key about another entry the node, and under every key every other node, has what it had. Without Cache all keys about the same entry read the new value.",
  "every composition of behaviors, every heap in which nodes share no dictionaries, every node, key and value",
  "All compositions of behaviors in all orders, and all states of their caches and dictionaries before the assignment.",
  [B+"cache.py: Cache.__setitem__", B+"alias.py: Alias.__setitem__", B+"nodespace.py: Nodespaces.__setitem__", B+"common.py: Adopt.__setitem__", B+"storage.py: Storage.__setitem__"])

p("What is deleted is gone",
  "If del node[key] does not raise, the node has nothing under key any more, neither stored nor cached nor among its nodespaces: node[key] raises KeyError, node.get(key, default) returns the default and key in node is False (unless the class has a child factory or a fallback for it). Under every key about another entry the node, and under every key every other node, has what it had. Assigned again, the new value is read.",
  "every composition of behaviors in every order, every heap in which nodes share no dictionaries, every node and key",
  "All orders of behaviors and all states of caches: whether a deleted value comes back depends on which behavior reads it on the way.",
  [B+"cache.py: Cache.__delitem__", B+"lifecycle.py: Lifecycle.__delitem__", B+"reference.py: Reference.__delitem__", B+"alias.py: Alias.__delitem__", B+"nodespace.py: Nodespaces.__delitem__", B+"storage.py: Storage.__delitem__"])

p("pop, popitem, setdefault, update and clear do what they say",
  "node.pop(key) returns what node[key] would and removes it; if node[key] raises KeyError it raises KeyError too, and node.pop(key, default) returns the default and changes nothing; otherwise node.pop(key, default) returns what node[key] would. node.popitem() returns the last key with its value and removes it. node.setdefault(key, default) returns what the node has under key, else makes the node have default there and returns it. After node.update(pairs) the node has for every key the last value given for it. After node.clear() the node lists nothing and has nothing under any key it listed. All of them leave entries under other keys, nodespaces and other nodes alone.",
  "every composition of behaviors in every order, every heap in which nodes share no dictionaries, every node, key, value and list of pairs",
  "The methods are defined once over item access, which every behavior changes; tests try them on plain dictionaries.",
  [B+"mapping.py: ExtendedWriteMapping", B+"common.py: Adopt.setdefault", B+"cache.py: Cache", B+"fallback.py: Fallback.__getitem__"])

p("debug only logs",
  "A function decorated with debug returns what the function returns, raises what it raises and has the same effects; the function is called once with the given arguments. One line naming function and arguments is logged before the call, and one with the result after it if it returned.",
  "every function over nodes, every list of positional and keyword arguments, every state",
  "Quantifies over all functions and arguments; whether the call happens at all depends on whether every argument can be printed.",
  ["src/node/utils.py: debug", B+"nodify.py: Nodify.__repr__, __str__", B+"attributes.py: NodeAttributes.__repr__"])

p("create_tree makes the tree the testers rely on",
  "create_tree(class_) returns the root of a new tree of ten instances of the class: the root has the children child_0, child_1, child_2 in this order and nothing else, each of them subchild_0 and subchild_1, and these have none. No node is in it twice, every node knows its key and parent if the class adopts its children, and all nodes that existed before keep their children, names and parents.",
  "every class of nodes, every state in which it is called",
  "The tests call it for a handful of classes; whether it returns and what it returns depends on the composition of the class passed.",
  ["src/node/testing/base.py: create_tree"])

p("Children can be read as attributes",
  "If the class has GetattrChildren, then after node[name] = value has returned, node.name is value for every name the object does not have itself, hasattr(node, name) is True and getattr(node, name, default) is value; for names the object has itself node.name stays what it was and node[name] is value. For a name the object does not have and that is not a child, in particular after del node[name], asking obeys the protocol of attributes: node.name raises AttributeError, hasattr(node, name) is False and getattr(node, name, default) is default. TreeLock and Order, which ask nodes for attributes, work for such nodes as for others.",
  "every composition of behaviors with GetattrChildren, every heap in which nodes share no dictionaries, every node and name, every set of names the object has itself",
  "All compositions and states of the node decide what reading the item does; the tests read three names of one class.",
  [B+"common.py: GetattrChildren.__getattr__", "src/node/locking.py: TreeLock.__init__", B+"order.py: Order._validateinsertion"])

p("An operation changes the node it is called on",
  "Assigning, deleting, popping, clearing, updating, detaching, inserting, swapping and invalidating children, and asking for attrs, change the children, the nodespaces and the listing of the node they are called on and of no other node, whether they return or raise; reading, constructing nodes, assigning a uuid or a fallback key change those of no node at all. So keys(), len() and, unless it caches, what is found under a key of a node stay the same however long other nodes are worked on.",
  "every program, every heap in which nodes share no dictionaries, every node, every finite sequence of operations called on other nodes or of reading operations",
  "All sequences of operations on all other nodes, related by parents, references and indices or not; a test compares a few.",
  [B+"storage.py: Storage", B+"nodespace.py: Nodespaces", B+"order.py: Order", B+"reference.py: Reference.__delitem__, detach", B+"common.py: ChildFactory.__getitem__", B+"attributes.py: Attributes.attrs"])

p("Only storing a node moves it",
  "The name and the parent of a node change only by an operation that is given this node to store it. Deleting it, detaching it, clearing or reordering its parent, replacing it by another node, reading, and whatever is done to other nodes leave its name and parent as they are, whether the operations return or raise; path, root and acquire of a node stay the same as long as neither it nor a node above it is stored.",
  "every program including such with child factories, every heap in which nodes share no dictionaries, every node, every finite sequence of operations none of which is given the node as value",
  "All sequences of operations, among them those that make nodes on reading and those that fail halfway and restore; tests look at the location after one or two calls.",
  [B+"common.py: Adopt.__setitem__", B+"nodify.py: Nodify.path, root, acquire, detach", B+"nodespace.py: Nodespaces.__setitem__", B+"reference.py: Reference", B+"order.py: Order", B+"common.py: ChildFactory.__getitem__"])

p("A loaded tree finds its nodes by uuid",
  "After deserialize(data) has returned a tree of Reference nodes, node(uuid) asked on any node of the tree answers with the node of the tree that has the uuid, and with None if there is none; trees that existed before go on answering about their own nodes. With deserialize(data, root=parent) the loaded nodes are found from every node of the parent's tree and find these.",
  "every serialized tree of Reference nodes of any size and depth, every state of the heap grown through the API, every node asked, every uuid",
  "each node is made with an index of its own, which is merged when it is stored and then shared with what is loaded below it; all shapes and all states of other trees matter, and the tests load one tree and never ask for a uuid.",
  ["src/node/serializer.py: NodeDecoder, deserialize", B+"reference.py: Reference.__init__, __setitem__, node, uuid", B+"attributes.py: Attributes.attrs"])

p("A deep copy of a Reference tree answers for itself",
  "After copy = node.deepcopy() has returned for a node in a tree of Reference nodes, node(uuid) asked on any node of the copied tree answers with the node of the copied tree that has the uuid, and with None if there is none, never with a node of the original, whether the copies kept their uuids or got new ones; the trees that existed before answer what they answered. What is done to the copy afterwards keeps its index exact.",
  "every tree of Reference nodes grown through the API in a heap without dangling references, every node of it that is copied, every node asked, every uuid",
  "The index is shared by all nodes of the tree and holds them, so copying one node copies the tree through the index, and new uuids are then written into the copied index; all shapes and uuids matter, and no test copies a Reference tree.",
  [B+"mapping.py: ClonableMapping.deepcopy", B+"common.py: UUIDAware.deepcopy, set_uuid_for", B+"reference.py: Reference._index, uuid, node"])

p("A node can be drained and refilled",
  "Called as often as a node has items, popitem() returns every item exactly once, the last one first; then the node is empty and the next popitem() raises KeyError. No other node changes. Giving the items back by update, in the order they had, is never refused and leaves all nodes with the contents they had before.",
  "every class assembled from behaviors that hand keys and values through to a dictionary storage, every finite history of mapping operations on any number of nodes, every node, any number of items",
  "The number of calls grows with the node, and every history decides what it holds and in which order; the tests pop the items of one small mapping.",
  [B+"mapping.py: ExtendedWriteMapping.popitem, update", B+"storage.py: Storage", B+"common.py: NodeChildValidate.__setitem__"])

p("Work on different nodes can be interleaved",
  "What the mapping operations on a node return, and what the node holds in the end, is the same as if the operations on other nodes and the construction of further nodes in between had not been there. So two programs that do the same to each node, in whatever interleaving, get the same answers from each node and leave each node with the same contents in the same order, also where nodes hold each other and where operations raise.",
  "every class assembled from behaviors that hand keys and values through to a dictionary storage, every finite history of mapping operations, every continuation of it and every interleaving of the continuation",
  "The number of interleavings grows exponentially with the operations; the tests use one order.",
  [B+"mapping.py: ExtendedWriteMapping", B+"storage.py: DictStorage, OdictStorage", B+"common.py: Adopt.__setitem__", B+"nodespace.py: Nodespaces.__setitem__", B+"cache.py: Cache"])

p("update merges",
  "node.update(other, **kw), where other is a node (also node itself) or pairs, leaves the node with, under each key, the value given last for it, keywords after the argument, and otherwise what it had. The keys it had keep their order and come first; for a node as argument the keys only that one has follow in its order, and node.update(node) changes nothing. No other node's contents change. More than one positional argument is a TypeError and changes nothing.",
  "every class assembled from behaviors that hand keys and values through to a dictionary storage, every finite history, every two nodes, every list of pairs and keywords whose values the class accepts",
  "All contents of both nodes, in all orders and overlaps, and pairs naming a key repeatedly; the tests update one node with three pairs.",
  [B+"mapping.py: ExtendedWriteMapping.update, EnumerableMapping.items", "src/node/compat.py: iteritems"])

p("Swapping sorts",
  "Calls of swap can bring the children of an ordered node into any order, with fewer calls than there are "
  "children, all of which succeed. Conversely calls of swap, also refused ones, change nothing but the order: "
  "every key keeps its value, other nodes keep their contents and order, no name, parent, uuid or nodespace changes, and uuids find the same nodes as before.",
  "every class with an ordered storage, every reachable state, every node whose children are named after their keys, every permutation of its keys",
  "All lengths and all permutations; the tests swap a few pairs of five children.",
  [B + "order.py: Order.swap"])

p("Paths are relative",
  "The path of a node begins with the path of each of its ancestors in the tree, and of no other node of the tree; "
  "node_by_path(ancestor, node.path[len(ancestor.path):]) is the node. Looking up p + q gives what looking up q "
  "from the node found for p gives, and the exception for p if there is one; the same holds for strings joined by a slash, "
  "unless the first one ends or the second one begins with a slash.",
  "every tree whose nodes were each stored in one place at a time, every node and ancestor in it that read their children by key; the laws of lookup for every node, every path and every state",
  "All depths, shapes and histories of trees, all paths, among them those that lead nowhere.",
  [B + "nodify.py: Nodify.path", "src/node/utils.py: node_by_path, LocationIterator"])

p("The keys of a node are independent",
  "What a node returns for one key (by [], get, in, assignment, del, pop, setdefault) and what it holds under it in the end "
  "depends only on what was done with this key, and on clear: work on other keys, on other nodes, and listings can be left out, "
  "or mixed in in another way, and each key gives the same; only the order of the keys may differ.",
  "every class assembled from behaviors that hand keys and values through to a dictionary storage, every finite history, every node, every key, every finite sequence of further operations without popitem and update on the node",
  "All sequences of operations and all ways of mixing them.",
  [B + "mapping.py: FullMapping", B + "storage.py: Storage"])

p("Locked methods are atomic",
  "If threads read and write a tree inside of methods decorated with locktree (or with TreeLock) only, then whatever the schedule, "
  "the tree and what the threads keep for themselves end up as if the locked methods had run one after the other, each without interruption, "
  "in an order that agrees with the order of each thread: no update is lost and nobody sees half of the work of another.",
  "any number of threads, any programs of nested, failing and caught locked methods, any work on the tree and on data of the thread, every schedule",
  "Schedules are not under the control of a test, and their number is not bounded; the tests use one thread.",
  ["src/node/locking.py: TreeLock, locktree"])

p("The serialized data tell trees apart",
  "Two trees, of the same or of different runs of a program, are written as equal data exactly if they have the same classes, names, attributes "
  "and children in the same order at every position. So data can be compared to find out whether a tree has changed or whether two trees are equal.",
  "all pairs of trees of any size, in any two reachable states, any recursion limit that is sufficient",
  "Tests compare the data of a few trees with literals; that different trees never share their data is a statement about all pairs.",
  ["src/node/serializer.py: serialize, NodeEncoder, serialize_node, serialize_node_attributes"])

p("Trees that look alike print alike",
  "The text of treerepr is a matter of classes, names and the order of children: trees that agree in these print the same text, in the same or in different "
  "runs of a program, whatever their attributes, parents and neighbours. In particular a deep copy and what is read back from the serialized data print like the original, "
  "and trees with equal data print alike.",
  "all pairs of trees of any size, in any two reachable states, any indentation and prefix, any texts of classes and bytes",
  "Tests compare the text of a few trees with literals; that nothing but classes, names and order enters the text is a statement about all pairs of trees and states.",
  ["src/node/behaviors/nodify.py: noderepr, treerepr", "src/node/serializer.py: serialize, deserialize"])

p("Adding and removing undo each other",
  "Adding a node under a new key - by assignment, insertbefore, insertafter, insertfirst or insertlast - and deleting it by its name leaves the children of every node "
  "as they were, order included. Deleting a child and inserting it before the child that followed it, or after the child that preceded it, does so too.",
  "all reachable trees, nodes of any number of children, all new keys, nodes and reference nodes",
  "Tests look at the keys of one node after single operations; that pairs of operations cancel, at every position and for all other nodes as well, is a statement about all states.",
  [B + "storage.py: __setitem__, __delitem__", B + "order.py: insertfirst, insertlast, insertbefore, insertafter"])

p("Operations that read or fail may be left out",
  "Leaving out of a sequence of mapping operations all those that read, and all those that raised (but for update, which may fail half way), changes neither the result of any "
  "of the others, nor the children of any node and their order in the end, nor the result of anything done afterwards.",
  "all histories of mapping operations on nodes of classes that store what they are given (no child factory, as in C01), all continuations of any length",
  "Tests look at single reads and single failing operations; that no number of them, anywhere in a history, leaves a trace that a later operation could notice is a statement about all sequences.",
  [B + "mapping.py: FullMapping", B + "storage.py: DictStorage, OdictStorage", B + "common.py: Adopt.__setitem__, NodeChildValidate.__setitem__"])

p("What a node shows is all it remembers",
  "Two nodes of the same class with the same children in the same order, however they came by them, answer the same to everything: any sequence of mapping operations "
  "applied to either returns the same results and leaves the same children in the same order.",
  "all pairs of histories of mapping operations on nodes of classes that store what they are given (no child factory, as in C01), all nodes in them, all sequences of any length",
  "Tests drive one node through one history; that no history leaves behind a state that the children do not show, and that a later operation could notice, is a statement about all pairs of histories.",
  [B + "mapping.py: FullMapping", B + "storage.py: DictStorage, OdictStorage"])

p("A tree may be built in any order",
  "Nodes are put under keys of other nodes, each node once. Doing this in another order (top down, bottom up, mixed) in which only the order of the assignments to each single "
  "parent is kept gives all nodes the same children in the same order, the same __name__ and __parent__, and the same path; and each node is where it was put.",
  "all histories before, all sequences of assignments of any length with any keys, all reorderings, on nodes that adopt and store what they are given (as in C01)",
  "Tests build one tree in one order; that all orders agree, for trees of all shapes and depths, is a statement about all permutations of all sequences of assignments.",
  [B + "common.py: Adopt.__setitem__", B + "storage.py: DictStorage, OdictStorage", B + "nodify.py: path"])

p("Keys are opaque",
  "If the keys of a program of mapping operations are renamed, different keys differently, its results are those of the original program with the keys in them renamed, those named "
  "by KeyErrors included, and every node has the renamed keys in the same order with the same children.",
  "all histories of mapping operations on nodes of classes that store what they are given (as in C01), all injective renamings under which the keys stay keys of children (no __x__ for nodes with nodespaces)",
  "Tests use a few chosen keys; that no key is treated specially, for all keys and in all programs, is a statement about all renamings.",
  [B + "mapping.py: FullMapping", B + "storage.py: DictStorage, OdictStorage", B + "nodespace.py: Nodespaces"])

open("/verif/properties.jsonl", "w").write("".join(json.dumps(x) + "\n" for x in P))
print(len(P))
