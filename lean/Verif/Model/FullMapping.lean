import Verif.Model.Copy
import Verif.Model.Mapping
import Verif.Model.Tester

/-!
# The tester of mappings

Model of `FullMappingTester`, testing/fullmapping.py.  The context `o` and the children are nodes;
`c` is `class_`, `nc` is `node_checks`.  Messages of exceptions leave out the values formatted into
them.  `sorted` only changes which of several wrong items is reported and is left out; it would raise
for names that cannot be compared.
-/

namespace Verif.FullMapping

open Verif.Tester (Outcome Tests Name)

/-- The keys the tests use. -/
def foo : Key := .str "foo".toList
def bar : Key := .str "bar".toList
def baz : Key := .str "baz".toList
def blub : Key := .str "blub".toList
def xxx : Key := .str "xxx".toList

/-- `object()`, fullmapping.py:50 and 241: a value that is no child. -/
def marker : Val := .data (.opaque 0)

/-- `raise Exception(m)`. -/
def fail {α : Type} (m : String) : M α := M.raise (.plain m)

/-- `if b: raise Exception(m)`. -/
def failIf (b : Bool) (m : String) : M Unit := if b then fail m else pure ()

/-- `value.__name__`. -/
def nameOf : Val → M Key
  | .node x => do
    let ob ← getO x
    pure ob.name
  | .data _ => M.raise .attr

section
variable (E : Env) (c : ClassId) (nc : Bool) (o : Oid)

/-- `self.class_()`. -/
def make : M Oid := newNode E c .none none

/-- `test___setitem__`, fullmapping.py:36-41. -/
def testSetitem : M Unit := do
  let x ← make E c
  setitem E o foo (.node x)
  let y ← newNode E c (if nc then xxx else .none) none
  setitem E o bar (.node y)

/-- `if self.node_checks: if value.__name__ != k: raise`. -/
def checkName (v : Val) (k : Key) (m : String) : M Unit :=
  if nc then do
    let n ← nameOf v
    failIf (n ≠ k) m
  else pure ()

/-- `test___getitem__`, fullmapping.py:43-47: `context['bar']` is only read with `node_checks`. -/
def testGetitem : M Unit := do
  let _ ← getitem E o foo
  if nc then do
    let v ← getitem E o bar
    checkName nc v bar "Child ``bar`` has wrong ``__name__``"
  else pure ()

/-- `test_get`, fullmapping.py:49-55. -/
def testGet : M Unit := do
  let v ← mget E o foo marker
  failIf (v = marker) "Expected value, got default"
  let v ← mget E o xxx marker
  failIf (v ≠ marker) "Expected default, got"

/-- `_check_keys`, fullmapping.py:57-68. -/
def checkKeys (ks expected : List Key) : M Unit := do
  failIf (ks.length ≠ expected.length) "length"
  failIf (ks.any fun k => k ∉ expected) "Expected as keys"

/-- `test___iter__`, `test_keys`, `test_iterkeys`, fullmapping.py:70-80. -/
def testKeys : M Unit := do
  let ks ← mkeys E o
  checkKeys ks [foo, bar]

/-- `_check_values`, fullmapping.py:82-96. -/
def checkValues (vs : List Val) (expected : List Key) : M Unit := do
  failIf (vs.length ≠ expected.length) "length"
  if nc then
    forU (fun v => do
      let n ← nameOf v
      failIf (n ∉ expected) "Expected __name__ of value invalid") vs
  else pure ()

/-- `test_values`, `test_itervalues`, fullmapping.py:98-104. -/
def testValues : M Unit := do
  let vs ← mvalues E o
  checkValues nc vs [foo, bar]

/-- `_check_items`, fullmapping.py:106-133. -/
def checkItems (kvs : List (Key × Val)) (expected : List Key) : M Unit := do
  failIf (kvs.length ≠ expected.length) "length"
  forU (fun kv : Key × Val => do
    failIf (kv.1 ∉ expected) "Expected keys"
    checkName nc kv.2 kv.1 "Expected same value for ``key`` and ``__name__``") kvs
  forU (fun kv : Key × Val => do
    let v ← getitem E o kv.1
    failIf (kv.2 ≠ v) "Expected, got") kvs

/-- `test_items`, `test_iteritems`, fullmapping.py:135-140. -/
def testItems : M Unit := do
  let kvs ← mitems E o
  checkItems E nc o kvs [foo, bar]

/-- `not a or not b` of two lookups: the second is done only if the first finds its key. -/
def lacks (a b : Key) : M Bool := do
  let x ← mcontains E o a
  if x then do
    let y ← mcontains E o b
    pure (!y)
  else pure true

/-- `test___contains__`, fullmapping.py:142-151. -/
def testContains : M Unit := do
  let l ← lacks E o foo bar
  failIf l "Expected ``foo`` and ``bar`` return ``True`` by ``__contains__``"
  let x ← mcontains E o xxx
  failIf x "Expected __contains__ to return False for non-existent key"

/-- `test_has_key`, fullmapping.py:153-158. -/
def testHasKey : M Unit := do
  let l ← lacks E o foo bar
  failIf l "Expected ``foo`` and ``bar`` return ``True`` by ``has_key``"

/-- `test___len__`, fullmapping.py:160-165. -/
def testLen : M Unit := do
  let n ← mlen E o
  failIf (n ≠ 2) "Expected 2-length result"

/-- `except KeyError: raise Exception(m)`. -/
def orFail {α : Type} (m : M α) (msg : String) : M α := M.catchIf Exc.isKey m fun _ => fail msg

/-- `update` with two positional arguments, mapping.py:183-185. -/
def updateTwo : M Unit := M.raise .type

/-- `except TypeError`. -/
def isType : Exc → Bool
  | .type => true
  | _ => false

/-- `test_update`, fullmapping.py:167-198.  `iteritems(baz)` is read while writing in Python; `baz` is
empty or writing does not change it.  A context with an attribute `data` (line 188) is not
modelled. -/
def testUpdate : M Unit := do
  let x ← make E c
  let y ← make E c
  let kvs ← mitems E x
  mupdate E o kvs
  mupdate E o [(baz, .node x), (blub, .node y)]
  orFail (do
    let _ ← getitem E o baz
    let _ ← getitem E o blub
    pure ()) "KeyError, Expected ``baz`` and ``blub`` after update"
  let v ← getitem E o baz
  failIf (v ≠ .node x) "Object at ``baz`` not expected one after update"
  let v ← getitem E o blub
  failIf (v ≠ .node y) "Object at ``blub`` not expected one after update"
  M.catchIf (fun _ => true) (delitem E o blub) fun _ => M.raise .runtime
  M.catchIf isType (do
    updateTwo
    fail "Expected TypeError for update with more than one positional argument.") fun _ => pure ()

/-- `test___delitem__`, fullmapping.py:200-205. -/
def testDelitem : M Unit := do
  orFail (delitem E o bar) "KeyError, expected ``bar``"
  let ks ← mkeys E o
  checkKeys ks [baz, foo]

/-- The comparisons of `test_copy`, fullmapping.py:215-223, for the copy `n`. -/
def compareCopy (n : Oid) : M Unit := do
  failIf (n = o) "``copied`` is ``context``"
  let v ← getitem E n foo
  let v' ← getitem E o foo
  failIf (v ≠ v') "``copied['foo']`` is not ``context['foo']``"
  if nc then do
    let a ← getO n
    let b ← getO o
    failIf (a.name ≠ b.name) "__name__ of copied does not match"
    failIf (a.parent ≠ b.parent) "__parent__ of copied does not match"
  else pure ()

/-- `__name__` and `__parent__` set, fullmapping.py:212-213 and 224-225. -/
def relocate (name : Key) (parent : Option Oid) : M Unit :=
  if nc then do
    modO o fun ob => { ob with name := name }
    modO o fun ob => { ob with parent := parent }
  else pure ()

/-- Release the newest object, to which nobody refers any more. -/
def release (n : Oid) : M Unit := M.modifyW fun w => { w with objs := upd w.objs n {}, nobj := n }

/-- `test_copy`, fullmapping.py:207-225.  `PARENT_MARKER` is an object that is no node: an
identity no node has, nor the copy will have.  The copy is released when the test returns; if the
test raises, the copy is kept (in Python by the traceback, for a while). -/
def testCopy : M Unit := do
  let ob ← getO o
  let w ← M.getW
  relocate nc o (.str "nametopcopy".toList) (some (w.nobj + 1))
  let n ← copyNode E o
  compareCopy E nc o n
  relocate nc o ob.name ob.parent
  release n

/-- `test_setdefault`, fullmapping.py:227-233. -/
def testSetdefault : M Unit := do
  let x ← make E c
  let v ← msetdefault E o foo (.node x)
  failIf (v = .node x) "Replaced already existing item."
  let v ← msetdefault E o bar (.node x)
  failIf (v ≠ .node x) "Inserted item not same instance."
  let kvs ← mitems E o
  checkItems E nc o kvs [foo, bar, baz]

/-- `try: m; raise Exception(msg) except KeyError: pass`. -/
def expectKeyError {α : Type} (m : M α) (msg : String) : M Unit :=
  M.catchIf Exc.isKey (do
    let _ ← m
    fail msg) fun _ => pure ()

/-- `test_pop`, fullmapping.py:235-252. -/
def testPop : M Unit := do
  expectKeyError (mpop E o xxx none) "Expected ``KeyError`` for inexistent item."
  let v ← mpop E o xxx (some marker)
  failIf (v ≠ marker) "Returned default is not same instance"
  let n ← mlen E o
  let t ← getitem E o foo
  let p ← mpop E o foo none
  let m ← mlen E o
  failIf (t ≠ p) "Popped item not same instance"
  failIf (m + 1 ≠ n) "Invalid mapping length after ``pop``"
  let ks ← mkeys E o
  checkKeys ks [baz, bar]

/-- `test_popitem`, fullmapping.py:254-268. -/
def testPopitem : M Unit := do
  let _ ← mpopitem E o
  let ks ← mkeys E o
  failIf (ks.length ≠ 1) "Expected 1-length result"
  let _ ← mpopitem E o
  expectKeyError (mpopitem E o) "Expected ``KeyError`` when called on empty mapping"

/-- `test_clear`, fullmapping.py:270-275. -/
def testClear : M Unit := do
  let x ← make E c
  setitem E o foo (.node x)
  let y ← make E c
  setitem E o bar (.node y)
  let ks ← mkeys E o
  checkKeys ks [foo, bar]
  mclear E o
  let ks ← mkeys E o
  checkKeys ks []

/-- `FullMappingTester.iface_contract`, fullmapping.py:9-30. -/
def contract : List Name :=
  ["__setitem__", "__getitem__", "get", "__iter__", "keys", "iterkeys", "values", "itervalues", "items",
    "iteritems", "__contains__", "has_key", "__len__", "update", "__delitem__", "copy", "setdefault", "pop",
    "popitem", "clear"]

/-- How a test ends; `rp` is `repr`. -/
def outcomeOf (rp : Exc → String) (m : M Unit) (w : World) : Outcome × World :=
  match m w with
  | (.ok _, w') => (.returned, w')
  | (.error e, w') => (.raised (rp e), w')

/-- The test methods. -/
def tests (rp : Exc → String) : Tests World
  | "__setitem__" => some (outcomeOf rp (testSetitem E c nc o))
  | "__getitem__" => some (outcomeOf rp (testGetitem E nc o))
  | "get" => some (outcomeOf rp (testGet E o))
  | "__iter__" | "keys" | "iterkeys" => some (outcomeOf rp (testKeys E o))
  | "values" | "itervalues" => some (outcomeOf rp (testValues E nc o))
  | "items" | "iteritems" => some (outcomeOf rp (testItems E nc o))
  | "__contains__" => some (outcomeOf rp (testContains E o))
  | "has_key" => some (outcomeOf rp (testHasKey E o))
  | "__len__" => some (outcomeOf rp (testLen E o))
  | "update" => some (outcomeOf rp (testUpdate E c o))
  | "__delitem__" => some (outcomeOf rp (testDelitem E o))
  | "copy" => some (outcomeOf rp (testCopy E nc o))
  | "setdefault" => some (outcomeOf rp (testSetdefault E c nc o))
  | "pop" => some (outcomeOf rp (testPop E o))
  | "popitem" => some (outcomeOf rp (testPopitem E o))
  | "clear" => some (outcomeOf rp (testClear E c o))
  | _ => none

end
end Verif.FullMapping
