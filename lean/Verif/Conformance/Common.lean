import Verif.Conformance.Basic

/-!
# `tests/test_common.py`

`test_GetattrChildren` is in `Verif.Conformance.Getattr`.
-/

namespace Verif.Tests.Common

/-- The classes of the tests; where the test puts children that are no nodes, class 0 stands for
them. -/
def E : Env where
  cls
    | 0 => { bhvs := [.adopt, .nodify, .dictStorage] }
    | 1 => { bhvs := [.adopt, .alias, .nodify, .dictStorage], aliaser := some (.dict [("a", "b")] true) }
    | 2 => { bhvs := [.nodify, .unicodeAware, .odictStorage] }
    | 3 => { bhvs := [.nodify, .childFactory, .odictStorage], factories := [("foo", 0), ("bar", 2)] }
    | 4 => { bhvs := [.nodify, .fixedChildren], fixed := [("foo", 0), ("bar", 2)] }
    | 5 => { bhvs := [.adopt, .defaultInit, .nodify, .odictStorage, .uuidAware] }
    | 6 => { bhvs := [.nodeChildValidate, .defaultInit, .nodify, .odictStorage] }
    | _ => { bhvs := [.nodeChildValidate, .defaultInit, .nodify, .odictStorage], allowNonNode := true }

/-- `test_Adopt`, test_common.py:20-77.  The endpoint that raises `KeyError` is a strict aliaser. -/
def adopt : M Unit := do
  let ad ← newNode E 0 .none none
  let node ← newNode E 0 .none none
  setitem E ad "foo" (.node node)
  same (← getitem E ad "foo") (.node node)
  same (← name node) "foo"
  same (← parent node) (some ad)
  setitem E ad "bar" (.data (.opaque 0))
  same (← getitem E ad "bar") (.data (.opaque 0))
  let fail ← newNode E 1 .none none
  let node ← newNode E 0 .none none
  fails (setitem E fail "foo" (.node node)) (noKey "foo")
  same (← name node) .none
  same (← parent node) none

example : passes adopt = true := by decide +kernel

/-- `test_UnicodeAware`, test_common.py:79-97. -/
def unicode : M Unit := do
  let node ← newNode E 2 .none none
  let foo ← put E node "foo" 2
  same (← mkeys E node) ["foo"]
  setitem E node "bar" (str "bar")
  same (← mitems E node) [("foo", .node foo), ("bar", str "bar")]
  same (← getO (← child E node "foo")).cls 2
  delitem E node "bar"
  same (← mkeys E node) ["foo"]

example : passes unicode = true := by decide +kernel

/-- `test_ChildFactory`, test_common.py:99-117. -/
def factories : M Unit := do
  let node ← newNode E 3 .none none
  same (Od.keys (← mitems E node)) ["foo", "bar"]
  same (← getO (← child E node "foo")).cls 0
  same (← getO (← child E node "bar")).cls 2

example : passes factories = true := by decide +kernel

/-- `test_FixedChildren`, test_common.py:119-149. -/
def fixed : M Unit := do
  let node ← newNode E 4 .none none
  same (← mkeys E node) ["foo", "bar"]
  same (← getO (← child E node "foo")).cls 0
  same (← getO (← child E node "bar")).cls 2
  same (← getitem E node "foo") (← getitem E node "foo")
  fails (delitem E node "foo") .notImpl
  fails (setitem E node "foo" (str "foo")) .notImpl

example : passes fixed = true := by decide +kernel

/-- `node.uuid`. -/
def uuid (o : Oid) : M (Option Nat) := do pure (← getO o).uuid

/-- `test_UUIDAware`, test_common.py:151-211. -/
def uuidAware : M Unit := do
  let cls : ClassId → String := fun _ => "U"
  let root ← newNode E 5 "root" none
  check (← uuid root).isSome
  fails (copyNode E root) .runtime
  let cp ← deepcopy E root
  check (root ≠ cp)
  check ((← uuid root) ≠ (← uuid cp))
  let c1 ← put E root "c1" 5
  let s1 ← put E c1 "s1" 5
  shows E cls root ["<class 'U'>: root", "  <class 'U'>: c1", "    <class 'U'>: s1"]
  let cp ← deepcopy E root
  shows E cls cp ["<class 'U'>: root", "  <class 'U'>: c1", "    <class 'U'>: s1"]
  check ((← uuid root) ≠ (← uuid cp))
  check ((← uuid c1) ≠ (← uuid (← child E cp "c1")))
  check ((← uuid s1) ≠ (← uuid (← child E (← child E cp "c1") "s1")))
  let c1uid ← uuid c1
  let s1uid ← uuid s1
  let detached ← asNode (← detach E root "c1")
  shows E cls root ["<class 'U'>: root"]
  shows E cls detached ["<class 'U'>: c1", "  <class 'U'>: s1"]
  same c1uid (← uuid detached)
  same s1uid (← uuid (← child E detached "s1"))

example : passes uuidAware = true := by decide +kernel

/-- `test_NodeChildValidate`, test_common.py:213-237; class 7 is class 6 with
`allow_non_node_childs` set on the instance. -/
def validate : M Unit := do
  let node ← newNode E 6 .none none
  fails (setitem E node "child" (int 1)) (.value "Non-node childs are not allowed.")
  fails (setitem E node "aclasshere" (.data (.cls "SomeClass".toList)))
    (.value "It isn't allowed to use classes as values.")
  modO node fun ob => { ob with cls := 7 }
  setitem E node "child" (int 1)
  same (← getitem E node "child") (int 1)

example : passes validate = true := by decide +kernel

end Verif.Tests.Common
