import Verif.Conformance.Basic
import Verif.Model.TestTree
import Verif.Model.FullMapping
import Verif.Model.Report

/-!
# `tests/test_base.py`
-/

namespace Verif.Tests.Base

/-- `AbstractNode`, `MyNode` (testing/env.py:24-32), `BaseNode` and `OrderedNode`; `c + 10` is `c` with
`allow_non_node_childs` set on the instance. -/
def E : Env where
  cls
    | 0 => abstractNode
    | 1 => { bhvs := [.nodeChildValidate, .defaultInit, .adopt, .asAttrAccess, .nodify, .odictStorage] }
    | 2 => baseNode
    | 3 => orderedNode
    | 11 => { bhvs := [.nodeChildValidate, .defaultInit, .adopt, .asAttrAccess, .nodify, .odictStorage],
              allowNonNode := true }
    | 12 => { baseNode with allowNonNode := true }
    | _ => { orderedNode with allowNonNode := true }

/-- `node.allow_non_node_childs = b`. -/
def allow (o : Oid) (b : Bool) : M Unit :=
  modO o fun ob => { ob with cls := if b then ob.cls + 10 else ob.cls - 10 }

/-- `test_AbstractNode`, test_base.py:18-61. -/
def abstract : M Unit := do
  let a ← newNode E 0 .none none
  fails (getitem E a "foo") .notImpl
  fails (delitem E a "foo") .notImpl
  fails (setitem E a "foo" (str "bar")) .notImpl
  fails (mkeys E a) .notImpl
  fails (mclear E a) .notImpl
  fails (mupdate E a [("foo", str "bar")]) .notImpl
  fails (msetdefault E a "foo" (str "bar")) .notImpl
  fails (mpop E a "foo" none) .notImpl
  fails (mpopitem E a) .notImpl

example : passes abstract = true := by decide +kernel

/-- The reports of a tester where all is well, as in test_base.py:71-92. -/
def allOK : List String :=
  ["``__contains__``: OK", "``__delitem__``: OK", "``__getitem__``: OK", "``__iter__``: OK",
    "``__len__``: OK", "``__setitem__``: OK", "``clear``: OK", "``copy``: OK", "``get``: OK",
    "``has_key``: OK", "``items``: OK", "``iteritems``: OK", "``iterkeys``: OK", "``itervalues``: OK",
    "``keys``: OK", "``pop``: OK", "``popitem``: OK", "``setdefault``: OK", "``update``: OK",
    "``values``: OK"]

/-- `FullMappingTester(cls, node_checks=nc)`, `run()` and `combined`. -/
def tested (E : Env) (c : ClassId) (nc : Bool) (rp : Exc → String) : M (List String) := do
  let o ← newNode E c .none none
  let w ← M.getW
  pure (Tester.combined (Tester.run (FullMapping.tests E c nc o rp) false FullMapping.contract [] w).2.1)

/-- `test_MyNode`, `test_BaseNode` and `test_OrderedNode`, test_base.py:63-167, without the pickle. -/
def testers : M Unit := do
  same (← tested E 1 true fun _ => "") allOK
  same (← tested E 2 true fun _ => "") allOK
  same (← tested E 3 true fun _ => "") allOK
  let n ← newNode E 3 .none none
  let _ ← put E n "child" 3
  shows E (fun _ => "O") n ["<class 'O'>: None", "__<class 'O'>: child"] "_"

example : passes testers = true := by decide +kernel

/-- `test_ILocation`, test_base.py:169-221, for class `c`. -/
def location (c : ClassId) : M Unit := do
  let n ← createTree E c
  same (← name n) .none
  same (← parent n) none
  let c1 ← child E n "child_1"
  same (← name c1) "child_1"
  same (← parent c1) (some n)
  let s1 ← child E c1 "subchild_1"
  same (← name s1) "subchild_1"
  same (← parent s1) (some c1)

example : passes (location 1) = true ∧ passes (location 2) = true ∧ passes (location 3) = true := by
  decide +kernel

/-- `test_INode`, test_base.py:223-435, for class `c`.  `IFilter` is provided by the one node it is
given to. -/
def inode (c : ClassId) : M Unit := do
  let n ← createTree E c
  shows E (fun _ => "N") n ["<class 'N'>: None", "__<class 'N'>: child_0", "____<class 'N'>: subchild_0",
    "____<class 'N'>: subchild_1", "__<class 'N'>: child_1", "____<class 'N'>: subchild_0",
    "____<class 'N'>: subchild_1", "__<class 'N'>: child_2", "____<class 'N'>: subchild_0",
    "____<class 'N'>: subchild_1"] "_"
  assignName n "root"
  same (← path n) ["root"]
  let s1 ← child E (← child E n "child_1") "subchild_1"
  same (← path s1) ["root", "child_1", "subchild_1"]
  same (rootOf (← M.getW) s1) (some n)
  fails (setitem E n "foo" (.data (.opaque 0))) (.value "Non-node childs are not allowed.")
  fails (setitem E n "foo" (.data (.cls "object".toList)))
    (.value "It isn't allowed to use classes as values.")
  allow n true
  setitem E n "foo" (.data (.opaque 0))
  same (← getitem E n "foo") (.data (.opaque 0))
  delitem E n "foo"
  allow n false
  let c2 ← child E n "child_2"
  same (← filteredvalues E (fun v => v = .node c2) n) [.node c2]
  same (← filteredvalues E (fun _ => false) n) []
  same (← aaGet E (fun _ => false) n "child_1".toList) (.item (← getitem E n "child_1"))
  let c3 ← newNode E c .none none
  aaSet E n "child_3".toList (.node c3)
  same (← getitem E n "child_3") (.node c3)
  same (← aaGet E (fun _ => false) n "child_3".toList) (.item (.node c3))
  fails (aaSet E n "child_4".toList (.data (.cls "object".toList)))
    (.value "It isn't allowed to use classes as values.")

example : passes (inode 1) = true := by decide +kernel
example : passes (inode 2) = true := by decide +kernel
example : passes (inode 3) = true := by decide +kernel

/-- `test_copy`, test_base.py:437-504, for class `c`; `copy.copy` and `copy.deepcopy` are what
`copy` and `deepcopy` call. -/
def copies (c : ClassId) : M Unit := do
  let n ← newNode E c .none none
  let _ ← put E n "child" c
  let x ← copyNode E n
  shows E (fun _ => "N") x ["<class 'N'>: None", "__<class 'N'>: child"] "_"
  check (n ≠ x)
  same (← getitem E n "child") (← getitem E x "child")
  let y ← deepcopy E n
  shows E (fun _ => "N") y ["<class 'N'>: None", "__<class 'N'>: child"] "_"
  check (n ≠ y)
  check ((← getitem E n "child") ≠ (← getitem E y "child"))

example : passes (copies 2) = true ∧ passes (copies 3) = true := by decide +kernel

end Verif.Tests.Base
