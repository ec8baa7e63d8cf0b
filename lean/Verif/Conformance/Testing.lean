import Verif.Conformance.Basic
import Verif.Model.TestTree
import Verif.Model.FullMapping
import Verif.Model.Report

/-!
# `tests/test_testing.py`

Of the tests of `FullMappingTester` on mappings that are not nodes, those are transcribed whose
mapping behaves as a node without some of its behaviors.
-/

namespace Verif.Tests.Testing

/-- `MyNode`, testing/env.py:24-32. -/
def E : Env where
  cls _ := { bhvs := [.nodeChildValidate, .defaultInit, .adopt, .asAttrAccess, .nodify, .odictStorage] }

/-- test_testing.py:183-257. -/
def myNode : M Unit := do
  let mynode ← newNode E 0 .none none
  let foo ← put E mynode "foo" 0
  let bar ← newNode E 0 "xxx" none
  setitem E mynode "bar" (.node bar)
  same (← getitem E mynode "foo") (.node foo)
  same (← name (← child E mynode "bar")) "bar"
  same (← mget E mynode "bar" (.data .none)) (.node bar)
  same (← mget E mynode "xxx" (str "default")) (str "default")
  same (← mkeys E mynode) ["foo", "bar"]
  same (← mvalues E mynode) [.node foo, .node bar]
  same (← mitems E mynode) [("foo", .node foo), ("bar", .node bar)]
  check (← mcontains E mynode "bar")
  check (← mcontains E mynode "foo")
  same (← mlen E mynode) 2
  let baz ← newNode E 0 .none none
  mupdate E mynode [("baz", .node baz)]
  same (← getitem E mynode "baz") (.node baz)
  delitem E mynode "bar"
  same (← mkeys E mynode) ["foo", "baz"]
  let mycopied ← copyNode E mynode
  same (← name mycopied) .none
  check (mycopied ≠ mynode)
  same (← getitem E mycopied "foo") (.node foo)
  same (← getitem E mycopied "baz") (.node baz)
  same (← mitems E mycopied) [("foo", .node foo), ("baz", .node baz)]
  let mynew ← newNode E 0 .none none
  check ((← msetdefault E mynode "foo" (.node mynew)) ≠ .node mynew)
  check ((← msetdefault E mynode "bar" (.node mynew)) = .node mynew)
  same (← mitems E mynode) [("foo", .node foo), ("baz", .node baz), ("bar", .node mynew)]
  fails (mpop E mynode "xxx" none) (noKey "xxx")
  same (← mpop E mynode "xxx" (some (str "default"))) (str "default")
  same (← mpop E mynode "foo" none) (.node foo)
  same (← mkeys E mynode) ["baz", "bar"]
  same (← mpopitem E mynode) ("bar", .node mynew)
  same (← mkeys E mynode) ["baz"]
  mclear E mynode
  same (← mkeys E mynode) []
  fun w => match mpopitem E mynode w with
    | (.error (.key _), w') => (.ok (), w')
    | (_, w') => (.error .type, w')

example : passes myNode = true := by decide +kernel

/-- test_testing.py:262-276, for nodes in place of `odict`. -/
def createTreeTest : M Unit := do
  let root ← createTree E 0
  same (← mkeys E root) ["child_0", "child_1", "child_2"]
  forU (fun k => do
    let c ← child E root k
    same (← mkeys E c) ["subchild_0", "subchild_1"]
    forU (fun j => do
      same (← mkeys E (← child E c j)) []) ["subchild_0", "subchild_1"]) ["child_0", "child_1", "child_2"]

example : passes createTreeTest = true := by decide +kernel

/-! ### BaseTester -/

section
open Verif.Tester

/-- `DummyTester` on a `FuncBImpl`, test_testing.py:283-302. -/
def dummy : Tests Unit
  | "func_a" => some fun s => (.returned, s)
  | "func_b" => some fun s => (.raised "Exception('func_b failed')", s)
  | "func_c" => some fun s => (.raised "AttributeError(\"'FuncBImpl' object has no attribute 'func_c'\")", s)
  | _ => none

def dummyContract : List Name := ["func_a", "func_b", "func_c"]

def implA : PyClass := .mk "FuncAImpl" ["func_a"] []
def implB : PyClass := .mk "FuncBImpl" ["func_b"] [implA]

/-- test_testing.py:309-338. -/
example :
    (Tester.run dummy false dummyContract [] ()).1 = .finished ∧
    combined (Tester.run dummy false dummyContract [] ()).2.1 = ["``func_a``: OK",
      "``func_b``: failed: Exception('func_b failed')",
      "``func_c``: failed: AttributeError(\"'FuncBImpl' object has no attribute 'func_c'\")"] ∧
    Od.keys (Tester.run dummy false dummyContract [] ()).2.1 = ["func_a", "func_b", "func_c"] ∧
    Od.get? (Tester.run dummy false dummyContract [] ()).2.1 "func_a" = some "OK" ∧
    wherefrom implB dummyContract = ["func_a: FuncAImpl", "func_b: FuncBImpl",
      "func_c: function not found on object"] := by decide +kernel

/-- test_testing.py:340-349: `direct_error`. -/
example : (Tester.run dummy true dummyContract (Tester.run dummy false dummyContract [] ()).2.1 ()).1 =
    .raised "Exception('func_b failed')" := by decide +kernel

/-- test_testing.py:351-365: `BrokenTester`. -/
example : (Tester.run dummy false ["test_me"] [] ()).1 = .contract "test_me" := by decide +kernel

end

/-! ### FullMappingTester -/

section
open Verif.FullMapping

/-- Class 0 is `MockNode` with all methods but no `Adopt`: `FailingMockNodeGetItem`; class 1 has no
storage: `MockMapping`. -/
def F : Env where
  cls
    | 0 => { bhvs := [.defaultInit, .nodify, .odictStorage] }
    | 1 => { bhvs := [.defaultInit, .nodify] }
    | _ => { bhvs := [.adopt, .defaultInit, .nodify, .odictStorage] }

/-- test_testing.py:383-403, `test___getitem__`: the child is there, its name is wrong. -/
def getitemTest : M Unit := do
  let o ← newNode F 0 .none none
  testSetitem F 0 true o
  fails (testGetitem F true o) (.plain "Child ``bar`` has wrong ``__name__``")
  testGetitem F false o
  let p ← newNode F 2 .none none
  testSetitem F 2 true p
  testGetitem F true p

example : passes getitemTest = true := by decide +kernel

/-- `test___delitem__`: without the key, with two and with the right keys. -/
def delitemTest : M Unit := do
  let o ← newNode F 2 .none none
  fails (testDelitem F o) (.plain "KeyError, expected ``bar``")
  testSetitem F 2 true o
  fails (testDelitem F o) (.plain "length")
  testSetitem F 2 true o
  testUpdate F 2 o
  testDelitem F o

example : passes delitemTest = true := by decide +kernel

end

end Verif.Tests.Testing
