import Verif.Conformance.Basic
import Verif.Model.Getattr

/-!
# `tests/test_common.py`, `test_GetattrChildren`
-/

namespace Verif.Tests.Getattr

/-- `GetattrNode`: the bases first have the behaviors of `BaseNode`, here without `NodeChildValidate`,
because the class allows values that are not nodes. -/
def E : Env where
  cls _ := { bhvs := [.getattrChildren, .adopt, .asAttrAccess, .defaultInit, .nodify, .dictStorage] }

/-- The attributes of the classes that the test names. -/
def own : Oid → Str → Bool := fun _ n => n = "baseattr".toList || n = "ourattr".toList

/-- test_common.py:239-262. -/
def getattrChildren : M Unit := do
  let node ← newNode E 0 .none none
  setitem E node "foo" (int 10)
  setitem E node "baseattr" (int 20)
  setitem E node "ourattr" (int 30)
  same (← getitem E node "foo") (int 10)
  same (← getitem E node "baseattr") (int 20)
  same (← getitem E node "ourattr") (int 30)
  same (← getAttribute E own node "foo".toList) (.item (int 10))
  same (← getAttribute E own node "baseattr".toList) (.builtin "baseattr".toList)
  same (← getAttribute E own node "ourattr".toList) (.builtin "ourattr".toList)

example : passes getattrChildren = true := by decide +kernel

end Verif.Tests.Getattr
