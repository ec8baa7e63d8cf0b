import Verif.Conformance.Basic

/-!
# `tests/test_attributes.py`
-/

namespace Verif.Tests.Attributes

/-- `AttributedNode`, test_attributes.py:15-23, and `NodeAttributes`. -/
def E : Env where
  cls
    | 0 => { bhvs := [.nodeChildValidate, .nodespaces, .attributes, .defaultInit, .nodify, .odictStorage],
             attrsFactory := 1 }
    | _ => nodeAttributes

/-- `test_Attributes`, test_attributes.py:14-60: `attribute_access_for_attrs` decides whether `attrs`
gives the node or the view of it; without the view there is no attribute `foo`. -/
def attributes : M Unit := do
  let node ← newNode E 0 "attributed" none
  aaSet E (← attrs E node) "foo".toList (str "bar")
  same (← getitem E (← attrs E node) "foo") (str "bar")
  setitem E (← attrs E node) "bar" (str "baz")
  same (← aaGet E (fun _ => false) (← attrs E node) "bar".toList) (.item (str "baz"))
  setitem E (← attrs E node) "oof" (str "abc")
  same (← aaGet E (fun _ => false) (← attrs E node) "oof".toList) (.item (str "abc"))
  same (← getO (← attrs E node)).cls 1
  same (← getitem E (← attrs E node) "foo") (str "bar")

example : passes attributes = true := by decide +kernel

end Verif.Tests.Attributes
