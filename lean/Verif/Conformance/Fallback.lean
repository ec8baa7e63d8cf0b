import Verif.Conformance.Basic

/-!
# `tests/test_fallback.py`
-/

namespace Verif.Tests.Fallback

/-- Class 0 is `FallbackNode`, class 1 `FallbackNodeAttributes`, test_fallback.py:16-40. -/
def E : Env where
  cls
    | 0 => { bhvs := [.nodeChildValidate, .nodespaces, .adopt, .attributes, .defaultInit, .nodify,
               .odictStorage], attrsFactory := 1 }
    | _ => { bhvs := [.nodespaces, .fallback, .adopt, .defaultInit, .nodify, .odictStorage] }

/-- `node.fallback_key = k`. -/
def fallbackKey (o : Oid) (k : Key) : M Unit := modO o fun ob => { ob with fallbackKey := some k }

/-- `node.attrs[k] = i`. -/
def attr (o : Oid) (k : Key) (i : Int) : M Unit := do setitem E (← attrs E o) k (int i)

/-- `setUp`, test_fallback.py:49-91. -/
def setUp : M Oid := do
  let fb ← newNode E 0 "root" none
  fallbackKey fb "x"
  let x ← put E fb "x" 0
  fallbackKey x "1"
  let x1 ← put E x "1" 0
  attr x1 "a" 1
  attr x1 "d" (-3)
  let x2 ← put E x "2" 0
  attr x2 "b" 2
  attr x2 "d" (-2)
  let y ← put E fb "y" 0
  fallbackKey y "1"
  let y1 ← put E y "1" 0
  attr y1 "c" 3
  attr y1 "d" (-1)
  let y2 ← put E y "2" 0
  attr y2 "d" 4
  pure fb

/-- `test_test_data`, test_fallback.py:93-103. -/
def data : M Unit := do
  shows E (fun _ => "F") (← setUp) ["<class 'F'>: root", "  <class 'F'>: x", "    <class 'F'>: 1",
    "    <class 'F'>: 2", "  <class 'F'>: y", "    <class 'F'>: 1", "    <class 'F'>: 2"]

example : passes data = true := by decide +kernel

/-- `test_Fallback`, test_fallback.py:105-165. -/
def fallback : M Unit := do
  let fb ← setUp
  let a ← attrs E (← child E (← child E fb "y") "2")
  same (← getitem E a "d") (int 4)
  same (← getitem E a "c") (int 3)
  same (← getitem E a "b") (int 2)
  same (← getitem E a "a") (int 1)
  fails (getitem E a "z") (noKey "z")

example : passes fallback = true := by decide +kernel

end Verif.Tests.Fallback
