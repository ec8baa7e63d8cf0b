import Verif.Conformance.Basic

/-!
# `tests/test_lifecycle.py`
-/

namespace Verif.Tests.Lifecycle

/-- `NoLifecycleNode`, `LifecycleNode` and `LifecycleNodeAttributes`, test_lifecycle.py:38-62. -/
def E : Env where
  cls
    | 0 => { bhvs := [.defaultInit, .nodify, .dictStorage] }
    | 1 => { bhvs := [.nodespaces, .attributes, .lifecycle, .defaultInit, .nodify, .dictStorage],
             attrsFactory := 2 }
    | _ => lifecycleAttributes

/-- The class of an event. -/
inductive Kind where
  | created | added | modified | removed | detached
deriving DecidableEq

/-- `event.__class__`. -/
def kind : Event → Kind
  | .created _ => .created
  | .added .. => .added
  | .modified _ => .modified
  | .removed .. => .removed
  | .detached .. => .detached

/-- The classes of `self.handler.handled`, followed by `self.handler.clear()`. -/
def handled : M (List Kind) := do
  let w ← M.getW
  M.modifyW fun w => { w with log := [] }
  pure (w.log.map fun l => kind l.event)

/-- `test_NodeCreatedEvent`, test_lifecycle.py:82-93. -/
def created : M Unit := do
  let _ ← newNode E 0 "no_notify" none
  same (← handled) []
  let _ ← newNode E 1 "root" none
  same (← handled) [.created]

example : passes created = true := by decide +kernel

/-- `test_NodeAddedEvent`, test_lifecycle.py:95-106. -/
def added : M Unit := do
  let root ← newNode E 1 "root" none
  let _ ← handled
  let _ ← put E root "child1" 1
  same (← handled) [.created, .added]

example : passes added = true := by decide +kernel

/-- `test_NodeModifiedEvent`, test_lifecycle.py:108-136. -/
def modified : M Unit := do
  let root ← newNode E 1 "root" none
  let child ← put E root "child" 1
  let _ ← handled
  let a ← attrs E child
  same (← getO a).cls 2
  same (← handled) []
  setitem E (← attrs E child) "foo" (int 1)
  same (← handled) [.modified]
  delitem E (← attrs E child) "foo"
  same (← handled) [.modified]

example : passes modified = true := by decide +kernel

/-- `test_NodeRemovedEvent`, test_lifecycle.py:138-149. -/
def removed : M Unit := do
  let root ← newNode E 1 "root" none
  let _ ← put E root "child" 1
  let _ ← handled
  delitem E root "child"
  same (← handled) [.removed]

example : passes removed = true := by decide +kernel

/-- `test_NodeDetachedEvent`, test_lifecycle.py:151-162. -/
def detached : M Unit := do
  let root ← newNode E 1 "root" none
  let _ ← put E root "child" 1
  let _ ← handled
  let _ ← detach E root "child"
  same (← handled) [.detached]

example : passes detached = true := by decide +kernel

/-- `test__notify_suppress`, test_lifecycle.py:164-181. -/
def suppressed : M Unit := do
  let root ← newNode E 1 "root" none
  let _ ← handled
  modO root fun ob => { ob with suppress := true }
  let _ ← put E root "child" 0
  same (← handled) []
  let a ← attrs E root
  setitem E a "foo" (str "foo")
  same (← handled) []
  delitem E a "foo"
  same (← handled) []

example : passes suppressed = true := by decide +kernel

end Verif.Tests.Lifecycle
