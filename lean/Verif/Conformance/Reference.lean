import Verif.Conformance.Basic

/-!
# `tests/test_reference.py`
-/

namespace Verif.Tests.Reference

/-- `ReferenceNode`, test_reference.py:16-23. -/
def E : Env where
  cls _ := { bhvs := [.adopt, .reference, .defaultInit, .nodify, .odictStorage] }

/-- `node.uuid`. -/
def uuid (o : Oid) : M Nat := do
  match (← getO o).uuid with
  | some u => pure u
  | none => M.raise (.plain "no uuid")

/-- `test_node_index`, test_reference.py:32-40. -/
def nodeIndex : M Unit := do
  let node ← newNode E 0 .none none
  let u ← uuid node
  same (← indexGetitem node u) node
  same (← indexGet node u none) (some node)
  check (← indexContains node u)
  same (← index node).2 1

example : passes nodeIndex = true := by decide +kernel

/-- `test_containment`, test_reference.py:42-71. -/
def containment : M Unit := do
  let node ← newNode E 0 "root" none
  let c ← put E node "child" 0
  same (← path c) ["root", "child"]
  same (← index node).1 (← index c).1
  same (← index node).2 2
  let _ ← put E c "sub" 0
  same (← index node).2 3
  let _ ← put E c "sub2" 0
  same (← index node).2 4
  shows E (fun _ => "R") node ["<class 'R'>: root", "  <class 'R'>: child", "    <class 'R'>: sub",
    "    <class 'R'>: sub2"]
  fails (setitem E node "child2" (.node c)) (.value "Node with uuid already exists")

example : passes containment = true := by decide +kernel

/-- `node._index.keys()`. -/
def uuids (o : Oid) : M (List (Option Nat)) := do
  let r ← indexRef o
  let w ← M.getW
  pure (w.idxs r).keys

/-- `test_uuid`, test_reference.py:73-137; `allow_non_node_childs` has no effect here. -/
def uuidTest : M Unit := do
  let node ← newNode E 0 "root" none
  let c ← put E node "child" 0
  let s ← put E c "sub" 0
  let s2 ← put E c "sub2" 0
  let uid ← uuid s
  same (← refNode node uid) (some s)
  same (← path s) ["root", "child", "sub"]
  fails (setUuidRef node (some uid)) (.value "Given uuid was already used for another Node")
  let new ← freshUuid
  setUuidRef node (some new)
  same (← refNode c new) (some node)
  same (← path node) ["root"]
  same (← index node).2 4
  let gone : List (Option Nat) := [some (← uuid c), some (← uuid s), some (← uuid s2)]
  let us ← uuids node
  check (gone.all fun u => us.contains u)
  delitem E node "child"
  same (← mkeys E node) []
  let us ← uuids node
  same us.length 1
  same (← indexGetitem node (← uuid node)) node
  check (gone.all fun u => !us.contains u)
  shows E (fun _ => "R") node ["<class 'R'>: root"]
  let c ← put E node "child" 0
  setitem E c "foo" (int 1)
  delitem E node "child"

example : passes uuidTest = true := by decide +kernel

end Verif.Tests.Reference
