import Verif.Conformance.Basic

/-!
# `tests/test_order.py`
-/

namespace Verif.Tests.Order

/-- Class 0 is `OrderableNode`, test_order.py:14-21; class 1 is `OrderReferenceNode`,
test_order.py:24-32. -/
def E : Env where
  cls
    | 0 => { bhvs := [.adopt, .order, .defaultInit, .nodify, .odictStorage] }
    | _ => { bhvs := [.adopt, .order, .reference, .defaultInit, .nodify, .odictStorage] }

/-- `str(cls)` without the module. -/
def cls : ClassId → String
  | 0 => "O"
  | _ => "R"

/-- `test_insertion`, test_order.py:45-183. -/
def insertion : M Unit := do
  let node ← newNode E 0 "root" none
  let c1 ← put E node "child1" 0
  let c2 ← put E node "child2" 0
  shows E cls node ["<class 'O'>: root", "  <class 'O'>: child1", "  <class 'O'>: child2"]
  let new ← newNode E 0 .none none
  fails (insertAt E true node new c1) (.value "Given node has no __name__ set.")
  fails (insertAt E false node new c1) (.value "Given node has no __name__ set.")
  assignName new "child3"
  let other ← newNode E 0 "fromelsewhere" none
  fails (insertAt E true node new other) (.value "Given reference node not child of self.")
  fails (insertAt E false node new other) (.value "Given reference node not child of self.")
  insertAt E true node new c2
  shows E cls node ["<class 'O'>: root", "  <class 'O'>: child1", "  <class 'O'>: child3",
    "  <class 'O'>: child2"]
  let n4 ← newNode E 0 "child4" none
  insertAt E false node n4 (← child E node "child3")
  shows E cls node ["<class 'O'>: root", "  <class 'O'>: child1", "  <class 'O'>: child3",
    "  <class 'O'>: child4", "  <class 'O'>: child2"]
  let n5 ← newNode E 0 "child5" none
  insertAt E false node n5 (← child E node "child2")
  shows E cls node ["<class 'O'>: root", "  <class 'O'>: child1", "  <class 'O'>: child3",
    "  <class 'O'>: child4", "  <class 'O'>: child2", "  <class 'O'>: child5"]
  let detached ← asNode (← detach E node "child4")
  insertAt E true node detached (← child E node "child1")
  shows E cls node ["<class 'O'>: root", "  <class 'O'>: child4", "  <class 'O'>: child1",
    "  <class 'O'>: child3", "  <class 'O'>: child2", "  <class 'O'>: child5"]
  insertEnd E true node (← newNode E 0 "first" none)
  shows E cls node ["<class 'O'>: root", "  <class 'O'>: first", "  <class 'O'>: child4",
    "  <class 'O'>: child1", "  <class 'O'>: child3", "  <class 'O'>: child2", "  <class 'O'>: child5"]
  insertEnd E false node (← newNode E 0 "last" none)
  shows E cls node ["<class 'O'>: root", "  <class 'O'>: first", "  <class 'O'>: child4",
    "  <class 'O'>: child1", "  <class 'O'>: child3", "  <class 'O'>: child2", "  <class 'O'>: child5",
    "  <class 'O'>: last"]
  mclear E node
  let new ← newNode E 0 "new" none
  insertEnd E true node new
  shows E cls node ["<class 'O'>: root", "  <class 'O'>: new"]
  mclear E node
  insertEnd E false node new
  shows E cls node ["<class 'O'>: root", "  <class 'O'>: new"]

example : passes insertion = true := by decide +kernel

/-- `node.swap(node[a], node[b])` and the keys afterwards. -/
def swaps (node : Oid) (a b : Key) (ks : List Key) : M Unit := do
  swapNodes E node (← child E node a) (← child E node b)
  same (← mkeys E node) ks

/-- `test_swap`, test_order.py:185-242. -/
def swap : M Unit := do
  let node ← newNode E 0 "root" none
  let _ ← put E node "0" 0
  let _ ← put E node "1" 0
  let _ ← put E node "2" 0
  let _ ← put E node "3" 0
  let _ ← put E node "4" 0
  same (← mkeys E node) ["0", "1", "2", "3", "4"]
  swaps node "0" "1" ["1", "0", "2", "3", "4"]
  swaps node "0" "1" ["0", "1", "2", "3", "4"]
  swaps node "3" "4" ["0", "1", "2", "4", "3"]
  swaps node "3" "4" ["0", "1", "2", "3", "4"]
  swaps node "1" "2" ["0", "2", "1", "3", "4"]
  swaps node "1" "2" ["0", "1", "2", "3", "4"]
  swaps node "0" "2" ["2", "1", "0", "3", "4"]
  swaps node "0" "2" ["0", "1", "2", "3", "4"]
  swaps node "2" "4" ["0", "1", "4", "3", "2"]
  swaps node "2" "4" ["0", "1", "2", "3", "4"]
  swaps node "1" "3" ["0", "3", "2", "1", "4"]
  swaps node "1" "3" ["0", "1", "2", "3", "4"]

example : passes swap = true := by decide +kernel

/-- `test_order_with_references`, test_order.py:248-374.  The printed `object()` is
abbreviated by the printer; `allow_non_node_childs` has no effect without
`NodeChildValidate`. -/
def references : M Unit := do
  let node ← newNode E 1 "root" none
  let _ ← put E node "child1" 1
  let _ ← put E node "child3" 1
  let _ ← put E node "child4" 1
  let _ ← put E node "child2" 1
  let _ ← put E node "child5" 1
  fails (do insertAt E true node (← child E node "child2") (← child E node "child1"))
    (.key (.msg "Given node already contained in tree."))
  same (← index node).2 6
  let detached ← asNode (← detach E node "child4")
  same (← name detached) "child4"
  same (← index detached).2 1
  same (← index node).2 5
  same (← mvalues E node).length 4
  insertAt E true node detached (← child E node "child1")
  shows E cls node ["<class 'R'>: root", "  <class 'R'>: child4", "  <class 'R'>: child1",
    "  <class 'R'>: child3", "  <class 'R'>: child2", "  <class 'R'>: child5"]
  let tree1 ← newNode E 1 .none none
  let _ ← put E tree1 "a" 1
  let _ ← put E tree1 "b" 1
  let tree2 ← newNode E 1 .none none
  let _ ← put E tree2 "d" 1
  let _ ← put E tree2 "e" 1
  check ((← index tree1).1 ≠ (← index tree2).1)
  same (← index tree1).2 3
  shows E cls tree1 ["<class 'R'>: None", "  <class 'R'>: a", "  <class 'R'>: b"]
  same (← index tree2).2 3
  shows E cls tree2 ["<class 'R'>: None", "  <class 'R'>: d", "  <class 'R'>: e"]
  setitem E tree1 "c" (.node tree2)
  same (← index tree1).2 6
  same (← index tree1).1 (← index tree2).1
  shows E cls tree1 ["<class 'R'>: None", "  <class 'R'>: a", "  <class 'R'>: b", "  <class 'R'>: c",
    "    <class 'R'>: d", "    <class 'R'>: e"]
  let sub ← asNode (← detach E tree1 "c")
  shows E cls sub ["<class 'R'>: c", "  <class 'R'>: d", "  <class 'R'>: e"]
  check ((← index tree1).1 ≠ (← index sub).1)
  same (← index sub).1 (← index (← child E sub "d")).1
  same (← index sub).1 (← index (← child E sub "e")).1
  same (← index sub).2 3
  shows E cls tree1 ["<class 'R'>: None", "  <class 'R'>: a", "  <class 'R'>: b"]
  same (← index tree1).2 3
  assignName sub "x"
  insertAt E true tree1 sub (← child E tree1 "a")
  shows E cls tree1 ["<class 'R'>: None", "  <class 'R'>: x", "    <class 'R'>: d", "    <class 'R'>: e",
    "  <class 'R'>: a", "  <class 'R'>: b"]
  same (← index tree1).1 (← index sub).1
  same (← index tree1).2 6
  fails (do insertAt E true tree1 sub (← child E tree1 "a"))
    (.key (.msg "Given node already contained in tree."))
  shows E cls tree2 ["<class 'R'>: x", "  <class 'R'>: d", "  <class 'R'>: e"]
  setitem E (← child E tree2 "d") "a" (.data (.opaque 0))
  shows E cls tree2 ["<class 'R'>: x", "__<class 'R'>: d", "____a: <object>", "__<class 'R'>: e"] "_"
  let _ ← detach E tree2 "d"
  shows E cls tree2 ["<class 'R'>: x", "  <class 'R'>: e"]

example : passes references = true := by decide +kernel

end Verif.Tests.Order
