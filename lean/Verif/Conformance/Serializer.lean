import Verif.Conformance.Basic
import Verif.Model.Registry

/-!
# `tests/test_serializer.py`

The values of JSON are compared as values of Python (`raw`).  Floats are not modelled and left out;
so is the second half of `test_custom_bound` and `test_custom_init`, which are about attributes
of instances that the model does not have.
-/

namespace Verif.Tests.Serializer
open Verif.Ser

/-- The classes of the tests. -/
def E : Env where
  cls
    | 0 => { bhvs := [.nodeChildValidate, .adopt, .asAttrAccess, .defaultInit, .nodify, .dictStorage]
             dotted := "node.base.BaseNode".toList }
    | 1 => { bhvs := [.nodeChildValidate, .adopt, .asAttrAccess, .defaultInit, .nodify, .odictStorage]
             dotted := "node.base.OrderedNode".toList }
    | 2 => { bhvs := [.nodeChildValidate, .nodespaces, .adopt, .attributes, .reference, .order,
               .asAttrAccess, .defaultInit, .nodify, .odictStorage]
             dotted := "node.base.AttributedNode".toList
             attrsFactory := 3 }
    | 4 => { bhvs := [.nodeChildValidate, .nodespaces, .adopt, .attributes, .reference, .order,
               .asAttrAccess, .defaultInit, .nodify, .odictStorage]
             dotted := "node.tests.test_serializer.CustomNode".toList
             attrsFactory := 3 }
    | _ => { nodeAttributes with
             dotted := "node.behaviors.attributes.NodeAttributes".toList }

def names : ClassId → String
  | 0 => "node.base.BaseNode"
  | 1 => "node.base.OrderedNode"
  | 2 => "node.base.AttributedNode"
  | _ => "?"

/-- The functions and classes of `node.tests.test_serializer`. -/
abbrev func : Str := "node.tests.test_serializer.referenced_function".toList
abbrev klass : Str := "node.tests.test_serializer.ReferencedClass".toList
abbrev method : Str := "node.tests.test_serializer.ReferencedClass.foo".toList

/-- Uuids are written as words of `x`. -/
def N : Codec where
  uuidStr u := List.replicate u 'x'
  parseUuid s := some s.length
  parse_ok u := by simp
  findCls s := if s = "node.base.BaseNode".toList then some 0
    else if s = "node.base.OrderedNode".toList then some 1
    else if s = "node.base.AttributedNode".toList then some 2 else none
  findOb s := if s = func || s = method then some (.func s) else if s = klass then some (.cls s) else none

/-- `data[key]`. -/
def at' (j : J) (k : String) : M J :=
  match j with
  | .obj kvs => match Od.get? kvs k.toList with
    | some x => pure x
    | none => M.raise (noKey k)
  | _ => M.raise .type

/-- `data[i]`. -/
def nth (j : J) (i : Nat) : M J :=
  match j with
  | .list xs => match xs[i]? with
    | some x => pure x
    | none => M.raise .index
  | _ => M.raise .type

/-- `len(data) == n` for a list. -/
def long (j : J) (n : Nat) : M Unit :=
  match j with
  | .list xs => check (xs.length = n)
  | _ => M.raise .type

/-- `list(data.keys())`. -/
def keysOf (j : J) : M (List String) :=
  match j with
  | .obj kvs => pure (kvs.map fun kv => String.ofList kv.1)
  | _ => M.raise .type

/-- `data == value`. -/
def eq (j : J) (d : Data) : M Unit := same (raw j) d

def text (x : String) : Data := .str x.toList

/-- `deserialize` of a node. -/
def loaded (j : J) (root : Option Oid) : M Oid := do
  match ← deserialize E N 20 j root with
  | .node o => pure o
  | _ => M.raise .type

/-- test_serializer.py:84-96. -/
def inode : M Unit := do
  let n ← newNode E 0 .none none
  let data ← serialize E N {} 20 (.val (.node n))
  same (← keysOf data) ["__node__"]
  let node_data ← at' data "__node__"
  same (← keysOf node_data) ["class", "name"]
  eq (← at' node_data "class") (text "node.base.BaseNode")
  eq (← at' node_data "name") .none
  let node ← loaded data none
  same (← getO node).cls 0
  same (← getO node).name .none

example : passes inode = true := by decide +kernel

/-- test_serializer.py:98-147. -/
def children : M Unit := do
  let node ← newNode E 1 "base" none
  let c ← put E node "child" 1
  let _ ← put E c "sub" 1
  let lines := ["<class 'node.base.OrderedNode'>: base", "  <class 'node.base.OrderedNode'>: child",
    "    <class 'node.base.OrderedNode'>: sub"]
  shows E names node lines
  let data ← serialize E N {} 20 (.val (.node node))
  same (← keysOf data) ["__node__"]
  let node_data ← at' data "__node__"
  same (← keysOf node_data) ["class", "name", "children"]
  eq (← at' node_data "class") (text "node.base.OrderedNode")
  eq (← at' node_data "name") (text "base")
  long (← at' node_data "children") 1
  let node_data ← at' (← nth (← at' node_data "children") 0) "__node__"
  eq (← at' node_data "class") (text "node.base.OrderedNode")
  eq (← at' node_data "name") (text "child")
  long (← at' node_data "children") 1
  let node_data ← at' (← nth (← at' node_data "children") 0) "__node__"
  same (← keysOf node_data) ["class", "name"]
  eq (← at' node_data "class") (text "node.base.OrderedNode")
  eq (← at' node_data "name") (text "sub")
  let back ← loaded data none
  shows E names back lines
  let root ← newNode E 0 "root" none
  let _ ← loaded data (some root)
  shows E names root ["<class 'node.base.BaseNode'>: root", "  <class 'node.base.OrderedNode'>: base",
    "    <class 'node.base.OrderedNode'>: child", "      <class 'node.base.OrderedNode'>: sub"]

example : passes children = true := by decide +kernel

/-- test_serializer.py:149-191. -/
def childrenAsList : M Unit := do
  let node ← newNode E 1 "base" none
  let _ ← put E node "child_1" 1
  let _ ← put E node "child_2" 1
  shows E names node ["<class 'node.base.OrderedNode'>: base", "  <class 'node.base.OrderedNode'>: child_1",
    "  <class 'node.base.OrderedNode'>: child_2"]
  let vs ← mvalues E node
  let data ← serialize E N {} 20 (.list (vs.map .val))
  long data 2
  let node_data ← at' (← nth data 0) "__node__"
  same (← keysOf node_data) ["class", "name"]
  eq (← at' node_data "class") (text "node.base.OrderedNode")
  eq (← at' node_data "name") (text "child_1")
  let node_data ← at' (← nth data 1) "__node__"
  same (← keysOf node_data) ["class", "name"]
  eq (← at' node_data "class") (text "node.base.OrderedNode")
  eq (← at' node_data "name") (text "child_2")
  let root ← newNode E 1 "root" none
  match ← deserialize E N 20 data (some root) with
  | .list [.node a, .node b] => do
    same (← name a) "child_1"
    same (← name b) "child_2"
  | _ => M.raise .type
  shows E names root ["<class 'node.base.OrderedNode'>: root", "  <class 'node.base.OrderedNode'>: child_1",
    "  <class 'node.base.OrderedNode'>: child_2"]

example : passes childrenAsList = true := by decide +kernel

/-- test_serializer.py:197-247; 3 is the uuid. -/
def attributesTest : M Unit := do
  let node ← newNode E 2 "base" none
  setitem E (← attrs E node) "int" (int 0)
  setitem E (← attrs E node) "str" (str "str")
  setitem E (← attrs E node) "unset" (.data .unset)
  setitem E (← attrs E node) "uuid" (.data (.uuid 3))
  setitem E (← attrs E node) "list" (.data (.list [.int 0, text "str", .unset]))
  let data ← serialize E N {} 20 (.val (.node node))
  same (← keysOf data) ["__node__"]
  let node_data ← at' data "__node__"
  same (← keysOf node_data) ["class", "name", "attrs"]
  eq (← at' node_data "class") (text "node.base.AttributedNode")
  eq (← at' node_data "name") (text "base")
  let attrs_data ← at' node_data "attrs"
  same (← keysOf attrs_data) ["int", "str", "unset", "uuid", "list"]
  eq (← at' attrs_data "int") (.int 0)
  eq (← at' attrs_data "str") (text "str")
  eq (← at' attrs_data "list") (.list [.int 0, text "str", text "<UNSET>"])
  eq (← at' attrs_data "unset") (text "<UNSET>")
  eq (← at' attrs_data "uuid") (text "<UUID>:xxx")
  let node ← loaded data none
  same (← getO node).cls 2
  same (← name node) "base"
  let a ← attrs E node
  same (← getitem E a "int") (int 0)
  same (← getitem E a "str") (str "str")
  same (← getitem E a "list") (.data (.list [.int 0, text "str", .unset]))
  same (← getitem E a "unset") (.data .unset)
  same (← getitem E a "uuid") (.data (.uuid 3))

example : passes attributesTest = true := by decide +kernel

/-- test_serializer.py:253-291. -/
def referencing : M Unit := do
  let node ← newNode E 2 .none none
  setitem E (← attrs E node) "func" (.data (.func func))
  setitem E (← attrs E node) "class" (.data (.cls klass))
  setitem E (← attrs E node) "method" (.data (.func method))
  let data ← serialize E N {} 20 (.val (.node node))
  same (← keysOf data) ["__node__"]
  let node_data ← at' data "__node__"
  same (← keysOf node_data) ["class", "name", "attrs"]
  eq (← at' node_data "class") (text "node.base.AttributedNode")
  eq (← at' node_data "name") .none
  let attrs_data ← at' node_data "attrs"
  same (← keysOf attrs_data) ["func", "class", "method"]
  eq (← at' (← at' attrs_data "class") "__ob__") (.str klass)
  eq (← at' (← at' attrs_data "func") "__ob__") (.str func)
  eq (← at' (← at' attrs_data "method") "__ob__") (.str method)
  let node ← loaded data none
  same (← getO node).cls 2
  let a ← attrs E node
  same (← getitem E a "func") (.data (.func func))
  same (← getitem E a "class") (.data (.cls klass))
  same (← getitem E a "method") (.data (.func method))

example : passes referencing = true := by decide +kernel

/-- What the classes provide: 2 is `ICustomNode`, 3 is `CustomNode`. -/
def provides : Provides := fun c s =>
  s = 0 || (s = 1 && (E.cls c).bhvs.contains .attributes) || ((s = 2 || s = 3) && c = 4)

/-- The registry with `iface_bound_serialize_custom_node` and `class_bound_serialize_custom_node`,
test_serializer.py:45-47, 55-57; the values of the attributes are those of the test. -/
def registry : Od Ser.Sel SerCall := registerAll (shippedSer E)
  [(2, fun _ _ data => pure (data ++ [(.str "iface_attr".toList, .data (text "Iface Attr Value"))])),
   (3, fun _ _ data => pure (data ++ [(.str "class_attr".toList, .data (text "Class Attr Value"))]))]

/-- test_serializer.py:297-321. -/
def customBound : M Unit := do
  let node ← newNode E 4 "custom" none
  let data ← serializeR E provides registry N {} 20 (.val (.node node))
  same (← keysOf data) ["__node__"]
  let node_data ← at' data "__node__"
  same (← keysOf node_data) ["class", "name", "attrs", "iface_attr", "class_attr"]
  eq (← at' node_data "class") (text "node.tests.test_serializer.CustomNode")
  eq (← at' node_data "name") (text "custom")
  eq (← at' node_data "attrs") (.dict [])
  eq (← at' node_data "iface_attr") (text "Iface Attr Value")
  eq (← at' node_data "class_attr") (text "Class Attr Value")

example : passes customBound = true := by decide +kernel

/-- test_serializer.py:363-409. -/
def simplified : M Unit := do
  let node ← newNode E 0 "base" none
  let c ← put E node "child" 2
  setitem E (← attrs E c) "foo" (str "Foo")
  setitem E (← attrs E c) "ref" (.data (.cls "node.base.AbstractNode".toList))
  let data ← serialize E N { simple := true, includeClass := false } 20 (.val (.node node))
  same (← keysOf data) ["name", "children"]
  eq (← at' data "name") (text "base")
  long (← at' data "children") 1
  let child_data ← nth (← at' data "children") 0
  same (← keysOf child_data) ["name", "attrs"]
  eq (← at' child_data "name") (text "child")
  let child_attrs ← at' child_data "attrs"
  same (← keysOf child_attrs) ["foo", "ref"]
  eq (← at' child_attrs "foo") (text "Foo")
  eq (← at' child_attrs "ref") (text "node.base.AbstractNode")
  let data ← serialize E N { simple := true, includeClass := true } 20 (.val (.node node))
  same (← keysOf data) ["class", "name", "children"]
  eq (← at' data "class") (text "node.base.BaseNode")
  eq (← at' data "name") (text "base")
  long (← at' data "children") 1
  let child_data ← nth (← at' data "children") 0
  same (← keysOf child_data) ["class", "name", "attrs"]
  eq (← at' child_data "class") (text "node.base.AttributedNode")
  eq (← at' child_data "name") (text "child")
  let child_attrs ← at' child_data "attrs"
  same (← keysOf child_attrs) ["foo", "ref"]
  eq (← at' child_attrs "foo") (text "Foo")
  eq (← at' child_attrs "ref") (text "node.base.AbstractNode")

example : passes simplified = true := by decide +kernel

end Verif.Tests.Serializer
