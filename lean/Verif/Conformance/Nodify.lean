import Verif.Conformance.Base

/-!
# `tests/test_nodify.py`, `tests/test_mapping.py`, `tests/test_nodespace.py`, `tests/test_storage.py`
-/

namespace Verif.Tests.Nodify

open Verif.Tests.Base (tested allOK)

/-- `Node` and its subclass `RootNode`, test_nodify.py:17-29; `FailingFullMapping` and
`SuccessFullMapping`, test_mapping.py:12-22, here with `Nodify`, which extends `FullMapping`; `NodespacesNode` and `SomeNode`, test_nodespace.py:14-31;
the classes of test_storage.py:12-26. -/
def E : Env where
  cls
    | 0 => { bhvs := [.adopt, .defaultInit, .nodify, .odictStorage] }
    | 1 => { bhvs := [.adopt, .defaultInit, .nodify, .odictStorage] }
    | 2 => { bhvs := [.nodify] }
    | 3 => { bhvs := [.nodify, .dictStorage] }
    | 4 => { bhvs := [.adopt, .nodespaces, .nodify, .odictStorage] }
    | 5 => { bhvs := [.adopt, .nodify, .defaultInit, .odictStorage] }
    | 6 => { bhvs := [.storage] }
    | _ => { bhvs := [.odictStorage] }

/-- `str(cls)` without the module. -/
def cls : ClassId → String
  | 1 => "R"
  | _ => "N"

/-- `test_Nodify`, test_nodify.py:44-109. -/
def nodify : M Unit := do
  let root ← newNode E 0 "root" none
  let _ ← put E root "child" 0
  same (← name root) "root"
  same (← parent root) none
  let c ← child E root "child"
  same (← name c) "child"
  same (← parent c) (some root)
  shows E cls root ["<class 'N'>: root", "  <class 'N'>: child"]
  same (← tested E 0 true fun _ => "") allOK
  let root ← newNode E 1 "root" none
  let c ← put E root "child" 0
  let s ← put E c "subchild" 0
  shows E cls root ["<class 'R'>: root", "  <class 'N'>: child", "    <class 'N'>: subchild"]
  let _ ← put E root "ö" 0
  shows E cls root ["<class 'R'>: root", "__<class 'N'>: child", "____<class 'N'>: subchild",
    "__<class 'N'>: ö"] "_"
  let w ← M.getW
  same (acquire w (fun o => (w.objs o).cls = 1) s) (some (some root))
  same (acquire w (fun o => o = c) s) (some (some c))
  same (acquire w (fun _ => true) s) (some (some c))
  same (acquire w (fun _ => false) s) (some none)

example : passes nodify = true := by decide +kernel

/-- `repr` of the exceptions in test_mapping.py:35-54. -/
def rp : Exc → String
  | .notImpl => "NotImplementedError()"
  | _ => "other"

/-- `test_fullmapping_fails` and `test_fullmapping_success`, test_mapping.py:31-135, without
`wherefrom`. -/
def mapping : M Unit := do
  same (← tested E 2 false rp) ["``__contains__``: failed: NotImplementedError()",
    "``__delitem__``: failed: NotImplementedError()", "``__getitem__``: failed: NotImplementedError()",
    "``__iter__``: failed: NotImplementedError()", "``__len__``: failed: NotImplementedError()",
    "``__setitem__``: failed: NotImplementedError()", "``clear``: failed: NotImplementedError()",
    "``copy``: failed: NotImplementedError()", "``get``: failed: NotImplementedError()",
    "``has_key``: failed: NotImplementedError()", "``items``: failed: NotImplementedError()",
    "``iteritems``: failed: NotImplementedError()", "``iterkeys``: failed: NotImplementedError()",
    "``itervalues``: failed: NotImplementedError()", "``keys``: failed: NotImplementedError()",
    "``pop``: failed: NotImplementedError()", "``popitem``: failed: NotImplementedError()",
    "``setdefault``: failed: NotImplementedError()", "``update``: failed: NotImplementedError()",
    "``values``: failed: NotImplementedError()"]
  same (← tested E 3 false rp) allOK

example : passes mapping = true := by decide +kernel

/-- `node.nodespaces`. -/
def nodespaces (o : Oid) : M (Od Key Val) := do
  let r ← nodespacesRef o
  let w ← M.getW
  pure (w.nspaces r)

/-- `test_Nodespaces`, test_nodespace.py:40-81. -/
def nodespace : M Unit := do
  let node ← newNode E 4 .none none
  same (← nodespaces node) [("__children__", .node node)]
  let c ← put E (← child E node "__children__") "child" 5
  same (← getitem E node "child") (.node c)
  same (← getitem E (← child E node "__children__") "child") (.node c)
  let foo ← put E node "__foo__" 5
  same (← getitem E node "__foo__") (.node foo)
  let c ← put E (← child E node "__foo__") "child" 5
  same (← getitem E (← child E node "__foo__") "child") (.node c)
  check ((← getitem E (← child E node "__foo__") "child") ≠ (← getitem E node "child"))
  same (← nodespaces node) [("__children__", .node node), ("__foo__", .node foo)]
  fails (getitem E node "__inexistent__") (noKey "__inexistent__")
  fails (getitem E node "inexistent") (noKey "inexistent")
  delitem E node "child"
  same (← mkeys E node) []
  same (← mkeys E (← child E node "__foo__")) ["child"]
  delitem E node "__foo__"
  same (← nodespaces node).keys ["__children__"]

example : passes nodespace = true := by decide +kernel

/-- `test_abstract_storage`, `test_dict_storage` and `test_odict_storage`, test_storage.py:35-69. -/
def storage : M Unit := do
  let obj ← newNode E 6 .none none
  fails (storageRef E obj) .notImpl
  let obj ← newNode E 3 .none none
  let _ ← storageRef E obj
  same (← stored obj) []
  setitem E obj "foo" (str "foo")
  same (← stored obj) [("foo", str "foo")]
  same (← getitem E obj "foo") (str "foo")
  same (← mkeys E obj) ["foo"]
  delitem E obj "foo"
  same (← stored obj) []
  let obj ← newNode E 7 .none none
  let _ ← storageRef E obj
  same (← stored obj) []
  setitem E obj "foo" (str "foo")
  same (← stored obj) [("foo", str "foo")]
  same (← getitem E obj "foo") (str "foo")
  same (← mkeys E obj) ["foo"]
  delitem E obj "foo"
  same (← stored obj) []

example : passes storage = true := by decide +kernel

end Verif.Tests.Nodify
