import Verif.Model.Mapping

/-!
# Model: the tree the testers and examples work on

`testing/base.py`.
-/

namespace Verif

/-- `'child_{}'.format(i)`, testing/base.py:8. -/
def childName (i : Nat) : Key := .str ("child_".toList ++ (toString i).toList)

/-- `'subchild_{}'.format(j)`, testing/base.py:10. -/
def subchildName (j : Nat) : Key := .str ("subchild_".toList ++ (toString j).toList)

/-- `value[key] = node` for what has just been read; anything but a node supports no item assignment
here and is a `TypeError`. -/
def setIn (E : Env) (v : Val) (k : Key) (n : Oid) : M Unit :=
  match v with
  | .node x => setitem E x k (.node n)
  | .data _ => M.raise .type

/-- One round of the inner loop, testing/base.py:10: the right hand side is evaluated first. -/
def createSub (E : Env) (c : ClassId) (root : Oid) (i j : Nat) : M Unit := do
  let n ← newNode E c .none none
  let v ← getitem E root (childName i)
  setIn E v (subchildName j) n

/-- One round of the outer loop, testing/base.py:8-10. -/
def createChild (E : Env) (c : ClassId) (root : Oid) (i : Nat) : M Unit := do
  let n ← newNode E c .none none
  setitem E root (childName i) (.node n)
  forU (createSub E c root i) (List.range 2)

/-- `create_tree(class_)`, testing/base.py:5-11. -/
def createTree (E : Env) (c : ClassId) : M Oid := do
  let root ← newNode E c .none none
  forU (createChild E c root) (List.range 3)
  pure root

end Verif
