import Verif.Model.AttrAccess
import Verif.Model.Mapping

/-!
# Attributes of nodes

Model of `GetattrChildren`, behaviors/common.py:125-137, and of the places of the
package that ask a node for an attribute it may not have.
-/

namespace Verif

/-- `node.name`.  Python looks at the instance, the class and its bases first: `own` says which
names it finds there; they include those of properties, whose getters must not raise
`AttributeError`.  `__getattr__` (common.py:132-137) is called for the others; a class without
`GetattrChildren` has none. -/
def getAttribute (E : Env) (own : Oid → Str → Bool) (o : Oid) (name : Str) : M Read := fun w =>
  if own o name then (.ok (.builtin name), w)
  else if (bhvsOf E w o).contains .getattrChildren then
    match getitem E o (.str name) w with
    | (.ok v, w') => (.ok (.item v), w')
    | (.error e, w') => (.error e, w')
  else (.error .attr, w)

/-- `hasattr(node, name)`: only `AttributeError` means no. -/
def hasAttribute (E : Env) (own : Oid → Str → Bool) (o : Oid) (name : Str) : M Bool :=
  M.catchIf Exc.isAttr (do let _ ← getAttribute E own o name; pure true) fun _ => pure false

/-- `getattr(node, name, default)`: the default, here `none`, only for `AttributeError`. -/
def getAttributeOr (E : Env) (own : Oid → Str → Bool) (o : Oid) (name : Str) : M (Option Read) :=
  M.catchIf Exc.isAttr (do let r ← getAttribute E own o name; pure (some r)) fun _ => pure none

/-- `'_treelock'`, locking.py:9. -/
def treelockName : Str := "_treelock".toList

/-- `'node'`, order.py:57. -/
def nodeName : Str := "node".toList

/-- What `TreeLock(node)` uses as lock (locking.py:7-11): a new one, the one the root has, or a
child of the root. -/
inductive LockOf where
  | created
  | kept
  | item (v : Val)
deriving DecidableEq

/-- `TreeLock.__init__`, locking.py:7-11; that the new lock is an attribute of the root from then
on is not part of this model (see `Verif.Model.Locking`). -/
def treeLockOf (E : Env) (own : Oid → Str → Bool) (o : Oid) : M LockOf := fun w =>
  match rootOf w o with
  | none => (.error .diverge, w)
  | some r =>
    match getAttributeOr E own r treelockName w with
    | (.ok none, w') => (.ok .created, w')
    | (.ok (some (.item v)), w') => (.ok (.item v), w')
    | (.ok (some _), w') => (.ok .kept, w')
    | (.error e, w') => (.error e, w')

/-- The test for `Reference` in `Order._validateinsertion`, order.py:55-57, as it is for classes that
have `GetattrChildren` (`validateInsertion` is for those that do not). -/
def askNode (E : Env) (own : Oid → Str → Bool) (o : Oid) : M Bool := hasAttribute E own o nodeName

end Verif
