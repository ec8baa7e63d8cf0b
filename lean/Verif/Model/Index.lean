import Verif.Model.Api

/-!
# Looking nodes up by uuid

`Reference.node` and the `NodeIndex` returned by `Reference.index`.  The argument is a uuid
value; `int(uuid)` is the number that stands for it in this model.  (`int` also accepts
numbers and numerals; passing anything else raises before the index is touched.)
-/

namespace Verif

/-- `Reference.node`, reference.py:91-93. -/
def refNode (o : Oid) (u : Nat) : M (Option Oid) := do
  let i ← indexRef o
  let w ← M.getW
  pure ((w.idxs i).get? (some u))

/-- `self.index[uuid]`: `Reference.index` (reference.py:86-89) and
`NodeIndex.__getitem__` (reference.py:19-20). -/
def indexGetitem (o : Oid) (u : Nat) : M Oid := do
  let i ← indexRef o
  let w ← M.getW
  match (w.idxs i).get? (some u) with
  | some x => pure x
  | none => M.raise (.key (.uuid (some u)))

/-- `self.index.get(uuid, default)`, reference.py:22-23. -/
def indexGet (o : Oid) (u : Nat) (d : Option Oid) : M (Option Oid) := do
  let i ← indexRef o
  let w ← M.getW
  match (w.idxs i).get? (some u) with
  | some x => pure (some x)
  | none => pure d

/-- `uuid in self.index`, reference.py:25-26. -/
def indexContains (o : Oid) (u : Nat) : M Bool := do
  let i ← indexRef o
  let w ← M.getW
  pure ((w.idxs i).has (some u))

end Verif
