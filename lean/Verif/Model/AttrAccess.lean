import Verif.Model.Items

/-!
# Attribute access

Model of `AttributeAccess`, utils.py:98-128, as returned by
`AsAttrAccess.as_attribute_access` (behaviors/common.py:57-62).
-/

namespace Verif

/-- What reading an attribute of the view can give: an item of the node, the node itself, or an
attribute every object of the class has. -/
inductive Read where
  | item (v : Val)
  | context (o : Oid)
  | builtin (name : Str)
deriving DecidableEq

/-- `context`, the name of the instance attribute set in utils.py:104-105. -/
def contextName : Str := ['c', 'o', 'n', 't', 'e', 'x', 't']

/-- `a.name` for `a = AttributeAccess(node)`.  Python looks for the attribute itself first: the
instance attribute `context` and the class attributes `cls` (methods and what `object` and
`implementer` provide); `__getattr__` (utils.py:107-112) is called for the others. -/
def aaGet (E : Env) (cls : Str → Bool) (o : Oid) (name : Str) : M Read := fun w =>
  if name = contextName then (.ok (.context o), w)
  else if cls name then (.ok (.builtin name), w)
  else match getitem E o (.str name) w with
    | (.ok v, w') => (.ok (.item v), w')
    | (.error e, w') => (.error (if e.isKey then .attr else e), w')

/-- `a.name = v`, utils.py:114-116: for every name. -/
def aaSet (E : Env) (o : Oid) (name : Str) (v : Val) : M Unit := setitem E o (.str name) v

end Verif
