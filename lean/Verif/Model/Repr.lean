import Verif.Model.Mapping

/-!
# Text representations of trees

`Nodify.noderepr` and `Nodify.treerepr`, nodify.py:94-124.
-/

namespace Verif

/-- Texts Python makes of values that the model does not look into: `str(bytes)`, `repr(value)`
and `str(cls)`. -/
structure Printer where
  bytes : List UInt8 → Str
  data : Data → Str
  cls : ClassId → Str

/-- `str(key)`, also `UNICODE_TYPE(key)` (compat.py) and `'{}'.format(key)`. -/
def keyStr (P : Printer) : Key → Str
  | .none => ['N', 'o', 'n', 'e']
  | .str s => s
  | .int i => (toString i).toList
  | .bytes b => P.bytes b

/-- `name[name.find(':') + 1:]`, nodify.py:107. -/
def afterColon (s : Str) : Str :=
  if ':' ∈ s then (s.dropWhile (· ≠ ':')).drop 1 else s

/-- `noderepr`, nodify.py:94-107, in Python 3. -/
def noderepr (P : Printer) (w : World) (o : Oid) : Str :=
  P.cls (w.objs o).cls ++ [':', ' '] ++ afterColon (keyStr P (w.objs o).name)

/-- `n * prefix`. -/
def timesStr (n : Nat) (s : Str) : Str := (List.replicate n s).flatten

/-- `<=` of strings: by code points. -/
def strLe : Str → Str → Bool
  | [], _ => true
  | _ :: _, [] => false
  | a :: s, b :: t => if a = b then strLe s t else decide (a.val < b.val)

/-- Insert before the first element that is not smaller. -/
def insertBy {α : Type} (f : α → Str) (x : α) : List α → List α
  | [] => [x]
  | y :: r => if strLe (f x) (f y) then x :: y :: r else y :: insertBy f x r

/-- `sorted(l, key=f)`: stable. -/
def sortBy {α : Type} (f : α → Str) : List α → List α
  | [] => []
  | x :: r => insertBy f x (sortBy f r)

/-- `IOrdered.providedBy(self)`: `OdictStorage` implements it, storage.py:46. -/
def ordered (c : ClassDef) : Bool := c.bhvs.contains .odictStorage

/-- The items in the order of nodify.py:112-114. -/
def shownItems (P : Printer) (c : ClassDef) (kvs : List (Key × Val)) : List (Key × Val) :=
  if ordered c then kvs else sortBy (fun kv => keyStr P kv.1) kvs

/-- One item, nodify.py:116-123; `rec` is `treerepr` of the child. -/
def treereprItem (P : Printer) (indent : Nat) (pre : Str) (rec : Oid → M Str) : Key × Val → M Str
  | (_, .node c) => rec c
  | (k, .data d) => pure (timesStr (indent + 2) pre ++ keyStr P k ++ [':', ' '] ++ P.data d ++ ['\n'])

/-- `treerepr(indent, prefix)`, nodify.py:109-124; the number bounds the recursion. -/
def treerepr (E : Env) (P : Printer) (pre : Str) : Nat → Nat → Oid → M Str
  | 0, _, _ => M.raise .diverge
  | n + 1, indent, o => do
    let w ← M.getW
    let items ← mitems E o
    let texts ← forM' (treereprItem P indent pre (treerepr E P pre n (indent + 2)))
      (shownItems P (clsOf E w o) items)
    pure (timesStr indent pre ++ noderepr P w o ++ ['\n'] ++ texts.flatten)

end Verif
