import Verif.Model.Repr

/-!
# The `debug` decorator

`utils.debug`, utils.py:241-257, with what it asks of the values it is given: `Nodify.__repr__`
and `__str__`, nodify.py:136-150, and `NodeAttributes.__repr__`, attributes.py:30-38.
-/

namespace Verif

/-- Further texts the model does not look into: `cls.__name__`, `hex(id(node))[:-1]`, `str(value)`,
`repr(str)`; and which classes have the `__repr__` of `NodeAttributes`. -/
structure Namer extends Printer where
  clsName : ClassId → Str
  addr : Oid → Str
  text : Data → Str
  quote : Str → Str
  attrsCls : ClassId → Bool

/-- `'<{} object \'{}\' at {}>'.format(...)`, nodify.py:142-146, attributes.py:34-38. -/
def objectText (cls name addr : Str) : Str :=
  ['<'] ++ cls ++ " object '".toList ++ name ++ "' at ".toList ++ addr ++ ['>']

/-- `Nodify.__repr__`, nodify.py:136-146, and `Nodify.__str__`, nodify.py:148. -/
def nodifyRepr (P : Namer) (w : World) (o : Oid) : Str :=
  objectText (P.clsName (w.objs o).cls) (keyStr P.toPrinter (w.objs o).name) (P.addr o)

/-- `NodeAttributes.__repr__`, attributes.py:30-38: it shows the name of the parent. -/
def attrsRepr (P : Namer) (w : World) (o : Oid) : Except Exc Str :=
  match (w.objs o).parent with
  | none => .error .attr
  | some p => .ok (objectText (P.clsName (w.objs o).cls) (keyStr P.toPrinter (w.objs p).name) (P.addr o))

/-- `repr(value)`.  A `__repr__` written in the class wins over the one of `Nodify`, which is an
`override`. -/
def reprVal (P : Namer) (w : World) : Val → Except Exc Str
  | .node o => if P.attrsCls (w.objs o).cls then attrsRepr P w o else .ok (nodifyRepr P w o)
  | .data d => .ok (P.data d)

/-- `str(value)`: `NodeAttributes` has the `__str__` of `Nodify`. -/
def strVal (P : Namer) (w : World) : Val → Str
  | .node o => nodifyRepr P w o
  | .data d => P.text d

/-- `repr` of each element, from left to right. -/
def reprAll (P : Namer) (w : World) : List Val → Except Exc (List Str)
  | [] => .ok []
  | v :: r =>
    match reprVal P w v with
    | .error e => .error e
    | .ok s =>
      match reprAll P w r with
      | .error e => .error e
      | .ok ss => .ok (s :: ss)

/-- `', '.join(l)`. -/
def joinComma : List Str → Str
  | [] => []
  | [s] => s
  | s :: r => s ++ [',', ' '] ++ joinComma r

/-- `str(args)` of the tuple of positional arguments. -/
def tupleText : List Str → Str
  | [s] => ['('] ++ s ++ [',', ')']
  | l => ['('] ++ joinComma l ++ [')']

/-- `str(kws)` of the dictionary of keyword arguments. -/
def kwText (P : Namer) (names : List Str) (texts : List Str) : Str :=
  ['{'] ++ joinComma (List.zipWith (fun k t => P.quote k ++ [':', ' '] ++ t) names texts) ++ ['}']

/-- The line logged before the call, utils.py:245-249. -/
def callLine (name : Str) (args kws : Str) : Str :=
  name ++ ": args=".toList ++ args ++ ", kws=".toList ++ kws

/-- The line logged after the call, utils.py:251-254. -/
def resultLine (name : Str) (result : Str) : Str := name ++ ": --> ".toList ++ result

/-- `debug(func)(*args, **kws)`, utils.py:244-255.  `func` may do anything to the heap; the last
argument and result are the lines logged.  The texts are made whether or not the level is logged.
`func` may print nothing itself. -/
def debugged (P : Namer) (name : Str) (func : List Val → List (Str × Val) → M Val) (args : List Val)
    (kws : List (Str × Val)) (w : World) (lines : List Str) : Except Exc Val × World × List Str :=
  match reprAll P w args with
  | .error e => (.error e, w, lines)
  | .ok as =>
    match reprAll P w (kws.map Prod.snd) with
    | .error e => (.error e, w, lines)
    | .ok ks =>
      let lines := lines ++ [callLine name (tupleText as) (kwText P (kws.map Prod.fst) ks)]
      match func args kws w with
      | (.error e, w') => (.error e, w', lines)
      | (.ok v, w') => (.ok v, w', lines ++ [resultLine name (strVal P w' v)])

end Verif
