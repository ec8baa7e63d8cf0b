import Verif.Model.Api

/-!
# Writing down locations

`node.__name__ = name` and `node.__parent__ = parent`: plain instance attributes
(nodify.py:30-31 gives the defaults), which callers set themselves, for example
before `insertbefore` (docs/archive/behaviors/order.rst:43) or to name a root
(docs/archive/base.rst:330).  Not covered: values for the name that are no keys.
-/

namespace Verif

/-- `o.__name__ = k`. -/
def assignName (o : Oid) (k : Key) : M Unit := modO o fun ob => { ob with name := k }

/-- `o.__parent__ = p`. -/
def assignParent (o : Oid) (p : Option Oid) : M Unit := modO o fun ob => { ob with parent := p }

/-- A statement of a program that also writes down locations. -/
inductive Stmt
  | op (op : Op)
  | name (o : Oid) (k : Key)
  | parent (o : Oid) (p : Option Oid)

/-- Run a statement; assignments have no result. -/
def runStmt (E : Env) : Stmt → World → List (Except Exc Res) × World
  | .op op, w => let x := exec E op w; ([x.1], x.2)
  | .name o k, w => ([], (assignName o k w).2)
  | .parent o p, w => ([], (assignParent o p w).2)

/-- Run a program; the results of its operations. -/
def runStmts (E : Env) : List Stmt → World → List (Except Exc Res) × World
  | [], w => ([], w)
  | s :: r, w =>
    let x := runStmt E s w
    let y := runStmts E r x.2
    (x.1 ++ y.1, y.2)

end Verif
