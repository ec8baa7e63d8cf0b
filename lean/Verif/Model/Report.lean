import Verif.Model.Tester
import Verif.Model.Repr

/-!
# The reports of the contract tester

`BaseTester.combined` and `BaseTester.wherefrom`, testing/base.py:57-78, as lists of lines, before they are
joined by newlines.
-/

namespace Verif.Tester

/-- A class, as far as `wherefrom` looks at it: `__name__`, the names in `__dict__`, `__bases__`. -/
inductive PyClass where
  | mk (name : String) (dict : List Name) (bases : List PyClass)

def PyClass.name : PyClass → String
  | mk n _ _ => n

def PyClass.dict : PyClass → List Name
  | mk _ d _ => d

def PyClass.bases : PyClass → List PyClass
  | mk _ _ b => b

/-- The lines of `combined`, testing/base.py:57-62.  `sorted` compares pairs; the names in the results are
distinct, so their texts are never looked at. -/
def combined (r : Od Name String) : List String :=
  (sortBy (fun x : Name × String => x.1.toList) r).map fun x => "``" ++ x.1 ++ "``: " ++ x.2

/-- What is written if there is no such function, testing/base.py:76. -/
def notFound : String := "function not found on object"

/-- The loop over `__bases__`, testing/base.py:72-76: `continue` goes on with the next base. -/
def basesText (n : Name) : List PyClass → String
  | [] => ""
  | b :: r => (if n ∈ b.dict then b.name else notFound) ++ basesText n r

/-- One line of `wherefrom`, testing/base.py:68-77. -/
def wherefromLine (c : PyClass) (n : Name) : String :=
  n ++ ": " ++ if n ∈ c.dict then c.name else basesText n c.bases

/-- The lines of `wherefrom`, testing/base.py:64-78. -/
def wherefrom (c : PyClass) (contract : List Name) : List String :=
  (sortBy (fun n : Name => n.toList) contract).map (wherefromLine c)

end Verif.Tester
