import Verif.Sample
import Verif.Model.Repr
import Verif.Model.Copy
import Verif.Model.Index
import Verif.Model.Relocate
import Verif.Model.AttrAccess

/-!
# Running the unit tests of the repository on the model

The modules of this directory transcribe `/repo/src/node/tests` statement by
statement into programs of the model.  An assertion is a step that raises when it
does not hold, so that a test passes if the program returns.  These are tests of the
model against outcomes the authors of the code have pinned down, not proofs of
properties.
-/

namespace Verif.Tests

/-- String literals as keys. -/
instance : Coe String Key := ⟨fun x => .str x.toList⟩

/-- `self.assertTrue(b)`. -/
def check (b : Bool) : M Unit := if b then pure () else M.raise (.plain "assertion")

/-- `self.assertEqual(a, b)`. -/
def same {α : Type} [DecidableEq α] (a b : α) : M Unit := check (decide (a = b))

/-- `self.expectError(e, m)`. -/
def fails {α : Type} (m : M α) (e : Exc) : M Unit := fun w =>
  match m w with
  | (.ok _, w') => (.error (.plain "no exception"), w')
  | (.error x, w') => if x = e then (.ok (), w') else (.error x, w')

/-- `KeyError(key)` with a string as key. -/
def noKey (k : Key) : Exc := .key (.key k)

/-- The test returns when started on the empty heap. -/
def passes (t : M Unit) : Bool :=
  match (t {}).1 with
  | .ok _ => true
  | .error _ => false

example : passes (same (1 : Nat) 2) = false ∧ passes (fails (pure ()) .type) = false ∧
    passes (fails (M.raise .attr : M Unit) .type) = false := by decide +kernel

/-- `__name__`. -/
def name (o : Oid) : M Key := do pure (← getO o).name

/-- `__parent__`. -/
def parent (o : Oid) : M (Option Oid) := do pure (← getO o).parent

/-- A value that the test knows to be a node. -/
def asNode : Val → M Oid
  | .node c => pure c
  | .data _ => M.raise (.plain "not a node")

/-- `o[k]` where a node is expected. -/
def child (E : Env) (o : Oid) (k : Key) : M Oid := do asNode (← getitem E o k)

/-- `o[k] = cls()`, the new node as value. -/
def put (E : Env) (o : Oid) (k : Key) (c : ClassId) : M Oid := do
  let n ← newNode E c .none none
  setitem E o k (.node n)
  pure n

/-- The integer `i` as value. -/
def int (i : Int) : Val := .data (.int i)

/-- A string as value. -/
def str (x : String) : Val := .data (.str x.toList)

/-- How the tests print: `cls` names the classes. -/
def printer (cls : ClassId → String) : Printer where
  bytes _ := []
  data
    | .int i => (toString i).toList
    | .str x => ['\''] ++ x ++ ['\'']
    | .opaque _ => "<object>".toList
    | _ => "?".toList
  cls c := ("<class '" ++ cls c ++ "'>").toList

/-- `self.assertEqual(o.treerepr(prefix=pre), lines)`. -/
def shows (E : Env) (cls : ClassId → String) (o : Oid) (lines : List String) (pre : String := " ") : M Unit := do
  let t ← treerepr E (printer cls) pre.toList 20 0 o
  same t (lines.flatMap fun l => l.toList ++ ['\n'])

/-- The children of `o` in its storage. -/
def stored (o : Oid) : M (Od Key Val) := fun w => (.ok (w.children o), w)

/-- The dictionary `_index` of a `Reference` node and its length. -/
def index (o : Oid) : M (Ref × Nat) := do
  let r ← indexRef o
  let w ← M.getW
  pure (r, (w.idxs r).length)

end Verif.Tests
