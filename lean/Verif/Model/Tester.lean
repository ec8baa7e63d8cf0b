import Verif.Odict

/-!
# The contract tester

Model of `ResultWriter` and `BaseTester.run`, testing/base.py:14-24 and 80-101.  Tests act on a
context of any type.  Tests that replace `iface_contract` or `direct_error`, or write results
themselves, and exceptions whose `repr` raises, are not modelled.
-/

namespace Verif.Tester

abbrev Name := String

/-- How a call ends: it returns, raises an `Exception` (given by its `repr`), or raises something
that is no `Exception`, as `KeyboardInterrupt` and `SystemExit`. -/
inductive Outcome where
  | returned
  | raised (e : String)
  | aborted (e : String)
deriving DecidableEq, Repr

/-- The strings written by `ResultWriter.success` and `failed`, testing/base.py:20-24. -/
def okText : String := "OK"
def failedText (e : String) : String := "failed: " ++ e

/-- How `run` ends. -/
inductive Ended where
  | finished
  | contract (n : Name)
  | raised (e : String)
  | aborted (e : String)
deriving DecidableEq, Repr

/-- `getattr(self, 'test_%s' % name, None)`. -/
abbrev Tests (S : Type) := Name → Option (S → Outcome × S)

/-- `run`, testing/base.py:80-98, from given results: a second run starts with those of the first. -/
def run {S : Type} (tests : Tests S) (direct : Bool) : List Name → Od Name String → S → Ended × Od Name String × S
  | [], r, s => (.finished, r, s)
  | n :: rest, r, s =>
    match tests n with
    | none => (.contract n, r, s)
    | some f =>
      match f s with
      | (.returned, s') => run tests direct rest (r.set n okText) s'
      | (.raised e, s') => if direct then (.raised e, r, s') else run tests direct rest (r.set n (failedText e)) s'
      | (.aborted e, s') => (.aborted e, r, s')

end Verif.Tester
