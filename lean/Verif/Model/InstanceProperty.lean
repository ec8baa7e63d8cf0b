/-!
# Instance properties

Model of `instance_property`, utils.py:208-224, for any number of properties and instances.
Functions are programs that may use global state, raise, and read instance properties (their own
too).  The attribute `_name` is taken to be an ordinary one: classes that override `__setattr__`,
have a class attribute of that name, or write and delete `_name` themselves are not modelled;
neither are several threads.
-/

namespace Verif.InstProp

abbrev PName := Nat
abbrev Inst := Nat
abbrev V := Nat

/-- Exceptions: of the functions, and `RecursionError`. -/
inductive Err where
  | exc (n : Nat)
  | recursion
deriving DecidableEq, Repr

/-- What a function does: return, raise, use global state, read a property and go on with the
result or the exception. -/
inductive Body where
  | ret (v : V)
  | fail (n : Nat)
  | step (f : Nat → Nat) (k : Nat → Body)
  | read (p : PName) (i : Inst) (k : Except Err V → Body)

/-- What happens to functions: for statements about how often they run. -/
inductive Ev where
  | start (p : PName) (i : Inst)
  | done (p : PName) (i : Inst) (v : V)
  | failed (p : PName) (i : Inst)
deriving DecidableEq, Repr

/-- The attributes `_name` of the instances, global state, and what has happened. -/
structure St where
  attr : PName → Inst → Option V := fun _ _ => none
  g : Nat := 0
  log : List Ev := []

/-- `setattr(self, '_name', v)`. -/
def St.put (st : St) (p : PName) (i : Inst) (v : V) : St :=
  { st with attr := fun q j => if q = p ∧ j = i then some v else st.attr q j }

def St.note (st : St) (e : Ev) : St := { st with log := st.log ++ [e] }

/-- Running a function, given what reading a property does. -/
def runBody (rd : PName → Inst → St → Except Err V × St) : Body → St → Except Err V × St
  | .ret v, st => (.ok v, st)
  | .fail n, st => (.error (.exc n), st)
  | .step f k, st => runBody rd (k st.g) { st with g := f st.g }
  | .read p i k, st => let y := rd p i st; runBody rd (k y.1) y.2

/-- Reading a property, utils.py:214-222, with so many stack frames left; `B p i` is the function
of property `p` called with instance `i`. -/
def read (B : PName → Inst → Body) : Nat → PName → Inst → St → Except Err V × St
  | 0, _, _, st => (.error .recursion, st)
  | n + 1, p, i, st =>
    match st.attr p i with
    | some v => (.ok v, st)
    | none =>
      let y := runBody (read B n) (B p i) (st.note (.start p i))
      match y.1 with
      | .ok v =>
        let st' := (y.2.note (.done p i v)).put p i v
        -- `object.__getattribute__(self, attribute_name)`
        match st'.attr p i with
        | some x => (.ok x, st')
        | none => (.error (.exc 0), st')
      | .error e => (.error e, y.2.note (.failed p i))

/-- A history of reads, with their results. -/
def reads (B : PName → Inst → Body) (n : Nat) : List (PName × Inst) → St → List (Except Err V) × St
  | [], st => ([], st)
  | (p, i) :: r, st =>
    let y := read B n p i st
    let z := reads B n r y.2
    (y.1 :: z.1, z.2)

end Verif.InstProp
