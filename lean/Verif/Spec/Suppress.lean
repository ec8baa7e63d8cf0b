import Verif.Spec.Events

/-!
# Specification: programs using events

Programs that a thread runs, with `with suppress_events(...)` blocks, and which dispatches the
blocks around a dispatch withhold.
-/

namespace Verif.Events

/-- Programs.  `events` of a block is `[none]` for `suppress_events()`. -/
inductive Prog where
  | skip
  | seq (p q : Prog)
  /-- `obj.dispatch(event, *x)` -/
  | dispatch (o : Obj) (e : Name) (x : List Value)
  /-- `obj.attr = value` -/
  | assign (a : Attr) (o : Obj) (v : Value)
  /-- `del obj.attr` -/
  | delete (a : Attr) (o : Obj)
  /-- Registering, binding, unbinding. -/
  | op (op : Op)
  /-- `with suppress_events(events): p` -/
  | block (events : List (Option Name)) (p : Prog)
  | raise (n : Nat)
  /-- `try: p` `except Exception: q` -/
  | tryExcept (p q : Prog)

/-- One dispatch: the blocks of the program around it, the state it started in, and what it did. -/
structure Entry where
  blocks : List (List (Option Name))
  o : Obj
  e : Name
  x : List Value
  st : St
  run : Run

/-- Result of a program: its dispatches, the result and the state; `none` if a dispatch does
not end within `fuel` rounds. -/
abbrev Outcome := Option (List Entry × Except Err Unit × St)

/-- A dispatch and its entry. -/
def logged (beh : Beh) (fuel : Nat) (t : Tid) (C : List (List (Option Name))) (o : Obj) (e : Name)
    (x : List Value) (st : St) : Outcome :=
  (Events.dispatch beh fuel t o e x st).map fun y => ([⟨C, o, e, x, st, y⟩], y.2.1, y.2.2)

/-- Run a program in thread `t`; `C` are the blocks of the program around, for the entries.  A `with` statement constructs the
manager, enters it, and leaves it however the body ended; an exception of `__exit__` replaces
the one of the body. -/
def exec (beh : Beh) (fuel : Nat) (ne : Value → Value → Bool) (t : Tid) :
    List (List (Option Name)) → Prog → St → Outcome
  | _, .skip, st => some ([], .ok (), st)
  | C, .seq p q, st =>
    match exec beh fuel ne t C p st with
    | some (l, .ok (), st1) => (exec beh fuel ne t C q st1).map fun y => (l ++ y.1, y.2)
    | r => r
  | C, .dispatch o e x, st => logged beh fuel t C o e x st
  | C, .assign a o v, st =>
    if a.always || ne v (attrGet a o st) then
      logged beh fuel t C o a.name [v] (inject t a.deco (attrWrite a o v st))
    else some ([], .ok (), attrWrite a o v st)
  | C, .delete a o, st =>
    if (st.inst o).store.has a.name then
      logged beh fuel t C o a.name [.unset]
        { st with inst := put st.inst o { st.inst o with store := (st.inst o).store.del a.name } }
    else some ([], .error (.key a.name), st)
  | _, .op op, st => some ([], (runOp op st).1, (runOp op st).2)
  | C, .block ms p, st =>
    match supInit t ms st with
    | (.error err, st1) => some ([], .error err, st1)
    | (.ok (), st1) =>
      match supEnter t st1 with
      | (.error err, st2) => some ([], .error err, st2)
      | (.ok _, st2) =>
        match exec beh fuel ne t (ms :: C) p st2 with
        | none => none
        | some (l, r, st3) =>
          match supExit t ms st3 with
          | (.error err, st4) => some (l, .error err, st4)
          | (.ok (), st4) => some (l, r, st4)
  | _, .raise n, st => some ([], .error (.user n), st)
  | C, .tryExcept p q, st =>
    match exec beh fuel ne t C p st with
    | some (l, .error _, st1) => (exec beh fuel ne t C q st1).map fun y => (l ++ y.1, y.2)
    | r => r

/-- One of the blocks lists the event or all events. -/
def Withholds (C : List (List (Option Name))) (e : Name) : Prop :=
  ∃ ms ∈ C, none ∈ ms ∨ some e ∈ ms

/-- Subscribers that run programs themselves: `f c` is the body of the subscriber called by
`c`; at most `n` calls deep, beyond that Python raises `RecursionError`.
A call that is not finished within the rounds allowed ends with an exception, too. -/
def progBeh (fuel : Nat) (ne : Value → Value → Bool) (t : Tid) (f : Call → Prog) : Nat → Beh
  | 0, _, st => (.error (.user 0), st)
  | n + 1, c, st =>
    match exec (progBeh fuel ne t f n) fuel ne t [] (f c) st with
    | none => (.error (.user 1), st)
    | some (_, r, st1) => (r, st1)

/-- The thread-local data while inside the blocks `C`. -/
structure Inside (t : Tid) (C : List (List (Option Name))) (st : St) : Prop where
  count : (st.tls t).suppress = some (C.length : Int)
  marks : ∃ l, (st.tls t).marks = some l ∧ l.Perm C.flatten
  ready : (st.tls t).injected.isSome = true

end Verif.Events
