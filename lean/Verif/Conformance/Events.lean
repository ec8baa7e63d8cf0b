import Verif.Model.Events

/-!
# `tests/test_events.py`

`test_implements` is about interfaces and left out; attributes on behaviors (`PlumbedDispatcher`) are
attributes of the plumbed class.
-/

namespace Verif.Tests.Events
open Verif.Events

instance {ε α : Type} [DecidableEq ε] [DecidableEq α] : DecidableEq (Except ε α)
  | .ok a, .ok b => if h : a = b then isTrue (by rw [h]) else isFalse (by simpa using h)
  | .error a, .error b => if h : a = b then isTrue (by rw [h]) else isFalse (by simpa using h)
  | .ok _, .error _ | .error _, .ok _ => isFalse (by simp)

/-- A test: the state and the calls of subscribers since they were last looked at. -/
abbrev T := StateT (St × List Call) Option

/-- An assertion. -/
def check (b : Bool) : T Unit := fun s => if b then some ((), s) else none

/-- The test returns. -/
def passes (t : T Unit) : Bool := (t ({}, [])).isSome

example : passes (check false) = false := by decide +kernel

/-- Change the state. -/
def upd (f : St → St) : T Unit := fun (st, cs) => some ((), f st, cs)

/-- Subscribers that only remember their arguments, test_events.py:19-23. -/
def quiet : Beh := fun _ st => (.ok (), st)

/-- Do something that calls subscribers. -/
def doing (f : St → Option Run) : T (Except Err Unit) := fun (st, cs) =>
  match f st with
  | some (ds, r, st') => some (r, st', cs ++ ds)
  | none => none

/-- It must return. -/
def calling (f : St → Option Run) : T Unit := do
  match ← doing f with
  | .ok () => pure ()
  | .error _ => check false

/-- `bind`. -/
def bindAll (o : Obj) (kw : List (Name × Sub)) : T (Except Err Unit) := fun (st, cs) =>
  let x := bind o kw st
  some (x.1, x.2, cs)

/-- The calls since the last look. -/
def taken : T (List Call) := fun (st, cs) => some (cs, st, [])

/-- `dispatcher.__events__`. -/
def events (o : Obj) : T (List Name) := fun (st, cs) => some ((st.inst o).events, st, cs)

/-- `dispatcher.__subscribers__`. -/
def subscribers (o : Obj) : T (List (Name × List Sub)) := fun (st, cs) =>
  some ((st.inst o).subs.map fun p => (p.1, st.lists p.2), st, cs)

/-- `dispatcher.attr`. -/
def value (a : Attr) (o : Obj) : T Value := fun (st, cs) => some (attrGet a o st, st, cs)

/-- `'attr' in dispatcher.__dict__`. -/
def has (a : Attr) (o : Obj) : T Bool := fun (st, cs) => some ((st.inst o).store.has a.name, st, cs)

/-- `dispatcher.attr = v`. -/
def assign (a : Attr) (o : Obj) (v : Nat) : T Unit :=
  calling (attrSet quiet 9 (fun x y => decide (x ≠ y)) 0 a o (.val v))

/-- `del dispatcher.attr`. -/
def remove (a : Attr) (o : Obj) : T Unit := calling (attrDel quiet 9 0 a o)

/-- `dispatcher.dispatch(e, *x)`. -/
def send (o : Obj) (e : Name) (x : List Value) : T Unit := calling (dispatch quiet 9 0 o e x)

/-- `with suppress_events(ms): body`. -/
def suppressed (ms : List (Option Name)) (body : T Unit) : T Unit := do
  fun (st, cs) => let x := supInit 0 ms st; some ((), x.2, cs)
  fun (st, cs) => let x := supEnter 0 st; some ((), x.2, cs)
  body
  fun (st, cs) => let x := supExit 0 ms st; some ((), x.2, cs)

/-- The metaclass hook for class 0. -/
def cls (own : Option (List Name)) (attrs : List Name) : T Unit := upd (mkClass 0 none own attrs)

/-- test_events.py:87-99. -/
def registerEvent : T Unit := do
  cls none []
  upd (new 0 0)
  check ((← events 0) = [])
  upd (register 0 "my_event")
  check ((← events 0) = ["my_event"])
  upd (register 0 "my_event")
  check ((← events 0) = ["my_event"])

example : passes registerEvent = true := by decide +kernel

/-- test_events.py:101-129. -/
def bindTest : T Unit := do
  cls none []
  upd (new 0 0)
  check ((← subscribers 0) = [])
  check ((← bindAll 0 [("my_event", 1)]) = .error (.unknown "my_event"))
  upd (register 0 "my_event")
  check ((← bindAll 0 [("my_event", 2)]) = .ok ())
  check ((← subscribers 0) = [("my_event", [2])])
  check ((← bindAll 0 [("my_event", 2)]) = .ok ())
  check ((← subscribers 0) = [("my_event", [2])])

example : passes bindTest = true := by decide +kernel

/-- test_events.py:131-141. -/
def mixedDeclarations : T Unit := do
  cls (some ["event_a"]) []
  upd (new 0 0)
  upd (register 0 "event_b")
  check ((← bindAll 0 [("event_a", 1)]) = .ok ())
  check ((← bindAll 0 [("event_b", 1)]) = .ok ())
  check ((← subscribers 0) = [("event_a", [1]), ("event_b", [1])])

example : passes mixedDeclarations = true := by decide +kernel

/-- test_events.py:143-196. -/
def unbindTest : T Unit := do
  cls none []
  upd (new 0 0)
  upd (register 0 "event_1")
  upd (register 0 "event_2")
  let both := [("event_1", 1), ("event_2", 1)]
  check ((← bindAll 0 both) = .ok ())
  check ((← subscribers 0) = [("event_1", [1]), ("event_2", [1])])
  upd (unbind 0 none none)
  check ((← subscribers 0) = [])
  check ((← bindAll 0 both) = .ok ())
  check ((← subscribers 0) = [("event_1", [1]), ("event_2", [1])])
  upd (unbind 0 (some "event_1") none)
  check ((← subscribers 0) = [("event_2", [1])])
  upd (unbind 0 none none)
  check ((← bindAll 0 both) = .ok ())
  check ((← subscribers 0) = [("event_1", [1]), ("event_2", [1])])
  upd (unbind 0 none (some 1))
  check ((← subscribers 0) = [("event_1", []), ("event_2", [])])
  upd (unbind 0 none none)
  check ((← bindAll 0 [("event_1", 2)]) = .ok ())
  check ((← bindAll 0 [("event_1", 3)]) = .ok ())
  check ((← subscribers 0) = [("event_1", [2, 3])])
  upd (unbind 0 (some "event_1") (some 2))
  check ((← subscribers 0) = [("event_1", [3])])
  upd (unbind 0 none none)

example : passes unbindTest = true := by decide +kernel

/-- test_events.py:198-210; the model has no keyword arguments. -/
def dispatchTest : T Unit := do
  cls none []
  upd (new 0 0)
  upd (register 0 "my_event")
  check ((← bindAll 0 [("my_event", 1)]) = .ok ())
  send 0 "my_event" [.val 1]
  check ((← taken) = [.bound 1 [.val 1]])

example : passes dispatchTest = true := by decide +kernel

/-- `attr` of `MyDispatcher`, test_events.py:26-27. -/
def attr : Attr := { name := "attr", default := .val 1 }

/-- test_events.py:212-248. -/
def attributeTest : T Unit := do
  cls none ["attr"]
  upd (new 0 0)
  fun (st, cs) => check (st.names (st.clsEvents 0) = ["attr"]) (st, cs)
  check ((← bindAll 0 [("attr", 1)]) = .ok ())
  check ((← value attr 0) = .val 1)
  assign attr 0 1
  check ((← taken) = [])
  assign attr 0 2
  check ((← value attr 0) = .val 2)
  check ((← taken) = [.bound 1 [.val 2]])
  assign attr 0 3
  check ((← value attr 0) = .val 3)
  check ((← taken) = [.bound 1 [.val 3]])
  check (attr.default = .val 1)
  check (← has attr 0)
  remove attr 0
  check ((← taken) = [.bound 1 [.unset]])
  check (!(← has attr 0))
  check ((← value attr 0) = .val 1)

example : passes attributeTest = true := by decide +kernel

/-- test_events.py:250-260. -/
def alwaysDispatch : T Unit := do
  cls none ["attr"]
  upd (new 0 0)
  let a : Attr := { name := "attr", always := true }
  check ((← bindAll 0 [("attr", 1)]) = .ok ())
  assign a 0 1
  check ((← taken) = [.bound 1 [.val 1]])
  assign a 0 1
  check ((← taken) = [.bound 1 [.val 1]])

example : passes alwaysDispatch = true := by decide +kernel

/-- test_events.py:262-274 (the storage is `attrs`) and 276-282. -/
def attributeStorage : T Unit := do
  cls none ["attr"]
  upd (new 0 0)
  check ((← bindAll 0 [("attr", 1)]) = .ok ())
  assign attr 0 0
  check ((← taken) = [.bound 1 [.val 0]])
  check ((← value attr 0) = .val 0)
  remove attr 0
  check ((← taken) = [.bound 1 [.unset]])
  check (!(← has attr 0))

example : passes attributeStorage = true := by decide +kernel

/-- test_events.py:284-291; subscriber 7 is `attr_changed`. -/
def subscriberDecorator : T Unit := do
  cls none ["attr"]
  upd (new 0 0)
  let a : Attr := { name := "attr", deco := [7] }
  assign a 0 5
  check ((← taken) = [.deco 7 0 [.val 5]])

example : passes subscriberDecorator = true := by decide +kernel

/-- test_events.py:293-323. -/
def suppressEvents : T Unit := do
  cls none ["attr"]
  upd (new 0 0)
  upd (register 0 "my_event")
  check ((← bindAll 0 [("my_event", 1), ("attr", 1)]) = .ok ())
  suppressed [none] (assign attr 0 0)
  check ((← taken) = [])
  suppressed [some "attr"] (assign attr 0 1)
  check ((← taken) = [])
  suppressed [some "other"] (assign attr 0 2)
  check ((← taken) = [.bound 1 [.val 2]])
  suppressed [none] (send 0 "my_event" [.val 0])
  check ((← taken) = [])
  suppressed [some "my_event"] (send 0 "my_event" [.val 1])
  check ((← taken) = [])
  suppressed [some "other"] (send 0 "my_event" [.val 2])
  check ((← taken) = [.bound 1 [.val 2]])

example : passes suppressEvents = true := by decide +kernel

end Verif.Tests.Events
