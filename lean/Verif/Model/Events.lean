import Verif.Odict

/-!
# Event dispatching

Model of `node/behaviors/events.py`: `Events`, `EventAttribute`, `suppress_events` and the
metaclass hook collecting event names.

* Subscribers are arbitrary callables.  They are compared with `==`; in the model a number
  stands for all callables equal to each other.  What a call does is an arbitrary state
  transformer `Beh`: it may bind, unbind, dispatch, assign event attributes, or raise.
  (A callable that does not return has no counterpart.)
* Lists of subscribers are objects: `dispatch` iterates over the list itself, not over a
  copy, so changes made by subscribers show up in the running iteration.  A heap of lists,
  addressed by number, models this.
* The thread-local data of lines 64-66 and 91-92 exist in the importing thread only;
  attributes that were never set are `none`.
-/

namespace Verif.Events

abbrev Name := String
abbrev Sub := Nat
abbrev Obj := Nat
abbrev ClassId := Nat
abbrev Ref := Nat
abbrev Tid := Nat

/-- Values of event attributes; `UNSET` is a value of its own (utils.py:16-37). -/
inductive Value where
  | unset
  | val (n : Nat)
deriving DecidableEq

/-- Exceptions. -/
inductive Err where
  /-- `UnknownEvent(event)`. -/
  | unknown (e : Name)
  /-- `AttributeError`. -/
  | attr
  /-- `ValueError` (of `list.remove`). -/
  | value
  /-- `KeyError`. -/
  | key (e : Name)
  /-- Raised by a subscriber or the body of a `with` statement. -/
  | user (n : Nat)
deriving DecidableEq

/-- An instance: class, `__events__`, `__subscribers__` (lists by name), and the mapping
that event attributes store their values in (events.py:182, `__dict__` unless another
`storage` is given; event attributes sharing a storage are one mapping). -/
structure Inst where
  cls : ClassId := 0
  events : List Name := []
  subs : Od Name Ref := []
  store : Od Name Value := []

/-- Thread-local data: `suppress_events.data.suppress`, `.events` (`none` in the list stands
for `ALL_EVENTS`) and `_attribute_subscribers.subscribers`. -/
structure Local where
  suppress : Option Int := none
  marks : Option (List (Option Name)) := none
  injected : Option (List Sub) := none

/-- What importing the module sets up in the importing thread, events.py:64-66 and 91-92. -/
def Local.imported : Local := { suppress := some 0, marks := some [], injected := some [] }

/-- The state: instances, subscriber lists, the event name list of every class, and the
data of every thread. -/
structure St where
  inst : Obj → Inst := fun _ => {}
  lists : Ref → List Sub := fun _ => []
  nlist : Nat := 0
  clsEvents : ClassId → Ref := fun _ => 0
  names : Ref → List Name := fun _ => []
  nnames : Nat := 0
  tls : Tid → Local := fun t => if t = 0 then .imported else {}

/-- Change one entry. -/
def put {α : Type} (f : Nat → α) (i : Nat) (a : α) : Nat → α := fun j => if j = i then a else f j

/-- Calls of subscribers: those registered by the decorator get the instance too
(events.py:306), those bound get the arguments (events.py:308). -/
inductive Call where
  | deco (s : Sub) (o : Obj) (x : List Value)
  | bound (s : Sub) (x : List Value)
deriving DecidableEq

/-- What calling a subscriber does. -/
abbrev Beh := Call → St → Except Err Unit × St

/-! ### Instances -/

/-- `Events.__new__`, events.py:235-242. -/
def new (o : Obj) (c : ClassId) (st : St) : St :=
  { st with inst := put st.inst o { cls := c } }

/-- `Events.register_event`, events.py:244-251. -/
def register (o : Obj) (e : Name) (st : St) : St :=
  if e ∈ (st.inst o).events then st
  else { st with inst := put st.inst o { st.inst o with events := (st.inst o).events ++ [e] } }

/-- The test of events.py:261-262. -/
def declared (o : Obj) (e : Name) (st : St) : Bool :=
  decide (e ∈ (st.inst o).events) || decide (e ∈ st.names (st.clsEvents (st.inst o).cls))

/-- `self.__subscribers__.setdefault(event, list())`, events.py:264. -/
def subsList (o : Obj) (e : Name) (st : St) : Ref × St :=
  match (st.inst o).subs.get? e with
  | some r => (r, st)
  | none => (st.nlist, { st with
      inst := put st.inst o { st.inst o with subs := (st.inst o).subs.set e st.nlist }
      lists := put st.lists st.nlist []
      nlist := st.nlist + 1 })

/-- `if subscriber not in subscribers: subscribers.append(subscriber)`, events.py:265-266. -/
def addSub (r : Ref) (s : Sub) (st : St) : St :=
  if s ∈ st.lists r then st else { st with lists := put st.lists r (st.lists r ++ [s]) }

/-- `Events.bind`, events.py:253-266. -/
def bind (o : Obj) : List (Name × Sub) → St → Except Err Unit × St
  | [], st => (.ok (), st)
  | (e, s) :: kw, st =>
    if declared o e st then
      let x := subsList o e st
      bind o kw (addSub x.1 s x.2)
    else (.error (.unknown e), st)

/-- `if subscriber in subscribers: subscribers.remove(subscriber)`, events.py:283-284 and
287-288: `list.remove` takes out the first. -/
def dropSub (r : Ref) (s : Sub) (st : St) : St :=
  { st with lists := put st.lists r ((st.lists r).erase s) }

/-- The loop of events.py:282-284. -/
def dropAll (s : Sub) : List Ref → St → St
  | [], st => st
  | r :: rs, st => dropAll s rs (dropSub r s st)

/-- `Events.unbind`, events.py:268-288. -/
def unbind (o : Obj) (e : Option Name) (s : Option Sub) (st : St) : St :=
  match e, s with
  | none, none => { st with inst := put st.inst o { st.inst o with subs := [] } }
  | some e, none =>
    { st with inst := put st.inst o { st.inst o with subs := (st.inst o).subs.del e } }
  | none, some s => dropAll s ((st.inst o).subs.map (·.2)) st
  | some e, some s =>
    match (st.inst o).subs.get? e with
    | some r => dropSub r s st
    | none => st

/-! ### Dispatching -/

/-- A finished execution: the calls this code made itself (not those of nested dispatches),
how it ended, and the state. -/
abbrev Run := List Call × Except Err Unit × St

/-- The loop of events.py:305-306, over the list of the event attribute.  (The list of the
descriptor changes only when a class body is executed; the model iterates over its value.) -/
def callDeco (beh : Beh) (o : Obj) (x : List Value) : List Sub → St → Run
  | [], st => ([], .ok (), st)
  | s :: r, st =>
    match beh (.deco s o x) st with
    | (.error e, st1) => ([.deco s o x], .error e, st1)
    | (.ok (), st1) =>
      let y := callDeco beh o x r st1
      (.deco s o x :: y.1, y.2)

/-- The loop of events.py:307-308, over the list object `r` from position `i` on; `none`
if it is not finished after `fuel` rounds. -/
def callBound (beh : Beh) (r : Ref) (x : List Value) : Nat → Nat → St → Option Run
  | 0, _, _ => none
  | fuel + 1, i, st =>
    match (st.lists r)[i]? with
    | none => some ([], .ok (), st)
    | some s =>
      match beh (.bound s x) st with
      | (.error e, st1) => some ([.bound s x], .error e, st1)
      | (.ok (), st1) =>
        (callBound beh r x fuel (i + 1) st1).map fun y => (.bound s x :: y.1, y.2)

/-- events.py:307-308: an event without subscribers has an empty list of its own. -/
def callSubs (beh : Beh) (fuel : Nat) (o : Obj) (e : Name) (x : List Value) (st : St) : Option Run :=
  match (st.inst o).subs.get? e with
  | none => some ([], .ok (), st)
  | some r => callBound beh r x fuel 0 st

/-- The test of events.py:300-304. -/
def withheld (l : Local) (e : Name) : Except Err Bool :=
  match l.suppress with
  | none => .error .attr
  | some n =>
    if 0 < n then
      match l.marks with
      | none => .error .attr
      | some ms => .ok (decide (none ∈ ms) || decide (some e ∈ ms))
    else .ok false

/-- Set the thread-local list of injected subscribers. -/
def inject (t : Tid) (ss : List Sub) (st : St) : St :=
  { st with tls := put st.tls t { st.tls t with injected := some ss } }

/-- `Events.dispatch`, events.py:290-308, in thread `t`. -/
def dispatch (beh : Beh) (fuel : Nat) (t : Tid) (o : Obj) (e : Name) (x : List Value) (st : St) : Option Run :=
  match (st.tls t).injected with
  | none => some ([], .error .attr, st)
  | some ds =>
    let st1 := inject t [] st
    match withheld (st1.tls t) e with
    | .error err => some ([], .error err, st1)
    | .ok true => some ([], .ok (), st1)
    | .ok false =>
      match callDeco beh o x ds st1 with
      | (cs, .error err, st2) => some (cs, .error err, st2)
      | (cs, .ok (), st2) =>
        (callSubs beh fuel o e x st2).map fun y => (cs ++ y.1, y.2)

/-! ### Event attributes -/

/-- An `EventAttribute`: its name (set by the metaclass hook), default, `always_dispatch` and
the subscribers registered by the decorator (events.py:154-170, 195-199). -/
structure Attr where
  name : Name
  default : Value := .unset
  always : Bool := false
  deco : List Sub := []

/-- `EventAttribute.__get__` on an instance, events.py:172-177. -/
def attrGet (a : Attr) (o : Obj) (st : St) : Value := ((st.inst o).store.get? a.name).getD a.default

/-- Write the storage, events.py:184. -/
def attrWrite (a : Attr) (o : Obj) (v : Value) (st : St) : St :=
  { st with inst := put st.inst o { st.inst o with store := (st.inst o).store.set a.name v } }

/-- `EventAttribute.__set__`, events.py:179-187, with `_subscribers` (events.py:95-103).
`ne` is the result of `value != old_value`. -/
def attrSet (beh : Beh) (fuel : Nat) (ne : Value → Value → Bool) (t : Tid) (a : Attr) (o : Obj) (v : Value)
    (st : St) : Option Run :=
  let old := attrGet a o st
  let st1 := attrWrite a o v st
  if a.always || ne v old then dispatch beh fuel t o a.name [v] (inject t a.deco st1)
  else some ([], .ok (), st1)

/-- `EventAttribute.__delete__`, events.py:189-193. -/
def attrDel (beh : Beh) (fuel : Nat) (t : Tid) (a : Attr) (o : Obj) (st : St) : Option Run :=
  if (st.inst o).store.has a.name then
    dispatch beh fuel t o a.name [.unset]
      { st with inst := put st.inst o { st.inst o with store := (st.inst o).store.del a.name } }
  else some ([], .error (.key a.name), st)

/-! ### Suppressing -/

/-- `suppress_events.__init__`, events.py:68-74: `events` already made a list. -/
def supInit (t : Tid) (ms : List (Option Name)) (st : St) : Except Err Unit × St :=
  match ms, (st.tls t).marks with
  | [], _ => (.ok (), st)
  | _ :: _, none => (.error .attr, st)
  | _ :: _, some l => (.ok (), { st with tls := put st.tls t { st.tls t with marks := some (l ++ ms) } })

/-- `suppress_events.__enter__`, events.py:76-78: the count is returned. -/
def supEnter (t : Tid) (st : St) : Except Err Int × St :=
  match (st.tls t).suppress with
  | none => (.error .attr, st)
  | some n => (.ok (n + 1), { st with tls := put st.tls t { st.tls t with suppress := some (n + 1) } })

/-- The loop of events.py:82-83. -/
def supRemove (t : Tid) : List (Option Name) → St → Except Err Unit × St
  | [], st => (.ok (), st)
  | m :: ms, st =>
    match (st.tls t).marks with
    | none => (.error .attr, st)
    | some l =>
      if m ∈ l then supRemove t ms { st with tls := put st.tls t { st.tls t with marks := some (l.erase m) } }
      else (.error .value, st)

/-- `suppress_events.__exit__`, events.py:80-83. -/
def supExit (t : Tid) (ms : List (Option Name)) (st : St) : Except Err Unit × St :=
  match (st.tls t).suppress with
  | none => (.error .attr, st)
  | some n => supRemove t ms { st with tls := put st.tls t { st.tls t with suppress := some (n - 1) } }

/-! ### Declaring events -/

/-- events.py:30-34: collect the names of the event attributes. -/
def collect (r : Ref) : List Name → St → St
  | [], st => st
  | e :: es, st =>
    if e ∈ st.names r then collect r es st
    else collect r es { st with names := put st.names r (st.names r ++ [e]) }

/-- Creating class `c` with the metaclass hook, events.py:20-34: `base` is the class
`__events__` would be inherited from (single inheritance), `own` the `__events__` of the
class body, `attrs` the names of the event attributes of the class body. -/
def mkClass (c : ClassId) (base : Option ClassId) (own : Option (List Name)) (attrs : List Name) (st : St) : St :=
  let fresh (l : List Name) : St :=
    { st with
      clsEvents := put st.clsEvents c st.nnames
      names := put st.names st.nnames l
      nnames := st.nnames + 1 }
  let st1 : St := match own, base with
    | some l, _ => fresh l
    | none, none => fresh []
    | none, some b => { st with clsEvents := put st.clsEvents c (st.clsEvents b) }
  collect (st1.clsEvents c) attrs st1

end Verif.Events
