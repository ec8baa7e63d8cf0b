import Verif.Model.Mapping

/-!
# Subscribers of lifecycle events

`objectEventNotify` (zope.component.event) calls the subscribers registered for an event before it
returns; what they raise reaches the code that sent the event.  In `Verif.Model.Items` and
`Verif.Model.Mapping` events are only logged.  Here the operations that send events are repeated with a
subscriber, an arbitrary computation on the heap: it may read, write, use the nodes and raise.  Several
subscribers are one that calls them in turn.

Simplification: children made by a `ChildFactory` while the operation reads are made silently; the
theorems that need it exclude child factories.
-/

namespace Verif

/-- What the subscribers do when an event is sent. -/
abbrev Listener := Event → M Unit

/-- `objectEventNotify(event)`: log the event, then call the subscribers. -/
def tell (h : Listener) (e : Event) : M Unit := do
  notify e
  h e

/-- `Lifecycle.__setitem__`, lifecycle.py:34-40. -/
def lifecycleSetS (h : Listener) (next : Key → Val → M Unit) (o : Oid) (k : Key) (v : Val) : M Unit := do
  next k v
  let ob ← getO o
  if ob.suppress then pure () else tell h (.added v o k)

/-- `AttributesLifecycle`, lifecycle.py:67-69 and 74-76. -/
def notifyModifiedS (E : Env) (h : Listener) (o : Oid) : M Unit := do
  let w ← M.getW
  match (w.objs o).parent with
  | none => M.raise .attr
  | some p =>
    if (bhvsOf E w p).contains .lifecycle then
      if (w.objs p).suppress then pure () else tell h (.modified p)
    else M.raise .attr

/-- `__setitem__`, as `setPipe`. -/
def setPipeS (E : Env) (h : Listener) : List Bhv → Oid → Key → Val → M Unit
  | [], o, k, v => setEnd E o k v
  | .nodeChildValidate :: r, o, k, v => validateSet E (setPipeS E h r o) o k v
  | .nodespaces :: r, o, k, v => nodespacesSet (setPipeS E h r o) o k v
  | .adopt :: r, o, k, v => adoptSet (setPipeS E h r o) o k v
  | .reference :: r, o, k, v => referenceSet E (setPipeS E h r o) o k v
  | .lifecycle :: r, o, k, v => lifecycleSetS h (setPipeS E h r o) o k v
  | .attributesLifecycle :: r, o, k, v => do
    setPipeS E h r o k v
    notifyModifiedS E h o
  | .cache :: r, o, k, v => do
    cacheDrop o k
    setPipeS E h r o k v
  | .alias :: r, o, k, v => do
    let u ← unaliasKey E o k
    rekey k (setPipeS E h r o u v)
  | _ :: r, o, k, v => setPipeS E h r o k v

/-- `node[k] = v` with subscribers. -/
def setitemS (E : Env) (h : Listener) (o : Oid) (k : Key) (v : Val) : M Unit := fun w =>
  setPipeS E h (bhvsOf E w o) o k v w

/-- `Lifecycle.__delitem__`, lifecycle.py:42-49. -/
def lifecycleDelS (E : Env) (h : Listener) (next : Key → M Unit) (o : Oid) (k : Key) : M Unit := do
  let v ← getitem E o k
  next k
  let ob ← getO o
  if ob.suppress then pure () else tell h (.removed v o k)

/-- `__delitem__`, as `delPipe`. -/
def delPipeS (E : Env) (h : Listener) : List Bhv → Oid → Key → M Unit
  | [], o, k => delEnd E o k
  | .nodespaces :: r, o, k => nodespacesDel (delPipeS E h r o) o k
  | .reference :: r, o, k => referenceDel E (delPipeS E h r o) o k
  | .lifecycle :: r, o, k => lifecycleDelS E h (delPipeS E h r o) o k
  | .attributesLifecycle :: r, o, k => do
    delPipeS E h r o k
    notifyModifiedS E h o
  | .cache :: r, o, k => do
    cacheDrop o k
    delPipeS E h r o k
  | .alias :: r, o, k => do
    let u ← unaliasKey E o k
    rekey k (delPipeS E h r o u)
  | _ :: r, o, k => delPipeS E h r o k

/-- `del node[k]` with subscribers. -/
def delitemS (E : Env) (h : Listener) (o : Oid) (k : Key) : M Unit := fun w =>
  delPipeS E h (bhvsOf E w o) o k w

/-- `Nodify.detach`, nodify.py:65-69. -/
def detachEndS (E : Env) (h : Listener) (o : Oid) (k : Key) : M Val := do
  let v ← getitem E o k
  delitemS E h o k
  pure v

/-- `detach`: `Reference` (reference.py:62-67) and `Lifecycle` (lifecycle.py:51-58), as `detachPipe`. -/
def detachPipeS (E : Env) (h : Listener) : List Bhv → Oid → Key → M Val
  | [], o, k => detachEndS E h o k
  | .reference :: r, o, k => do
    let v ← detachPipeS E h r o k
    referenceDetach E v
    pure v
  | .lifecycle :: r, o, k => do
    modO o fun ob => { ob with suppress := true }
    let v ← detachPipeS E h r o k
    modO o fun ob => { ob with suppress := false }
    tell h (.detached v o k)
    pure v
  | _ :: r, o, k => detachPipeS E h r o k

/-- `node.detach(k)` with subscribers. -/
def detachS (E : Env) (h : Listener) (o : Oid) (k : Key) : M Val := fun w =>
  detachPipeS E h (bhvsOf E w o) o k w

/-- The loop of `FixedChildren.__init__`, common.py:102-106. -/
def fixedLoopS (mk : ClassId → M Oid) (o : Oid) : List (Key × ClassId) → M Unit
  | [] => pure ()
  | (k, c) :: rest => do
    let child ← mk c
    modO child fun ob => { ob with name := k }
    modO child fun ob => { ob with parent := some o }
    modO o fun ob => { ob with fixed := ob.fixed.set k (.node child) }
    fixedLoopS mk o rest

/-- `__init__`: `Lifecycle` (lifecycle.py:29-32) and the others, as `initPipe`. -/
def initPipeS (E : Env) (h : Listener) (mk : ClassId → M Oid) :
    List Bhv → List Bhv → Oid → Key → Option Oid → M Unit
  | all, [], o, name, parent =>
    if all.contains .defaultInit then do
      modO o fun ob => { ob with name := name }
      modO o fun ob => { ob with parent := parent }
    else pure ()
  | all, .reference :: r, o, name, parent => do
    referenceInit o
    initPipeS E h mk all r o name parent
  | all, .lifecycle :: r, o, name, parent => do
    initPipeS E h mk all r o name parent
    tell h (.created o)
  | all, .uuidAware :: r, o, name, parent => do
    initPipeS E h mk all r o name parent
    let u ← freshUuid
    if all.contains .reference then setUuidRef o (some u) else modO o fun ob => { ob with uuid := some u }
  | all, .fixedChildren :: r, o, name, parent => do
    initPipeS E h mk all r o name parent
    modO o fun ob => { ob with fixed := [] }
    let w ← M.getW
    fixedLoopS mk o (clsOf E w o).fixed
  | all, _ :: r, o, name, parent => initPipeS E h mk all r o name parent

/-- As `newNodeN`. -/
def newNodeNS (E : Env) (h : Listener) : Nat → ClassId → Key → Option Oid → M Oid
  | 0, _, _, _ => M.raise .diverge
  | n + 1, c, name, parent => do
    let o ← alloc c
    initPipeS E h (fun c' => newNodeNS E h n c' .none none) (E.cls c).bhvs (E.cls c).bhvs o name parent
    pure o

/-- `Class(name=name, parent=parent)` with subscribers. -/
def newNodeS (E : Env) (h : Listener) (c : ClassId) (name : Key) (parent : Option Oid) : M Oid :=
  if (E.cls c).takesArgs || (name == .none && parent.isNone) then newNodeNS E h E.depth c name parent
  else M.raise .type

end Verif
