import Verif.Model.Aliaser

/-!
# Classes, object heap and the state-and-exception monad
-/

namespace Verif

/-- The behaviors a class can be plumbed from (`node/behaviors/__init__.py`).
`storage` is the abstract `Storage` behavior (storage.py:12-35). -/
inductive Bhv where
  | nodeChildValidate | nodespaces | adopt | attributes | reference | order
  | asAttrAccess | defaultInit | nodify | storage | dictStorage | odictStorage
  | lifecycle | attributesLifecycle | cache | invalidate | volatileInvalidate
  | alias | unicodeAware | childFactory | fixedChildren | getattrChildren
  | uuidAware | fallback | events
deriving DecidableEq, Repr, Inhabited

/-- A plumbed class: its behaviors from left to right and the class attributes
the behaviors read.  `factories` are the child factories of `ChildFactory`
(common.py:67) and `fixed` those of `FixedChildren` (common.py:96); a factory is
a class called without arguments.  `fallbackKey` is a class attribute
`fallback_key`, `none` if there is none or for the `_marker` default of `Fallback`
(fallback.py:51). -/
structure ClassDef where
  bhvs : List Bhv
  allowNonNode : Bool := false
  aliaser : Option Aliaser := none
  factories : Od Key ClassId := []
  fixed : List (Key × ClassId) := []
  attrsFactory : ClassId := 0
  attrAccess : Bool := false
  fallbackKey : Option Key := none
  overwriteRecursiv : Bool := true
  dotted : Str := []
deriving Inhabited

/-- The loaded program: all classes, and the depth to which constructors of
`FixedChildren` may nest before the interpreter gives up. -/
structure Env where
  cls : ClassId → ClassDef
  depth : Nat := 100

/-- Instance attributes of a node: `__name__`, `__parent__`, `_storage`,
`_cache`, `_nodespaces`, `_index`, `uuid`/`_uuid`, `_notify_suppress`,
`_children` (`FixedChildren`), `fallback_key`.  The lazily created dictionaries are `none` until
first access (utils.instance_property, utils.py:208-224). -/
structure Obj where
  cls : ClassId := 0
  name : Key := .none
  parent : Option Oid := none
  storage : Option Ref := none
  cache : Option Ref := none
  nodespaces : Option Ref := none
  index : Option Ref := none
  uuid : Option Nat := none
  suppress : Bool := false
  fixed : Od Key Val := []
  fallbackKey : Option Key := none
deriving Inhabited

/-- Lifecycle events handed to `objectEventNotify` (events.py:23-45,
lifecycle.py). -/
inductive Event where
  | created (o : Oid)
  | added (v : Val) (newParent : Oid) (newName : Key)
  | modified (o : Oid)
  | removed (v : Val) (oldParent : Oid) (oldName : Key)
  | detached (v : Val) (oldParent : Oid) (oldName : Key)
deriving DecidableEq, Repr

/-- An event together with the children every node holds at the moment the event
is handed out: what a subscriber that looks at the tree gets to see. -/
structure Logged where
  event : Event
  seen : Oid → Od Key Val

/-- The heap.  Objects below `nobj` are allocated; storages, caches, nodespace
dictionaries and reference indexes live in heaps of their own because they can be
shared (`copy`, `Reference`).  `fb` is the thread-local counter of
fallback.py:13-15, `none` in a thread that did not import the module. -/
structure World where
  objs : Oid → Obj := fun _ => {}
  nobj : Nat := 0
  stores : Ref → Od Key Val := fun _ => []
  nstore : Nat := 0
  caches : Ref → Od Key Val := fun _ => []
  ncache : Nat := 0
  nspaces : Ref → Od Key Val := fun _ => []
  nnspace : Nat := 0
  idxs : Ref → Od (Option Nat) Oid := fun _ => []
  nidx : Nat := 0
  nuuid : Nat := 1
  log : List Logged := []
  fb : Option Int := some (-1)

/-- Point update of a heap. -/
def upd {β : Type} (f : Nat → β) (i : Nat) (x : β) : Nat → β :=
  fun j => if j = i then x else f j

@[simp] theorem upd_same {β : Type} (f : Nat → β) (i : Nat) (x : β) : upd f i x i = x := by
  simp [upd]

theorem upd_other {β : Type} (f : Nat → β) {i j : Nat} (x : β) (h : j ≠ i) :
    upd f i x j = f j := by
  simp [upd, h]

/-- Computations over the heap that may raise.  Writes made before an exception
stay. -/
def M (α : Type) := World → Except Exc α × World

namespace M

/-- Return a value. -/
def ret {α : Type} (a : α) : M α := fun w => (.ok a, w)

/-- Sequencing; an exception skips the rest. -/
def seq {α β : Type} (m : M α) (f : α → M β) : M β := fun w =>
  match m w with
  | (.ok a, w') => f a w'
  | (.error e, w') => (.error e, w')

instance : Monad M where
  pure := ret
  bind := seq

/-- `raise e`. -/
def raise {α : Type} (e : Exc) : M α := fun w => (.error e, w)

/-- `try: m except <p>: h`. -/
def catchIf {α : Type} (p : Exc → Bool) (m : M α) (h : Exc → M α) : M α := fun w =>
  match m w with
  | (.ok a, w') => (.ok a, w')
  | (.error e, w') => if p e then h e w' else (.error e, w')

/-- The current heap. -/
def getW : M World := fun w => (.ok w, w)

/-- Change the heap. -/
def modifyW (f : World → World) : M Unit := fun w => (.ok (), f w)

/-- Lift a pure computation with exceptions. -/
def ofExcept {α : Type} (x : Except Exc α) : M α := fun w => (x, w)

@[simp] theorem pure_apply {α : Type} (a : α) (w : World) : (pure a : M α) w = (.ok a, w) := rfl

@[simp] theorem bind_apply {α β : Type} (m : M α) (f : α → M β) (w : World) :
    (m >>= f) w = match m w with
      | (.ok a, w') => f a w'
      | (.error e, w') => (.error e, w') := rfl

@[simp] theorem raise_apply {α : Type} (e : Exc) (w : World) :
    (raise e : M α) w = (.error e, w) := rfl

@[simp] theorem catchIf_apply {α : Type} (p : Exc → Bool) (m : M α) (h : Exc → M α) (w : World) :
    catchIf p m h w = match m w with
      | (.ok a, w') => (.ok a, w')
      | (.error e, w') => if p e then h e w' else (.error e, w') := rfl

@[simp] theorem getW_apply (w : World) : getW w = (.ok w, w) := rfl

@[simp] theorem modifyW_apply (f : World → World) (w : World) :
    modifyW f w = (.ok (), f w) := rfl

@[simp] theorem ofExcept_apply {α : Type} (x : Except Exc α) (w : World) :
    ofExcept x w = (x, w) := rfl

end M

/-! ### Attribute access on heap objects -/

/-- Read the instance attributes of `o`. -/
def getO (o : Oid) : M Obj := fun w => (.ok (w.objs o), w)

@[simp] theorem getO_apply (o : Oid) (w : World) : getO o w = (.ok (w.objs o), w) := rfl

/-- Write instance attributes of `o`. -/
def modO (o : Oid) (f : Obj → Obj) : M Unit :=
  M.modifyW fun w => { w with objs := upd w.objs o (f (w.objs o)) }

@[simp] theorem modO_apply (o : Oid) (f : Obj → Obj) (w : World) :
    modO o f w = (.ok (), { w with objs := upd w.objs o (f (w.objs o)) }) := rfl

/-- The class of `o`. -/
def clsOf (E : Env) (w : World) (o : Oid) : ClassDef := E.cls (w.objs o).cls

/-- The children stored on `o`: the contents of its storage. -/
def World.children (w : World) (o : Oid) : Od Key Val :=
  match (w.objs o).storage with
  | none => []
  | some r => w.stores r

/-- `objectEventNotify(event)`, lifecycle.py:32, 39, 48, 56: append to the log,
with the children as they are at this moment. -/
def notify (e : Event) : M Unit := M.modifyW fun w => { w with log := w.log ++ [⟨e, w.children⟩] }

@[simp] theorem notify_apply (e : Event) (w : World) :
    notify e w = (.ok (), { w with log := w.log ++ [⟨e, w.children⟩] }) := rfl

end Verif
