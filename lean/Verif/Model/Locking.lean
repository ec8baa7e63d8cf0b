import Verif.Base

/-!
# Tree locks

Model of `node/locking.py`.  Threads run interleaved; each step below is one access to shared
data: reading `root._treelock`, writing it, acquiring and releasing an `RLock`.  A thread is a
stack of things to do, and a flag whether an exception is on its way up.

The root of a node is evaluated once, in `TreeLock.__init__` (line 8); the model has the root in
place of the node.  `threading.RLock` is given by its documentation: owned by one thread at a
time, acquired again by its owner without blocking, released as often as acquired.
-/

namespace Verif.Locking

abbrev Tid := Nat
abbrev Root := Nat
abbrev LockId := Nat

/-- What a thread does: something else, raising an exception, calling a method decorated with
`locktree` (or entering `with TreeLock(node)`) with its body, or running a body and catching its
exceptions. -/
inductive Cmd where
  | work
  | fail
  | locked (r : Root) (body : List Cmd)
  | guard (body : List Cmd)

/-- Things to do. -/
inductive Item where
  | cmd (c : Cmd)
  /-- `_treelock` was read as `None`: line 11 is next. -/
  | create (r : Root) (body : List Cmd)
  /-- `self.lock.acquire()`, line 14, then the body. -/
  | acquire (r : Root) (l : LockId) (body : List Cmd)
  /-- `finally: lock.release()`, lines 33-34 (and 21-22). -/
  | release (r : Root) (l : LockId)
  /-- The end of the body of a `try` that catches. -/
  | caught

/-- A thread. -/
structure Thread where
  raising : Bool := false
  stack : List Item := []

/-- An `RLock`: free, or owned and acquired so many times. -/
abbrev RLock := Option (Tid × Nat)

/-- The process. -/
structure State where
  thr : Tid → Thread := fun _ => {}
  treelock : Root → Option LockId := fun _ => none
  lock : LockId → RLock := fun _ => none
  nlock : Nat := 0

/-- Change one entry. -/
def put {α : Type} (f : Nat → α) (i : Nat) (a : α) : Nat → α := fun j => if j = i then a else f j

/-- `RLock.acquire`: `none` if it blocks. -/
def RLock.acquire (k : RLock) (t : Tid) : Option RLock :=
  match k with
  | none => some (some (t, 1))
  | some (o, n) => if o = t then some (some (t, n + 1)) else none

/-- `RLock.release`; `none` is `RuntimeError`, the lock is not owned by the thread. -/
def RLock.release (k : RLock) (t : Tid) : Option RLock :=
  match k with
  | none => none
  | some (o, n) => if o = t then some (if n ≤ 1 then none else some (t, n - 1)) else none

/-- The next step of thread `t`; `none` if it is finished or blocks. -/
def step (t : Tid) (σ : State) : Option State :=
  let th := σ.thr t
  let go (s : List Item) (σ : State) : Option State := some { σ with thr := put σ.thr t { th with stack := s } }
  match th.stack with
  | [] => none
  | .release r l :: s =>
    -- runs on the normal way and on that of an exception
    match (σ.lock l).release t with
    | some k => go s { σ with lock := put σ.lock l k }
    | none => some { σ with thr := put σ.thr t { raising := true, stack := s } }
  | .caught :: s => some { σ with thr := put σ.thr t { raising := false, stack := s } }
  | .cmd c :: s =>
    if th.raising then go s σ
    else match c with
      | .work => go s σ
      | .fail => some { σ with thr := put σ.thr t { raising := true, stack := s } }
      | .guard b => go (b.map .cmd ++ .caught :: s) σ
      | .locked r b =>
        -- `getattr(root, '_treelock', None)`, line 9
        match σ.treelock r with
        | some l => go (.acquire r l b :: s) σ
        | none => go (.create r b :: s) σ
  | .create r b :: s =>
    -- `self.lock = root._treelock = RLock()`, line 11
    go (.acquire r σ.nlock b :: s)
      { σ with treelock := put σ.treelock r (some σ.nlock), nlock := σ.nlock + 1 }
  | .acquire r l b :: s =>
    match (σ.lock l).acquire t with
    | none => none
    | some k => go (b.map .cmd ++ .release r l :: s) { σ with lock := put σ.lock l k }

/-- One step of some thread. -/
def Step (σ σ' : State) : Prop := ∃ t, step t σ = some σ'

/-- Any number of steps of any threads in any order. -/
inductive Steps : State → State → Prop
  | refl (σ : State) : Steps σ σ
  | tail {σ σ' σ'' : State} : Steps σ σ' → Step σ' σ'' → Steps σ σ''

/-- A process at its start: every thread has commands to run, no lock is held; some roots may
have a lock already. -/
structure Start (σ : State) : Prop where
  cmds : ∀ t, (σ.thr t).raising = false ∧ ∀ i ∈ (σ.thr t).stack, ∃ c, i = .cmd c
  free : ∀ l, σ.lock l = none
  known : ∀ r l, σ.treelock r = some l → l < σ.nlock

end Verif.Locking
