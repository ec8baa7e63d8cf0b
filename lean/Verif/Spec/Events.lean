import Verif.Model.Events

/-!
# Specification: subscriptions

Which subscribers an event has, told from the history alone: those bound and not unbound
since, in the order of the bindings.
-/

namespace Verif.Events

/-- The operations on subscriptions. -/
inductive Op where
  | register (o : Obj) (e : Name)
  | bind (o : Obj) (kw : List (Name × Sub))
  | unbind (o : Obj) (e : Option Name) (s : Option Sub)

/-- Run one operation. -/
def runOp : Op → St → Except Err Unit × St
  | .register o e, st => (.ok (), register o e st)
  | .bind o kw, st => bind o kw st
  | .unbind o e s, st => (.ok (), unbind o e s st)

/-- Run a history. -/
def run : List Op → St → St
  | [], st => st
  | op :: h, st => run h (runOp op st).2

/-- The subscribers of an event. -/
def subsOf (st : St) (o : Obj) (e : Name) : List Sub :=
  match (st.inst o).subs.get? e with
  | some r => st.lists r
  | none => []

/-- `e` is known to `o`: from the start, or registered. -/
def Known (D : Obj → Name → Prop) (h : List Op) (o : Obj) (e : Name) : Prop :=
  D o e ∨ Op.register o e ∈ h

/-- Operation `op`, after history `h`, binds `s` to the event: the event and all those named
before it in the call are known. -/
def Binds (D : Obj → Name → Prop) (h : List Op) (op : Op) (o : Obj) (e : Name) (s : Sub) : Prop :=
  ∃ pre post, op = .bind o (pre ++ (e, s) :: post) ∧ (∀ x ∈ pre, Known D h o x.1) ∧ Known D h o e

/-- Operation `op` unbinds `s` from the event. -/
def Unbinds (op : Op) (o : Obj) (e : Name) (s : Sub) : Prop :=
  ∃ e' s', op = .unbind o e' s' ∧ (e' = none ∨ e' = some e) ∧ (s' = none ∨ s' = some s)

/-- Bound by operation number `i` and not unbound since. -/
def Lives (D : Obj → Name → Prop) (h : List Op) (o : Obj) (e : Name) (i : Nat) (s : Sub) : Prop :=
  (∃ op, h[i]? = some op ∧ Binds D (h.take i) op o e s) ∧
    ∀ j op, i < j → h[j]? = some op → ¬ Unbinds op o e s

/-- The first binding that lives. -/
def Born (D : Obj → Name → Prop) (h : List Op) (o : Obj) (e : Name) (i : Nat) (s : Sub) : Prop :=
  Lives D h o e i s ∧ ∀ j, j < i → ¬ Lives D h o e j s

/-- Keyword arguments name each event once. -/
def Op.Ok : Op → Prop
  | .bind _ kw => (kw.map (·.1)).Nodup
  | _ => True

/-- No two subscriptions share a list. -/
structure Apart (st : St) : Prop where
  nodup : ∀ o, (st.inst o).subs.keys.Nodup
  lt : ∀ o e r, (st.inst o).subs.get? e = some r → r < st.nlist
  inj : ∀ o e o' e' r, (st.inst o).subs.get? e = some r → (st.inst o').subs.get? e' = some r → o = o' ∧ e = e'

end Verif.Events
