import Verif.Spec.Copy

/-!
# Specification: programs that share no node

Several programs ("sessions") take turns.  Each has in hand the nodes its own operations returned, and
hands only these to its next operations.
-/

namespace Verif

variable {κ : Type} [DecidableEq κ]

/-- What every session has in hand after one more operation of session `k`. -/
def receive (E : Env) (K : κ → List Oid) (k : κ) (op : Op) (w : World) : κ → List Oid := fun j =>
  if j = k then K k ++ gives (exec E op w).1 else K j

/-- Every operation is given only nodes its session has in hand. -/
def Sessions (E : Env) : (κ → List Oid) → List (κ × Op) → World → Prop
  | _, [], _ => True
  | K, (k, op) :: r, w => (∀ c, Val.node c ∈ op.vals → c ∈ K k) ∧ Sessions E (receive E K k op w) r (exec E op w).2

/-- What every session has in hand at the end. -/
def inHand (E : Env) : (κ → List Oid) → List (κ × Op) → World → κ → List Oid
  | K, [], _ => K
  | K, (k, op) :: r, w => inHand E (receive E K k op w) r (exec E op w).2

/-- Everything that can be got at from a node: its parent, its children, what is in its cache, its
attributes and other nodespaces, the nodes in the index of its tree, its fixed children, and whatever can
be got at from these. -/
inductive GetsAt (w : World) (o : Oid) : Oid → Prop
  | self : GetsAt w o o
  | parent {p q : Oid} : GetsAt w o p → (w.objs p).parent = some q → GetsAt w o q
  | child {p q : Oid} {k : Key} : GetsAt w o p → (k, Val.node q) ∈ w.children p → GetsAt w o q
  | cached {p q : Oid} {k : Key} : GetsAt w o p → (k, Val.node q) ∈ w.cached p → GetsAt w o q
  | space {p q : Oid} {k : Key} : GetsAt w o p → (k, Val.node q) ∈ w.nsview p → GetsAt w o q
  | indexed {p q : Oid} {u : Option Nat} : GetsAt w o p → (u, q) ∈ w.indexed p → GetsAt w o q
  | fixed {p q : Oid} {k : Key} : GetsAt w o p → (k, Val.node q) ∈ (w.objs p).fixed → GetsAt w o q

/-- Nodes that have to do with each other: one can be got at from the other, or they use the same index,
or both have to do with a third. -/
inductive Connected (w : World) : Oid → Oid → Prop
  | getsAt {o p : Oid} : o < w.nobj → GetsAt w o p → Connected w o p
  | index {o p : Oid} {r : Ref} : o < w.nobj → p < w.nobj → (w.objs o).index = some r → (w.objs p).index = some r → Connected w o p
  | symm {o p : Oid} : Connected w o p → Connected w p o
  | trans {o p q : Oid} : Connected w o p → Connected w p q → Connected w o q

end Verif
