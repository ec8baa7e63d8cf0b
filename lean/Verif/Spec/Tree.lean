import Verif.Spec.View

/-!
# Specification: trees

Containment (who stores whom under which key) and location (names and parents) are
two independent views of a heap.
-/

namespace Verif

/-- `a` is a strict ancestor of `o`. -/
inductive Ancestor (w : World) (a : Oid) : Oid → Prop
  | parent {o : Oid} : (w.loc o).2 = some a → Ancestor w a o
  | up {o p : Oid} : (w.loc o).2 = some p → Ancestor w a p → Ancestor w a o

/-- The strict ancestors of a node, nearest first; the last has no parent. -/
inductive Chain (w : World) : Oid → List Oid → Prop
  | root {o : Oid} : (w.loc o).2 = none → Chain w o []
  | up {o p : Oid} {l : List Oid} : (w.loc o).2 = some p → Chain w p l → Chain w o (p :: l)

/-- `p` stores the node `c` under `k`. -/
def Contains (w : World) (p : Oid) (k : Key) (c : Oid) : Prop := (w.omap p).val k = some (.node c)

/-- Every contained node has its key as name and its container as parent. -/
def Located (w : World) : Prop := ∀ p k c, Contains w p k c → w.loc c = (k, some p)

/-- `o` is reached from `root` by following the keys. -/
inductive Below (w : World) (root : Oid) : List Key → Oid → Prop
  | root : Below w root [] root
  | child {ks : List Key} {p c : Oid} {k : Key} : Below w root ks p → Contains w p k c →
      Below w root (ks ++ [k]) c

/-- `o` is `root` or somewhere below. -/
def InTree (w : World) (root o : Oid) : Prop := ∃ ks, Below w root ks o

/-- Every node has at most one place. -/
def Sole (w : World) : Prop := ∀ p k p' k' c, Contains w p k c → Contains w p' k' c → p = p' ∧ k = k'

end Verif
