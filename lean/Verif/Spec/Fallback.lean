import Verif.Spec.Tree
import Verif.Spec.Dest

/-!
# Specification: fallbacks

A node may declare one of its items as fallback for the others.  What is missing at
some path is looked for at the same remaining path below the declared item.
-/

namespace Verif

variable (E : Env) (w : World)

/-- A name `Nodespaces` keeps apart. -/
def ReservedKey : Key → Prop
  | .str s => Reserved s
  | _ => False

instance (k : Key) : Decidable (ReservedKey k) := by
  unfold ReservedKey; split <;> infer_instance

/-- The item `p` itself has under `k`. -/
def itemAt (p : Oid) (k : Key) : Option Val :=
  if Bhv.nodespaces ∈ (clsOf E w p).bhvs ∧ ReservedKey k then (w.nmap p).val k
  else (w.omap p).val k

/-- `p` declares the item `k` as fallback, on the instance or on its class. -/
def Declares (p : Oid) (k : Key) : Prop :=
  ((w.objs p).fallbackKey = some k ∨
    (w.objs p).fallbackKey = none ∧ (clsOf E w p).fallbackKey = some k) ∧
  k ≠ .none ∧ k ≠ .str [] ∧ k ≠ .int 0 ∧ k ≠ .bytes []

/-- Following the keys from a value leads to a value. -/
inductive Leads : Val → List Key → Val → Prop
  | here (v : Val) : Leads v [] v
  | step {p : Oid} {k : Key} {v u : Val} {ks : List Key} : itemAt E w p k = some v → Leads v ks u →
      Leads (.node p) (k :: ks) u

/-- Following the keys ends at the node `c` that lacks the next one. -/
inductive Stuck : Val → List Key → Oid → Prop
  | here {p : Oid} {k : Key} {ks : List Key} : itemAt E w p k = none → Stuck (.node p) (k :: ks) p
  | step {p c : Oid} {k : Key} {v : Val} {ks : List Key} : itemAt E w p k = some v → Stuck v ks c →
      Stuck (.node p) (k :: ks) c

/-- `s` is the fallback declared by `p`, and `ks` remains of the path `full` below it. -/
def FallsTo (full : List Key) (p s : Oid) (ks : List Key) : Prop :=
  ∃ fk l, Declares E w p fk ∧ itemAt E w p fk = some (.node s) ∧ Chain w s l ∧
    ks = full.drop (l.length + 1)

/-- A value for the path `full` that a search starting at `n` may return: below the
fallback of an ancestor, or, where that lacks the path, a value for a search starting at
the node where it ended. -/
inductive Found (full : List Key) : Oid → Val → Prop
  | hit {n a p s : Oid} {ks : List Key} {v : Val} : a = n ∨ Ancestor w a n → (w.loc a).2 = some p →
      FallsTo E w full p s ks → Leads E w (.node s) ks v → Found full n v
  | more {n a p s c : Oid} {ks : List Key} {v : Val} : a = n ∨ Ancestor w a n →
      (w.loc a).2 = some p → FallsTo E w full p s ks → Stuck E w (.node s) ks c →
      Found full c v → Found full n v

end Verif
