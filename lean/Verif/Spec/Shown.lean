import Verif.Spec.View
import Verif.Spec.Dest
import Verif.Model.Items

/-!
# Specification: what a node shows under a key

What a class of any composition has under a key, read off the dictionaries of the
heap: no computation, no factory, no fallback.
-/

namespace Verif

/-- What is stored: the fixed children, else the contents of the storage. -/
def World.stored (E : Env) (w : World) (o : Oid) (k : Key) : Option Val :=
  if Bhv.fixedChildren ∈ (clsOf E w o).bhvs then (w.objs o).fixed.get? k
  else
    match (clsOf E w o).bhvs.find? Bhv.isStorage with
    | none => none
    | some .storage => none
    | some _ => (w.children o).get? k

/-- The key goes through the behaviors from left to right: `Alias` translates it,
`Nodespaces` answers for reserved names, `Cache` for what it holds. -/
def World.shownBy (E : Env) (w : World) (o : Oid) : List Bhv → Key → Option Val
  | [], k => w.stored E o k
  | .alias :: r, k =>
    match (clsOf E w o).aliaser with
    | none => w.shownBy E o r k
    | some a =>
      if a.truthy then
        match a.unalias k with
        | .ok u => w.shownBy E o r u
        | .error _ => none
      else w.shownBy E o r k
  | .nodespaces :: r, k =>
    match k with
    | .str s => if Reserved s then (w.nsview o).get? k else w.shownBy E o r k
    | _ => w.shownBy E o r k
  | .cache :: r, k =>
    match (w.cached o).get? k with
    | some v => some v
    | none => w.shownBy E o r k
  | _ :: r, k => w.shownBy E o r k

/-- What `o` has under `k`. -/
def World.shown (E : Env) (w : World) (o : Oid) (k : Key) : Option Val :=
  w.shownBy E o (clsOf E w o).bhvs k

/-- Which entry of which dictionary a read of `k` ends at when no `Cache` answers. -/
def slot (al : Option Aliaser) : List Bhv → Key → Option Dest
  | [], k => some (.child k)
  | .alias :: r, k =>
    match al with
    | none => slot al r k
    | some a =>
      if a.truthy then
        match a.unalias k with
        | .ok u => slot al r u
        | .error _ => none
      else slot al r k
  | .nodespaces :: r, k =>
    match k with
    | .str s => if Reserved s then some (.nodespace k) else slot al r k
    | _ => slot al r k
  | _ :: r, k => slot al r k

/-- `o` is found from `root` along the keys `ks`, and every node on the way is located
where it is found: its name is the key and its parent the node that has it. -/
inductive LocatedAt (E : Env) (w : World) (root : Oid) : List Key → Oid → Prop
  | root : root < w.nobj → LocatedAt E w root [] root
  | item {ks : List Key} {p c : Oid} {k : Key} : LocatedAt E w root ks p →
      w.shown E p k = some (.node c) → w.loc c = (k, some p) → c < w.nobj →
      LocatedAt E w root (ks ++ [k]) c

end Verif
