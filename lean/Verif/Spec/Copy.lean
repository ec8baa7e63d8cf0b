import Verif.Spec.Tree
import Verif.Model.Api

/-!
# Specification: copies

What it means that a part of the heap is a copy of another, and that one part stays as it is while
operations work on another.
-/

namespace Verif

/-- The values handed to an operation. -/
def Op.vals : Op → List Val
  | .new _ _ p => (p.map Val.node).toList
  | .get o _ | .del o _ | .contains o _ | .keys o | .values o | .items o | .len o | .popitem o | .clear o
  | .detach o _ | .invalidate o _ | .attrs o | .setUuid o _ | .setFallbackKey o _ => [.node o]
  | .set o _ v | .getD o _ v | .setdefault o _ v => [.node o, v]
  | .pop o _ d => .node o :: d.toList
  | .update o kvs => .node o :: kvs.map Prod.snd
  | .insertBefore o a b | .insertAfter o a b | .swap o a b => [.node o, .node a, .node b]
  | .insertFirst o a | .insertLast o a => [.node o, .node a]

/-- The values in a result. -/
def Res.outs : Res → List Val
  | .unit | .bool _ | .nat _ | .keys _ => []
  | .val v | .item _ v => [v]
  | .vals vs => vs
  | .items kvs => kvs.map Prod.snd

/-- A history whose operations are given only nodes that exist and are in `P`. -/
def Uses (E : Env) (P : Oid → Prop) : List Op → World → Prop
  | [], _ => True
  | op :: r, w => (∀ c, Val.node c ∈ op.vals → c < w.nobj ∧ P c) ∧ Uses E P r (exec E op w).2

/-- The nodes in the result of an operation. -/
def gives : Except Exc Res → List Oid
  | .error _ => []
  | .ok r => r.outs.filterMap fun v => match v with
    | .node c => some c
    | .data _ => none

/-- A history whose operations are given only nodes from `K` and nodes the earlier operations of the
history returned. -/
def Handles (E : Env) : List Oid → List Op → World → Prop
  | _, [], _ => True
  | K, op :: r, w => (∀ c, Val.node c ∈ op.vals → c ∈ K) ∧
      Handles E (K ++ gives (exec E op w).1) r (exec E op w).2

/-- The index a node of a `Reference` tree uses. -/
def World.indexed (w : World) (o : Oid) : Od (Option Nat) Oid :=
  match (w.objs o).index with
  | none => []
  | some r => w.idxs r

/-- The attributes of a node and the contents of all its dictionaries are as before. -/
structure Unchanged (w w' : World) (p : Oid) : Prop where
  obj : w'.objs p = w.objs p
  children : w'.children p = w.children p
  cached : w'.cached p = w.cached p
  nsview : w'.nsview p = w.nsview p
  indexed : w'.indexed p = w.indexed p

/-- No reference leads to an object or a dictionary that does not exist. -/
structure Intact (w : World) : Prop where
  parent : ∀ o p, o < w.nobj → (w.objs o).parent = some p → p < w.nobj
  fixed : ∀ o k c, o < w.nobj → (k, Val.node c) ∈ (w.objs o).fixed → c < w.nobj
  stores : ∀ r k c, r < w.nstore → (k, Val.node c) ∈ w.stores r → c < w.nobj
  caches : ∀ r k c, r < w.ncache → (k, Val.node c) ∈ w.caches r → c < w.nobj
  nspaces : ∀ r k c, r < w.nnspace → (k, Val.node c) ∈ w.nspaces r → c < w.nobj
  idxs : ∀ r u c, r < w.nidx → (u, c) ∈ w.idxs r → c < w.nobj
  storage : ∀ o r, (w.objs o).storage = some r → r < w.nstore
  cache : ∀ o r, (w.objs o).cache = some r → r < w.ncache
  nodespaces : ∀ o r, (w.objs o).nodespaces = some r → r < w.nnspace
  index : ∀ o r, (w.objs o).index = some r → r < w.nidx

/-- A value with the node in it replaced. -/
def Val.by (f : Oid → Oid) : Val → Val
  | .node c => .node (f c)
  | .data d => .data d

/-- Items with the nodes in them replaced. -/
def itemsBy (f : Oid → Oid) (l : List (Key × Val)) : List (Key × Val) := l.map fun kv => (kv.1, kv.2.by f)

/-- The node `f o` is like `o`, with everything it leads to replaced by its copy. -/
structure CopyOf (f : Oid → Oid) (w w' : World) (o : Oid) : Prop where
  cls : (w'.objs (f o)).cls = (w.objs o).cls
  name : (w'.objs (f o)).name = (w.objs o).name
  parent : (w'.objs (f o)).parent = (w.objs o).parent.map f
  children : (w'.omap (f o)).items = itemsBy f (w.omap o).items
  nodespaces : (w'.nmap (f o)).items = itemsBy f (w.nmap o).items
  cached : w'.cached (f o) = itemsBy f (w.cached o)
  indexed : w'.indexed (f o) = (w.indexed o).map fun kv => (kv.1, f kv.2)
  fallbackKey : (w'.objs (f o)).fallbackKey = (w.objs o).fallbackKey

/-- Every uuid in use was handed out before. -/
structure Issued (w : World) : Prop where
  uuid : ∀ p u, p < w.nobj → (w.objs p).uuid = some u → u < w.nuuid
  idx : ∀ r i x, (w.idxs r).get? (some i) = some x → i < w.nuuid
  pos : 0 < w.nuuid

/-- All items of the node and of everything below are nodes, and every way down ends. -/
inductive NodeTree (w : World) : Oid → Prop
  | mk {o : Oid} (items : ∀ k v, (w.omap o).val k = some v → ∃ c, v = .node c)
      (below : ∀ k c, Contains w o k c → NodeTree w c) : NodeTree w o

end Verif
