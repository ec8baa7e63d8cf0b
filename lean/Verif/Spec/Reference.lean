import Verif.Spec.Tree
import Verif.Spec.Mapping

/-!
# Specification: the uuid index

`Reference` promises that any node of a tree finds every node of the tree by its uuid.
-/

namespace Verif

/-- Classes with the `Reference` behavior once, an ordinary storage, and none of the
behaviors that change what a key means (`Alias`, `Fallback`, `ChildFactory`,
`FixedChildren`, `Cache`) or fail after writing
(`AttributesLifecycle`). -/
structure RefClass (c : ClassDef) : Prop where
  kind : ∃ b, storageKind c.bhvs = some b ∧ b ≠ .storage
  once : ∃ l r, c.bhvs = l ++ .reference :: r ∧ Bhv.reference ∉ l ∧ Bhv.reference ∉ r
  plain : ∀ b ∈ c.bhvs, b ∉ [Bhv.alias, .cache, .fallback, .childFactory, .fixedChildren,
    .attributesLifecycle]

/-- What the node knows: the nodes by uuid. -/
def World.known (w : World) (o : Oid) : Od (Option Nat) Oid :=
  match (w.objs o).index with
  | some r => w.idxs r
  | none => []

/-- The node `x` answers to the uuid `u`. -/
def HasUuid (w : World) (x : Oid) (u : Nat) : Prop := (w.objs x).uuid = some u

/-- The tree below `root` is exactly indexed: every node of the tree, asked for any
uuid, knows the node of the tree with that uuid, and nothing else. -/
def Indexed (w : World) (root : Oid) : Prop := ∀ o, InTree w root o → ∀ u x,
  (w.known o).get? (some u) = some x ↔ InTree w root x ∧ HasUuid w x u

end Verif
