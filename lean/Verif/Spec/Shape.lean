import Verif.Spec.Tree
import Verif.Spec.Mapping

/-!
# Specification: the shape of a tree

A tree of nodes as a value: class, name, attributes and children of every node.
-/

namespace Verif

/-- A tree: class, name, attributes in order, children in order. -/
inductive NTree where
  | mk (cls : ClassId) (name : Key) (attrs : List (Str × Data)) (kids : List NTree)

/-- The class of the topmost node. -/
def NTree.cls : NTree → ClassId
  | .mk c _ _ _ => c

/-- The name of the topmost node. -/
def NTree.name : NTree → Key
  | .mk _ n _ _ => n

/-- The node `o` of the heap has exactly these attributes, kept by an instance of the attributes
class of its class which is in `P`; or it has none, and nobody asked for them so far. -/
def HasAttrs (E : Env) (P : Oid → Prop) (w : World) (o : Oid) (attrs : List (Str × Data)) : Prop :=
  match (w.nmap o).val attrsKey with
  | some (.node a) => P a ∧ (w.objs a).cls = (clsOf E w o).attrsFactory ∧
      (w.omap a).items = attrs.map fun kv => (Key.str kv.1, Val.data kv.2)
  | some (.data _) => False
  | none => attrs = []

mutual
/-- The tree at the node `o` of the heap has the given shape, and all its nodes are in `P`.
Children are located below their parent. -/
def Shape (E : Env) (P : Oid → Prop) (w : World) : NTree → Oid → Prop
  | .mk c name attrs kids, o => P o ∧ (w.objs o).cls = c ∧ (w.objs o).name = name ∧
      (if Bhv.attributes ∈ (E.cls c).bhvs then HasAttrs E P w o attrs else attrs = []) ∧
      Shapes E P w o kids (w.omap o).items
/-- The items are nodes of the given shapes, under their names, with `o` as parent. -/
def Shapes (E : Env) (P : Oid → Prop) (w : World) (o : Oid) :
    List NTree → List (Key × Val) → Prop
  | [], l => l = []
  | t :: ts, l => ∃ c r, l = (t.name, .node c) :: r ∧ (w.objs c).parent = some o ∧
      Shape E P w t c ∧ Shapes E P w o ts r
end

/-- Classes whose nodes can be assigned to: a storage, and none of the behaviors that translate
keys, refuse them or keep children a second time. -/
structure StoreClass (c : ClassDef) : Prop where
  kind : ∃ b, storageKind c.bhvs = some b ∧ b ≠ .storage
  plain : ∀ b ∈ c.bhvs, b ∉ [Bhv.alias, .cache, .fixedChildren, .attributesLifecycle]

/-- Classes whose nodes take children under any plain key: a storage, and none of the behaviors that
translate keys, refuse them or need a parent. -/
structure TakeClass (c : ClassDef) : Prop where
  kind : ∃ b, storageKind c.bhvs = some b ∧ b ≠ .storage
  plain : ∀ b ∈ c.bhvs, b ∉ [Bhv.alias, .fixedChildren, .attributesLifecycle]

theorem StoreClass.take {c : ClassDef} (h : StoreClass c) : TakeClass c :=
  ⟨h.kind, fun b hb hm => h.plain b hb (by simp only [List.mem_cons] at hm ⊢; rcases hm with h | h | h | h <;> simp_all)⟩

/-- Classes whose nodes can be read item by item: a storage, and none of the behaviors that
translate keys, make up children or keep them a second time. -/
structure ReadClass (c : ClassDef) : Prop where
  kind : ∃ b, storageKind c.bhvs = some b ∧ b ≠ .storage
  plain : ∀ b ∈ c.bhvs, b ∉ [Bhv.alias, .cache, .childFactory, .fixedChildren, .attributesLifecycle]

end Verif
