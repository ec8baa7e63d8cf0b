import Verif.Spec.Shape

/-!
# Specification: child factories
-/

namespace Verif

/-- Classes with `ChildFactory` whose listed keys can all be read: a storage, no behavior that
translates keys, refuses them, keeps children a second time or looks for them elsewhere, and
`ChildFactory` to the left of the storage.  The factories are classes without `FixedChildren`; where
`Reference` is among the behaviors, so it is among those of the classes in the table. -/
structure FactoryClass (E : Env) (c : ClassDef) : Prop where
  store : StoreClass c
  first : (c.bhvs.find? fun b => b.isStorage || b == .childFactory) = some .childFactory
  noFallback : Bhv.fallback ∉ c.bhvs
  keys : ∀ k ∈ c.factories.keys, KeyFor c k
  makes : ∀ k x, c.factories.get? k = some x → Bhv.fixedChildren ∉ (E.cls x).bhvs ∧
    (Bhv.reference ∈ c.bhvs → Bhv.reference ∈ (E.cls x).bhvs ∧
      (∃ b, storageKind (E.cls x).bhvs = some b ∧ b ≠ .storage) ∧
      ∀ b ∈ (E.cls x).bhvs, b ∉ [Bhv.alias, .childFactory])

/-- The keys of a list that are not in `seen`, each at its first place only. -/
def firsts (seen : List Key) : List Key → List Key
  | [] => []
  | k :: ks => if k ∈ seen then firsts seen ks else k :: firsts (seen ++ [k]) ks

end Verif
