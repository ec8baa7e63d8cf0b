import Verif.Model.Api

/-!
# Concrete classes and histories

Used to show that the hypotheses of the theorems are met by something, and as
witnesses where a property is false.
-/

namespace Verif

/-- Results can be compared. -/
instance {ε α : Type} [DecidableEq ε] [DecidableEq α] : DecidableEq (Except ε α)
  | .ok a, .ok b => if h : a = b then isTrue (by rw [h]) else isFalse (by simpa using h)
  | .error a, .error b => if h : a = b then isTrue (by rw [h]) else isFalse (by simpa using h)
  | .ok _, .error _ => isFalse (by simp)
  | .error _, .ok _ => isFalse (by simp)

/-- `NodeChildValidate, Adopt, AsAttrAccess, DefaultInit, Nodify, DictStorage`,
base.py:23-30. -/
def baseNode : ClassDef :=
  { bhvs := [.nodeChildValidate, .adopt, .asAttrAccess, .defaultInit, .nodify, .dictStorage] }

/-- base.py:39-46. -/
def orderedNode : ClassDef :=
  { bhvs := [.nodeChildValidate, .adopt, .asAttrAccess, .defaultInit, .nodify, .odictStorage] }

/-- `Node` and `AttributedNode`, base.py:55-66, 73-84. -/
def fullNode : ClassDef :=
  { bhvs := [.nodeChildValidate, .nodespaces, .adopt, .attributes, .reference, .order,
      .asAttrAccess, .defaultInit, .nodify, .odictStorage], attrsFactory := 3 }

/-- `NodeAttributes`, attributes.py:16-28 (its `__init__` as `DefaultInit`). -/
def nodeAttributes : ClassDef :=
  { bhvs := [.nodeChildValidate, .adopt, .defaultInit, .nodify, .odictStorage],
    allowNonNode := true }

/-- `AbstractNode`, base.py:16-19. -/
def abstractNode : ClassDef := { bhvs := [.adopt, .nodify] }

/-- A caching node. -/
def cacheNode : ClassDef :=
  { bhvs := [.adopt, .cache, .invalidate, .defaultInit, .nodify, .odictStorage] }

/-- A node with events, tests/test_lifecycle.py. -/
def lifecycleNode : ClassDef :=
  { bhvs := [.nodespaces, .attributes, .lifecycle, .defaultInit, .nodify, .dictStorage],
    attrsFactory := 8 }

/-- A reference tree, tests/test_reference.py, tests/test_order.py. -/
def referenceNode : ClassDef :=
  { bhvs := [.adopt, .order, .reference, .defaultInit, .nodify, .odictStorage] }

/-- Attributes with events, tests/test_lifecycle.py. -/
def lifecycleAttributes : ClassDef :=
  { bhvs := [.attributesLifecycle, .nodeChildValidate, .adopt, .defaultInit, .nodify,
      .odictStorage], allowNonNode := true }

/-- Aliased keys: `pre-`. -/
def aliasNode : ClassDef :=
  { bhvs := [.alias, .nodify, .dictStorage], aliaser := some (.pre "p-".toList) }

/-- Fallback, tests/test_fallback.py. -/
def fallbackNode : ClassDef :=
  { bhvs := [.fallback, .adopt, .defaultInit, .nodify, .odictStorage],
    fallbackKey := some (.str ['e', 'n']) }

/-- Child factories, tests/test_common.py. -/
def factoryNode : ClassDef :=
  { bhvs := [.adopt, .childFactory, .defaultInit, .nodify, .odictStorage],
    factories := [(.str ['a'], 1), (.str ['b'], 1)] }

/-- Fixed children, tests/test_common.py. -/
def fixedNode : ClassDef :=
  { bhvs := [.fixedChildren, .nodify], fixed := [(.str ['a'], 0), (.str ['b'], 1)] }

/-- A volatile storage below a cache, tests/test_cache.py. -/
def volatileNode : ClassDef :=
  { bhvs := [.adopt, .cache, .volatileInvalidate, .defaultInit, .nodify, .odictStorage] }

/-- The classes above without child factories. -/
def sampleEnv : Env where
  cls
    | 0 => baseNode
    | 1 => orderedNode
    | 2 => fullNode
    | 3 => nodeAttributes
    | 4 => abstractNode
    | 5 => cacheNode
    | 6 => lifecycleNode
    | 7 => referenceNode
    | 8 => lifecycleAttributes
    | 9 => aliasNode
    | 10 => fallbackNode
    | 11 => fixedNode
    | 12 => volatileNode
    | _ => baseNode

/-- The same with a factory class as number 13. -/
def factoryEnv : Env where
  cls c := if c = 13 then factoryNode else sampleEnv.cls c

/-- The key `'a'`. -/
def ka : Key := .str ['a']
/-- The key `'b'`. -/
def kb : Key := .str ['b']
/-- The key `'c'`. -/
def kc : Key := .str ['c']

/-- The heap after a history. -/
def after (E : Env) (ops : List Op) : World := (execAll E ops {}).2

theorem reachable_after (E : Env) (ops : List Op) : Reachable E (after E ops) := ⟨ops, rfl⟩

end Verif
