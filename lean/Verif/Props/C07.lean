import Verif.Props.C02
import Verif.Lemmas.Raises

/-!
# C07 Failed assignment does not adopt

Full statement: if `node[k] = child` raises, name and parent of every node are what
they were before.

`Adopt` reverts on `AttributeError`, `KeyError` and `ValueError` only
(common.py:41); `NotImplementedError` (abstract storage, `FixedChildren`) and
`TypeError` leave the child adopted, so the full statement is false.  Proved: it
holds whenever one of the three exceptions is raised, for every stack without
`AttributesLifecycle`; and it holds for every exception for every class with a
concrete storage, without `FixedChildren`, `Alias`, `ChildFactory` and
`AttributesLifecycle`, because no other exception can occur there.
-/

namespace Verif

/-- C07 for the exceptions `Adopt` handles. -/
theorem c07_handled_partial (E : Env) (o : Oid) (k : Key) (v : Val) {w w' : World} {e : Exc}
    (hw : WF w) (hb : Bhv.attributesLifecycle ∉ (clsOf E w o).bhvs) (he : e.isAKV = true)
    (h : setitem E o k v w = (.error e, w')) : ∀ p, w'.loc p = w.loc p := by
  have hl := setitem_loc E o k v hw
  rw [h] at hl
  exact hl.err e rfl he hb

/-- C07 for classes with a concrete storage, whatever the exception.  Bytes keys are
excluded on classes with `Nodespaces` (the `TypeError` of `startswith`); with
`Reference` the assigned node has to be of a concrete class, too. -/
theorem c07_concrete_partial (E : Env) (o : Oid) (k : Key) (v : Val) {w w' : World} {e : Exc}
    (hw : WF w) (hb : Bhv.attributesLifecycle ∉ (clsOf E w o).bhvs)
    (hc : Concrete (clsOf E w o))
    (hv : ∀ c, v = .node c → Bhv.reference ∈ (clsOf E w o).bhvs → Concrete (clsOf E w c))
    (hk : k.NotBytes ∨ Bhv.nodespaces ∉ (clsOf E w o).bhvs)
    (h : setitem E o k v w = (.error e, w')) : ∀ p, w'.loc p = w.loc p := by
  refine c07_handled_partial E o k v hw hb ?_ h
  have := (only_setPipe (E := E) (f := fun p => (w.objs p).cls) (clsOf E w o).bhvs o k v hc hv hk
    hc.noAlias w (cls_self w)).2 e
  exact this (congrArg Prod.fst h)

/-- The shipped classes are concrete. -/
theorem shipped_concrete : Concrete baseNode ∧ Concrete orderedNode ∧ Concrete fullNode ∧
    Concrete nodeAttributes :=
  ⟨⟨⟨_, rfl, by decide⟩, by decide, by decide, by decide⟩,
   ⟨⟨_, rfl, by decide⟩, by decide, by decide, by decide⟩,
   ⟨⟨_, rfl, by decide⟩, by decide, by decide, by decide⟩,
   ⟨⟨_, rfl, by decide⟩, by decide, by decide, by decide⟩⟩

/-! In `c02W` the node 1 is adopted under `c`, then refused by the index check. -/

example : WF c02W ∧ Bhv.attributesLifecycle ∉ (clsOf sampleEnv c02W 0).bhvs ∧
    Concrete (clsOf sampleEnv c02W 0) ∧ Concrete (clsOf sampleEnv c02W 1) ∧ kc.NotBytes ∧
    (setitem sampleEnv 0 kc (.node 1) c02W).1 = .error (.value "Node with uuid already exists") ∧
    Exc.isAKV (.value "Node with uuid already exists") = true :=
  ⟨(reachable_after ..).wf, by decide, ⟨⟨_, rfl, by decide⟩, by decide, by decide, by decide⟩,
   ⟨⟨_, rfl, by decide⟩, by decide, by decide, by decide⟩, trivial, rfl, rfl⟩

/-- The full statement is false: `abstract['a'] = child` raises
`NotImplementedError` and leaves the child located below the node. -/
theorem c07_refuted : ∃ (E : Env) (w w' : World) (o c : Oid) (k : Key) (e : Exc),
    Reachable E w ∧ setitem E o k (.node c) w = (.error e, w') ∧ w.loc c = (.none, none) ∧
    w'.loc c = (k, some o) :=
  ⟨sampleEnv, after sampleEnv [.new 4 .none none, .new 0 .none none], _, 0, 1, ka, .notImpl,
    reachable_after .., rfl, rfl, rfl⟩

end Verif
