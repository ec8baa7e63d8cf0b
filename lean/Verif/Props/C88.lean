import Verif.Model.Getattr
import Verif.Props.C84

/-!
# C88 Children as attributes

`GetattrChildren` makes the children of a node readable as attributes.  What was assigned is
read, attributes the object has itself win.  A name that is neither raises `KeyError`, not
`AttributeError`: `hasattr` and `getattr` with a default raise instead of answering.
-/

namespace Verif

variable {E : Env} {w w' : World} {o : Oid} {name : Str} {v : Val} {own : Oid → Str → Bool}

/-- C88: after an assignment that returned, the attribute is the value, `hasattr` says yes and
`getattr` with a default does not give the default. -/
theorem c88_written (hg : Bhv.getattrChildren ∈ (clsOf E w o).bhvs) (hn : own o name = false) (hw : WF w)
    (h : setitem E o (.str name) v w = (.ok (), w')) :
    (getAttribute E own o name w').1 = .ok (.item v) ∧ (hasAttribute E own o name w').1 = .ok true ∧
      (getAttributeOr E own o name w').1 = .ok (some (.item v)) := by
  obtain ⟨hw', hs⟩ := c83_shown hw h
  obtain ⟨w2, h1, -⟩ := c82_get hw' hs
  have hc : (bhvsOf E w' o).contains .getattrChildren = true := by
    unfold bhvsOf; rw [(wrote_setitem hw h).clsOf]; exact List.contains_iff_mem.mpr hg
  have hr : getAttribute E own o name w' = (.ok (.item v), w2) := by
    unfold getAttribute
    rw [hn, hc, h1]; rfl
  refine ⟨by rw [hr], ?_, ?_⟩
  · simp only [hasAttribute, M.catchIf_apply, M.bind_apply, hr, M.pure_apply]
  · simp only [getAttributeOr, M.catchIf_apply, M.bind_apply, hr, M.pure_apply]

/-- C88: a child under the name of an attribute the object has is not reachable this way, whatever
is done to the node; the item still is. -/
theorem c88_shadowed (hn : own o name = true) (hw : WF w)
    (h : setitem E o (.str name) v w = (.ok (), w')) :
    getAttribute E own o name w' = (.ok (.builtin name), w') ∧ (getitem E o (.str name) w').1 = .ok v := by
  refine ⟨?_, (c83_read hw h v).1⟩
  unfold getAttribute
  rw [if_pos hn]

/-- C88: an attribute is a child or one of the object: nothing else is returned, and only what
`node[name]` returns. -/
theorem c88_sound {r : Read} (h : getAttribute E own o name w = (.ok r, w')) :
    r = .builtin name ∧ own o name = true ∧ w' = w ∨
      ∃ v, r = .item v ∧ own o name = false ∧ getitem E o (.str name) w = (.ok v, w') := by
  unfold getAttribute at h
  cases hn : own o name with
  | true =>
    rw [hn, if_pos rfl] at h
    obtain ⟨h1, h2⟩ := Prod.mk.inj h
    exact .inl ⟨(Except.ok.inj h1).symm, rfl, h2.symm⟩
  | false =>
    rw [hn, if_neg (by decide)] at h
    split at h
    · rcases hx : getitem E o (.str name) w with ⟨x | x, w2⟩ <;> rw [hx] at h
      · exact absurd (Prod.mk.inj h).1 (by simp)
      · obtain ⟨h1, h2⟩ := Prod.mk.inj h
        exact .inr ⟨x, (Except.ok.inj h1).symm, rfl, by rw [h2]⟩
    · exact absurd (Prod.mk.inj h).1 (by simp)

/-- C88: asking for a name that is neither a child nor an attribute of the object raises `KeyError`
with the name, all three ways of asking; nothing visible changes.  Unless a factory or a fallback
has to be asked, and for names the alias table knows. -/
theorem c88_absent_partial (hg : Bhv.getattrChildren ∈ (clsOf E w o).bhvs) (hn : own o name = false)
    (hw : WF w) (hf : Bhv.childFactory ∉ (clsOf E w o).bhvs) (hb : Bhv.fallback ∉ (clsOf E w o).bhvs)
    (h : w.shown E o (.str name) = none)
    (hs : ∃ d, slot (clsOf E w o).aliaser (clsOf E w o).bhvs (.str name) = some d)
    (hst : ∀ u, slot (clsOf E w o).aliaser (clsOf E w o).bhvs (.str name) = some (.child u) →
      Stores (clsOf E w o) ∨ Bhv.fixedChildren ∈ (clsOf E w o).bhvs) :
    ∃ w', getAttribute E own o name w = (.error (.key (.key (.str name))), w') ∧
      hasAttribute E own o name w = (.error (.key (.key (.str name))), w') ∧
      getAttributeOr E own o name w = (.error (.key (.key (.str name))), w') ∧
      WF w' ∧ ∀ p j, w'.shown E p j = w.shown E p j := by
  obtain ⟨w', h1, h2, h3⟩ := c84_absent hw hf hb h hs hst
  have hc : (bhvsOf E w o).contains .getattrChildren = true := List.contains_iff_mem.mpr hg
  have hr : getAttribute E own o name w = (.error (.key (.key (.str name))), w') := by
    unfold getAttribute
    rw [hn, hc, h1]; rfl
  refine ⟨w', hr, ?_, ?_, h2, h3⟩
  · simp only [hasAttribute, M.catchIf_apply, M.bind_apply, hr, Exc.isAttr, if_false, Bool.false_eq_true]
  · simp only [getAttributeOr, M.catchIf_apply, M.bind_apply, hr, Exc.isAttr, if_false, Bool.false_eq_true]

/-- C88: so it is after a deletion that returned. -/
theorem c88_deleted_partial (hg : Bhv.getattrChildren ∈ (clsOf E w o).bhvs) (hn : own o name = false)
    (hw : WF w) (ho : o < w.nobj) (hu : Unread (clsOf E w o).bhvs)
    (hf : Bhv.childFactory ∉ (clsOf E w o).bhvs) (hb : Bhv.fallback ∉ (clsOf E w o).bhvs)
    (h : delitem E o (.str name) w = (.ok (), w')) :
    (getAttribute E own o name w').1 = .error (.key (.key (.str name))) ∧
      (hasAttribute E own o name w').1 = .error (.key (.key (.str name))) ∧
      (getAttributeOr E own o name w').1 = .error (.key (.key (.str name))) := by
  have g := gone_delPipe _ hu hw ho h
  obtain ⟨w2, h1, h2, h3, -⟩ := c88_absent_partial (own := own) (by rw [g.cls]; exact hg) hn g.wf
    (by rw [g.cls]; exact hf) (by rw [g.cls]; exact hb) (c84_gone_partial hw ho hu h).2
    (by rw [g.cls]; exact g.slot) (by rw [g.cls]; exact fun u hu => .inl (g.stores u hu))
  exact ⟨by rw [h1], by rw [h2], by rw [h3]⟩

/-- C88: a class with a storage and without aliases, factories and fallback never says
that it does not have an attribute: `hasattr` returns `True` or raises. -/
theorem c88_never_no_partial (hg : Bhv.getattrChildren ∈ (clsOf E w o).bhvs) (hw : WF w)
    (hc : Concrete (clsOf E w o)) (hb : Bhv.fallback ∉ (clsOf E w o).bhvs)
    (hs : ∃ d, slot (clsOf E w o).aliaser (clsOf E w o).bhvs (.str name) = some d) :
    (hasAttribute E own o name w).1 ≠ .ok false ∧ (getAttributeOr E own o name w).1 ≠ .ok none := by
  cases hn : own o name with
  | true =>
    have hr : getAttribute E own o name w = (.ok (.builtin name), w) := by
      unfold getAttribute; rw [if_pos hn]
    simp only [hasAttribute, getAttributeOr, M.catchIf_apply, M.bind_apply, hr, M.pure_apply]
    exact ⟨by simp, by simp⟩
  | false =>
    cases hv : w.shown E o (.str name) with
    | none =>
      obtain ⟨w', -, h2, h3, -⟩ := c88_absent_partial (own := own) hg hn hw hc.noFactory hb hv hs
        fun u _ => .inl hc.stores
      rw [h2, h3]
      exact ⟨by simp, by simp⟩
    | some v =>
      obtain ⟨w2, h1, -⟩ := c82_get hw hv
      have hc : (bhvsOf E w o).contains .getattrChildren = true := List.contains_iff_mem.mpr hg
      have hr : getAttribute E own o name w = (.ok (.item v), w2) := by
        unfold getAttribute
        rw [hn, hc, h1]; rfl
      simp only [hasAttribute, getAttributeOr, M.catchIf_apply, M.bind_apply, hr, M.pure_apply]
      exact ⟨by simp, by simp⟩

/-! ### What the package itself asks such nodes -/

/-- C88: `TreeLock(node)` raises `KeyError('_treelock')` if the root has `GetattrChildren`, no lock yet
and no child of that name: a tree with such a root is never locked. -/
theorem c88_lock {r : Oid} (hr : rootOf w o = some r) (hg : Bhv.getattrChildren ∈ (clsOf E w r).bhvs)
    (hn : own r treelockName = false) (hw : WF w) (hf : Bhv.childFactory ∉ (clsOf E w r).bhvs)
    (hb : Bhv.fallback ∉ (clsOf E w r).bhvs) (h : w.shown E r (.str treelockName) = none)
    (hs : ∃ d, slot (clsOf E w r).aliaser (clsOf E w r).bhvs (.str treelockName) = some d)
    (hst : ∀ u, slot (clsOf E w r).aliaser (clsOf E w r).bhvs (.str treelockName) = some (.child u) →
      Stores (clsOf E w r) ∨ Bhv.fixedChildren ∈ (clsOf E w r).bhvs) :
    (treeLockOf E own o w).1 = .error (.key (.key (.str treelockName))) := by
  obtain ⟨w', -, -, h3, -⟩ := c88_absent_partial hg hn hw hf hb h hs hst
  unfold treeLockOf
  rw [hr]
  simp only [h3]

/-- C88: if there is a child of that name, the child is taken for the lock. -/
theorem c88_lock_child {r : Oid} (hr : rootOf w o = some r) (hg : Bhv.getattrChildren ∈ (clsOf E w r).bhvs)
    (hn : own r treelockName = false) (hw : WF w) (h : w.shown E r (.str treelockName) = some v) :
    (treeLockOf E own o w).1 = .ok (.item v) := by
  obtain ⟨w2, h1, -⟩ := c82_get hw h
  have hc : (bhvsOf E w r).contains .getattrChildren = true := List.contains_iff_mem.mpr hg
  have ha : getAttribute E own r treelockName w = (.ok (.item v), w2) := by
    unfold getAttribute
    rw [hn, hc, h1]; rfl
  unfold treeLockOf
  rw [hr]
  simp only [getAttributeOr, M.catchIf_apply, M.bind_apply, ha, M.pure_apply]

/-- C88: without `GetattrChildren` the root gets a lock. -/
theorem c88_lock_created {r : Oid} (hr : rootOf w o = some r)
    (hg : Bhv.getattrChildren ∉ (clsOf E w r).bhvs) (hn : own r treelockName = false) :
    treeLockOf E own o w = (.ok .created, w) := by
  have hc : (bhvsOf E w r).contains .getattrChildren = false := by
    rw [Bool.eq_false_iff]; exact fun h => hg (List.contains_iff_mem.mp h)
  have ha : getAttribute E own r treelockName w = (.error .attr, w) := by
    unfold getAttribute
    rw [hn, hc]; rfl
  unfold treeLockOf
  rw [hr]
  simp only [getAttributeOr, M.catchIf_apply, M.bind_apply, ha, Exc.isAttr, if_true, M.pure_apply]

/-- C88: the insertions of `Order` ask for the attribute `node` and raise `KeyError('node')` on nodes
with `GetattrChildren` that have no child of that name. -/
theorem c88_order (hg : Bhv.getattrChildren ∈ (clsOf E w o).bhvs) (hn : own o nodeName = false) (hw : WF w)
    (hf : Bhv.childFactory ∉ (clsOf E w o).bhvs) (hb : Bhv.fallback ∉ (clsOf E w o).bhvs)
    (h : w.shown E o (.str nodeName) = none)
    (hs : ∃ d, slot (clsOf E w o).aliaser (clsOf E w o).bhvs (.str nodeName) = some d)
    (hst : ∀ u, slot (clsOf E w o).aliaser (clsOf E w o).bhvs (.str nodeName) = some (.child u) →
      Stores (clsOf E w o) ∨ Bhv.fixedChildren ∈ (clsOf E w o).bhvs) :
    (askNode E own o w).1 = .error (.key (.key (.str nodeName))) := by
  obtain ⟨w', -, h2, -⟩ := c88_absent_partial hg hn hw hf hb h hs hst
  unfold askNode
  rw [h2]

/-! ### The claim is false -/

/-- A class as in test_common.py:245-247. -/
def attrsEnv : Env where
  cls := fun _ => { bhvs := [.getattrChildren, .adopt, .asAttrAccess, .defaultInit, .nodify, .dictStorage] }
  depth := 3

/-- Some of the names a node of such a class has itself. -/
def someOwn : Oid → Str → Bool := fun _ n => ["name", "keys", "root"].any fun x => x.toList = n

def attrsOps : List Op :=
  [.new 0 .none none, .new 0 .none none, .set 0 (.str "foo".toList) (.node 1),
    .set 0 (.str "keys".toList) (.data (.int 20))]

/-- C88 does not hold: `hasattr` raises. -/
theorem c88_refuted : ¬ ∀ (E : Env) (w : World) (own : Oid → Str → Bool) (o : Oid) (name : Str),
    Reachable E w → o < w.nobj → ∃ b, (hasAttribute E own o name w).1 = .ok b := by
  intro h
  obtain ⟨b, hb⟩ := h attrsEnv _ someOwn 0 "bar".toList (reachable_after attrsEnv attrsOps) (by decide +kernel)
  have he : (hasAttribute attrsEnv someOwn 0 "bar".toList (after attrsEnv attrsOps)).1 =
      .error (.key (.key (.str "bar".toList))) := by decide +kernel
  rw [he] at hb
  exact absurd hb (by simp)

/-! ### Instances -/

example : (getAttribute attrsEnv someOwn 0 "foo".toList (after attrsEnv attrsOps)).1 = .ok (.item (.node 1)) ∧
    (getAttribute attrsEnv someOwn 0 "keys".toList (after attrsEnv attrsOps)).1 = .ok (.builtin "keys".toList) ∧
    (getAttribute attrsEnv someOwn 0 "bar".toList (after attrsEnv attrsOps)).1 =
      .error (.key (.key (.str "bar".toList))) := by decide +kernel

/-- The hypotheses of `c88_written` and `c88_deleted_partial`. -/
example : Bhv.getattrChildren ∈ (clsOf attrsEnv (after attrsEnv attrsOps) 0).bhvs ∧
    someOwn 0 "bar".toList = false ∧ Unread (clsOf attrsEnv (after attrsEnv attrsOps) 0).bhvs ∧
    (setitem attrsEnv 0 (.str "bar".toList) (.data (.int 1)) (after attrsEnv attrsOps)).1 = .ok () ∧
    (delitem attrsEnv 0 (.str "foo".toList) (after attrsEnv attrsOps)).1 = .ok () := by
  refine ⟨by decide +kernel, by decide +kernel, ?_, by decide +kernel, by decide +kernel⟩
  show Unread [.getattrChildren, .adopt, .asAttrAccess, .defaultInit, .nodify, .dictStorage]
  simp [Unread]

/-- Those of `c88_lock` and what it says. -/
example : rootOf (after attrsEnv attrsOps) 1 = some 0 ∧
    (after attrsEnv attrsOps).shown attrsEnv 0 (.str treelockName) = none ∧
    (treeLockOf attrsEnv someOwn 1 (after attrsEnv attrsOps)).1 =
      .error (.key (.key (.str "_treelock".toList))) ∧
    (askNode attrsEnv someOwn 0 (after attrsEnv attrsOps)).1 = .error (.key (.key (.str "node".toList))) := by
  decide +kernel

end Verif
