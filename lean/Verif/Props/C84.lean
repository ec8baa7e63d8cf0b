import Verif.Props.C83
import Verif.Lemmas.GoneFrame

/-!
# C84 What is deleted is gone

`del node[k]` followed by reads, for every composition of behaviors and every well-formed
heap.  False with `Cache` left of `Lifecycle` or `Reference` (`c84_refuted`): `Cache` drops
the value first, then the behavior to its right reads the item it is about to delete, and
that puts it back into the cache.
-/

namespace Verif

variable {E : Env} {w w' : World} {o : Oid} {k : Key}

/-- C84: after `del node[k]` the node has nothing under `k`, neither stored nor cached nor
among its nodespaces. -/
theorem c84_gone_partial (hw : WF w) (ho : o < w.nobj) (hu : Unread (clsOf E w o).bhvs)
    (h : delitem E o k w = (.ok (), w')) : WF w' ∧ w'.shown E o k = none := by
  have g := gone_delPipe _ hu hw ho h
  refine ⟨g.wf, ?_⟩
  unfold World.shown
  rw [g.cls]
  exact g.shown

/-- C84: reading a key the node does not have raises `KeyError` with that key, unless a
factory or a fallback has to be asked; nothing visible changes.  The key has to be one the
alias table knows. -/
theorem c84_absent (hw : WF w) (hf : Bhv.childFactory ∉ (clsOf E w o).bhvs)
    (hb : Bhv.fallback ∉ (clsOf E w o).bhvs) (h : w.shown E o k = none)
    (hs : ∃ d, slot (clsOf E w o).aliaser (clsOf E w o).bhvs k = some d)
    (hst : ∀ u, slot (clsOf E w o).aliaser (clsOf E w o).bhvs k = some (.child u) →
      Stores (clsOf E w o) ∨ Bhv.fixedChildren ∈ (clsOf E w o).bhvs) :
    ∃ w', getitem E o k w = (.error (.key (.key k)), w') ∧ WF w' ∧
      ∀ p j, w'.shown E p j = w.shown E p j := by
  obtain ⟨w', h1, hm⟩ := getPipe_absent (fbHandler E) hf hb hw h hs hst
  refine ⟨w', h1, hm.wf hw, fun p j => ?_⟩
  unfold World.shown
  rw [hm.clsOf]
  exact shownBy_mute hm hw p _ j

/-- C84: so `node[k]` raises `KeyError` after the deletion, `node.get(k, d)` returns `d` and
`k in node` is false. -/
theorem c84_read_partial (hw : WF w) (ho : o < w.nobj) (hu : Unread (clsOf E w o).bhvs)
    (hf : Bhv.childFactory ∉ (clsOf E w o).bhvs) (hb : Bhv.fallback ∉ (clsOf E w o).bhvs)
    (h : delitem E o k w = (.ok (), w')) (d : Val) :
    (getitem E o k w').1 = .error (.key (.key k)) ∧ (mget E o k d w').1 = .ok d ∧
      (mcontains E o k w').1 = .ok false := by
  have g := gone_delPipe _ hu hw ho h
  have hs : w'.shown E o k = none := (c84_gone_partial hw ho hu h).2
  obtain ⟨w2, h2, -⟩ := c84_absent g.wf (by rw [g.cls]; exact hf) (by rw [g.cls]; exact hb) hs
    (by rw [g.cls]; exact g.slot) (by rw [g.cls]; exact fun u hu => .inl (g.stores u hu))
  refine ⟨by rw [h2], ?_, ?_⟩
  · simp only [mget, M.catchIf_apply, h2, Exc.isKey, if_true, M.pure_apply]
  · simp only [mcontains, M.catchIf_apply, M.bind_apply, h2, Exc.isKey, if_true, M.pure_apply]

/-- C84: all other nodes have under every key what they had, also if the deletion had to
read the nodes below the deleted one. -/
theorem c84_others_partial (hE : Unasked E w o k) (hw : WF w) (hu : Unread (clsOf E w o).bhvs)
    (h : delitem E o k w = (.ok (), w')) {p : Oid} (hp : p ≠ o) (j : Key) :
    w'.shown E p j = w.shown E p j := by
  have l := left_delPipe _ hu hE.once (fun _ => hE) (List.suffix_refl _) hw h
  unfold World.shown
  rw [l.clsOf]
  exact l.other p hp _ (List.suffix_refl _) j

/-- C84: and so has the node itself under the keys that are about other entries. -/
theorem c84_keys_partial (hE : Unasked E w o k) (hw : WF w) (hu : Unread (clsOf E w o).bhvs)
    (h : delitem E o k w = (.ok (), w')) {j : Key}
    (hj : slot (clsOf E w o).aliaser (clsOf E w o).bhvs j ≠ slot (clsOf E w o).aliaser (clsOf E w o).bhvs k) :
    w'.shown E o j = w.shown E o j := by
  have l := left_delPipe _ hu hE.once (fun _ => hE) (List.suffix_refl _) hw h
  unfold World.shown
  rw [l.clsOf]
  exact l.frame j hj

/-- C84: what is assigned after the deletion is read again. -/
theorem c84_again (hw : WF w) {v : Val} {w2 : World} (h : delitem E o k w = (.ok (), w'))
    (h2 : setitem E o k v w' = (.ok (), w2)) : (getitem E o k w2).1 = .ok v :=
  (c83_read ((grow_delitem E o k w).wf hw |> fun x => by rw [h] at x; exact x) h2 v).1

/-! ### The claim is false with `Cache` left of a behavior that reads what it deletes -/

/-- `Cache` left of `Lifecycle`. -/
def lateCache : Env where
  cls := fun _ => { bhvs := [.adopt, .cache, .lifecycle, .defaultInit, .nodify, .dictStorage] }
  depth := 3

def lateOps : List Op := [.new 0 .none none, .new 0 .none none, .set 0 ka (.node 1), .del 0 ka]

/-- C84 does not hold: the child is still there after a deletion that returned. -/
theorem c84_refuted : ¬ ∀ (E : Env) (w w' : World) (o : Oid) (k : Key), Reachable E w → o < w.nobj →
    delitem E o k w = (.ok (), w') → w'.shown E o k = none := by
  intro h
  have h1 : (delitem lateCache 0 ka (after lateCache (lateOps.take 3))).1 = .ok () := by decide +kernel
  have := h lateCache _ _ 0 ka (reachable_after lateCache (lateOps.take 3)) (by decide +kernel) (Prod.ext h1 rfl)
  revert this
  decide +kernel

/-- What a program sees of it. -/
example : (getitem lateCache 0 ka (after lateCache lateOps)).1 = .ok (.node 1) := by decide +kernel

/-! ### Instances -/

/-- Reading behaviors left of `Cache`, with aliases and nodespaces. -/
def earlyCache : Env where
  cls := fun _ => { bhvs := [.nodespaces, .adopt, .lifecycle, .reference, .cache, .alias, .defaultInit, .nodify,
    .odictStorage], aliaser := some (.pre "p-".toList) }
  depth := 3

def earlyOps : List Op := [.new 0 .none none, .new 0 .none none, .new 0 .none none,
  .set 0 (.str ['p', '-', 'a']) (.node 1), .set 0 (.str "__x__".toList) (.node 2), .get 0 (.str ['p', '-', 'a'])]

example : Unread (earlyCache.cls 0).bhvs ∧ ¬ Unread (lateCache.cls 0).bhvs := by decide +kernel

example : (after earlyCache earlyOps).shown earlyCache 0 (.str ['p', '-', 'a']) = some (.node 1) ∧
    (after earlyCache earlyOps).shown earlyCache 0 (.str "__x__".toList) = some (.node 2) := by decide +kernel

example (d : Val) :
    (mget earlyCache 0 (.str ['p', '-', 'a']) d (delitem earlyCache 0 (.str ['p', '-', 'a'])
      (after earlyCache earlyOps)).2).1 = .ok d ∧
    (mcontains earlyCache 0 (.str "__x__".toList) (delitem earlyCache 0 (.str "__x__".toList)
      (after earlyCache earlyOps)).2).1 = .ok false := by
  have h1 : (delitem earlyCache 0 (.str ['p', '-', 'a']) (after earlyCache earlyOps)).1 = .ok () := by
    decide +kernel
  have h2 : (delitem earlyCache 0 (.str "__x__".toList) (after earlyCache earlyOps)).1 = .ok () := by
    decide +kernel
  have hw := (reachable_after earlyCache earlyOps).wf
  exact ⟨(c84_read_partial hw (by decide +kernel) (by decide +kernel) (by decide +kernel) (by decide +kernel)
    (Prod.ext h1 rfl) d).2.1, (c84_read_partial hw (by decide +kernel) (by decide +kernel) (by decide +kernel)
    (by decide +kernel) (Prod.ext h2 rfl) d).2.2⟩

theorem early_sober (c : ClassId) : Sober (earlyCache.cls c) :=
  ⟨show _ ∉ (earlyCache.cls 0).bhvs by decide +kernel, show _ ∉ (earlyCache.cls 0).bhvs by decide +kernel,
   show (earlyCache.cls 0).bhvs.count .cache ≤ 1 by decide +kernel⟩

theorem early_unasking (c : ClassId) : Unasking earlyCache (earlyCache.cls c) :=
  ⟨(early_sober c).once, fun _ => ⟨(early_sober c).factory, (early_sober c).fallback⟩, fun _ => early_sober⟩

/-- The nodespace is still there after the child is deleted. -/
example : (delitem earlyCache 0 (.str ['p', '-', 'a']) (after earlyCache earlyOps)).2.shown earlyCache 0
    (.str "__x__".toList) = some (.node 2) := by
  have h1 : (delitem earlyCache 0 (.str ['p', '-', 'a']) (after earlyCache earlyOps)).1 = .ok () := by
    decide +kernel
  exact (c84_keys_partial ((early_unasking _).at _) (reachable_after earlyCache earlyOps).wf (by decide +kernel)
    (Prod.ext h1 rfl) (by decide +kernel)).trans (by decide +kernel)

/-- `Lifecycle` reads what it deletes, left of a `ChildFactory` that could make it. -/
def madeEnv : Env where
  cls := fun _ => { bhvs := [.lifecycle, .adopt, .childFactory, .defaultInit, .nodify, .odictStorage],
                    factories := [(ka, 0), (kb, 0)] }
  depth := 3

def madeOps : List Op := [.new 0 .none none, .get 0 ka, .get 0 kb]

/-- Both children are there, so deleting one leaves the other. -/
example : (delitem madeEnv 0 ka (after madeEnv madeOps)).2.shown madeEnv 0 kb = some (.node 2) := by
  have h1 : (delitem madeEnv 0 ka (after madeEnv madeOps)).1 = .ok () := by decide +kernel
  exact (c84_keys_partial ⟨by decide +kernel, fun _ => .inr (by decide +kernel),
    fun x => absurd x (by decide +kernel)⟩
    (reachable_after madeEnv madeOps).wf (by decide +kernel) (Prod.ext h1 rfl) (by decide +kernel)).trans
    (by decide +kernel)

end Verif
