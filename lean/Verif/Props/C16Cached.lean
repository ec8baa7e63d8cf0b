import Verif.Props.C15Cached
import Verif.Props.C76

/-!
# C16, C20 and C76 with `Cache`

As `Props/C15Cached`: trees of `Reference` nodes with a `Cache` to the right of `Reference`, after any history of
the API whose heap without the caches is a forest grown through the API of the classes without `Cache`.
-/

namespace Verif

section
variable {E : Env}

/-- The run with caches that belongs to a run without. -/
theorem CRelAt.run {α : Type} {m m' : M α} {w v : World} {x : Except Exc α} (h : CRelAt E m m' w)
    (e : m' w.uncache = (x, v)) : ∃ w', m w = (x, w') ∧ v = w'.uncache ∧ Fresh E w' := by
  rw [h.1] at e
  exact ⟨_, Prod.ext (Prod.mk.inj e).1 rfl, (Prod.mk.inj e).2.symm, h.2⟩

variable {ops : List Op} (hs : ∀ c, CacheSafe (E.cls c)) (hh : FitsAll E ops {}) (hE : 0 < E.depth)
  {Rs : List Oid} (hg : Grown E.uncached (after E ops).uncache Rs)

include hE in
omit hs hh hg in
theorem Grown.lt_of {w : World} (hg : Grown E.uncached w.uncache Rs) {R o : Oid} (hR : R ∈ Rs) (ho : InTree w R o) :
    o < w.nobj := by
  have hfo := Grown.forest (E := E.uncached) hE hg
  obtain ⟨a, ha⟩ := hfo.live R hR
  exact (inTree_uncache.mpr ho).induct (P := (· < w.nobj)) ha.tree.bound fun p j c _ hc _ => hfo.bounds p j c hc

include hs hh hE hg

/-- **C16** with caches: a node of the tree that has children is refused wherever it is put in again. -/
theorem c16_cached_partial {R o c : Oid} {k : Key} (hR : R ∈ Rs) (ho : InTree (after E ops) R o)
    (hc : InTree (after E ops) R c) (hne : (after E ops).children c ≠ []) (hk : KeyFor (clsOf E (after E ops) o) k) :
    ∃ w', setitem E o k (.node c) (after E ops) = (.error (.value "Node with uuid already exists"), w') ∧
      Grown E.uncached w'.uncache Rs ∧ (∀ p, w'.children p = (after E ops).children p) ∧
      (∀ p, w'.known p = (after E ops).known p) ∧ ∀ p, w'.loc p = (after E ops).loc p := by
  have hf := fresh_after hs hh
  generalize after E ops = w at *
  obtain ⟨v, h1, h2, h3, h4, h5⟩ := c16_grown_partial (E := E.uncached) (w := w.uncache) hE hg hR
    (inTree_uncache.mpr ho) (inTree_uncache.mpr hc) hne (keyFor_uncached hk)
  obtain ⟨w', e, rfl, -⟩ := (rel_setitem hs o k _ w hf).run h1
  exact ⟨w', e, h2, h3, h4, h5⟩

/-- **C20** with caches: a childless node deleted with `del` is accepted again, but not found by its uuid. -/
theorem c20_cached_leaf_lost {R o n : Oid} {k j : Key} {u : Nat} (hR : R ∈ Rs) (ho : InTree (after E ops) R o)
    (hc : Contains (after E ops) o k n) (hl : (after E ops).children n = []) (hu : HasUuid (after E ops) n u)
    (hj : KeyFor (clsOf E (after E ops) o) j) :
    ∃ w1 w2, delitem E o k (after E ops) = (.ok (), w1) ∧ setitem E o j (.node n) w1 = (.ok (), w2) ∧
      Contains w2 o j n ∧ HasUuid w2 n u ∧ ∀ p, InTree (after E ops) R p → (w2.known p).get? (some u) = none := by
  have hf := fresh_after hs hh
  generalize after E ops = w at *
  obtain ⟨v1, v2, h1, h2, h3, h4, h5⟩ := c20_leaf_lost (E := E.uncached) (w := w.uncache) hE hg hR
    (inTree_uncache.mpr ho) hc hl hu (keyFor_uncached hj)
  obtain ⟨w1, e1, rfl, hf1⟩ := (rel_delitem hs o k w hf (hg.lt_of hE hR ho)).run h1
  obtain ⟨w2, e2, rfl, -⟩ := (rel_setitem hs o j _ w1 hf1).run h2
  exact ⟨w1, w2, e1, e2, h3, h4, fun p hp => h5 p (inTree_uncache.mpr hp)⟩

/-- **C20** with caches: a node with children that was deleted with `del` is refused. -/
theorem c20_cached_subtree_refused {R o n : Oid} {k j : Key} (hR : R ∈ Rs) (ho : InTree (after E ops) R o)
    (hc : Contains (after E ops) o k n) (hl : (after E ops).children n ≠ [])
    (hj : KeyFor (clsOf E (after E ops) o) j) :
    ∃ w1 w2, delitem E o k (after E ops) = (.ok (), w1) ∧
      setitem E o j (.node n) w1 = (.error (.value "Node with uuid already exists"), w2) := by
  have hf := fresh_after hs hh
  generalize after E ops = w at *
  obtain ⟨v1, v2, h1, h2⟩ := c20_subtree_refused (E := E.uncached) (w := w.uncache) hE hg hR
    (inTree_uncache.mpr ho) hc hl (keyFor_uncached hj)
  obtain ⟨w1, e1, rfl, hf1⟩ := (rel_delitem hs o k w hf (hg.lt_of hE hR ho)).run h1
  obtain ⟨w2, e2, -, -⟩ := (rel_setitem hs o j _ w1 hf1).run h2
  exact ⟨w1, w2, e1, e2⟩

/-- **C20** with caches: what was taken out by `detach` can be added again anywhere in the tree, is found there,
and can be deleted again. -/
theorem c20_cached_partial {R o n p : Oid} {k j : Key} (hR : R ∈ Rs) (ho : InTree (after E ops) R o)
    (hc : Contains (after E ops) o k n) (hp : InTree (after E ops) R p) (hpn : ¬ InTree (after E ops) n p)
    (hj : KeyFor (clsOf E (after E ops) p) j) (hfree : j ∉ ((after E ops).children p).keys ∨ p = o ∧ j = k) :
    ∃ w1 w2 w3, detach E o k (after E ops) = (.ok (.node n), w1) ∧ setitem E p j (.node n) w1 = (.ok (), w2) ∧
      Contains w2 p j n ∧ (∀ x, InTree w2 R x ↔ InTree (after E ops) R x) ∧
      (∀ x u, HasUuid w2 x u ↔ HasUuid (after E ops) x u) ∧
      (∀ q, InTree (after E ops) R q → ¬ InTree (after E ops) n q ∨ q = n → ∀ u x,
        (w2.known q).get? (some u) = some x ↔ InTree (after E ops) R x ∧ HasUuid (after E ops) x u) ∧
      delitem E p j w2 = (.ok (), w3) := by
  have hf := fresh_after hs hh
  generalize after E ops = w at *
  obtain ⟨v1, v2, v3, h1, h2, h3, h4, h5, h6, h7⟩ := c20_detach_subtree_partial (E := E.uncached) (w := w.uncache) hE hg
    hR (inTree_uncache.mpr ho) hc (inTree_uncache.mpr hp) (fun h => hpn (inTree_uncache.mp h)) (keyFor_uncached hj) hfree
  obtain ⟨w1, e1, rfl, hf1⟩ := (rel_detach hs o k w hf (hg.lt_of hE hR ho)).run h1
  obtain ⟨w2, e2, rfl, hf2⟩ := (rel_setitem hs p j _ w1 hf1).run h2
  have g1 := grow_detach E o k w
  have g2 := grow_setitem E p j (.node n) w1
  rw [e1] at g1
  rw [e2] at g2
  have hlt : p < w2.nobj := Nat.lt_of_lt_of_le (hg.lt_of hE hR hp) (Nat.le_trans g1.nobj g2.nobj)
  obtain ⟨w3, e3, -, -⟩ := (rel_delitem hs p j w2 hf2 hlt).run h7
  simp only [inTree_uncache] at h4 h6
  exact ⟨w1, w2, w3, e1, e2, h3, h4, h5, h6, e3⟩

end

section
variable {E : Env} {ops : List Op} (hs : ∀ c, CacheSafe (E.cls c)) (hh : FitsAll E ops {}) (hE : 0 < E.depth)
  (hNF : NoFactory E) {Rs : List Oid} (hg : Grown E.uncached (after E ops).uncache Rs) (before : Bool)
  {R o p n ref : Oid} {k : Key} (hR : R ∈ Rs) (ho : InTree (after E ops) R o) (hc : Contains (after E ops) o k n)
  (hp : InTree (after E ops) R p) (hpn : ¬ InTree (after E ops) n p)
  (hod : storageKind (clsOf E (after E ops) p).bhvs = some .odictStorage)
  (hname : ((after E ops).loc n).1 ≠ .none) (hkf : KeyFor (clsOf E (after E ops) p) ((after E ops).loc n).1)
  (hfree : ((after E ops).loc n).1 ∉ (restOf (after E ops) o k p).keys)
  (href : ((after E ops).loc ref).1 ∈ (restOf (after E ops) o k p).keys)

include hs hh hE hNF hg hR ho hc hp hpn hod hname hkf hfree href

/-- **C76** with caches. -/
theorem c76_cached_partial : ∃ w1 w2, detach E o k (after E ops) = (.ok (.node n), w1) ∧
    insertAt E before p n ref w1 = (.ok (), w2) ∧
    Placed before (restOf (after E ops) o k p) (w2.omap p) ((after E ops).loc ref).1 ((after E ops).loc n).1 (.node n) ∧
    (∀ q, q ≠ p → w2.omap q = restOf (after E ops) o k q) ∧
    (Bhv.adopt ∈ (clsOf E (after E ops) p).bhvs → w2.loc n = (((after E ops).loc n).1, some p) ∧
      ∀ q, q ≠ n → w2.loc q = (after E ops).loc q) ∧
    (∀ x, InTree w2 R x ↔ InTree (after E ops) R x) ∧ (∀ x u, HasUuid w2 x u ↔ HasUuid (after E ops) x u) ∧
    ∀ q, InTree (after E ops) R q → ¬ InTree (after E ops) n q ∨ q = n → ∀ u x,
      (refNode q u w2).1 = .ok (some x) ↔ InTree (after E ops) R x ∧ HasUuid (after E ops) x u := by
  have hf := fresh_after hs hh
  generalize after E ops = w at *
  obtain ⟨v1, v2, h1, h2, h3, h4, h5, h6, h7, h8⟩ := c76_move_partial (E := E.uncached) (w := w.uncache) hE
    (fun c hm => hNF c ((mem_uncached (by simp)).mp hm)) hg before hR (inTree_uncache.mpr ho) hc (inTree_uncache.mpr hp)
    (fun h => hpn (inTree_uncache.mp h)) ((storageKind_unc _).trans hod) hname (keyFor_uncached hkf) hfree href
  obtain ⟨w1, e1, rfl, hf1⟩ := (rel_detach hs o k w hf (hg.lt_of hE hR ho)).run h1
  obtain ⟨w2, e2, rfl, hf2⟩ := (rel_insertAt hs before p n ref w1 hf1).run h2
  simp only [inTree_uncache] at h6 h8
  refine ⟨w1, w2, e1, e2, h3, h4, fun ha => h5 ((mem_uncached (by simp)).mpr ha), h6, h7, fun q hq hqn u x => ?_⟩
  refine Iff.trans ?_ (h8 q hq hqn u x)
  have : Eqv (refNode q u) (refNode q u) := eqv_bind (eqv_indexRef q) fun i => eqv_getW fun w =>
    (eqv_pure ((w.idxs i).get? (some u)) : Eqv (pure ((w.idxs i).get? (some u))) (pure ((w.uncache.idxs i).get? (some u))))
  rw [this w2]

/-- **C76** with caches, childless nodes: the resulting forest is again one C15 is about. -/
theorem c76_cached_leaf (hl : ∀ j c, ¬ Contains (after E ops) n j c) :
    ∃ w1 w2, detach E o k (after E ops) = (.ok (.node n), w1) ∧ insertAt E before p n ref w1 = (.ok (), w2) ∧
      Grown E.uncached w2.uncache Rs ∧ Indexed w2.uncache R ∧
      (∀ x, InTree w2 R x ↔ InTree (after E ops) R x) ∧ ∀ x u, HasUuid w2 x u ↔ HasUuid (after E ops) x u := by
  have hf := fresh_after hs hh
  generalize after E ops = w at *
  obtain ⟨v1, v2, h1, h2, h3, h4, h5, h6⟩ := c76_leaf (E := E.uncached) (w := w.uncache) hE
    (fun c hm => hNF c ((mem_uncached (by simp)).mp hm)) hg before hR (inTree_uncache.mpr ho) hc (inTree_uncache.mpr hp)
    (fun h => hpn (inTree_uncache.mp h)) ((storageKind_unc _).trans hod) hname (keyFor_uncached hkf) hfree href hl
  obtain ⟨w1, e1, rfl, hf1⟩ := (rel_detach hs o k w hf (hg.lt_of hE hR ho)).run h1
  obtain ⟨w2, e2, rfl, hf2⟩ := (rel_insertAt hs before p n ref w1 hf1).run h2
  simp only [inTree_uncache] at h5
  exact ⟨w1, w2, e1, e2, h3, h4, h5, h6⟩

end

/-- The root of the two nodes is refused below the other one, though the cache has nothing to say there. -/
example : ∃ w', setitem cachedRefEnv 1 kb (.node 0) (after cachedRefEnv cachedRefOps) =
    (.error (.value "Node with uuid already exists"), w') := by
  obtain ⟨w', h, -⟩ := c16_cached_partial cachedRef_safe cachedRef_fits (by decide) cachedRef_grown (R := 0) (o := 1)
    (c := 0) (k := kb) (by decide) (.child (.refl 0) (k := ka) (by unfold Contains; decide +kernel)) (.refl 0)
    (by decide +kernel) (fun h => absurd h (show _ ∉ (cachedRefEnv.cls 0).bhvs by decide))
  exact ⟨w', h⟩

/-- The child, read twice, is detached, added under another key, and deleted again. -/
example : ∃ w1 w2 w3, detach cachedRefEnv 0 ka (after cachedRefEnv cachedRefOps) = (.ok (.node 1), w1) ∧
    setitem cachedRefEnv 0 kb (.node 1) w1 = (.ok (), w2) ∧ delitem cachedRefEnv 0 kb w2 = (.ok (), w3) := by
  have hc : Contains (after cachedRefEnv cachedRefOps) 0 ka 1 := by unfold Contains; decide +kernel
  obtain ⟨w1, w2, w3, h1, h2, -, -, -, -, h3⟩ := c20_cached_partial cachedRef_safe cachedRef_fits (by decide)
    cachedRef_grown (R := 0) (o := 0) (n := 1) (p := 0) (k := ka) (j := kb) (by decide) (.refl 0) hc (.refl 0)
    (fun h => InTree.acyclic (cachedRef_grown.forest (by decide)).sole
      (((cachedRef_grown.forest (by decide)).live 0 (by decide)).choose_spec.tree.top) (.refl 0) hc (inTree_uncache.mpr h))
    (fun h => absurd h (show _ ∉ (cachedRefEnv.cls 0).bhvs by decide)) (.inl (by decide +kernel))
  exact ⟨w1, w2, w3, h1, h2, h3⟩

/-- Two children, the second one read. -/
def cachedMoveOps : List Op := [.new 0 .none none, .new 0 ka none, .set 0 ka (.node 1), .new 0 kb none,
  .set 0 kb (.node 2), .get 0 kb]

theorem cachedMove_fits : FitsAll cachedRefEnv cachedMoveOps {} := fits_of_fitsB (by decide +kernel)

theorem cachedMove_grown : Grown cachedRefEnv.uncached (after cachedRefEnv cachedMoveOps).uncache [0] := by
  have none : ∀ {w : World} {o : Oid}, w.children o = [] → ∀ j c, ¬ Contains w o j c :=
    fun {w o} e j c h => by
      replace h : (w.children o).get? j = _ := h
      rw [e] at h
      cases h
  have alone : ∀ {w : World} {o x : Oid}, w.children o = [] → InTree w o x → x = o := by
    intro w o x e h
    rcases h.down with h | ⟨j, c, hc, -⟩
    · exact h
    · exact absurd hc (none e j c)
  have kf : ∀ (w : World) o k, KeyFor (clsOf cachedRefEnv.uncached w o) k := fun w o k h => by
    replace h : Bhv.nodespaces ∈ (cachedRefEnv.uncached.cls 0).bhvs := h
    exact absurd h (by decide)
  rw [← show after cachedRefEnv.uncached cachedMoveOps = (after cachedRefEnv cachedMoveOps).uncache from
    (c31_all_partial _ cachedRef_safe _ cachedMove_fits).2]
  have h1 : Grown cachedRefEnv.uncached (after cachedRefEnv.uncached (cachedMoveOps.take 1)) [0] :=
    .new (x := .ok 0) (c := 0) (name := .none) (parent := Option.none) .start (cachedRef_class 0) (by decide) rfl
      (fun _ _ _ R h => nomatch h)
  have h2 : Grown cachedRefEnv.uncached (after cachedRefEnv.uncached (cachedMoveOps.take 2)) [1, 0] :=
    .new (x := .ok 1) (c := 0) (name := ka) (parent := Option.none) h1 (cachedRef_class 0) (by decide) rfl
      (fun u h1 h2 R hR x hx hu => by
        obtain rfl : u = _ := Nat.le_antisymm (Nat.le_of_lt_succ h2) h1
        rcases List.mem_singleton.mp hR with rfl
        rcases alone rfl hx with rfl
        exact absurd hu (by unfold HasUuid; decide +kernel))
  have h3 : Grown cachedRefEnv.uncached (after cachedRefEnv.uncached (cachedMoveOps.take 3)) [0] :=
    .leaf (x := .ok ()) (R := 0) (o := 0) (N := 1) (k := ka) h2 (by decide) (.refl 0) (by decide)
      (by decide) (none rfl) (by decide +kernel) (kf _ _ _) rfl
  have h4 : Grown cachedRefEnv.uncached (after cachedRefEnv.uncached (cachedMoveOps.take 4)) [2, 0] :=
    .new (x := .ok 2) (c := 0) (name := kb) (parent := Option.none) h3 (cachedRef_class 0) (by decide) rfl
      (fun u h1 h2 R hR x hx hu => by
        obtain rfl : u = _ := Nat.le_antisymm (Nat.le_of_lt_succ h2) h1
        rcases List.mem_singleton.mp hR with rfl
        rcases hx.down with rfl | ⟨j, c, hc, hx⟩
        · exact absurd hu (by unfold HasUuid; decide +kernel)
        · have hj : j = ka ∧ c = 1 := by
            unfold Contains at hc
            have e : (after cachedRefEnv.uncached (cachedMoveOps.take 3)).children 0 = [(ka, .node 1)] := by decide +kernel
            have := Od.get?_some_mem hc
            rw [e, List.mem_singleton] at this
            cases this
            exact ⟨rfl, rfl⟩
          obtain ⟨rfl, rfl⟩ := hj
          rcases alone (by decide +kernel) hx with rfl
          exact absurd hu (by unfold HasUuid; decide +kernel))
  have h5 : Grown cachedRefEnv.uncached (after cachedRefEnv.uncached (cachedMoveOps.take 5)) [0] :=
    .leaf (x := .ok ()) (R := 0) (o := 0) (N := 2) (k := kb) h4 (by decide) (.refl 0) (by decide)
      (by decide) (none (by decide +kernel)) (by decide +kernel) (kf _ _ _) rfl
  exact .get (x := .ok (.node 2)) (R := 0) (o := 0) (k := kb) h5 (by decide) (.refl 0) (kf _ _ _) rfl

/-- Moving within caching nodes, the cache in use: node 2 goes before node 1, and the tree is as good as before. -/
example : ∃ w1 w2, detach cachedRefEnv 0 kb (after cachedRefEnv cachedMoveOps) = (.ok (.node 2), w1) ∧
    insertAt cachedRefEnv true 0 2 1 w1 = (.ok (), w2) ∧ Grown cachedRefEnv.uncached w2.uncache [0] := by
  have hc : Contains (after cachedRefEnv cachedMoveOps) 0 kb 2 := by unfold Contains; decide +kernel
  obtain ⟨w1, w2, h1, h2, h3, -⟩ := c76_cached_leaf cachedRef_safe cachedMove_fits (by decide)
    (fun c => show _ ∉ (cachedRefEnv.cls 0).bhvs by decide) cachedMove_grown true (R := 0) (o := 0) (p := 0) (n := 2)
    (ref := 1) (k := kb) (by decide) (.refl 0) hc (.refl 0)
    (fun h => InTree.acyclic (cachedMove_grown.forest (by decide)).sole
      (((cachedMove_grown.forest (by decide)).live 0 (by decide)).choose_spec.tree.top) (.refl 0) hc (inTree_uncache.mpr h))
    rfl (by decide +kernel) (fun h => absurd h (show _ ∉ (cachedRefEnv.cls 0).bhvs by decide)) (by decide +kernel)
    (by decide +kernel) (fun j c h => by
      replace h : ((after cachedRefEnv cachedMoveOps).children 2).get? j = _ := h
      have e : (after cachedRefEnv cachedMoveOps).children 2 = [] := by decide +kernel
      rw [e] at h
      cases h)
  exact ⟨w1, w2, h1, h2, h3⟩

example : (execAll cachedRefEnv (cachedMoveOps ++ [.detach 0 kb, .insertBefore 0 2 1, .keys 0, .get 0 kb]) {}).1.drop 6 =
    [.ok (.val (.node 2)), .ok .unit, .ok (.keys [kb, ka]), .ok (.val (.node 2))] := by decide +kernel

end Verif
