import Verif.Lemmas.Lookup
import Verif.Sample

/-!
# C32 `invalidate()` without key, C33 `invalidate(key)`

For a node with `VolatileStorageInvalidate`, and any number of `Cache` behaviors,
above a storage.  C32 is false if anything is cached: `Cache.invalidate` passes the
last cached key on, so that only this key is removed from the storage.
-/

namespace Verif

/-- Storage and cache of `o` became `d` and `c`, nothing else changed. -/
structure Became (o : Oid) (d c : Od Key Val) (w w' : World) : Prop where
  wf : WF w'
  children : ∀ p, w'.children p = if p = o then d else w.children p
  cached : ∀ p, w'.cached p = if p = o then c else w.cached p
  cls : ∀ p, (w'.objs p).cls = (w.objs p).cls

variable {E : Env}

theorem invalidateVolatile_none {o : Oid} {w : World} (hw : WF w) (h : Stores (clsOf E w o)) :
    ∃ w', invalidateVolatile E o .none w = (.ok (), w') ∧ Became o [] (w.cached o) w w' := by
  obtain ⟨r, w1, hr⟩ := h.storageRef (E := E) (o := o) (w := w)
  have hv := vis_storageRef E o hw
  rw [hr] at hv
  have hsr := storageRef_ok hr
  refine ⟨{ w1 with stores := upd w1.stores r [] }, ?_, ?_, fun p => ?_, fun p => ?_, hv.cls⟩
  · simp only [invalidateVolatile, M.bind_apply, hr, if_true, M.modifyW_apply]
  · exact hv.wf.setStore r (by simp [Od.keys])
  · rw [children_setStore hv.wf hsr]
    split
    · rfl
    · exact hv.children p
  · split
    · rename_i e; rw [e]; exact hv.cached o
    · exact hv.cached p

theorem invalidateVolatile_key {o : Oid} {w : World} (hw : WF w) (h : Concrete (clsOf E w o))
    {k : Key} (hk : k ≠ .none) :
    ∃ w', invalidateVolatile E o k w =
        (if k ∈ (w.children o).keys then .ok () else .error (.key (.key k)), w') ∧
      Became o ((w.children o).del k) (w.cached o) w w' := by
  obtain ⟨r, w1, hr⟩ := h.stores.storageRef (E := E) (o := o) (w := w)
  have hv := vis_storageRef E o hw
  rw [hr] at hv
  have hsr := storageRef_ok hr
  obtain ⟨r2, w2, hr2, hi⟩ := Concrete.iter (E := E) (o := o) (w := w1) (by rw [hv.clsOf]; exact h)
  have e2 : r2 = r ∧ w2 = w1 := by
    obtain ⟨b, hb, -⟩ := h.kind
    unfold storageRef at hr2
    rw [show storageKind (bhvsOf E w1 o) = some b from by
      rw [show bhvsOf E w1 o = (clsOf E w o).bhvs from congrArg ClassDef.bhvs (hv.clsOf o)]; exact hb,
      hsr] at hr2
    cases b <;> simp_all
  obtain ⟨rfl, rfl⟩ := e2
  have hks : mkeys E o w2 = (.ok (w.children o).keys, w2) := by
    simp only [mkeys, M.bind_apply, hi, endIter, M.pure_apply]
    rw [← hv.children o, children_eq hsr]
  by_cases hm : k ∈ (w.children o).keys
  · refine ⟨{ w2 with stores := upd w2.stores r2 ((w2.stores r2).del k) }, ?_, ?_, fun p => ?_,
      fun p => ?_, hv.cls⟩
    · simp only [invalidateVolatile, M.bind_apply, hr, hks, if_neg hk, if_pos hm,
        List.contains_iff_mem, M.modifyW_apply]
    · exact hv.wf.setStore r2 (Od.nodup_keys_del (hv.wf.sNd r2) _)
    · rw [children_setStore hv.wf hsr]
      split
      · rw [← hv.children o, children_eq hsr]
      · exact hv.children p
    · split
      · rename_i e; rw [e]; exact hv.cached o
      · exact hv.cached p
  · refine ⟨w2, ?_, hv.wf, fun p => ?_, fun p => ?_, hv.cls⟩
    · simp only [invalidateVolatile, M.bind_apply, hr, hks, if_neg hk, if_neg hm,
        List.contains_iff_mem, M.raise_apply]
    · split
      · rename_i e; rw [e, Od.del_of_not_mem hm]; exact hv.children o
      · exact hv.children p
    · split
      · rename_i e; rw [e]; exact hv.cached o
      · exact hv.cached p

/-- The class has `VolatileStorageInvalidate` (left of any `Invalidate`). -/
def Volatile (c : ClassDef) : Prop :=
  c.bhvs.find? (fun b => b == .invalidate || b == .volatileInvalidate) = some .volatileInvalidate

theorem invalidatePipe_key (bs : List Bhv) {c : ClassDef} (hvol : Volatile c) (hcon : Concrete c)
    {o : Oid} {k : Key} (hk : k ≠ .none) {w : World} (hw : WF w) (hc : clsOf E w o = c) :
    ∃ w', invalidatePipe E c.bhvs bs o k w =
        (if k ∈ (w.children o).keys then .ok () else .error (.key (.key k)), w') ∧
      Became o ((w.children o).del k)
        (if Bhv.cache ∈ bs then (w.cached o).del k else w.cached o) w w' := by
  induction bs generalizing w with
  | nil =>
    obtain ⟨w', h1, h2⟩ := invalidateVolatile_key (E := E) (o := o) hw (by rw [hc]; exact hcon) hk
    refine ⟨w', ?_, ?_⟩
    · unfold invalidatePipe
      rw [show c.bhvs.find? _ = _ from hvol]
      exact h1
    · simpa using h2
  | cons b r ih =>
    by_cases hb : b = .cache
    · subst hb
      obtain ⟨w1, h1, h2, h3, h4, -, h5⟩ := cacheDrop_cached (o := o) (k := k) hw
      obtain ⟨w', h6, h7⟩ := ih h2 ((congrArg E.cls (h4 o)).trans hc)
      refine ⟨w', ?_, h7.wf, fun p => ?_, fun p => ?_, fun p => (h7.cls p).trans (h4 p)⟩
      · simp only [invalidatePipe, if_neg hk, M.bind_apply, h1]
        rw [h6, h3]
      · rw [h7.children, h3, h3]
      · rw [h7.cached, h5 o, h5 p]
        simp only [if_true, List.mem_cons, true_or]
        split
        · split
          · exact Od.del_of_not_mem (by rw [Od.keys_del (hw.cached_nodup o)]; simp)
          · rfl
        · rfl
    · obtain ⟨w', h1, h2⟩ := ih hw hc
      refine ⟨w', ?_, ?_⟩
      · rw [← h1]; cases b <;> first | rfl | exact absurd rfl hb
      · have : (Bhv.cache ∈ b :: r) = (Bhv.cache ∈ r) := by
          simp [List.mem_cons, show ¬ Bhv.cache = b from fun e => hb e.symm]
        simp only [this]; exact h2

theorem invalidatePipe_none (bs : List Bhv) {c : ClassDef} (hvol : Volatile c) (hcon : Concrete c)
    {o : Oid} {w : World} (hw : WF w) (hc : clsOf E w o = c)
    (hem : Bhv.cache ∈ bs → w.cached o = []) :
    ∃ w', invalidatePipe E c.bhvs bs o .none w = (.ok (), w') ∧ Became o [] (w.cached o) w w' := by
  induction bs generalizing w with
  | nil =>
    obtain ⟨w', h1, h2⟩ := invalidateVolatile_none (E := E) (o := o) hw (by rw [hc]; exact hcon.stores)
    refine ⟨w', ?_, h2⟩
    unfold invalidatePipe
    rw [show c.bhvs.find? _ = _ from hvol]
    exact h1
  | cons b r ih =>
    by_cases hb : b = .cache
    · subst hb
      have he := hem List.mem_cons_self
      obtain ⟨s, w1, hr⟩ := cacheRef_isOk o w
      have hv := vis_cacheRef o hw
      have hro := cacheRef_ok hr
      rw [hr] at hv
      have hcs : w1.caches s = [] := by rw [← cached_eq hro, hv.cached o, he]
      have hw2 : WF { w1 with caches := upd w1.caches s [] } := hv.wf.setCache s (by simp [Od.keys])
      have hca : ∀ p, World.cached { w1 with caches := upd w1.caches s [] } p = w.cached p := fun p => by
        rw [cached_setCache hv.wf hro]
        split
        · rename_i e; rw [e, he]
        · exact hv.cached p
      obtain ⟨w', h6, h7⟩ := ih hw2 ((hv.clsOf o).trans hc) fun _ => (hca o).trans he
      refine ⟨w', ?_, h7.wf, fun p => ?_, fun p => ?_, fun p => (h7.cls p).trans (hv.cls p)⟩
      · simp only [invalidatePipe, if_true, M.bind_apply, hr, M.getW_apply, M.modifyW_apply]
        rw [hcs]
        exact h6
      · rw [h7.children]
        split
        · rfl
        · exact hv.children p
      · rw [h7.cached, hca, hca]
    · obtain ⟨w', h1, h2⟩ := ih hw hc fun h => hem (List.mem_cons_of_mem _ h)
      refine ⟨w', ?_, h2⟩
      rw [← h1]; cases b <;> first | rfl | exact absurd rfl hb

/-- With something cached, the last cached key is passed on. -/
theorem invalidatePipe_cached (bs : List Bhv) {c : ClassDef} (hvol : Volatile c) (hcon : Concrete c)
    {o : Oid} {k : Key} (hk : k ≠ .none) {w : World} (hw : WF w) (hc : clsOf E w o = c)
    (hcb : Bhv.cache ∈ bs) (hl : (w.cached o).keys.getLast? = some k) :
    ∃ w', invalidatePipe E c.bhvs bs o .none w =
        (if k ∈ (w.children o).keys then .ok () else .error (.key (.key k)), w') ∧
      Became o ((w.children o).del k) [] w w' := by
  induction bs generalizing w with
  | nil => cases hcb
  | cons b r ih =>
    by_cases hb : b = .cache
    · subst hb
      obtain ⟨s, w1, hr⟩ := cacheRef_isOk o w
      have hv := vis_cacheRef o hw
      have hro := cacheRef_ok hr
      rw [hr] at hv
      have hcs : w1.caches s = w.cached o := by rw [← cached_eq hro, hv.cached o]
      have hw2 : WF { w1 with caches := upd w1.caches s [] } := hv.wf.setCache s (by simp [Od.keys])
      have hca : ∀ p, World.cached { w1 with caches := upd w1.caches s [] } p =
          if p = o then [] else w.cached p := fun p => by
        rw [cached_setCache hv.wf hro]
        split
        · rfl
        · exact hv.cached p
      obtain ⟨w', h6, h7⟩ := invalidatePipe_key (E := E) r hvol hcon hk hw2 ((hv.clsOf o).trans hc)
      have hch : ∀ p, World.children { w1 with caches := upd w1.caches s [] } p = w.children p :=
        hv.children
      rw [hch, hca o] at h7
      rw [hch] at h6
      refine ⟨w', ?_, h7.wf, fun p => ?_, fun p => ?_, fun p => (h7.cls p).trans (hv.cls p)⟩
      · simp only [invalidatePipe, if_true, M.bind_apply, hr, M.getW_apply, M.modifyW_apply]
        rw [hcs, hl]
        exact h6
      · rw [h7.children, hch]
      · rw [h7.cached, hca p]
        split
        · simp [Od.del]
        · rfl
    · obtain ⟨w', h1, h2⟩ := ih hw hc
        ((List.mem_cons.mp hcb).resolve_left fun e => hb e.symm) hl
      refine ⟨w', ?_, h2⟩
      rw [← h1]; cases b <;> first | rfl | exact absurd rfl hb

section
variable {o : Oid} {w : World} (hw : WF w) (hvol : Volatile (clsOf E w o))
  (hcon : Concrete (clsOf E w o))
include hw hvol hcon

/-- C32, as far as it holds: with nothing cached (or no cache), `invalidate()` empties
the storage, the cache stays empty, and no other node is touched. -/
theorem c32_empty_partial (he : Bhv.cache ∈ (clsOf E w o).bhvs → w.cached o = []) :
    ∃ w', invalidate E o .none w = (.ok (), w') ∧ (w'.omap o).keys = [] ∧
      (Bhv.cache ∈ (clsOf E w o).bhvs → w'.cached o = []) ∧ ∀ p, p ≠ o → w'.omap p = w.omap p := by
  obtain ⟨w', h1, h2⟩ := invalidatePipe_none (E := E) (clsOf E w o).bhvs hvol hcon hw rfl he
  refine ⟨w', h1, ?_, fun h => ?_, fun p hp => ?_⟩
  · show (w'.children o).keys = []
    rw [h2.children, if_pos rfl]; rfl
  · rw [h2.cached, if_pos rfl, he h]
  · show (w'.children p).toMap = _
    rw [h2.children, if_neg hp]; rfl

/-- C32, what happens otherwise: the cache is emptied, but of the storage only the
last cached key is removed (`KeyError` if it is not there). -/
theorem c32_cached {k : Key} (hk : k ≠ .none) (hc : Bhv.cache ∈ (clsOf E w o).bhvs)
    (hl : (w.cached o).keys.getLast? = some k) :
    ∃ w', invalidate E o .none w =
        (if k ∈ (w.omap o).keys then .ok () else .error (.key (.key k)), w') ∧
      (w'.omap o).keys = (w.omap o).keys.filter (· ≠ k) ∧ w'.cached o = [] ∧
      ∀ p, p ≠ o → w'.omap p = w.omap p := by
  obtain ⟨w', h1, h2⟩ := invalidatePipe_cached (E := E) (clsOf E w o).bhvs hvol hcon hk hw rfl hc hl
  refine ⟨w', h1, ?_, ?_, fun p hp => ?_⟩
  · show (w'.children o).keys = _
    rw [h2.children, if_pos rfl, Od.keys_del (hw.children_nodup o)]; rfl
  · rw [h2.cached, if_pos rfl]
  · show (w'.children p).toMap = _
    rw [h2.children, if_neg hp]; rfl

/-- C33: `invalidate(key)` removes the key from cache and storage, leaves every other
entry and node alone, and raises `KeyError` exactly if it is no key of the node. -/
theorem c33_key_partial {k : Key} (hk : k ≠ .none) :
    ∃ w', invalidate E o k w =
        (if k ∈ (w.omap o).keys then .ok () else .error (.key (.key k)), w') ∧
      w'.omap o = (w.omap o).del k ∧ (∀ p, p ≠ o → w'.omap p = w.omap p) ∧
      (Bhv.cache ∈ (clsOf E w o).bhvs → (w'.cached o).toMap = (w.cached o).toMap.del k) ∧
      ∀ p, p ≠ o → w'.cached p = w.cached p := by
  obtain ⟨w', h1, h2⟩ := invalidatePipe_key (E := E) (clsOf E w o).bhvs hvol hcon hk hw rfl
  refine ⟨w', h1, ?_, fun p hp => ?_, fun hc => ?_, fun p hp => ?_⟩
  · show (w'.children o).toMap = _
    rw [h2.children, if_pos rfl, toMap_del (hw.children_nodup o)]; rfl
  · show (w'.children p).toMap = _
    rw [h2.children, if_neg hp]; rfl
  · rw [h2.cached, if_pos rfl, if_pos hc, toMap_del (hw.cached_nodup o)]
  · rw [h2.cached, if_neg hp]

end

/-- C33 for `Invalidate`, which deletes: with pass-through behaviors and a cache that
agrees with the storage. -/
theorem c33_delete_partial {o : Oid} {w : World} (hw : WF w) (hmc : MapClass (clsOf E w o))
    (hinv : (clsOf E w o).bhvs.find? (fun b => b == .invalidate || b == .volatileInvalidate) =
      some .invalidate)
    (hc : Bhv.cache ∈ (clsOf E w o).bhvs → ∀ j x, (w.cached o).get? j = some x →
      (w.omap o).val j = some x) {k : Key} (hk : k ≠ .none) (hkf : KeyFor (clsOf E w o) k) :
    ∃ w', invalidate E o k w =
        (if k ∈ (w.omap o).keys then .ok () else .error (.key (.key k)), w') ∧
      w'.omap o = (w.omap o).del k ∧ (∀ p, p ≠ o → w'.omap p = w.omap p) ∧
      (Bhv.cache ∈ (clsOf E w o).bhvs → (w'.cached o).get? k = none) := by
  suffices ∀ bs (w1 : World), WF w1 → clsOf E w1 o = clsOf E w o → (∀ p, w1.children p = w.children p) →
      Coh E (· = o) w1 → ∃ w', invalidatePipe E (clsOf E w o).bhvs bs o k w1 =
        (if k ∈ (w1.children o).keys then .ok () else .error (.key (.key k)), w') ∧
        DelP E (· = o) o k w1 w' by
    obtain ⟨w', h1, h2⟩ := this (clsOf E w o).bhvs w hw rfl (fun _ => rfl) fun p hp hx j v hv => by
      subst hp; exact hc hx j v hv
    have hch : ∀ p, w'.children p = if p = o then (w.children o).del k else w.children p := fun p => by
      rw [h2.children]
      by_cases hm : k ∈ (w.children o).keys
      · simp [hm]
      · simp only [hm, and_false, if_false]
        split
        · rename_i e; rw [e, Od.del_of_not_mem hm]
        · rfl
    refine ⟨w', h1, ?_, fun p hp => ?_, fun hx => ?_⟩
    · show (w'.children o).toMap = _
      rw [hch, if_pos rfl, toMap_del (hw.children_nodup o)]; rfl
    · show (w'.children p).toMap = _
      rw [hch, if_neg hp]; rfl
    · cases hg : (w'.cached o).get? k with
      | none => rfl
      | some v =>
        have := h2.coh o rfl (by rw [show clsOf E w' o = clsOf E w o from congrArg E.cls (h2.cls o)]; exact hx) k v hg
        rw [hch, if_pos rfl, Od.get?_del (hw.children_nodup o), if_pos rfl] at this
        cases this
  intro bs
  induction bs with
  | nil =>
    intro w1 hw1 hcls hch hcoh
    obtain ⟨w', h1, h2⟩ := delitem_pt (E := E) (o := o) (k := k) (w := w1) (by rw [hcls]; exact hmc) hw1
      hcoh rfl (by rw [hcls]; exact hkf)
    refine ⟨w', ?_, h2⟩
    unfold invalidatePipe
    rw [show (clsOf E w o).bhvs.find? _ = _ from hinv]
    simp only [invalidateDel, if_neg hk]
    exact h1
  | cons b r ih =>
    intro w1 hw1 hcls hch hcoh
    by_cases hb : b = .cache
    · subst hb
      obtain ⟨w2, h1, h2, h3, h4, h5, h6⟩ := cacheDrop_cached (o := o) (k := k) hw1
      have hcls2 : clsOf E w2 o = clsOf E w o := (congrArg E.cls (h4 o)).trans hcls
      obtain ⟨w', h7, h8⟩ := ih w2 h2 hcls2 (fun p => (h3 p).trans (hch p)) fun p hp hx j v hv => by
        subst hp
        rw [h6, if_pos rfl, Od.get?_del (hw1.cached_nodup p)] at hv
        split at hv
        · cases hv
        · rw [h3]
          exact hcoh p rfl (by rw [hcls, ← hcls2]; exact hx) j v hv
      refine ⟨w', ?_, h8.pre h3 h4 h5⟩
      simp only [invalidatePipe, if_neg hk, M.bind_apply, h1]
      rw [h7, h3]
    · obtain ⟨w', h7, h8⟩ := ih w1 hw1 hcls hch hcoh
      refine ⟨w', ?_, h8⟩
      rw [← h7]; cases b <;> first | rfl | exact absurd rfl hb

/-! ### Where C33 does not hold -/

/-- 0: `Cache` left of `Lifecycle`, with `Invalidate`; 1: `Alias` with `VolatileStorageInvalidate`. -/
def staleEnv : Env where
  cls c :=
    if c = 0 then { bhvs := [.adopt, .cache, .lifecycle, .defaultInit, .invalidate, .nodify, .dictStorage] }
    else { bhvs := [.alias, .adopt, .defaultInit, .volatileInvalidate, .nodify, .dictStorage],
           aliaser := some (.pre ['x']) }

/-- C33 is false with `Cache` left of `Lifecycle`, which reads the child it is about to delete: `invalidate('a')`
returns, and the child is in the cache and found as before. -/
theorem c33_refuted : ∃ (E : Env) (w w' : World) (o : Oid) (k : Key) (v : Val), Reachable E w ∧
    invalidate E o k w = (.ok (), w') ∧ (w'.cached o).get? k = some v ∧ (getitem E o k w').1 = .ok v :=
  ⟨staleEnv, after staleEnv [.new 0 .none none, .new 0 .none none, .set 0 ka (.node 1), .get 0 ka], _, 0, ka, .node 1,
    reachable_after .., Prod.ext (show (invalidate staleEnv 0 ka
      (after staleEnv [.new 0 .none none, .new 0 .none none, .set 0 ka (.node 1), .get 0 ka])).1 = _ by decide +kernel) rfl,
    by decide +kernel, by decide +kernel⟩

/-- And with `Alias` and `VolatileStorageInvalidate`, which looks for the alias in the storage, where the child has
another key, and takes the `KeyError` for a child that is not there yet. -/
theorem c33_refuted_alias : ∃ (E : Env) (w w' : World) (o : Oid) (k : Key) (v : Val), Reachable E w ∧
    (mkeys E o w).1 = .ok [k] ∧ invalidate E o k w = (.ok (), w') ∧ (getitem E o k w').1 = .ok v ∧
    w'.omap o = w.omap o :=
  ⟨staleEnv, after staleEnv [.new 1 .none none, .new 1 .none none, .set 0 (.str ['x', 'a']) (.node 1)], _, 0,
    .str ['x', 'a'], .node 1, reachable_after .., by decide +kernel, Prod.ext (show (invalidate staleEnv 0 (.str ['x', 'a'])
      (after staleEnv [.new 1 .none none, .new 1 .none none, .set 0 (.str ['x', 'a']) (.node 1)])).1 = _ by decide +kernel) rfl,
    by decide +kernel, rfl⟩

/-! ### Instances -/

/-- A volatile caching node with two children, one of them cached. -/
def c32Ops : List Op := [.new 12 .none none, .new 0 .none none, .new 0 .none none,
  .set 0 ka (.node 1), .set 0 kb (.node 2), .get 0 ka]

theorem volatile_volatileNode : Volatile volatileNode ∧ Concrete volatileNode :=
  ⟨rfl, by decide, by decide, by decide, by decide⟩

/-- C32 is false: `'a'` is cached, so `invalidate()` leaves `'b'` in the storage. -/
theorem c32_refuted : ∃ ops, (invalidate sampleEnv 0 .none (after sampleEnv ops)).1 = .ok () ∧
    Volatile (clsOf sampleEnv (after sampleEnv ops) 0) ∧
    ((invalidate sampleEnv 0 .none (after sampleEnv ops)).2.omap 0).keys = [kb] :=
  ⟨c32Ops, by decide +kernel, rfl, by decide +kernel⟩

example : ∃ w', invalidate sampleEnv 0 .none (after sampleEnv (c32Ops.take 5)) = (.ok (), w') ∧
    (w'.omap 0).keys = [] := by
  obtain ⟨w', h1, h2, -⟩ := c32_empty_partial (E := sampleEnv) (o := 0)
    (reachable_after sampleEnv (c32Ops.take 5)).wf volatile_volatileNode.1 volatile_volatileNode.2
    fun _ => by decide +kernel
  exact ⟨w', h1, h2⟩

example : ∃ w', invalidate sampleEnv 0 ka (after sampleEnv c32Ops) = (.ok (), w') ∧
    w'.omap 0 = ((after sampleEnv c32Ops).omap 0).del ka ∧
    (w'.cached 0).toMap = ((after sampleEnv c32Ops).cached 0).toMap.del ka ∧
    ((after sampleEnv c32Ops).cached 0).keys = [ka] := by
  obtain ⟨w', h1, h2, -, h3, -⟩ := c33_key_partial (E := sampleEnv) (o := 0)
    (reachable_after sampleEnv c32Ops).wf volatile_volatileNode.1 volatile_volatileNode.2
    (k := ka) (by decide)
  rw [if_pos (by decide +kernel)] at h1
  exact ⟨w', h1, h2, h3 (by decide), by decide +kernel⟩

end Verif
