import Verif.Lemmas.Factory
import Verif.Sample

/-!
# C56 Child factories build each child once

Proved for the classes of `FactoryClass`, in every state of the heap in which the invariant of all
histories holds (`Reachable.wf`).  Not so: with plain `Invalidate`, `invalidate()` raises `KeyError`
if one of the listed children was not read before (`c56_refuted_invalidate`); if the storage stands
left of `ChildFactory`, only the children read so far are listed (`c56_refuted_keys`).
-/

namespace Verif

variable {E : Env}

/-- A node of a class with `ChildFactory`. -/
structure FactoryNode (E : Env) (w : World) (o : Oid) : Prop where
  wf : WF w
  lt : o < w.nobj
  cls : FactoryClass E (clsOf E w o)
  index : Bhv.reference ∈ (clsOf E w o).bhvs → (w.objs o).index.isSome = true

theorem Created.node {o : Oid} {k : Key} {c : ClassId} {w w' : World} (h : Created E o k c w w')
    (hn : FactoryNode E w o) : FactoryNode E w' o :=
  ⟨h.wf, Nat.lt_trans hn.lt h.lt, by rw [h.clsOf hn.lt]; exact hn.cls,
    fun hr => h.index.keep o hn.lt (hn.index (by rw [h.clsOf hn.lt] at hr; exact hr))⟩

theorem Same.node {o : Oid} {w w' : World} (hw : WF w') (h : Same w w') (hn : FactoryNode E w o) :
    FactoryNode E w' o := by
  have hc : clsOf E w' o = clsOf E w o := congrArg E.cls (h.obj o).cls
  exact ⟨hw, by rw [h.nobj]; exact hn.lt, by rw [hc]; exact hn.cls,
    fun hr => by rw [(h.obj o).index]; exact hn.index (by rw [hc] at hr; exact hr)⟩

/-- The keys of the node are the listed ones, whatever was read, assigned or deleted. -/
theorem c56_keys {w : World} {o : Oid} (h : FactoryNode E w o) :
    mkeys E o w = (.ok (clsOf E w o).factories.keys, w) := by
  simp only [mkeys, M.bind_apply, iter_factory h.cls, endIter, M.pure_apply]

/-- The first read creates one child with the class of the table, and stores it. -/
theorem c56_first_partial {w : World} {o : Oid} (hE : 0 < E.depth) (h : FactoryNode E w o) {k : Key} {c : ClassId}
    (hc : (clsOf E w o).factories.get? k = some c) (hk : k ∉ (w.omap o).keys) :
    ∃ w', getitem E o k w = (.ok (.node w.nobj), w') ∧
      w'.omap o = (w.omap o).set k (.node w.nobj) ∧
      (w'.objs w.nobj).cls = c ∧ w'.omap w.nobj = OMap.empty ∧
      (Bhv.adopt ∈ (clsOf E w o).bhvs → w'.loc w.nobj = (k, some o)) ∧
      (∀ p, p < w.nobj → (p ≠ o → w'.omap p = w.omap p) ∧ w'.loc p = w.loc p ∧
        (w'.objs p).cls = (w.objs p).cls) ∧
      FactoryNode E w' o := by
  obtain ⟨w', e1, e2⟩ := getitem_make hE h.cls h.wf h.lt h.index hk hc
  refine ⟨w', e1, ?_, e2.newCls, ?_, e2.newLoc, fun p hp => ⟨fun hpo => ?_, e2.loc p hp, e2.cls p hp⟩, e2.node h⟩
  · show (w'.children o).toMap = _
    rw [e2.children, ← Ser.Od.set_append hk, toMap_set]
    rfl
  · show (w'.children w.nobj).toMap = _
    rw [e2.newEmpty]
    rfl
  · show (w'.children p).toMap = _
    rw [e2.other p hp hpo]
    rfl

/-- A child that is there is returned by every read, which changes nothing. -/
theorem c56_later_partial {w : World} {o : Oid} (h : FactoryNode E w o) {k : Key}
    (hkf : KeyFor (clsOf E w o) k) {v : Val} (hv : (w.omap o).val k = some v) :
    ∃ w', getitem E o k w = (.ok v, w') ∧ Same w w' ∧ FactoryNode E w' o := by
  obtain ⟨w', e1, e2⟩ := getitem_hit (E := E) (S := (· = o)) (h.cls.looks hkf) h.wf h.cls.store.coh rfl hv
  exact ⟨w', e1, e2.same, e2.same.node e2.wf h⟩

theorem firsts_append {seen : List Key} {k : Key} {ks : List Key} (hk : k ∉ seen) :
    firsts seen (k :: ks) = k :: firsts (seen ++ [k]) ks := by
  rw [firsts, if_neg hk]

/-- Any sequence of reads of listed keys, repetitions included: every read returns the child that is
there at the end, so all reads of one key return one child.  Keys not read before get a new
node each, in the order of their first read; what was there stays. -/
theorem c56_reads_partial (hE : 0 < E.depth) {o : Oid} (ks : List Key) {w : World} (h : FactoryNode E w o)
    (hks : ∀ k ∈ ks, k ∈ (clsOf E w o).factories.keys) :
    ∃ (vs : List Val) (w' : World), forM' (getitem E o) ks w = (.ok vs, w') ∧
      vs.map some = ks.map (w'.omap o).val ∧
      (w'.omap o).keys = (w.omap o).keys ++ firsts (w.omap o).keys ks ∧
      (∀ k ∈ (w.omap o).keys, (w'.omap o).val k = (w.omap o).val k) ∧
      (∀ k ∈ firsts (w.omap o).keys ks, ∃ n, (w'.omap o).val k = some (.node n) ∧ w.nobj ≤ n ∧ n < w'.nobj ∧
        (clsOf E w o).factories.get? k = some (w'.objs n).cls) ∧
      (∀ k ∈ firsts (w.omap o).keys ks, ∀ j ∈ firsts (w.omap o).keys ks,
        (w'.omap o).val k = (w'.omap o).val j → k = j) ∧
      (∀ p, p < w.nobj → p ≠ o → w'.omap p = w.omap p) ∧
      w.nobj ≤ w'.nobj ∧ FactoryNode E w' o ∧ (∀ p, p < w.nobj → (w'.objs p).cls = (w.objs p).cls) := by
  induction ks generalizing w with
  | nil =>
    exact ⟨[], w, rfl, rfl, by simp [firsts], fun _ _ => rfl, nofun, nofun, fun _ _ _ => rfl,
      Nat.le_refl _, h, fun _ _ => rfl⟩
  | cons k ks ih =>
    by_cases hk : k ∈ (w.omap o).keys
    · obtain ⟨v, hv⟩ := Od.get?_of_mem_keys hk
      have hkf : KeyFor (clsOf E w o) k := h.cls.keys k (hks k List.mem_cons_self)
      obtain ⟨w1, e1, s1, n1⟩ := c56_later_partial h hkf (v := v) hv
      have hom : ∀ p, w1.omap p = w.omap p := fun p => congrArg Od.toMap (s1.children p)
      have hcl : clsOf E w1 o = clsOf E w o := congrArg E.cls (s1.obj o).cls
      obtain ⟨vs, w2, f1, f2, f3, f4, f5, f6, f7, f8, f9, f10⟩ := ih n1 (by
        rw [hcl]; exact fun j hj => hks j (List.mem_cons_of_mem _ hj))
      rw [hom] at f3 f4 f5 f6
      rw [hcl, s1.nobj] at f5
      rw [s1.nobj] at f7 f8 f10
      have hfs : firsts (w.omap o).keys (k :: ks) = firsts (w.omap o).keys ks := by
        rw [firsts, if_pos hk]
      rw [hfs]
      refine ⟨v :: vs, w2, ?_, ?_, f3, f4, f5, f6, fun p hp hpo => (f7 p hp hpo).trans (hom p), f8, f9,
        fun p hp => (f10 p hp).trans (s1.obj p).cls⟩
      · simp only [forM', M.bind_apply, e1, f1, M.pure_apply]
      · simp only [List.map_cons, f2, f4 k hk]
        rw [show (w.omap o).val k = some v from hv]
    · have hkl := hks k List.mem_cons_self
      obtain ⟨c, hc⟩ := Od.get?_of_mem_keys hkl
      obtain ⟨w1, e1, e2⟩ := getitem_make hE h.cls h.wf h.lt h.index hk hc
      have n1 := e2.node h
      have hcl : clsOf E w1 o = clsOf E w o := e2.clsOf h.lt
      have hom : w1.omap o = (w.omap o).set k (.node w.nobj) := by
        show (w1.children o).toMap = _
        rw [e2.children, ← Ser.Od.set_append hk, toMap_set]
        rfl
      have hkeys : (w1.omap o).keys = (w.omap o).keys ++ [k] := by
        rw [hom]; simp only [OMap.set, if_neg hk]
      have hval : (w1.omap o).val k = some (.node w.nobj) := by rw [hom]; simp only [OMap.set, if_pos]
      have hold : ∀ j ∈ (w.omap o).keys, (w1.omap o).val j = (w.omap o).val j := fun j hj => by
        have : j ≠ k := fun e => hk (e ▸ hj)
        rw [hom]; simp only [OMap.set, if_neg this]
      obtain ⟨vs, w2, f1, f2, f3, f4, f5, f6, f7, f8, f9, f10⟩ := ih n1 (by
        rw [hcl]; exact fun j hj => hks j (List.mem_cons_of_mem _ hj))
      rw [hcl] at f5
      have hlt := e2.lt
      have hkv : (w2.omap o).val k = some (.node w.nobj) := by
        rw [f4 k (by rw [hkeys]; simp), hval]
      have hfs := firsts_append (ks := ks) hk
      rw [hkeys] at f3 f5 f6
      rw [hfs]
      refine ⟨.node w.nobj :: vs, w2, ?_, ?_, by simp [f3], fun j hj => ?_, fun j hj => ?_, ?_,
        fun p hp hpo => (f7 p (Nat.lt_trans hp hlt) hpo).trans (congrArg Od.toMap (e2.other p hp hpo)),
        Nat.le_trans (Nat.le_of_lt hlt) f8, f9, fun p hp => (f10 p (Nat.lt_trans hp hlt)).trans (e2.cls p hp)⟩
      · simp only [forM', M.bind_apply, e1, f1, M.pure_apply]
      · simp only [List.map_cons, f2, hkv]
      · rw [f4 j (by rw [hkeys]; simp [hj]), hold j hj]
      · rcases List.mem_cons.mp hj with e | hj
        · subst e
          exact ⟨w.nobj, hkv, Nat.le_refl _, Nat.lt_of_lt_of_le hlt f8, by
            rw [f10 _ hlt, e2.newCls]; exact hc⟩
        · obtain ⟨n, g1, g2, g3, g4⟩ := f5 j hj
          exact ⟨n, g1, by omega, g3, g4⟩
      · have sep : ∀ j ∈ firsts ((w.omap o).keys ++ [k]) ks, (w2.omap o).val k ≠ (w2.omap o).val j := by
          intro j hj he
          obtain ⟨n, g1, g2, -⟩ := f5 j hj
          rw [hkv, g1] at he
          injection he with he
          injection he with he
          omega
        intro i hi j hj he
        rcases List.mem_cons.mp hi with e | hi <;> rcases List.mem_cons.mp hj with e' | hj
        · rw [e, e']
        · exact absurd (e ▸ he) (sep j hj)
        · exact absurd (e' ▸ he.symm) (sep i hi)
        · exact f6 i hi j hj he

/-- Deleting a child that is there removes it; the next read makes a new one. -/
theorem c56_deleted_partial {w : World} {o : Oid} (hE : 0 < E.depth) (h : FactoryNode E w o)
    (hr : Bhv.reference ∉ (clsOf E w o).bhvs) {k : Key} {c : ClassId}
    (hc : (clsOf E w o).factories.get? k = some c) {v : Val} (hv : (w.omap o).val k = some v) :
    ∃ w1 w2, delitem E o k w = (.ok (), w1) ∧ w1.omap o = (w.omap o).del k ∧ w1.nobj = w.nobj ∧
      getitem E o k w1 = (.ok (.node w.nobj), w2) ∧ w2.omap o = (w1.omap o).set k (.node w.nobj) ∧
      (w2.objs w.nobj).cls = c := by
  have hkf : KeyFor (clsOf E w o) k := h.cls.keys k (Od.mem_keys_of_get? hc)
  obtain ⟨w1, e1, d1⟩ := delitem_tree h.wf h.cls.store hr hkf (Od.mem_keys_of_get? hv)
  have hcl : clsOf E w1 o = clsOf E w o := congrArg E.cls (d1.cls o)
  have hom : w1.omap o = (w.omap o).del k := by
    show (w1.children o).toMap = _
    rw [d1.children, if_pos rfl, toMap_del (h.wf.children_nodup o)]
    rfl
  have n1 : FactoryNode E w1 o := ⟨d1.wf, by rw [d1.nobj]; exact h.lt, by rw [hcl]; exact h.cls,
    fun hr' => absurd (by rw [hcl] at hr'; exact hr') hr⟩
  obtain ⟨w2, g1, g2, g3, -⟩ := c56_first_partial hE n1 (k := k) (c := c) (by rw [hcl]; exact hc)
    (by rw [hom]; simp [OMap.del])
  rw [d1.nobj] at g1 g2 g3
  exact ⟨w1, w2, e1, hom, d1.nobj, g1, g2, g3⟩

/-! ### Invalidating -/

/-- The classes whose `invalidate` is the one of `VolatileStorageInvalidate`. -/
def VolatileTop (c : ClassDef) : Prop :=
  (c.bhvs.find? fun b => b == .invalidate || b == .volatileInvalidate) = some .volatileInvalidate

theorem invalidate_volatile {w : World} {o : Oid} (h : FactoryNode E w o) (hv : VolatileTop (clsOf E w o))
    (k : Key) : invalidate E o k w = invalidateVolatile E o k w := by
  have : ∀ bs : List Bhv, Bhv.cache ∉ bs → ∀ w', invalidatePipe E (clsOf E w o).bhvs bs o k w' =
      invalidateVolatile E o k w' := by
    intro bs
    induction bs with
    | nil =>
      intro _ w'
      simp only [invalidatePipe]
      rw [hv]
    | cons b r ih =>
      intro hb w'
      have := ih (fun hm => hb (List.mem_cons_of_mem _ hm)) w'
      cases b
      case cache => exact absurd List.mem_cons_self hb
      all_goals exact this
  exact this _ (h.cls.store.not (by decide)) w

/-- What `invalidate` leaves of the children. -/
def kept (k : Key) (m : OMap Key Val) : OMap Key Val := if k = .none then OMap.empty else m.del k

/-- `invalidate(k)` for a listed key, whether it was read before or not, and `invalidate()`, with
`VolatileStorageInvalidate`: the child or all children are removed, nothing else changes.  By
`c56_first_partial` the next read makes a new one. -/
theorem c56_invalidated_partial {w : World} {o : Oid} (h : FactoryNode E w o) (hv : VolatileTop (clsOf E w o))
    {k : Key} (hk : k = .none ∨ k ∈ (clsOf E w o).factories.keys) :
    ∃ w', invalidate E o k w = (.ok (), w') ∧ w'.omap o = kept k (w.omap o) ∧
      (∀ p, p ≠ o → w'.omap p = w.omap p) ∧ w'.nobj = w.nobj ∧ FactoryNode E w' o := by
  rw [invalidate_volatile h hv]
  have hc := h.cls.store.stores
  obtain ⟨r, w1, hr⟩ := hc.storageRef
  have hq := storageRef_quiet E o w h.wf
  have hro := storageRef_ok hr
  rw [hr] at hq
  have n1 := hq.2.node hq.1 h
  have hcl : clsOf E w1 o = clsOf E w o := congrArg E.cls (hq.2.obj o).cls
  have hch := hq.2.children o
  have done : ∀ d : Od Key Val, d.keys.Nodup → FactoryNode E { w1 with stores := upd w1.stores r d } o ∧
      ∀ p, ({ w1 with stores := upd w1.stores r d } : World).children p = if p = o then d else w.children p := by
    intro d hd
    refine ⟨⟨n1.wf.setStore r hd, n1.lt, n1.cls, n1.index⟩, fun p => ?_⟩
    rw [children_setStore hq.1 hro]
    split
    · rfl
    · exact hq.2.children p
  by_cases e : k = .none
  · obtain ⟨g1, g2⟩ := done [] (by simp [Od.keys])
    refine ⟨_, ?_, ?_, ?_, ?_, g1⟩
    · simp only [invalidateVolatile, M.bind_apply, hr, if_pos e, M.modifyW_apply]
    · show Od.toMap _ = _
      rw [g2, if_pos rfl, kept, if_pos e]
      rfl
    · intro p hp
      show Od.toMap _ = _
      rw [g2, if_neg hp]
      rfl
    · exact hq.2.nobj
  · have hk : k ∈ (clsOf E w o).factories.keys := hk.resolve_left e
    have hnd : (w.children o).keys.Nodup := h.wf.children_nodup o
    obtain ⟨g1, g2⟩ := done ((w.children o).del k) (Od.nodup_keys_del hnd k)
    refine ⟨_, ?_, ?_, ?_, ?_, g1⟩
    · simp only [invalidateVolatile, M.bind_apply, hr, if_neg e, c56_keys n1, hcl]
      rw [if_pos (by simpa using hk)]
      simp only [M.modifyW_apply]
      rw [show w1.stores r = w.children o by rw [← children_eq hro, hch]]
    · show Od.toMap _ = _
      rw [g2, if_pos rfl, kept, if_neg e, toMap_del hnd]
      rfl
    · intro p hp
      show Od.toMap _ = _
      rw [g2, if_neg hp]
      rfl
    · exact hq.2.nobj

/-! ### Cases -/

theorem factoryClass13 : FactoryClass factoryEnv factoryNode where
  store := ⟨⟨.odictStorage, by decide, by decide⟩, by decide⟩
  first := by decide
  noFallback := by decide
  keys := fun _ _ hm => absurd hm (by decide)
  makes := by
    intro k x hx
    have : x = 1 := by
      simp only [factoryNode, Od.get?] at hx
      split at hx
      · injection hx with hx; exact hx.symm
      · split at hx
        · injection hx with hx; exact hx.symm
        · cases hx
    subst this
    exact ⟨by decide, fun h => absurd h (by decide)⟩

/-- A new node with the table `a`, `b`. -/
def c56Ops : List Op := [.new 13 .none none]

theorem factoryNode13 : FactoryNode factoryEnv (after factoryEnv c56Ops) 0 where
  wf := (reachable_after _ _).wf
  lt := by decide +kernel
  cls := by
    rw [show clsOf factoryEnv (after factoryEnv c56Ops) 0 = factoryNode from rfl]
    exact factoryClass13
  index := fun h => absurd h (by
    rw [show clsOf factoryEnv (after factoryEnv c56Ops) 0 = factoryNode from rfl]
    decide)

/-- Reading `b`, `a`, `b`: two children, in the order of their first read. -/
example : ∃ (vs : List Val) (w' : World),
    forM' (getitem factoryEnv 0) [kb, ka, kb] (after factoryEnv c56Ops) = (.ok vs, w') ∧
      vs.map some = [kb, ka, kb].map (w'.omap 0).val ∧ (w'.omap 0).keys = [kb, ka] := by
  obtain ⟨vs, w', h1, h2, h3, -⟩ := c56_reads_partial (E := factoryEnv) (by decide) [kb, ka, kb] factoryNode13
    (by decide +kernel)
  exact ⟨vs, w', h1, h2, h3.trans (by decide +kernel)⟩

/-- Reading `a`, deleting it and reading it again: another node. -/
example : ∃ w1 w2, delitem factoryEnv 0 ka (after factoryEnv (c56Ops ++ [.get 0 ka])) = (.ok (), w1) ∧
    getitem factoryEnv 0 ka w1 = (.ok (.node 2), w2) := by
  have hn : FactoryNode factoryEnv (after factoryEnv (c56Ops ++ [.get 0 ka])) 0 := by
    refine ⟨(reachable_after _ _).wf, by decide +kernel, ?_, ?_⟩
    · rw [show clsOf factoryEnv (after factoryEnv (c56Ops ++ [.get 0 ka])) 0 = factoryNode from rfl]
      exact factoryClass13
    · rw [show clsOf factoryEnv (after factoryEnv (c56Ops ++ [.get 0 ka])) 0 = factoryNode from rfl]
      exact fun h => absurd h (by decide)
  obtain ⟨w1, w2, h1, -, -, h2, -⟩ := c56_deleted_partial (E := factoryEnv) (by decide) hn (c := 1) (v := .node 1)
    (k := ka) (by
      rw [show clsOf factoryEnv (after factoryEnv (c56Ops ++ [.get 0 ka])) 0 = factoryNode from rfl]
      decide) rfl (by decide +kernel)
  exact ⟨w1, w2, h1, h2⟩

/-- Classes with the same table: 14 with `Invalidate`, 15 with `VolatileStorageInvalidate`, 16 with the
storage to the left of `ChildFactory`. -/
def factoryEnv2 : Env where
  cls c :=
    if c = 14 then { factoryNode with bhvs := [.adopt, .childFactory, .invalidate, .defaultInit, .nodify, .odictStorage] }
    else if c = 15 then
      { factoryNode with bhvs := [.adopt, .childFactory, .volatileInvalidate, .defaultInit, .nodify, .odictStorage] }
    else if c = 16 then { factoryNode with bhvs := [.adopt, .odictStorage, .childFactory, .defaultInit, .nodify] }
    else factoryEnv.cls c

theorem factoryClass15 : FactoryClass factoryEnv2 (factoryEnv2.cls 15) where
  store := ⟨⟨.odictStorage, by decide, by decide⟩, by decide⟩
  first := by decide
  noFallback := by decide
  keys := fun _ _ hm => absurd hm (by decide)
  makes := by
    intro k x hx
    have hx : factoryNode.factories.get? k = some x := hx
    have := (factoryClass13.makes k x hx).1
    have h1 : x = 1 := by
      simp only [factoryNode, Od.get?] at hx
      split at hx
      · injection hx with hx; exact hx.symm
      · split at hx
        · injection hx with hx; exact hx.symm
        · cases hx
    subst h1
    exact ⟨by decide, fun h => absurd h (by decide)⟩

/-- `invalidate('b')` on a volatile node which has read `a` only. -/
example : ∃ w', invalidate factoryEnv2 0 kb (after factoryEnv2 [.new 15 .none none, .get 0 ka]) = (.ok (), w') ∧
    (w'.omap 0).keys = [ka] := by
  have hn : FactoryNode factoryEnv2 (after factoryEnv2 [.new 15 .none none, .get 0 ka]) 0 := by
    refine ⟨(reachable_after _ _).wf, by decide +kernel, ?_, ?_⟩
    · exact factoryClass15
    · exact fun h => absurd h (by decide)
  obtain ⟨w', h1, h2, -⟩ := c56_invalidated_partial (E := factoryEnv2) hn (by unfold VolatileTop; decide +kernel) (k := kb)
    (.inr (by decide +kernel))
  exact ⟨w', h1, by rw [h2]; decide +kernel⟩

/-- With `Invalidate`, and `a` read but not `b`: `invalidate()` drops `a` and then raises `KeyError('b')`. -/
theorem c56_refuted_invalidate :
    (invalidate factoryEnv2 0 .none (after factoryEnv2 [.new 14 .none none, .get 0 ka])).1 =
      .error (.key (.key kb)) ∧
    ((invalidate factoryEnv2 0 .none (after factoryEnv2 [.new 14 .none none, .get 0 ka])).2.omap 0).keys = [] :=
  ⟨rfl, rfl⟩

/-- With the storage first, the listed keys are not the keys: here `a` only. -/
theorem c56_refuted_keys :
    (mkeys factoryEnv2 0 (after factoryEnv2 [.new 16 .none none, .get 0 ka])).1 = .ok [ka] ∧
    (factoryEnv2.cls 16).factories.keys = [ka, kb] := ⟨rfl, rfl⟩

/-- A child assigned under a key that is not listed can be read, and is not among the keys. -/
theorem c56_hidden :
    (getitem factoryEnv 0 kc (after factoryEnv [.new 13 .none none, .new 1 .none none, .set 0 kc (.node 1)])).1 =
      .ok (.node 1) ∧
    (mkeys factoryEnv 0 (after factoryEnv [.new 13 .none none, .new 1 .none none, .set 0 kc (.node 1)])).1 =
      .ok [ka, kb] := ⟨rfl, rfl⟩

end Verif
