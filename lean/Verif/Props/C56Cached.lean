import Verif.Props.C56
import Verif.Props.C15Cached
import Verif.Props.C31Agrees

/-!
# C56 with `Cache`

Nodes with child factories and a `Cache`, after any history in which `Cache` is transparent (C31).  The class
without its `Cache` is one C56 is about.
-/

namespace Verif

section
variable {E : Env} {ops : List Op} (hs : ∀ c, CacheSafe (E.cls c)) (hh : FitsAll E ops {}) {o : Oid}
  (h : FactoryNode E.uncached (after E ops).uncache o)
include hs hh h

/-- **C56** with caches: the keys are the listed ones. -/
theorem c56_cached_keys : (mkeys E o (after E ops)).1 = .ok (clsOf E (after E ops) o).factories.keys := by
  have h1 := (rel_mkeys (E := E) o _ (fresh_after hs hh)).1
  rw [c56_keys h] at h1
  exact (Prod.mk.inj h1).1.symm

/-- **C56** with caches: any sequence of reads of listed keys, after a history that may have read, assigned
and deleted them before. -/
theorem c56_cached_reads_partial (hE : 0 < E.depth) (ks : List Key)
    (hks : ∀ k ∈ ks, k ∈ (clsOf E (after E ops) o).factories.keys) :
    ∃ (vs : List Val) (w' : World), forM' (getitem E o) ks (after E ops) = (.ok vs, w') ∧
      vs.map some = ks.map (w'.omap o).val ∧
      (w'.omap o).keys = ((after E ops).omap o).keys ++ firsts ((after E ops).omap o).keys ks ∧
      (∀ k ∈ ((after E ops).omap o).keys, (w'.omap o).val k = ((after E ops).omap o).val k) ∧
      (∀ k ∈ firsts ((after E ops).omap o).keys ks, ∃ n, (w'.omap o).val k = some (.node n) ∧
        (after E ops).nobj ≤ n ∧ n < w'.nobj ∧
        (clsOf E (after E ops) o).factories.get? k = some (w'.objs n).cls) ∧
      (∀ k ∈ firsts ((after E ops).omap o).keys ks, ∀ j ∈ firsts ((after E ops).omap o).keys ks,
        (w'.omap o).val k = (w'.omap o).val j → k = j) ∧
      (∀ p, p < (after E ops).nobj → p ≠ o → w'.omap p = (after E ops).omap p) ∧
      FactoryNode E.uncached w'.uncache o := by
  have hf := fresh_after hs hh
  generalize after E ops = w at *
  obtain ⟨vs, v, h1, h2, h3, h4, h5, h6, h7, -, h8, -⟩ := c56_reads_partial (E := E.uncached) hE ks h hks
  have hr := rel_forM' (rel_getitem hs o) ks w hf
  rw [hr.1] at h1
  obtain ⟨e1, rfl⟩ := Prod.mk.inj h1
  exact ⟨vs, _, Prod.ext e1 rfl, h2, h3, h4, h5, h6, h7, h8⟩

/-- **C56** with caches: after a deletion the next read makes a new child. -/
theorem c56_cached_deleted_partial (hE : 0 < E.depth) (hr : Bhv.reference ∉ (clsOf E (after E ops) o).bhvs)
    {k : Key} {c : ClassId} (hc : (clsOf E (after E ops) o).factories.get? k = some c) {v : Val}
    (hv : ((after E ops).omap o).val k = some v) :
    ∃ w1 w2, delitem E o k (after E ops) = (.ok (), w1) ∧ w1.omap o = ((after E ops).omap o).del k ∧
      w1.nobj = (after E ops).nobj ∧ getitem E o k w1 = (.ok (.node (after E ops).nobj), w2) ∧
      w2.omap o = (w1.omap o).set k (.node (after E ops).nobj) ∧ (w2.objs (after E ops).nobj).cls = c := by
  have hf := fresh_after hs hh
  generalize after E ops = w at *
  obtain ⟨v1, v2, h1, h2, h3, h4, h5, h6⟩ := c56_deleted_partial (E := E.uncached) hE h
    (fun x => hr (List.mem_filter.mp x).1) hc hv
  have r1 := rel_delitem hs o k w hf h.lt
  rw [r1.1] at h1
  obtain ⟨e1, rfl⟩ := Prod.mk.inj h1
  have r2 := rel_getitem hs o k _ r1.2
  rw [r2.1] at h4
  obtain ⟨e2, rfl⟩ := Prod.mk.inj h4
  exact ⟨_, _, Prod.ext e1 rfl, h2, h3, Prod.ext e2 rfl, h5, h6⟩

/-- **C56** with caches: `invalidate(k)` with `VolatileStorageInvalidate` for a listed key. -/
theorem c56_cached_invalidated_partial (hv : VolatileTop (clsOf E.uncached (after E ops).uncache o)) {k : Key}
    (hk : k ∈ (clsOf E (after E ops) o).factories.keys) (hn : k ≠ .none) :
    ∃ w', invalidate E o k (after E ops) = (.ok (), w') ∧ w'.omap o = ((after E ops).omap o).del k ∧
      (∀ p, p ≠ o → w'.omap p = (after E ops).omap p) ∧ w'.nobj = (after E ops).nobj ∧
      FactoryNode E.uncached w'.uncache o := by
  have hf := fresh_after hs hh
  generalize after E ops = w at *
  obtain ⟨v, h1, h2, h3, h4, h5⟩ := c56_invalidated_partial (E := E.uncached) h hv (.inr hk)
  have r1 := rel_invalidate hs o k w hf ⟨h.lt, fun e => absurd e hn⟩
  rw [r1.1] at h1
  obtain ⟨e1, rfl⟩ := Prod.mk.inj h1
  rw [kept, if_neg hn] at h2
  exact ⟨_, Prod.ext e1 rfl, h2, h3, h4, h5⟩

end

/-! ### Instances -/

/-- The class of `factoryNode` with a `Cache` to the left of all. -/
def cacheFirstFactory : ClassDef :=
  { factoryNode with bhvs := [.cache, .adopt, .childFactory, .defaultInit, .volatileInvalidate, .nodify, .odictStorage] }

/-- A program with that class as number 14. -/
def cacheFirstFactoryEnv : Env where
  cls c := if c = 14 then cacheFirstFactory else sampleEnv.cls c

theorem cacheFirstFactory_safe (c : ClassId) : CacheSafe (cacheFirstFactoryEnv.cls c) := by
  unfold cacheFirstFactoryEnv; dsimp only
  split
  · exact ⟨by decide, by decide, by decide⟩
  · exact agrees_safe c

/-- Both children were read, one of them twice, and deleted. -/
def c56CachedOps : List Op := [.new 14 .none none, .get 0 kb, .get 0 kb, .get 0 ka, .del 0 kb]

theorem cacheFirstFactory_fits : FitsAll cacheFirstFactoryEnv c56CachedOps {} := by
  exact fits_of_fitsB (by decide +kernel)

theorem cacheFirstFactory_node :
    FactoryNode cacheFirstFactoryEnv.uncached (after cacheFirstFactoryEnv c56CachedOps).uncache 0 where
  wf := (reachable_uncached cacheFirstFactory_safe cacheFirstFactory_fits).wf
  lt := by decide +kernel
  cls := {
    store := ⟨⟨.odictStorage, by decide +kernel, by decide⟩, by decide +kernel⟩
    first := by decide +kernel
    noFallback := by decide +kernel
    keys := fun _ _ hm => absurd hm (by decide +kernel)
    makes := by
      intro k x hx
      replace hx : factoryNode.factories.get? k = some x := hx
      have h1 : x = 1 := by
        simp only [factoryNode, Od.get?] at hx
        split at hx
        · exact (Option.some.inj hx).symm
        · split at hx
          · exact (Option.some.inj hx).symm
          · cases hx
      subst h1
      exact ⟨by decide, fun h => absurd h (by decide +kernel)⟩ }
  index := fun h => absurd h (by decide +kernel)

/-- Reading `b`, `a` and `b` again gives the new `b` twice and the old `a`. -/
example : ∃ (vs : List Val) (w' : World),
    forM' (getitem cacheFirstFactoryEnv 0) [kb, ka, kb] (after cacheFirstFactoryEnv c56CachedOps) = (.ok vs, w') ∧
      vs.map some = [kb, ka, kb].map (w'.omap 0).val ∧ (w'.omap 0).keys = [ka, kb] := by
  obtain ⟨vs, w', h1, h2, h3, -⟩ := c56_cached_reads_partial cacheFirstFactory_safe cacheFirstFactory_fits cacheFirstFactory_node
    (by decide) [kb, ka, kb] (by decide +kernel)
  exact ⟨vs, w', h1, h2, h3.trans (by decide +kernel)⟩

/-- Deleting `a` and reading it again. -/
example : ∃ w1 w2, delitem cacheFirstFactoryEnv 0 ka (after cacheFirstFactoryEnv c56CachedOps) = (.ok (), w1) ∧
    getitem cacheFirstFactoryEnv 0 ka w1 = (.ok (.node 3), w2) := by
  obtain ⟨w1, w2, h1, -, -, h2, -⟩ := c56_cached_deleted_partial cacheFirstFactory_safe cacheFirstFactory_fits cacheFirstFactory_node
    (by decide) (k := ka) (c := 1) (v := .node 2) (by decide +kernel) (by decide +kernel) (by decide +kernel)
  exact ⟨w1, w2, h1, h2⟩

/-- Invalidating `a`. -/
example : ∃ w', invalidate cacheFirstFactoryEnv 0 ka (after cacheFirstFactoryEnv c56CachedOps) = (.ok (), w') ∧
    (w'.omap 0).keys = [] := by
  obtain ⟨w', h1, h2, -⟩ := c56_cached_invalidated_partial cacheFirstFactory_safe cacheFirstFactory_fits
    cacheFirstFactory_node (k := ka) (show _ = _ by decide +kernel) (by decide +kernel) (by decide)
  exact ⟨w', h1, by rw [h2]; decide +kernel⟩

end Verif
