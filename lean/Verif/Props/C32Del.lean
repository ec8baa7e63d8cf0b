import Verif.Props.C32
import Verif.Props.C85

/-!
# C32 for `Invalidate`

The generic `Invalidate` deletes the children one by one.  Without `Cache`, or with nothing cached, `invalidate()` does
what `clear()` does.
-/

namespace Verif

variable {E : Env}

theorem invalidatePipe_clear (bs : List Bhv) {all : List Bhv} {o : Oid}
    (hinv : all.find? (fun b => b == .invalidate || b == .volatileInvalidate) = some .invalidate) {w : World} (hw : WF w)
    (he : Bhv.cache ∈ bs → w.cached o = []) :
    ∃ w1, Mute w w1 ∧ w1.cached o = w.cached o ∧ invalidatePipe E all bs o .none w = mclear E o w1 := by
  induction bs generalizing w with
  | nil =>
    refine ⟨w, mute_pre.refl w, rfl, ?_⟩
    unfold invalidatePipe
    rw [hinv]
    simp only [invalidateDel, if_true, mclear]
  | cons b r ih =>
    by_cases hb : b = .cache
    · subst hb
      have he := he List.mem_cons_self
      obtain ⟨s, w1, hr⟩ := cacheRef_isOk o w
      have hv := vis_cacheRef o hw
      have hm := mute_cacheRef o w
      have hro := cacheRef_ok hr
      rw [hr] at hv hm
      replace hm : Mute w w1 := hm
      have hcs : w1.caches s = [] := by rw [← cached_eq hro, hv.cached o, he]
      have hsame : { w1 with caches := upd w1.caches s [] } = w1 := by
        have : upd w1.caches s [] = w1.caches := funext fun q => by
          unfold upd
          split
          · rename_i e; rw [e, hcs]
          · rfl
        rw [this]
      obtain ⟨w', h1, h2, h3⟩ := ih hv.wf fun _ => (hv.cached o).trans he
      refine ⟨w', mute_pre.trans hm h1, h2.trans (hv.cached o), ?_⟩
      simp only [invalidatePipe, if_true, M.bind_apply, hr, M.getW_apply, M.modifyW_apply]
      rw [hcs, hsame]
      exact h3
    · obtain ⟨w', h1, h2, h3⟩ := ih hw fun h => he (List.mem_cons_of_mem _ h)
      refine ⟨w', h1, h2, ?_⟩
      rw [← h3]; cases b <;> first | rfl | exact absurd rfl hb

/-- C32 for classes with `Invalidate` (left of any `VolatileStorageInvalidate`): if nothing is cached and `invalidate()`
returns, the node lists nothing and has nothing under any key it listed, and all other nodes have what they had. -/
theorem c32_invalidate_partial {o : Oid} {w w' : World} (hE : Unasking E (clsOf E w o)) (hw : WF w) (ho : o < w.nobj)
    (hu : Unread (clsOf E w o).bhvs) (hcon : Concrete (clsOf E w o))
    (hres : Bhv.nodespaces ∈ (clsOf E w o).bhvs → ∀ s, Key.str s ∈ (w.children o).keys → ¬ Reserved s)
    (hinv : (clsOf E w o).bhvs.find? (fun b => b == .invalidate || b == .volatileInvalidate) = some .invalidate)
    (he : Bhv.cache ∈ (clsOf E w o).bhvs → w.cached o = []) (h : invalidate E o .none w = (.ok (), w')) :
    (mkeys E o w').1 = .ok [] ∧ (mlen E o w').1 = .ok 0 ∧ (∀ k ∈ (w.children o).keys, w'.shown E o k = none) ∧
      ∀ p, p ≠ o → ∀ j, w'.shown E p j = w.shown E p j := by
  obtain ⟨w1, hm, -, h1⟩ := invalidatePipe_clear (E := E) _ (o := o) hinv hw he
  rw [show invalidate E o .none w = _ from h1] at h
  have hc := hm.clsOf (E := E) o
  have hkeys : (mkeys E o w1).1 = .ok (w1.children o).keys := by
    obtain ⟨r, w2, hr, hi⟩ := Concrete.iter (E := E) (o := o) (w := w1) (by rw [hc]; exact hcon)
    have hq := storageRef_quiet E o w1 (hm.wf hw)
    rw [hr] at hq
    simp only [mkeys, M.bind_apply, hi, endIter, M.pure_apply]
    rw [← hq.2.children o, children_eq (storageRef_ok hr)]
  obtain ⟨a, b⟩ := c85_clear_empty_partial (by rw [hc]; exact hE) (hm.wf hw) (by rw [hm.nobj]; exact ho)
    (by rw [hc]; exact hu) (by rw [hc]; exact hcon) (by rw [hc, hm.children hw]; exact hres) h
  obtain ⟨ks, h2, -, h3, h4, -⟩ := c85_clear_partial (by rw [hc]; exact hE) (hm.wf hw) (by rw [hm.nobj]; exact ho)
    (by rw [hc]; exact hu) h
  rw [hkeys] at h2
  injection h2 with h2
  refine ⟨a, b, fun k hk => h3 k (by rw [← h2, hm.children hw]; exact hk), fun p hp j => (h4 p hp j).trans ?_⟩
  unfold World.shown
  rw [hm.clsOf, shownBy_mute hm hw]

/-- `Cache` with `Invalidate` above a storage, and nodespaces. -/
def delEnv : Env where
  cls := fun _ => { bhvs := [.nodespaces, .adopt, .lifecycle, .cache, .defaultInit, .invalidate, .nodify, .odictStorage] }

/-- Two children and a nodespace. -/
def delOps : List Op := [.new 0 .none none, .new 0 .none none, .new 0 .none none, .new 0 .none none,
  .set 0 ka (.node 1), .set 0 kb (.node 2), .set 0 (.str "__x__".toList) (.node 3)]

example : let w' := (invalidate delEnv 0 .none (after delEnv delOps)).2
    (mkeys delEnv 0 w').1 = .ok [] ∧ w'.shown delEnv 0 ka = none ∧ w'.shown delEnv 0 kb = none := by
  obtain ⟨h1, -, h2, -⟩ := c32_invalidate_partial (E := delEnv) (o := 0) (w := after delEnv delOps)
    ⟨by decide, fun _ => ⟨by decide, by decide⟩, fun h => absurd h (by decide)⟩
    (reachable_after delEnv delOps).wf (by decide +kernel) (by decide) ⟨⟨.odictStorage, rfl, nofun⟩, by decide, by decide, by decide⟩
    (fun _ s hs => by
      have hk : ((after delEnv delOps).children 0).keys = [ka, kb] := by decide +kernel
      rw [hk] at hs
      rcases List.mem_cons.mp hs with e | e
      · injection e with e; subst e; decide
      · rw [List.mem_singleton] at e; injection e with e; subst e; decide)
    rfl (fun _ => by decide +kernel)
    (Prod.ext (show (invalidate delEnv 0 .none (after delEnv delOps)).1 = _ by decide +kernel) rfl)
  exact ⟨h1, h2 ka (by decide +kernel), h2 kb (by decide +kernel)⟩

end Verif
