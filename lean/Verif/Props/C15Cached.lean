import Verif.Props.C16
import Verif.Props.C44Cached

/-!
# C15, C17 and C19 with `Cache`

Trees of `Reference` nodes with a `Cache` to the right of `Reference`, after any history of the API: if the heap
without its caches is a forest grown through the API of the classes without `Cache`, the index is as exact.
-/

namespace Verif

section
variable {E : Env} {ops : List Op} (hs : ∀ c, CacheSafe (E.cls c)) (hh : FitsAll E ops {}) (hE : 0 < E.depth)
  {Rs : List Oid} (hg : Grown E.uncached (after E ops).uncache Rs)

omit hs hh hE hg in
theorem inTree_uncache {w : World} {R o : Oid} : InTree w.uncache R o ↔ InTree w R o :=
  InTree.congr (w := w) (w' := w.uncache) fun _ _ _ => Iff.rfl

include hE hg in
/-- **C15** with caches. -/
theorem c15_cached {R o : Oid} (hR : R ∈ Rs) (ho : InTree (after E ops) R o) (u : Nat) :
    ∃ r, refNode o u (after E ops) = (.ok r, after E ops) ∧
      (∀ x, r = some x ↔ InTree (after E ops) R x ∧ HasUuid (after E ops) x u) ∧
      (r = none ↔ ¬ ∃ x, InTree (after E ops) R x ∧ HasUuid (after E ops) x u) := by
  generalize after E ops = w at *
  obtain ⟨a, ha⟩ := (Grown.forest (E := E.uncached) hE hg).live R hR
  have hi : ((w.objs o).index).isSome := by
    have : (w.objs o).index = some a := ha.shared o (inTree_uncache.mpr ho)
    rw [this]; rfl
  obtain ⟨r, h1, h2, h3⟩ := c15_exact (E := E.uncached) hE hg hR (inTree_uncache.mpr ho) u
  refine ⟨r, ?_, fun x => (h2 x).trans (and_congr_left fun _ => inTree_uncache), h3.trans
    (not_congr (exists_congr fun x => and_congr_left fun _ => inTree_uncache))⟩
  simp only [refNode, indexRef, M.bind_apply, World.uncache] at h1 ⊢
  cases hx : (w.objs o).index with
  | none => rw [hx] at hi; cases hi
  | some i =>
    rw [hx] at h1
    simp only [M.getW_apply, M.pure_apply, Prod.mk.injEq] at h1 ⊢
    exact ⟨h1.1, trivial⟩

include hs hh hE hg in
/-- **C17** with caches. -/
theorem c17_cached {R o n : Oid} {k : Key} (hR : R ∈ Rs) (ho : InTree (after E ops) R o)
    (hc : Contains (after E ops) o k n) :
    ∃ w', detach E o k (after E ops) = (.ok (.node n), w') ∧ Grown E.uncached w'.uncache (n :: Rs) ∧
      (∀ x, InTree w' n x ↔ InTree (after E ops) n x) ∧
      (∀ x, InTree w' R x ↔ InTree (after E ops) R x ∧ ¬ InTree (after E ops) n x) ∧
      (∀ x u, HasUuid w' x u ↔ HasUuid (after E ops) x u) ∧
      (∀ y, InTree (after E ops) n y → ∀ u x, (w'.known y).get? (some u) = some x ↔
        InTree (after E ops) n x ∧ HasUuid (after E ops) x u) ∧
      (∀ y, InTree (after E ops) R y → ¬ InTree (after E ops) n y → ∀ u x, (w'.known y).get? (some u) = some x ↔
        InTree (after E ops) R x ∧ ¬ InTree (after E ops) n x ∧ HasUuid (after E ops) x u) := by
  have hf := fresh_after hs hh
  generalize after E ops = w at *
  have hfo := Grown.forest (E := E.uncached) hE hg
  have hlt : o < w.nobj := by
    obtain ⟨a, ha⟩ := hfo.live R hR
    exact (inTree_uncache.mpr ho).induct (P := (· < w.nobj)) ha.tree.bound fun p j c _ hc _ => hfo.bounds p j c hc
  obtain ⟨v, h1, h2, h3, h4, h5, h6, h7⟩ := c17_split (E := E.uncached) (w := w.uncache) hE hg hR (inTree_uncache.mpr ho) hc
  rw [(rel_detach hs o k w hf hlt).1] at h1
  obtain ⟨e1, e2⟩ := Prod.mk.inj h1
  subst e2
  simp only [inTree_uncache] at h3 h4 h6 h7
  exact ⟨_, Prod.ext e1 rfl, h2, h3, h4, h5, h6, h7⟩

include hs hh hE hg in
/-- **C19** with caches, for the nodes of the receiving tree and the merged root. -/
theorem c19_cached_partial {R o N : Oid} {k : Key} (hR : R ∈ Rs) (ho : InTree (after E ops) R o) (hN : N ∈ Rs)
    (hNR : N ≠ R) (hk : k ∉ ((after E ops).children o).keys) (hkf : KeyFor (clsOf E (after E ops) o) k) :
    ∃ w', setitem E o k (.node N) (after E ops) = (.ok (), w') ∧
      (∀ x, InTree w' R x ↔ InTree (after E ops) R x ∨ InTree (after E ops) N x) ∧
      (∀ x u, HasUuid w' x u ↔ HasUuid (after E ops) x u) ∧
      (∀ p, InTree (after E ops) R p ∨ p = N → ∀ u x, (w'.known p).get? (some u) = some x ↔
        InTree w' R x ∧ HasUuid w' x u) ∧
      (∀ p, InTree (after E ops) N p → p ≠ N → ∀ u x, (w'.known p).get? (some u) = some x ↔
        InTree (after E ops) N x ∧ HasUuid w' x u) := by
  have hf := fresh_after hs hh
  generalize after E ops = w at *
  obtain ⟨v, h1, h2, h3, h4, h5⟩ := c19_partial (E := E.uncached) (w := w.uncache) hE hg hR (inTree_uncache.mpr ho) hN hNR hk
    (keyFor_uncached hkf)
  rw [(rel_setitem hs o k _ w hf).1] at h1
  obtain ⟨e1, e2⟩ := Prod.mk.inj h1
  subst e2
  simp only [inTree_uncache] at h2 h4 h5
  exact ⟨_, Prod.ext e1 rfl, h2, h3, h4, h5⟩

end

/-! A parent with a child that was read twice, and another root. -/

/-- `Reference` and a `Cache` in front of the storage. -/
def cachedRefEnv : Env := { cls := fun _ => { bhvs := [.adopt, .order, .reference, .defaultInit, .nodify, .cache, .odictStorage] } }

/-- The second node below the first, read twice. -/
def cachedRefOps : List Op := [.new 0 .none none, .new 0 .none none, .set 0 ka (.node 1), .get 0 ka, .get 0 ka]

theorem cachedRef_safe (c : ClassId) : CacheSafe (cachedRefEnv.cls c) := by
  show CacheSafe (cachedRefEnv.cls 0)
  exact ⟨by decide, by decide, by decide⟩

theorem cachedRef_class (c : ClassId) : RefClass (cachedRefEnv.uncached.cls c) where
  kind := ⟨.odictStorage, rfl, by decide⟩
  once := ⟨[.adopt, .order], [.defaultInit, .nodify, .odictStorage], rfl, by decide, by decide⟩
  plain := by
    show ∀ b ∈ (cachedRefEnv.uncached.cls 0).bhvs, _
    decide

theorem cachedRef_fits : FitsAll cachedRefEnv cachedRefOps {} := fits_of_fitsB (by decide +kernel)

theorem cachedRef_grown : Grown cachedRefEnv.uncached (after cachedRefEnv cachedRefOps).uncache [0] := by
  have h0 : Grown cachedRefEnv.uncached {} [] := .start
  have none : ∀ {w : World} {o : Oid}, w.children o = [] → ∀ j c, ¬ Contains w o j c :=
    fun {w o} e j c h => by
      replace h : (w.children o).get? j = _ := h
      rw [e] at h
      cases h
  have alone : ∀ {w : World} {o x : Oid}, w.children o = [] → InTree w o x → x = o := by
    intro w o x e h
    rcases h.down with h | ⟨j, c, hc, -⟩
    · exact h
    · exact absurd hc (none e j c)
  have kf : ∀ (w : World) o k, KeyFor (clsOf cachedRefEnv.uncached w o) k := fun w o k h => by
    replace h : Bhv.nodespaces ∈ (cachedRefEnv.uncached.cls 0).bhvs := h
    exact absurd h (by decide)
  rw [← show after cachedRefEnv.uncached cachedRefOps = (after cachedRefEnv cachedRefOps).uncache from
    (c31_all_partial _ cachedRef_safe _ cachedRef_fits).2]
  have h1 : Grown cachedRefEnv.uncached (after cachedRefEnv.uncached (cachedRefOps.take 1)) [0] :=
    .new (x := .ok 0) (c := 0) (name := .none) (parent := Option.none) h0 (cachedRef_class 0) (by decide) rfl
      (fun _ _ _ R h => nomatch h)
  have h2 : Grown cachedRefEnv.uncached (after cachedRefEnv.uncached (cachedRefOps.take 2)) [1, 0] :=
    .new (x := .ok 1) (c := 0) (name := .none) (parent := Option.none) h1 (cachedRef_class 0) (by decide) rfl
      (fun u h1 h2 R hR x hx hu => by
        obtain rfl : u = _ := Nat.le_antisymm (Nat.le_of_lt_succ h2) h1
        rcases List.mem_singleton.mp hR with rfl
        rcases alone rfl hx with rfl
        exact absurd hu (by unfold HasUuid; decide +kernel))
  have h3 : Grown cachedRefEnv.uncached (after cachedRefEnv.uncached (cachedRefOps.take 3)) [0] :=
    .leaf (x := .ok ()) (R := 0) (o := 0) (N := 1) (k := ka) h2 (by decide) (.refl 0) (by decide)
      (by decide) (none rfl) (by decide +kernel) (kf _ _ _) rfl
  have h4 : Grown cachedRefEnv.uncached (after cachedRefEnv.uncached (cachedRefOps.take 4)) [0] :=
    .get (x := .ok (.node 1)) (R := 0) (o := 0) (k := ka) h3 (by decide) (.refl 0) (kf _ _ _) rfl
  exact .get (x := .ok (.node 1)) (R := 0) (o := 0) (k := ka) h4 (by decide) (.refl 0) (kf _ _ _) rfl

/-- The cache is in use; detaching the child splits the index; the cache does not show it any more. -/
example : ((after cachedRefEnv cachedRefOps).cached 0).length = 1 ∧
    ∃ w', detach cachedRefEnv 0 ka (after cachedRefEnv cachedRefOps) = (.ok (.node 1), w') ∧
      (∀ x, InTree w' 0 x ↔ InTree (after cachedRefEnv cachedRefOps) 0 x ∧ ¬ InTree (after cachedRefEnv cachedRefOps) 1 x) := by
  refine ⟨by decide +kernel, ?_⟩
  obtain ⟨w', h1, -, -, h2, -⟩ := c17_cached cachedRef_safe cachedRef_fits (by decide) cachedRef_grown (R := 0) (o := 0) (n := 1)
    (k := ka) (by decide) (.refl 0) (by unfold Contains; decide +kernel)
  exact ⟨w', h1, h2⟩

example : ∃ r, refNode 1 1 (after cachedRefEnv cachedRefOps) = (.ok r, after cachedRefEnv cachedRefOps) ∧
    (∀ x, r = some x ↔ InTree (after cachedRefEnv cachedRefOps) 0 x ∧ HasUuid (after cachedRefEnv cachedRefOps) x 1) := by
  obtain ⟨r, h1, h2, -⟩ := c15_cached (by decide) cachedRef_grown (R := 0) (o := 1) (by decide)
    (.child (.refl 0) (k := ka) (by unfold Contains; decide +kernel)) 1
  exact ⟨r, h1, h2⟩

end Verif
