import Verif.Props.C01
import Verif.Lemmas.UncacheApi

/-!
# C31: the cache is transparent

The same program with every `Cache` taken out of its classes returns the same
results for every history of operations (`c31_all_partial`), whatever stands to
the left of the `Cache` (no `Alias` if there is a `ChildFactory` to its right), as
long as the behaviors to its right do not rewrite keys or, while deleting, read
`self[key]` themselves.  For the others it is false:
`Cache.__delitem__` drops the cached value, then `Lifecycle.__delitem__`
(`c31_refuted`) or `Reference.__delitem__` (`c31_refuted_reference`) reads
`self[key]`, which caches it again; two aliases of one child are cached
separately (`c31_refuted_alias`); a value found by `Fallback` is cached as if it
were a child (`c31_refuted_fallback`); a factory below the cache with `Alias`
above it stores its child under another key (`c31_refuted_factory`).
-/

namespace Verif

theorem mem_uncached {c : ClassDef} {b : Bhv} (hb : b ≠ .cache) :
    b ∈ c.uncached.bhvs ↔ b ∈ c.bhvs := by
  simp [ClassDef.uncached, hb]

theorem refuses_uncached (c : ClassDef) (v : Val) : refuses c.uncached v = refuses c v := by
  cases v with
  | node n => rfl
  | data d => simp only [refuses, mem_uncached (c := c) (b := .nodeChildValidate) (by simp)]; rfl

theorem refOf_uncached (E : Env) : refOf E.uncached = refOf E := by
  funext c v; exact refuses_uncached _ v

theorem keyFor_uncached {c : ClassDef} {k : Key} (h : KeyFor c k) : KeyFor c.uncached k :=
  fun hm => h ((mem_uncached (by simp)).mp hm)

theorem cacheLast_noCache {l : List Bhv} (h : Bhv.cache ∉ l) : CacheLast l := by
  induction l with
  | nil => trivial
  | cons a t ih =>
    exact ⟨fun e => absurd (e ▸ List.mem_cons_self) h, ih fun hm => h (List.mem_cons_of_mem _ hm)⟩

theorem mapClass_uncached {c : ClassDef} (h : MapClass c) : MapClass c.uncached where
  passes b hb := h.passes b (List.mem_filter.mp hb).1
  stores := h.stores.imp (mem_uncached (by simp)).mpr (mem_uncached (by simp)).mpr
  cacheLast := cacheLast_noCache (by simp [ClassDef.uncached])

theorem mapOp_uncached {E : Env} {s : MapSpec} {op : Op} (h : MapOp E s op) :
    MapOp E.uncached s op := by
  rcases h with ⟨c, n, p, rfl, hc, ha⟩ | ⟨o, ks, ht, ho, hk⟩
  · exact .inl ⟨c, n, p, rfl, mapClass_uncached hc, ha.imp id fun h =>
      ⟨(mem_uncached (by simp)).mpr h.1, fun h' => h.2 ((mem_uncached (by simp)).mp h')⟩⟩
  · exact .inr ⟨o, ks, ht, ho, fun k hm => keyFor_uncached (hk k hm)⟩

theorem mapHistory_uncached {E : Env} {ref : ClassId → Val → Option String} (ops : List Op)
    (s : MapSpec) (h : MapHistory E ref ops s) : MapHistory E.uncached ref ops s := by
  induction ops generalizing s with
  | nil => trivial
  | cons op r ih => exact ⟨mapOp_uncached h.1, ih _ h.2⟩

/-- Taking out the caches changes no result and no contents. -/
theorem c31_transparent_partial (E : Env) (hd : 0 < E.depth) (ops : List Op)
    (h : MapHistory E (refOf E) ops {}) :
    (execAll E ops {}).1 = (execAll E.uncached ops {}).1 ∧
    (execAll E ops {}).2.nobj = (execAll E.uncached ops {}).2.nobj ∧
    ∀ o, o < (execAll E ops {}).2.nobj →
      (execAll E ops {}).2.omap o = (execAll E.uncached ops {}).2.omap o := by
  obtain ⟨h1, h2, h3⟩ := c01_refines E hd ops h
  obtain ⟨h4, h5, h6⟩ := c01_refines E.uncached hd ops
    (by rw [refOf_uncached]; exact mapHistory_uncached ops {} h)
  rw [refOf_uncached] at h4 h5 h6
  refine ⟨h1.trans h4.symm, h2.trans h5.symm, fun o ho => ?_⟩
  rw [h3 o ho, h6 o (by rw [h5, ← h2]; exact ho)]

/-- Every operation of the API, mapping or not, and every stack with only settled behaviors to the right
of its `Cache`: the program without caches returns the same results, and its heap is the one of the
program with caches, except for the caches. -/
theorem c31_all_partial (E : Env) (hE : ∀ c, CacheSafe (E.cls c)) (ops : List Op) (h : FitsAll E ops {}) :
    (execAll E.uncached ops {}).1 = (execAll E ops {}).1 ∧
    (execAll E.uncached ops {}).2 = (execAll E ops {}).2.uncache := by
  have h1 : execAll E.uncached ops ({} : World).uncache = _ := (rel_execAll hE ops (Fresh.empty E) h).1
  have h2 : ({} : World).uncache = {} := rfl
  rw [h2] at h1
  rw [h1]
  exact ⟨rfl, rfl⟩

/-- Behaviors with the cache outermost. -/
def cacheFirst : ClassDef :=
  { bhvs := [.cache, .lifecycle, .adopt, .defaultInit, .nodify, .dictStorage] }

/-- A program with that class only. -/
def cacheFirstEnv : Env := { cls := fun _ => cacheFirst }

/-- Assign, delete, read. -/
def c31Ops : List Op :=
  [.new 0 .none none, .new 0 .none none, .set 0 ka (.node 1), .del 0 ka, .get 0 ka]

/-- With `Cache` to the left of `Lifecycle` a deleted child is still returned. -/
theorem c31_refuted :
    (execAll cacheFirstEnv c31Ops {}).1.getLast? = some (.ok (.val (.node 1))) ∧
    (execAll cacheFirstEnv.uncached c31Ops {}).1.getLast? = some (.error (.key (.key ka))) ∧
    ((execAll cacheFirstEnv c31Ops {}).2.omap 0).keys = [] := by
  decide +kernel

/-- `Cache` to the left of `Reference`. -/
def cacheAboveReference : Env :=
  { cls := fun _ => { bhvs := [.cache, .adopt, .reference, .defaultInit, .nodify, .odictStorage] } }

/-- With `Cache` to the left of `Reference` a deleted child is still returned. -/
theorem c31_refuted_reference :
    (execAll cacheAboveReference c31Ops {}).1.getLast? = some (.ok (.val (.node 1))) ∧
    (execAll cacheAboveReference.uncached c31Ops {}).1.getLast? = some (.error (.key (.key ka))) ∧
    ((execAll cacheAboveReference c31Ops {}).2.omap 0).keys = [] := by
  decide +kernel

/-- `Cache` to the left of `Alias`, and `a` and `b` two aliases of `c`. -/
def cacheAboveAlias : Env :=
  { cls := fun _ =>
      { bhvs := [.cache, .alias, .nodify, .dictStorage], aliaser := some (.dict [(ka, kc), (kb, kc)] true) } }

/-- Read under one alias, replace under the other, read under the first again. -/
def c31AliasOps : List Op :=
  [.new 0 .none none, .set 0 ka (.data (.int 1)), .get 0 ka, .set 0 kb (.data (.int 2)), .get 0 ka]

/-- With `Cache` to the left of `Alias` a replaced value is still returned under its other alias. -/
theorem c31_refuted_alias :
    (execAll cacheAboveAlias c31AliasOps {}).1.getLast? = some (.ok (.val (.data (.int 1)))) ∧
    (execAll cacheAboveAlias.uncached c31AliasOps {}).1.getLast? = some (.ok (.val (.data (.int 2)))) := by
  decide +kernel

/-- `Cache` to the left of `Fallback`. -/
def cacheAboveFallback : Env :=
  { cls := fun _ =>
      { bhvs := [.cache, .fallback, .adopt, .defaultInit, .nodify, .odictStorage],
        fallbackKey := some ka } }

/-- `root['a']['c']` is the fallback of `root['b']['c']`; read it, replace it, read it again. -/
def c31FallbackOps : List Op :=
  [.new 0 .none none, .new 0 .none none, .new 0 .none none, .set 0 ka (.node 1), .set 0 kb (.node 2),
   .set 1 kc (.data (.int 1)), .get 2 kc, .set 1 kc (.data (.int 2)), .get 2 kc]

/-- With `Cache` to the left of `Fallback` a replaced fallback value is still returned. -/
theorem c31_refuted_fallback :
    (execAll cacheAboveFallback c31FallbackOps {}).1.getLast? = some (.ok (.val (.data (.int 1)))) ∧
    (execAll cacheAboveFallback.uncached c31FallbackOps {}).1.getLast? =
      some (.ok (.val (.data (.int 2)))) := by
  decide +kernel

/-- `Alias` to the left of `Cache` and `ChildFactory` to its right; `a` is an alias of `c`, and `c` one of `b`. -/
def cacheAboveFactory : Env :=
  { cls := fun _ =>
      { bhvs := [.alias, .cache, .childFactory, .nodify, .dictStorage],
        aliaser := some (.dict [(ka, kc), (kc, kb)] true), factories := [(kc, 0)] } }

/-- The factory is asked for `c` but its child is stored under `b`: with the cache two reads give one
child, without it they give two. -/
theorem c31_refuted_factory :
    (execAll cacheAboveFactory [.new 0 .none none, .get 0 ka, .get 0 ka] {}).1.getLast? =
      some (.ok (.val (.node 1))) ∧
    (execAll cacheAboveFactory.uncached [.new 0 .none none, .get 0 ka, .get 0 ka] {}).1.getLast? =
      some (.ok (.val (.node 2))) := by
  decide +kernel

/-! `Lifecycle`, `Reference`, `Alias` and `Fallback` to the left of the cache, `Nodespaces`,
`Attributes` and `Order` to the right. -/

/-- Nearly everything. -/
def cacheStack : ClassDef :=
  { bhvs := [.lifecycle, .reference, .fallback, .alias, .adopt, .cache, .nodespaces, .attributes,
      .order, .defaultInit, .nodify, .odictStorage],
    aliaser := some (.pre "p-".toList), attrsFactory := 1,
    fallbackKey := some ka }

/-- A program with that class and one for its attributes. -/
def cacheStackEnv : Env := { cls := fun c => if c = 1 then nodeAttributes else cacheStack }

/-- The same for concrete histories. -/
def fitsB (E : Env) : List Op → World → Bool
  | [], _ => true
  | op :: r, w => (op.vals.all fun v => match v with
      | .node c => decide (c < w.nobj)
      | .data _ => true) &&
    (match op with
      | .invalidate o .none => decide (Bhv.cache ∉ (clsOf E w o).bhvs)
      | _ => true) && fitsB E r (exec E op w).2

theorem fits_of_fitsB {E : Env} {ops : List Op} {w : World} (h : fitsB E ops w = true) : FitsAll E ops w := by
  induction ops generalizing w with
  | nil => trivial
  | cons op r ih =>
    obtain ⟨h12, h3⟩ := Bool.and_eq_true_iff.mp h
    obtain ⟨h1, h2⟩ := Bool.and_eq_true_iff.mp h12
    refine ⟨⟨fun c hc => ?_, fun o e => ?_⟩, ih h3⟩
    · exact of_decide_eq_true (List.all_eq_true.mp h1 _ hc)
    · subst e; exact of_decide_eq_true h2

/-- Build, read, delete, detach, sort, and look again. -/
def cacheStackOps : List Op :=
  let k (s : String) : Key := .str ("p-" ++ s).toList
  [.new 0 .none none, .new 0 .none none, .new 0 .none none, .new 0 .none none,
   .set 0 (k "a") (.node 1), .set 0 (k "b") (.node 2), .get 0 (k "a"), .set 1 (k "x") (.node 3), .values 0,
   .swap 0 1 2, .attrs 0, .get 0 (k "b"), .detach 0 (k "b"), .get 0 (k "b"), .del 0 (k "a"),
   .get 0 (k "a"), .items 0]

theorem cacheSafe_cacheStackEnv (c : ClassId) : CacheSafe (cacheStackEnv.cls c) := by
  unfold cacheStackEnv
  dsimp only
  split
  · exact ⟨by decide, by decide, by decide⟩
  · exact ⟨by decide, by decide, by decide⟩

example : (∀ c, CacheSafe (cacheStackEnv.cls c)) ∧ FitsAll cacheStackEnv cacheStackOps {} :=
  ⟨cacheSafe_cacheStackEnv, fits_of_fitsB (by decide +kernel)⟩

example : (execAll cacheStackEnv cacheStackOps {}).1.drop 11 =
      [.ok (.val (.node 2)), .ok (.val (.node 2)), .error (.key (.key (.str "p-b".toList))), .ok .unit,
       .error (.key (.key (.str "p-a".toList))), .ok (.items [])] ∧
    ((execAll cacheStackEnv (cacheStackOps.take 9) {}).2.cached 0).length = 2 := by
  decide +kernel

/-! `ChildFactory` and `Nodespaces` to the right of the cache. -/

/-- A node that makes its child `a` when it is first read. -/
def cachedFactory : ClassDef :=
  { bhvs := [.lifecycle, .reference, .adopt, .cache, .nodespaces, .childFactory, .defaultInit, .nodify, .odictStorage],
    factories := [(ka, 1)] }

/-- A program with that class and one for the children. -/
def cachedFactoryEnv : Env := { cls := fun c => if c = 0 then cachedFactory else referenceNode }

/-- Read a child into being, read it again, delete it, read again, replace it, read. -/
def cachedFactoryOps : List Op :=
  [.new 0 .none none, .get 0 ka, .get 0 ka, .del 0 ka, .get 0 ka, .new 1 .none none, .set 0 ka (.node 3),
   .get 0 ka, .values 0]

example : (∀ c, CacheSafe (cachedFactoryEnv.cls c)) ∧ FitsAll cachedFactoryEnv cachedFactoryOps {} ∧
    (execAll cachedFactoryEnv cachedFactoryOps {}).1 =
      [.ok (.val (.node 0)), .ok (.val (.node 1)), .ok (.val (.node 1)), .ok .unit, .ok (.val (.node 2)), .ok (.val (.node 3)),
       .ok .unit, .ok (.val (.node 3)), .ok (.vals [.node 3])] :=
  ⟨fun c => by
    unfold cachedFactoryEnv
    dsimp only
    split <;> exact ⟨by decide, by decide, by decide⟩, fits_of_fitsB (by decide +kernel), by decide +kernel⟩

/-- A caching node that makes its children when it is made. -/
def cachedFixed : ClassDef :=
  { bhvs := [.fixedChildren, .cache, .defaultInit, .nodify], fixed := [(ka, 1), (kb, 1)] }

/-- A program with that class and one for the children. -/
def cachedFixedEnv : Env := { cls := fun c => if c = 0 then cachedFixed else baseNode }

/-- Read a fixed child twice, list, try to write and to delete, invalidate one key, read again. -/
def cachedFixedOps : List Op :=
  [.new 0 .none none, .get 0 ka, .get 0 ka, .keys 0, .get 0 kc, .set 0 ka (.node 1), .del 0 ka, .invalidate 0 ka, .get 0 ka]

example : (∀ c, CacheSafe (cachedFixedEnv.cls c)) ∧ FitsAll cachedFixedEnv cachedFixedOps {} ∧
    (execAll cachedFixedEnv cachedFixedOps {}).1.take 4 =
      [.ok (.val (.node 0)), .ok (.val (.node 1)), .ok (.val (.node 1)), .ok (.keys [ka, kb])] :=
  ⟨fun c => by
    unfold cachedFixedEnv
    dsimp only
    split <;> exact ⟨by decide, by decide, by decide⟩, fits_of_fitsB (by decide +kernel), by decide +kernel⟩

/-! A caching class in a history with reads between the writes. -/

theorem mapClass_cacheNode : MapClass cacheNode := ⟨by decide, by decide, by decide⟩

example : MapHistory sampleEnv (refOf sampleEnv)
      [.new 5 .none none, .new 0 .none none, .set 0 ka (.node 1), .get 0 ka, .del 0 ka, .get 0 ka] {} ∧
    (execAll sampleEnv [.new 5 .none none, .new 0 .none none, .set 0 ka (.node 1), .get 0 ka,
      .del 0 ka, .get 0 ka] {}).1.drop 3 =
      [.ok (.val (.node 1)), .ok .unit, .error (.key (.key ka))] ∧
    Bhv.cache ∈ (sampleEnv.cls 5).bhvs ∧ Bhv.cache ∉ (sampleEnv.uncached.cls 5).bhvs := by
  have hk : ∀ k, KeyFor cacheNode k := fun k h => absurd h (by decide)
  refine ⟨⟨.inl ⟨_, _, _, rfl, mapClass_cacheNode, by decide⟩, .inl ⟨_, _, _, rfl, mapClass_baseNode, by decide⟩,
    .inr ⟨_, _, rfl, by decide, fun k _ => hk k⟩, .inr ⟨_, _, rfl, by decide, fun k _ => hk k⟩,
    .inr ⟨_, _, rfl, by decide, fun k _ => hk k⟩, .inr ⟨_, _, rfl, by decide, fun k _ => hk k⟩,
    trivial⟩, by decide +kernel, by decide, by decide⟩

end Verif
