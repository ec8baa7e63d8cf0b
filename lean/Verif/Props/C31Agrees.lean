import Verif.Props.C44Cached
import Verif.Props.C09
import Verif.Props.C30
import Verif.Props.C66

/-!
# C31: what caches hold

C09, C28, C30 and C66 assume of a class with `Cache` that the cache agrees with the storage.  After any history in
which `Cache` is transparent this is so, for every class without `FixedChildren` and
without `Nodespaces` right of the `Cache`.
-/

namespace Verif

open scoped List

section
variable {E : Env} {ops : List Op} (hs : ∀ c, CacheSafe (E.cls c)) (hh : FitsAll E ops {})
include hs hh

/-- C31, the caches: what is remembered under a key that is no nodespace is what is stored there, at every node and
after every history. -/
theorem c31_agrees_keys {o : Oid} {k : Key} {v : Val} (hc : Bhv.cache ∈ (clsOf E (after E ops) o).bhvs)
    (hf : Bhv.fixedChildren ∉ (clsOf E (after E ops) o).bhvs)
    (hk : Bhv.nodespaces ∈ belowCache (clsOf E (after E ops) o).bhvs → reservedKey k = false)
    (h : ((after E ops).cached o).get? k = some v) : ((after E ops).omap o).val k = some v := by
  have h := (fresh_after hs hh).coh o k v hc h
  unfold World.found at h
  rw [if_neg (by
    rw [Bool.and_eq_true, List.contains_iff_mem]
    rintro ⟨h1, h2⟩
    rw [hk h1] at h2
    cases h2), if_neg (by rw [List.contains_iff_mem]; exact hf)] at h
  split at h
  · exact h
  · cases h

/-- C31, the caches, for classes without `Nodespaces` right of the `Cache`. -/
theorem c31_agrees {o : Oid} (hf : Bhv.fixedChildren ∉ (clsOf E (after E ops) o).bhvs)
    (hn : Bhv.nodespaces ∉ belowCache (clsOf E (after E ops) o).bhvs) :
    CacheAgrees E (after E ops) o := fun hc _ _ h =>
  c31_agrees_keys hs hh hc hf (fun h => absurd h hn) h

/-- C09 with caches: the lookup finds the node, whatever was read before. -/
theorem c09_cached_partial (hE : NoFactory E) (ht : TreeHistory E ops {}) {root : Oid} (hn : root < (after E ops).nobj)
    (hr : ((after E ops).loc root).2 = none) {ks : List Key} {o : Oid} (hb : Below (after E ops) root ks o)
    (ho : ∀ js p k, Below (after E ops) root js p → js ++ [k] <+: ks →
      Stores (clsOf E (after E ops) p) ∧ Bhv.alias ∉ (clsOf E (after E ops) p).bhvs ∧ KeyFor (clsOf E (after E ops) p) k ∧
        Bhv.nodespaces ∉ belowCache (clsOf E (after E ops) p).bhvs) :
    ∃ p w', pathOf (after E ops) o = some p ∧ nodeByPath E root p.tail (after E ops) = (.ok (.node o), w') ∧
      Same (after E ops) w' :=
  c09_lookup_partial hE ht hn hr hb fun js p k hb hp =>
    ⟨(ho js p k hb hp).1, (ho js p k hb hp).2.1, (ho js p k hb hp).2.2.1, c31_agrees hs hh (ho js p k hb hp).1.noFixed (ho js p k hb hp).2.2.2⟩

/-- C66 with caches: all readers agree, whatever was read before. -/
theorem c66_cached_partial {o : Oid} (hc : Concrete (clsOf E (after E ops) o))
    (hk : ∀ k ∈ ((after E ops).omap o).keys, KeyFor (clsOf E (after E ops) o) k)
    (hn : Bhv.nodespaces ∉ belowCache (clsOf E (after E ops) o).bhvs) (hb : Bhv.fallback ∉ (clsOf E (after E ops) o).bhvs) :
    ∃ d : List (Key × Val), (d.map Prod.fst).Nodup ∧
      (mkeys E o (after E ops)).1 = .ok (d.map Prod.fst) ∧ (mvalues E o (after E ops)).1 = .ok (d.map Prod.snd) ∧
      (mitems E o (after E ops)).1 = .ok d ∧ (mlen E o (after E ops)).1 = .ok d.length ∧
      ∀ k, KeyFor (clsOf E (after E ops) o) k →
        ((mcontains E o k (after E ops)).1 = .ok true ↔ k ∈ d.map Prod.fst) ∧
        ((mcontains E o k (after E ops)).1 = .ok false ↔ k ∉ d.map Prod.fst) ∧
        (∀ v, (getitem E o k (after E ops)).1 = .ok v ↔ (k, v) ∈ d) ∧
        (k ∉ d.map Prod.fst → (getitem E o k (after E ops)).1 = .error (.key (.key k))) ∧
        (∀ x v, (mget E o k x (after E ops)).1 = .ok v ↔ (k, v) ∈ d ∨ k ∉ d.map Prod.fst ∧ v = x) :=
  c66_readers_partial (reachable_after E ops).wf ⟨hc, hk, c31_agrees hs hh hc.noFixed hn⟩ hb

end

/-! A caching node below another; both were read, and a child was deleted after it was read. -/

def agreesOps : List Op :=
  [.new 5 (.str ['r']) none, .new 5 .none none, .set 0 ka (.node 1), .values 0, .new 5 .none none, .set 1 kb (.node 2),
   .get 1 kb, .new 5 .none none, .set 1 kc (.node 3), .values 1, .del 1 kc, .get 0 ka]

theorem agrees_safe (c : ClassId) : CacheSafe (sampleEnv.cls c) := by
  unfold sampleEnv; dsimp only
  split <;> exact ⟨by decide, by decide, by decide⟩

theorem agrees_history : TreeHistory sampleEnv agreesOps {} := by
  have h2 : TreeHistory sampleEnv (agreesOps.take 2) {} := ⟨trivial, trivial, trivial⟩
  have h3 : TreeHistory sampleEnv (agreesOps.take 3) {} := (treeHistory_append (agreesOps.take 2) _).mpr ⟨h2,
    admissible_parentless sample_noFactory h2 (by decide) (by decide) (by decide) (by decide) (by decide)⟩
  have h5 : TreeHistory sampleEnv (agreesOps.take 5) {} := (treeHistory_append (agreesOps.take 4) _).mpr
    ⟨(treeHistory_append (agreesOps.take 3) _).mpr ⟨h3, trivial⟩, trivial⟩
  have h6 : TreeHistory sampleEnv (agreesOps.take 6) {} := (treeHistory_append (agreesOps.take 5) _).mpr ⟨h5,
    admissible_parentless sample_noFactory h5 (by decide +kernel) (by decide +kernel) (by decide +kernel) (by decide +kernel) (by decide +kernel)⟩
  have h8 : TreeHistory sampleEnv (agreesOps.take 8) {} := (treeHistory_append (agreesOps.take 7) _).mpr
    ⟨(treeHistory_append (agreesOps.take 6) _).mpr ⟨h6, trivial⟩, trivial⟩
  have h9 : TreeHistory sampleEnv (agreesOps.take 9) {} := (treeHistory_append (agreesOps.take 8) _).mpr ⟨h8,
    admissible_parentless sample_noFactory h8 (by decide +kernel) (by decide +kernel) (by decide +kernel) (by decide +kernel) (by decide +kernel)⟩
  exact (treeHistory_append (agreesOps.take 11) _).mpr ⟨(treeHistory_append (agreesOps.take 10) _).mpr
    ⟨(treeHistory_append (agreesOps.take 9) _).mpr ⟨h9, trivial⟩, trivial⟩, trivial⟩

theorem agrees_fits : FitsAll sampleEnv agreesOps {} := fits_of_fitsB (by decide +kernel)

example : ((after sampleEnv agreesOps).cached 1).keys = [kb] ∧
    ∃ p w', pathOf (after sampleEnv agreesOps) 2 = some p ∧
      nodeByPath sampleEnv 0 p.tail (after sampleEnv agreesOps) = (.ok (.node 2), w') ∧ Same (after sampleEnv agreesOps) w' := by
  have hb : Below (after sampleEnv agreesOps) 0 ([] ++ [ka] ++ [kb]) 2 :=
    .child (.child .root (p := 0) (k := ka) (c := 1) (by unfold Contains; decide +kernel)) (p := 1) (k := kb)
      (by unfold Contains; decide +kernel)
  refine ⟨by decide +kernel, c09_cached_partial agrees_safe agrees_fits sample_noFactory agrees_history (by decide +kernel)
    (by decide +kernel) hb fun js p k hp hk => ?_⟩
  have hcls : clsOf sampleEnv (after sampleEnv agreesOps) p = cacheNode := by
    obtain ⟨t, ht⟩ := hk
    rcases js with _ | ⟨j, _ | ⟨j', r⟩⟩
    · rw [hp.functional .root]; rfl
    · simp only [List.nil_append, List.cons_append, List.cons.injEq] at ht
      rw [ht.1] at hp
      have h1 : Below (after sampleEnv agreesOps) 0 ([] ++ [ka]) 1 :=
        .child .root (p := 0) (k := ka) (c := 1) (by unfold Contains; decide +kernel)
      rw [hp.functional h1]; rfl
    · simp at ht
  rw [hcls]
  exact ⟨⟨by decide, by decide⟩, by decide, fun h => absurd h (by decide), by decide⟩

example : ∃ d : List (Key × Val), (mitems sampleEnv 1 (after sampleEnv agreesOps)).1 = .ok d ∧
    (mlen sampleEnv 1 (after sampleEnv agreesOps)).1 = .ok d.length := by
  obtain ⟨d, -, -, -, h1, h2, -⟩ := c66_cached_partial agrees_safe agrees_fits (o := 1)
    (by constructor <;> decide +kernel) (fun _ _ h => absurd h (by decide +kernel)) (by decide +kernel) (by decide +kernel)
  exact ⟨d, h1, h2⟩

end Verif
