import Verif.Props.C09Any

/-!
# C82 Reading what is there

`node[k]`, `node.get(k)` and `k in node` for a key the node has, for every composition of
behaviors and every well-formed heap.  `World.shown` says what a node has under a key by
looking into its dictionaries; nothing in it can run a factory, a search or a subscriber.
-/

namespace Verif

variable {E : Env} {w : World} {o : Oid} {k : Key} {v : Val}

/-- C82: `node[k]` is what the node has under `k`.  Nothing but the cache of that node
changes, and the node goes on having it. -/
theorem c82_get (hw : WF w) (h : w.shown E o k = some v) :
    ∃ w', getitem E o k w = (.ok v, w') ∧ WF w' ∧ Same w w' ∧
      (∀ p, p ≠ o → w'.cached p = w.cached p) ∧ w'.shown E o k = some v := by
  obtain ⟨w', h1, h2, h3, -, -⟩ := getPipe_stable (fbHandler E) (clsOf E w o).bhvs hw h
  refine ⟨w', h1, h2.wf, h2.same, h2.cached, ?_⟩
  unfold World.shown
  rw [h2.same.clsOf]
  exact h3

/-- C82: a class with one `Cache` at most keeps everything it has; so do all others. -/
theorem c82_stable (hw : WF w) (h : w.shown E o k = some v)
    (hc : (clsOf E w o).bhvs.count .cache ≤ 1) (p : Oid) (j : Key) :
    (getitem E o k w).2.shown E p j = w.shown E p j := by
  obtain ⟨w', h1, h2, -, -, h5⟩ := getPipe_stable (fbHandler E) (clsOf E w o).bhvs hw h
  have h1 : getitem E o k w = (.ok v, w') := h1
  rw [h1]
  by_cases e : p = o
  · subst e
    show w'.shown E p j = _
    unfold World.shown
    rw [h2.same.clsOf]
    exact h5 hc _ (List.suffix_refl _) j
  · exact shown_same h2.same (h2.cached p e) j

/-- C82: `node.get(k, default)` returns the same, whatever the default. -/
theorem c82_default (hw : WF w) (h : w.shown E o k = some v) (d : Val) :
    mget E o k d w = (.ok v, (getitem E o k w).2) := by
  obtain ⟨w', h1, -⟩ := c82_get hw h
  simp only [mget, M.catchIf_apply, h1]

/-- C82: `k in node` is true. -/
theorem c82_contains (hw : WF w) (h : w.shown E o k = some v) :
    mcontains E o k w = (.ok true, (getitem E o k w).2) := by
  obtain ⟨w', h1, -⟩ := c82_get hw h
  simp only [mcontains, M.catchIf_apply, M.bind_apply, h1, M.pure_apply]

/-- C82: however often it is read. -/
theorem c82_again (hw : WF w) (h : w.shown E o k = some v) (n : Nat) :
    (execAll E (List.replicate n (.get o k)) w).1 = List.replicate n (.ok (.val v)) ∧
      Same w (execAll E (List.replicate n (.get o k)) w).2 := by
  induction n generalizing w with
  | zero => exact ⟨rfl, .refl w⟩
  | succ n ih =>
    obtain ⟨w', h1, h2, h3, -, h5⟩ := c82_get hw h
    have he : exec E (.get o k) w = (.ok (.val v), w') := by
      simp only [exec, M.bind_apply, h1, M.pure_apply]
    obtain ⟨i1, i2⟩ := ih h2 h5
    simp only [List.replicate_succ, execAll, he, i1]
    exact ⟨trivial, h3.trans i2⟩

/-! ### Instances -/

/-- A translated key of a class with a cache, fallback and factories. -/
example : (getitem mixedEnv 0 (.str ['p', '-', 'a']) (after mixedEnv mixedOps)).1 = .ok (.node 1) ∧
    (getitem mixedEnv 2 attrsKey (after mixedEnv mixedOps)).1 = .ok (.node 3) := by
  obtain ⟨_, h1, -⟩ := c82_get (reachable_after mixedEnv mixedOps).wf
    (show (after mixedEnv mixedOps).shown mixedEnv 0 (.str ['p', '-', 'a']) = some (.node 1) by
      decide +kernel)
  obtain ⟨_, h2, -⟩ := c82_get (reachable_after mixedEnv mixedOps).wf
    (show (after mixedEnv mixedOps).shown mixedEnv 2 attrsKey = some (.node 3) by decide +kernel)
  exact ⟨congrArg Prod.fst h1, congrArg Prod.fst h2⟩

example : (clsOf mixedEnv (after mixedEnv mixedOps) 0).bhvs.count .cache ≤ 1 := by decide +kernel

end Verif
