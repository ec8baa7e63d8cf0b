import Verif.Props.C93
import Verif.Props.C91

/-!
# C93 for Reference trees

Draining a node of a `Reference` tree: `popitem()` is never refused, and the nodes that were below the node are no longer
found by uuid.
-/

namespace Verif

variable {E : Env}

theorem del_last {d : Od Key Val} {k : Key} {v : Val} (hk : k ∉ Od.keys d) : Od.del (d ++ [(k, v)]) k = d := by
  induction d with
  | nil => simp [Od.del]
  | cons b r ih =>
    have hb : b.1 ≠ k := fun e => hk (by simp [Od.keys, e])
    have := ih fun h => hk (List.mem_cons_of_mem _ h)
    simp only [List.cons_append, Od.del, if_neg hb, this]

/-- One `popitem()` of a node that has items. -/
theorem Grown.popLast (hE : 0 < E.depth) {w : World} {Rs : List Oid} (h : Grown E w Rs) {R o : Oid} (hR : R ∈ Rs)
    (ho : InTree w R o) {d : Od Key Val} {k : Key} {v : Val} (hd : w.children o = d ++ [(k, v)]) :
    ∃ w', mpopitem E o w = (.ok (k, v), w') ∧ Grown E w' Rs ∧ InTree w' R o ∧ w'.children o = d ∧
      (∀ p, p ≠ o → w'.children p = w.children p) ∧ ∀ p, (w'.objs p).uuid = (w.objs p).uuid := by
  have hf := h.forest hE
  have hnd := hf.wf.children_nodup o
  have hk : k ∉ Od.keys d := fun hm => by
    rw [hd] at hnd
    unfold Od.keys at hnd hm
    rw [List.map_append, List.nodup_append] at hnd
    exact hnd.2.2 k hm k (by simp) rfl
  have hv : (w.children o).get? k = some v := Od.get?_of_mem hnd (by rw [hd]; simp)
  obtain ⟨r, hr⟩ := hf.live R hR
  obtain ⟨w1, e1, e2⟩ := mkeys_ref hf.wf (hr.tree.cls o ho)
  have hf1 := hf.calm e2.calm
  have hrev : (w.children o).keys.reverse = k :: (Od.keys d).reverse := by
    rw [hd]
    simp [Od.keys]
  have hkf := hr.tree.keys o ho k (Od.mem_keys_of_get? hv)
  have hc1 : clsOf E w1 o = clsOf E w o := congrArg E.cls (e2.same.obj o).cls
  obtain ⟨w2, e3, e4⟩ := getitem_ref (E := E) (o := o) hf1.wf (by rw [hc1]; exact hr.tree.cls o ho)
    (by rw [hc1]; exact hkf)
  rw [e2.same.children] at e3
  have h2 := e2.trans e4
  obtain ⟨w3, e5, -, e7, e8, -⟩ := (hf.calm h2.calm).delitem (v := v) hR (h2.calm.inTree.mpr ho)
    (by rw [h2.same.children]; exact hv)
  have hpop : mpopitem E o w = (.ok (k, v), w3) := by
    simp only [mpopitem, M.bind_apply, e1, hrev, e3, lookup, hv, e5, M.pure_apply]
  refine ⟨w3, hpop, h.popitem hR ho hpop, (hf.calm h2.calm).stays hR (h2.calm.inTree.mpr ho)
    (by rw [h2.same.children]; exact hv) e7, ?_, fun p hp => ?_, fun p => ?_⟩
  · rw [e7]
    simp only [chDel, if_true, h2.same.children, hd]
    exact del_last hk
  · rw [e7]
    simp only [chDel, if_neg hp, h2.same.children]
  · rw [e8]
    exact (h2.calm.uuid p)

theorem Grown.drain (hE : 0 < E.depth) {R o : Oid} : ∀ (n : Nat) {w : World} {Rs : List Oid}, Grown E w Rs → R ∈ Rs →
    InTree w R o → ∀ {d : Od Key Val}, w.children o = d → d.length = n →
    ∃ w', execAll E (List.replicate n (.popitem o)) w = (d.reverse.map fun kv => .ok (.item kv.1 kv.2), w') ∧
      Grown E w' Rs ∧ InTree w' R o ∧ w'.children o = [] ∧ (∀ p, p ≠ o → w'.children p = w.children p) ∧
      ∀ p, (w'.objs p).uuid = (w.objs p).uuid
  | 0, w, Rs, h, _, ho, d, hd, hn => by
    obtain rfl := List.length_eq_zero_iff.mp hn
    exact ⟨w, rfl, h, ho, hd, fun _ _ => rfl, fun _ => rfl⟩
  | n + 1, w, Rs, h, hR, ho, d, hd, hn => by
    obtain ⟨d', a, rfl⟩ : ∃ d' a, d = d' ++ [a] :=
      ⟨d.dropLast, d.getLast (by intro e; rw [e] at hn; cases hn), (List.dropLast_concat_getLast _).symm⟩
    obtain ⟨k, v⟩ := a
    obtain ⟨w1, e1, h1, t1, c1, o1, u1⟩ := h.popLast hE hR ho hd
    obtain ⟨w2, e2, h2, t2, c2, o2, u2⟩ := Grown.drain hE n h1 hR t1 c1 (by simpa using hn)
    refine ⟨w2, ?_, h2, t2, c2, fun p hp => (o2 p hp).trans (o1 p hp), fun p => (u2 p).trans (u1 p)⟩
    rw [List.replicate_succ]
    simp only [execAll, exec, M.bind_apply, e1, M.pure_apply, e2]
    simp

/-- **C93 for Reference trees.**  For every node of a tree grown through the API: as many `popitem()` as it has items return them,
the last one first, and are not refused; then it has none, all other nodes have the children they had, and asked on any node
of the tree for the uuid of a node that was below it, `node(uuid)` answers `None`. -/
theorem c93_reference (hE : 0 < E.depth) {w : World} {Rs : List Oid} (h : Grown E w Rs) {R o : Oid} (hR : R ∈ Rs)
    (ho : InTree w R o) :
    ∃ w', execAll E (List.replicate (w.children o).length (.popitem o)) w =
        ((w.omap o).items.reverse.map fun kv => .ok (.item kv.1 kv.2), w') ∧
      Grown E w' Rs ∧ InTree w' R o ∧ w'.omap o = OMap.empty ∧ (∀ p, p ≠ o → w'.omap p = w.omap p) ∧
      ∀ k c, Contains w o k c → ∀ y u, InTree w c y → HasUuid w y u → ∀ x, InTree w' R x →
        refNode x u w' = (.ok none, w') := by
  have hf := h.forest hE
  obtain ⟨w', e1, h1, t1, c1, o1, u1⟩ := h.drain hE _ hR ho rfl rfl
  have hf1 := h1.forest hE
  refine ⟨w', ?_, h1, t1, by unfold World.omap; rw [c1]; rfl, fun p hp => by unfold World.omap; rw [o1 p hp], ?_⟩
  · rw [e1]
    have : (w.omap o).items = w.children o := toMap_items (hf.wf.children_nodup o)
    rw [this]
  · intro k c hkc y u hy hu x hx
    obtain ⟨r, hr⟩ := hf.live R hR
    obtain ⟨r1, hr1⟩ := hf1.live R hR
    -- what is in the tree was there
    have hcon : ∀ {p j z}, Contains w' p j z → p ≠ o ∧ Contains w p j z := fun {p j z} hc => by
      have hc : (w'.children p).get? j = some (.node z) := hc
      by_cases e : p = o
      · rw [e, c1] at hc
        cases hc
      · rw [o1 p e] at hc
        exact ⟨e, hc⟩
    have hdown : ∀ {z}, InTree w' R z → InTree w R z ∧ ¬ InTree w c z := fun {z} hz =>
      hz.induct (P := fun z => InTree w R z ∧ ¬ InTree w c z) ⟨.refl R, fun hcR => by
        rcases hcR.cases with e | ⟨p, j, -, hpj⟩
        · exact hr.tree.top o k (e ▸ hkc)
        · exact hr.tree.top p j hpj⟩ fun p j z _ hpz ih => by
        obtain ⟨hpo, hpz⟩ := hcon hpz
        refine ⟨ih.1.child hpz, fun hcz => ?_⟩
        rcases hcz.cases with e | ⟨q, i, hq, hqz⟩
        · subst e
          exact hpo (hf.sole _ _ _ _ _ hpz hkc).1
        · exact ih.2 ((hf.sole _ _ _ _ _ hqz hpz).1 ▸ hq)
    obtain ⟨a, ha, hax⟩ := hr1.indexed.asked hx (hr1.shared x hx) u
    rw [ha]
    cases a with
    | none => rfl
    | some z =>
      obtain ⟨hz, hzu⟩ := (hax z).mp rfl
      obtain ⟨hz1, hz2⟩ := hdown hz
      have hzu' : HasUuid w z u := (u1 z).symm.trans hzu
      have hyR : InTree w R y := hy.induct (P := InTree w R) (ho.child hkc) fun p j z _ hc ih => ih.child hc
      exact absurd (hr.tree.inj z y u hz1 hyR hzu' hu ▸ hy) hz2

/-- The root of a chain of three is drained: the two nodes below it are not found from it. -/
example : ∃ w', execAll sampleEnv [.popitem 0] (after sampleEnv refChain) = ([.ok (.item ka (.node 1))], w') ∧
    refNode 0 2 w' = (.ok none, w') ∧ refNode 0 3 w' = (.ok none, w') := by
  obtain ⟨w', h1, -, h3, -, -, h6⟩ := c93_reference (E := sampleEnv) (by decide) refChain_grown (o := 0)
    (List.mem_singleton_self 0) (.refl 0)
  have hl : ((after sampleEnv refChain).children 0).length = 1 := by decide +kernel
  have hi : ((after sampleEnv refChain).omap 0).items = [(ka, .node 1)] := by decide +kernel
  have k1 : Contains (after sampleEnv refChain) 0 ka 1 :=
    show ((after sampleEnv refChain).children 0).get? ka = _ by decide +kernel
  have k2 : Contains (after sampleEnv refChain) 1 kb 2 :=
    show ((after sampleEnv refChain).children 1).get? kb = _ by decide +kernel
  have u1 : HasUuid (after sampleEnv refChain) 1 2 := show ((after sampleEnv refChain).objs 1).uuid = _ by decide +kernel
  have u2 : HasUuid (after sampleEnv refChain) 2 3 := show ((after sampleEnv refChain).objs 2).uuid = _ by decide +kernel
  rw [hl, hi] at h1
  exact ⟨w', h1, h6 ka 1 k1 1 2 (.refl 1) u1 0 h3, h6 ka 1 k1 2 3 ((InTree.refl 1).child k2) u2 0 h3⟩

end Verif
