import Verif.Props.C16
import Verif.Props.C21
import Verif.Props.C13

/-!
# C76 Moving nodes

Taking a node out with `detach` and putting it in with `insertbefore` or `insertafter` moves it with everything
below it: to the place asked for, and nothing else changes.  False for what the nodes strictly below it find by
uuid afterwards (`c76_refuted`, as C19).
-/

namespace Verif

variable {E : Env}

/-- The mapping of `p` after `k` was taken out of `o`. -/
def restOf (w : World) (o : Oid) (k : Key) (p : Oid) : OMap Key Val :=
  if p = o then (w.omap p).del k else w.omap p

section
variable (hE : 0 < E.depth) (hNF : NoFactory E) {w : World} {Rs : List Oid} (h : Grown E w Rs)
  {R o n p ref : Oid} {k : Key} (before : Bool) (hR : R ∈ Rs) (ho : InTree w R o) (hc : Contains w o k n)
  (hp : InTree w R p) (hpn : ¬ InTree w n p) (hod : storageKind (clsOf E w p).bhvs = some .odictStorage)
  (hname : (w.loc n).1 ≠ .none) (hkf : KeyFor (clsOf E w p) (w.loc n).1)
  (hfree : (w.loc n).1 ∉ (restOf w o k p).keys) (href : (w.loc ref).1 ∈ (restOf w o k p).keys)
include hE hNF h hR ho hc hp hpn hod hname hkf hfree href

/-- The two calls succeed, and what they do. -/
theorem move_runs : ∃ w1 w2 r s ch, detach E o k w = (.ok (.node n), w1) ∧ Forest E w1 (n :: Rs) ∧ n ≠ R ∧
    Cut w w1 o k ∧ LiveTree E w1 R r ∧ LiveTree E w1 n s ∧ (∀ q, w1.loc q = w.loc q) ∧
    (∀ q, w1.omap q = restOf w o k q) ∧ insertAt E before p n ref w1 = (.ok (), w2) ∧
    Shift ch (upd w1.idxs r ((w1.idxs r).update (w1.idxs s))) (upd (fun q => (w1.objs q).index) n (some r)) w1 w2 ∧
    (∀ q j, (w2.children q).get? j = (chSet w1 p (w1.loc n).1 (.node n) q).get? j) ∧
    InTree w1 R p ∧ (w1.loc n).1 ∉ (w1.children p).keys ∧ KeyFor (clsOf E w1 p) (w1.loc n).1 ∧
    (∀ x, InTree w1 R x ↔ InTree w R x ∧ ¬ InTree w n x) ∧ (∀ x, InTree w1 n x ↔ InTree w n x) := by
  have hf := h.forest hE
  obtain ⟨r, hr⟩ := hf.live R hR
  obtain ⟨w1, e1, e2, e3⟩ := hf.detach hR ho hc
  have hloc := (c13_removes o k (hNF.detachReads _) hf.wf e1).2
  have hcon := contains_chDel hf.wf e3.children
  have hno : ¬ InTree w n o := fun h' => ho.acyclic hf.sole hr.tree.top hc h'
  have hin : ∀ x, InTree w1 R x ↔ InTree w R x ∧ ¬ InTree w n x := fun x =>
    InTree.removed hf.sole hc hcon hr.tree.top ho
  have hinn : ∀ x, InTree w1 n x ↔ InTree w n x := fun x => InTree.rest hcon hno
  have hp1 : InTree w1 R p := (hin p).mpr ⟨hp, hpn⟩
  have hRn : n ≠ R := fun e => hr.tree.top _ _ (e ▸ hc)
  have hmap : ∀ q, w1.omap q = restOf w o k q := fun q => by
    show (w1.children q).toMap = _
    rw [e3.children]
    simp only [chDel, restOf]
    split
    · rename_i hq
      subst hq
      exact toMap_del (hf.wf.children_nodup q) k
    · rfl
  have hcls : clsOf E w1 p = clsOf E w p := congrArg E.cls (e3.cls p)
  obtain ⟨r1, hr1⟩ := e2.live R (List.mem_cons_of_mem _ hR)
  obtain ⟨s1, hs1⟩ := e2.live n List.mem_cons_self
  have hfree1 : (w1.loc n).1 ∉ (w1.children p).keys := by
    rw [hloc, show (w1.children p).keys = (w1.omap p).keys from rfl, hmap]
    exact hfree
  have hkf1 : KeyFor (clsOf E w1 p) (w1.loc n).1 := by rw [hcls, hloc]; exact hkf
  obtain ⟨w2, ch, f1, f2, f3⟩ := insertAt_ref (before := before) (ref := ref) e2.wf (hr1.tree.cls p hp1)
    (hs1.tree.cls n (.refl n)) hkf1 (by rw [hcls]; exact hod) (hr1.shared p hp1) (hs1.shared n (.refl n))
    (e2.apartKeys (List.mem_cons_of_mem _ hR) List.mem_cons_self hRn hr1 hs1)
    (e2.validInsertion (List.mem_cons_of_mem _ hR) hp1 List.mem_cons_self hRn (by rw [hloc]; exact hname))
    (by rw [hloc, show (w1.children p).keys = (w1.omap p).keys from rfl, hmap]; exact href) hfree1
  exact ⟨w1, w2, r1, s1, ch, e1, e2, hRn, e3, hr1, hs1, hloc, hmap, f1, f2, f3, hp1, hfree1, hkf1, hin, hinn⟩

/-- **C76** for a subtree of any size: both calls return, the node stands directly before (after) the reference
node, the other children of all nodes keep their order and values, names and parents follow, the tree has the same
nodes with the same uuids, and they are found from everywhere except from strictly below the moved node.
Missing: from there (`c76_refuted`). -/
theorem c76_move_partial : ∃ w1 w2, detach E o k w = (.ok (.node n), w1) ∧
    insertAt E before p n ref w1 = (.ok (), w2) ∧
    Placed before (restOf w o k p) (w2.omap p) (w.loc ref).1 (w.loc n).1 (.node n) ∧
    (∀ q, q ≠ p → w2.omap q = restOf w o k q) ∧
    (Bhv.adopt ∈ (clsOf E w p).bhvs → w2.loc n = ((w.loc n).1, some p) ∧ ∀ q, q ≠ n → w2.loc q = w.loc q) ∧
    (∀ x, InTree w2 R x ↔ InTree w R x) ∧ (∀ x u, HasUuid w2 x u ↔ HasUuid w x u) ∧
    ∀ q, InTree w R q → ¬ InTree w n q ∨ q = n → ∀ u x, (refNode q u w2).1 = .ok (some x) ↔
      InTree w R x ∧ HasUuid w x u := by
  obtain ⟨w1, w2, r, s, ch, e1, e2, hRn, e3, hr, hs, hloc, hmap, f1, f2, f3, hp1, hfree1, hkf1, hin, hinn⟩ :=
    move_runs hE hNF h before hR ho hc hp hpn hod hname hkf hfree href
  have hcls : clsOf E w1 p = clsOf E w p := congrArg E.cls (e3.cls p)
  have hna : Bhv.alias ∉ (clsOf E w1 p).bhvs := (hr.tree.cls p hp1).concrete.noAlias
  obtain ⟨g1, g2⟩ := c21_placed_partial before p n ref e2.wf hna f1
  obtain ⟨⟨t1, t2, t3, -⟩, -⟩ := e2.graftShift (List.mem_cons_of_mem _ hR) hp1 List.mem_cons_self hRn hfree1
    hkf1 hr hs f2 f3
  have hu : ∀ x u, HasUuid w2 x u ↔ HasUuid w x u := fun x u => by
    rw [t2]
    simp only [HasUuid, e3.uuid]
  have hR2 : ∀ x, InTree w2 R x ↔ InTree w R x := fun x => by
    rw [t1, hin, hinn]
    by_cases hx : InTree w n x
    · exact ⟨fun _ => (ho.child hc).trans hx, fun _ => .inr hx⟩
    · exact ⟨fun h => h.elim (·.1) fun h => absurd h hx, fun h => .inl ⟨h, hx⟩⟩
  refine ⟨w1, w2, e1, f1, ?_, fun q hq => (g2 q hq).trans (hmap q), fun ha => ?_, hR2, hu, fun q hq hqn u x => ?_⟩
  · rw [hmap, hloc, hloc] at g1
    exact g1
  · obtain ⟨a, b⟩ := c21_adopted_partial before p n ref e2.wf hna (by rw [hcls]; exact ha) f1
    rw [hloc] at a
    exact ⟨a, fun q hq => (b q hq).trans (hloc q)⟩
  · have hi : ∃ i, (w2.objs q).index = some i := by
      rw [f2.index]
      simp only [upd]
      split
      · exact ⟨r, rfl⟩
      · rename_i hqn'
        exact ⟨r, hr.shared q ((hin q).mpr ⟨hq, hqn.resolve_right hqn'⟩)⟩
    obtain ⟨i, hi⟩ := hi
    rw [refNode_known hi, ← hR2, ← hu, ← t3 q (hqn.imp (fun h => (hin q).mpr ⟨hq, h⟩) id)]
    exact ⟨fun h => Except.ok.inj h, fun h => congrArg _ h⟩

/-- **C76** for a childless node: afterwards the forest is again one that C15 is about, so that every node of the
tree finds exactly the nodes of the tree. -/
theorem c76_leaf (hl : ∀ j c, ¬ Contains w n j c) : ∃ w1 w2, detach E o k w = (.ok (.node n), w1) ∧
    insertAt E before p n ref w1 = (.ok (), w2) ∧ Grown E w2 Rs ∧ Indexed w2 R ∧
    (∀ x, InTree w2 R x ↔ InTree w R x) ∧ ∀ x u, HasUuid w2 x u ↔ HasUuid w x u := by
  obtain ⟨w1, w2, r, s, ch, e1, e2, hRn, e3, hr, hs, hloc, hmap, f1, f2, f3, hp1, hfree1, hkf1, hin, hinn⟩ :=
    move_runs hE hNF h before hR ho hc hp hpn hod hname hkf hfree href
  obtain ⟨v1, v2, a1, a2, -, -, -, a3, a4, -⟩ := c76_move_partial hE hNF h before hR ho hc hp hpn hod hname hkf
    hfree href
  cases a1.symm.trans e1
  cases a2.symm.trans f1
  have hnR : n ∉ Rs := (List.nodup_cons.mp e2.nodup).1
  have hfil : (n :: Rs).filter (· ≠ n) = Rs := by
    rw [List.filter_cons_of_neg (by simp), List.filter_eq_self]
    intro a ha
    simpa using fun e : a = n => hnR (e ▸ ha)
  have hg : Grown E w2 Rs := by
    have := Grown.insert (h.detach hR ho hc e1) (List.mem_cons_of_mem _ hR) hp1 List.mem_cons_self hRn
      (fun j c hj => hl j c ((contains_chDel (h.forest hE).wf e3.children n j c).mp hj).1) hkf1 f1
    rwa [hfil] at this
  obtain ⟨i, hi⟩ := (hg.forest hE).live R hR
  exact ⟨w1, w2, e1, f1, hg, hi.indexed, a3, a4⟩

end

/-- C21 in `Reference` trees: the root of another tree, with everything below it, is inserted beside every child,
if it has a name that is no key yet. -/
theorem c21_reference_succeeds (hE : 0 < E.depth) {w : World} {Rs : List Oid} (h : Grown E w Rs) {R o N ref : Oid}
    (before : Bool) (hR : R ∈ Rs) (ho : InTree w R o) (hN : N ∈ Rs) (hNR : N ≠ R)
    (hod : storageKind (clsOf E w o).bhvs = some .odictStorage) (hname : (w.loc N).1 ≠ .none)
    (hk : (w.loc N).1 ∉ (w.omap o).keys) (hkf : KeyFor (clsOf E w o) (w.loc N).1)
    (href : (w.loc ref).1 ∈ (w.omap o).keys) : (insertAt E before o N ref w).1 = .ok () := by
  obtain ⟨w', e⟩ := (h.forest hE).insertsRoot (before := before) (ref := ref) hR ho hN hNR hod hname hk hkf href
  rw [e]

/-- Four nodes: 1 (above 2) and 3 below 0. -/
def c76Ops : List Op := [.new 7 .none none, .new 7 .none none, .new 7 .none none, .new 7 .none none,
  .set 0 ka (.node 1), .set 1 kb (.node 2), .set 0 kc (.node 3)]

/-- The node 2, strictly below the moved node 1, does not find the root afterwards, which it found before. -/
theorem c76_refuted :
    (execAll sampleEnv (c76Ops ++ [.detach 0 ka, .insertAfter 0 1 3]) {}).1.drop 7 = [.ok (.val (.node 1)), .ok .unit] ∧
    (mkeys sampleEnv 0 (after sampleEnv (c76Ops ++ [.detach 0 ka, .insertAfter 0 1 3]))).1 = .ok [kc, ka] ∧
    (refNode 2 1 (after sampleEnv c76Ops)).1 = .ok (some 0) ∧
    (refNode 2 1 (after sampleEnv (c76Ops ++ [.detach 0 ka, .insertAfter 0 1 3]))).1 = .ok none := by
  decide +kernel

/-- The root and the moved node find everything there. -/
example : let w := after sampleEnv (c76Ops ++ [.detach 0 ka, .insertAfter 0 1 3])
    (refNode 0 3 w).1 = .ok (some 2) ∧ (refNode 1 1 w).1 = .ok (some 0) ∧ (refNode 3 2 w).1 = .ok (some 1) := by
  decide +kernel

theorem c76Ops_grown : Grown sampleEnv (after sampleEnv c76Ops) [0] := by
  have h0 : Grown sampleEnv {} [] := .start
  have none : ∀ {w : World} {o : Oid}, w.children o = [] → ∀ j c, ¬ Contains w o j c :=
    fun {w o} e j c h => by
      replace h : (w.children o).get? j = _ := h
      rw [e] at h
      cases h
  have alone : ∀ {w : World} {o x : Oid}, w.children o = [] → InTree w o x → x = o := by
    intro w o x e h
    rcases h.down with h | ⟨j, c, hc, -⟩
    · exact h
    · exact absurd hc (none e j c)
  have kf : ∀ (w : World) o k, (w.objs o).cls = 7 → KeyFor (clsOf sampleEnv w o) k := fun w o k e h => by
    rw [show clsOf sampleEnv w o = sampleEnv.cls 7 from congrArg _ e] at h
    exact absurd h (by decide)
  have h1 : Grown sampleEnv (after sampleEnv (c76Ops.take 1)) [0] :=
    .new (x := .ok 0) (c := 7) (name := .none) (parent := Option.none) h0 sample_refClass (by decide) rfl
      (fun _ _ _ R h => nomatch h)
  have h2 : Grown sampleEnv (after sampleEnv (c76Ops.take 2)) [1, 0] :=
    .new (x := .ok 1) (c := 7) (name := .none) (parent := Option.none) h1 sample_refClass (by decide) rfl
      (fun u h1 h2 R hR x hx hu => by
        obtain rfl : u = _ := Nat.le_antisymm (Nat.le_of_lt_succ h2) h1
        rcases List.mem_singleton.mp hR with rfl
        rcases alone rfl hx with rfl
        exact absurd hu (by unfold HasUuid; decide +kernel))
  have h3 : Grown sampleEnv (after sampleEnv (c76Ops.take 3)) [2, 1, 0] :=
    .new (x := .ok 2) (c := 7) (name := .none) (parent := Option.none) h2 sample_refClass (by decide) rfl
      (fun u h1 h2 R hR x hx hu => by
        obtain rfl : u = _ := Nat.le_antisymm (Nat.le_of_lt_succ h2) h1
        simp only [List.mem_cons, List.not_mem_nil, or_false] at hR
        rcases hR with rfl | rfl <;> rcases alone rfl hx with rfl <;>
        exact absurd hu (by unfold HasUuid; decide +kernel))
  have h4 : Grown sampleEnv (after sampleEnv (c76Ops.take 4)) [3, 2, 1, 0] :=
    .new (x := .ok 3) (c := 7) (name := .none) (parent := Option.none) h3 sample_refClass (by decide) rfl
      (fun u h1 h2 R hR x hx hu => by
        obtain rfl : u = _ := Nat.le_antisymm (Nat.le_of_lt_succ h2) h1
        simp only [List.mem_cons, List.not_mem_nil, or_false] at hR
        rcases hR with rfl | rfl | rfl <;> rcases alone rfl hx with rfl <;>
        exact absurd hu (by unfold HasUuid; decide +kernel))
  have h5 : Grown sampleEnv (after sampleEnv (c76Ops.take 5)) [3, 2, 0] :=
    .leaf (x := .ok ()) (R := 0) (o := 0) (N := 1) (k := ka) h4 (by decide) (.refl 0) (by decide)
      (by decide) (none rfl) (by decide +kernel) (kf _ _ _ rfl) rfl
  have h6 : Grown sampleEnv (after sampleEnv (c76Ops.take 6)) [3, 0] :=
    .leaf (x := .ok ()) (R := 0) (o := 1) (N := 2) (k := kb) h5 (by decide)
      (.child (.refl 0) (k := ka) rfl) (by decide) (by decide) (none rfl) (by decide +kernel) (kf _ _ _ rfl) rfl
  exact .leaf (x := .ok ()) (R := 0) (o := 0) (N := 3) (k := kc) h6 (by decide)
    (.refl 0) (by decide) (by decide) (none rfl) (by decide +kernel) (kf _ _ _ rfl) rfl

/-- `c76_move_partial` about moving 1 with 2 behind 3. -/
example : ∃ w1 w2, detach sampleEnv 0 ka (after sampleEnv c76Ops) = (.ok (.node 1), w1) ∧
    insertAt sampleEnv false 0 1 3 w1 = (.ok (), w2) ∧
    Placed false (restOf (after sampleEnv c76Ops) 0 ka 0) (w2.omap 0) kc ka (.node 1) ∧
    (refNode 3 3 w2).1 = .ok (some 2) := by
  have hroot : ∀ {x}, ¬ Contains (after sampleEnv c76Ops) x ka 0 ∧ ¬ InTree (after sampleEnv c76Ops) 1 0 := fun {x} => by
    obtain ⟨r, hr⟩ := (c76Ops_grown.forest (by decide)).live 0 (by decide)
    refine ⟨hr.tree.top _ _, fun h => ?_⟩
    rcases h.cases with h | ⟨p, k, -, h⟩
    · cases h
    · exact hr.tree.top _ _ h
  obtain ⟨w1, w2, h1, h2, h3, -, -, -, -, h4⟩ := c76_move_partial (by decide) sample_noFactory c76Ops_grown
    (R := 0) (o := 0) (n := 1) (p := 0) (ref := 3) (k := ka) false (by decide) (.refl 0) rfl (.refl 0) (hroot (x := 0)).2
    (by decide +kernel) (by decide +kernel) (fun h => absurd h (by decide)) (by decide +kernel) (by decide +kernel)
  have h3n : ¬ InTree (after sampleEnv c76Ops) 1 3 := fun h => by
    have hf := c76Ops_grown.forest (E := sampleEnv) (by decide)
    rcases h.cases with h | ⟨p, k, hp, h⟩
    · cases h
    · obtain ⟨rfl, -⟩ := hf.sole _ _ _ _ _ h (show Contains (after sampleEnv c76Ops) 0 kc 3 from rfl)
      exact (hroot (x := 0)).2 hp
  refine ⟨w1, w2, h1, h2, h3, (h4 3 (.child (.refl 0) (k := kc) rfl) (.inl h3n) 3 2).mpr
    ⟨.child (.child (.refl 0) (k := ka) rfl) (k := kb) rfl, by unfold HasUuid; decide +kernel⟩⟩

end Verif
