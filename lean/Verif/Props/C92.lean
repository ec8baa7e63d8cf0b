import Verif.Props.C15
import Verif.Props.C71Index
import Verif.Props.C91

/-!
# C92: a deep copy of a `Reference` tree answers for itself

`node.deepcopy()` copies the index of the tree with the nodes in it.  Asked on a node of the copied tree,
`node(uuid)` answers with the node of the copied tree that has the uuid, never with a node of the original, also if the
copy has the same uuids; the trees that were there answer as before.
-/

namespace Verif

variable {E : Env}

/-- **C92.**  In a forest of `Reference` trees grown through the API, whose heap has no dangling references, the node
`node.deepcopy()` returns is in a new tree `A` made of new nodes.  Asked on a node of `A`, or of one of the trees
that were there, `node(uuid)` answers with the node of that tree which has the uuid, and with `None` if there is
none.  For nodes with `UUIDAware`, whose copies get new uuids, all uuids in use must have been drawn. -/
theorem c92_asked (hE : 0 < E.depth) {w w' : World} {Rs : List Oid} (h : Grown E w Rs) (hs : Intact w) {R o c : Oid}
    (hR : R ∈ Rs) (ho : InTree w R o) (hi : Bhv.uuidAware ∈ (clsOf E w o).bhvs → Issued w)
    (hc : deepcopy E o w = (.ok c, w')) :
    ∃ A, InTree w' A c ∧ (∀ p k, ¬ Contains w' p k A) ∧ (∀ x, InTree w' A x → w.nobj ≤ x ∧ x < w'.nobj) ∧
      ∀ B ∈ A :: Rs, ∀ x, InTree w' B x → ∀ u, ∃ a, refNode x u w' = (.ok a, w') ∧
        ∀ y, a = some y ↔ InTree w' B y ∧ HasUuid w' y u := by
  have hf := h.forest hE
  obtain ⟨rfl, h1, h2, -, h3⟩ := hf.deepcopy hs hR ho hi hc
  obtain ⟨r, hr⟩ := h1.live _ List.mem_cons_self
  refine ⟨_, (h3 _).mpr ⟨o, ho, rfl⟩, hr.tree.top, fun x hx => ⟨?_, h1.lt List.mem_cons_self hx⟩, fun B hB x hx u => ?_⟩
  · obtain ⟨p, hp, rfl⟩ := (h3 x).mp hx
    exact (moved_lt (hf.reached hs hR ho p hp)).1
  · rcases List.mem_cons.mp hB with rfl | hB
    · exact hr.indexed.asked hx (hr.shared x hx) u
    · obtain ⟨r, hr⟩ := h2.live B hB
      exact hr.indexed.asked hx (hr.shared x hx) u

/-- The trees that were there have the nodes and uuids they had, and answer what they answered. -/
theorem c92_original (hE : 0 < E.depth) {w w' : World} {Rs : List Oid} (h : Grown E w Rs) (hs : Intact w) {R o c : Oid}
    (hR : R ∈ Rs) (ho : InTree w R o) (hi : Bhv.uuidAware ∈ (clsOf E w o).bhvs → Issued w)
    (hc : deepcopy E o w = (.ok c, w')) {B x : Oid} (hB : B ∈ Rs) (hx : InTree w B x) (u : Nat) :
    (refNode x u w').1 = (refNode x u w).1 := by
  have hf := h.forest hE
  obtain ⟨-, -, h2, -⟩ := hf.deepcopy hs hR ho hi hc
  obtain ⟨r, hr⟩ := hf.live B hB
  rcases deepcopy_inv hf.wf hs (hf.lt hR ho) hc with ⟨⟨e, he⟩, _⟩ | ⟨hI, _⟩
  · cases he
  have hu := hI.unchanged_old hf.wf (hf.lt hB hx)
  have hk : (w'.objs x).index = some r := by rw [hu.obj]; exact hr.shared x hx
  have hn : w'.known x = w.known x := by
    have := hu.indexed
    unfold World.indexed at this
    unfold World.known
    rw [hk, hr.shared x hx] at this ⊢
    exact this
  rw [refNode_known hk, refNode_known (hr.shared x hx), hn]

/-- The copied tree has a node for each node of the tree, and what follows are histories of the copy (C15). -/
theorem c92_grown (hE : 0 < E.depth) {w w' : World} {Rs : List Oid} (h : Grown E w Rs) (hs : Intact w) {R o c : Oid}
    (hR : R ∈ Rs) (ho : InTree w R o) (hi : Bhv.uuidAware ∈ (clsOf E w o).bhvs → Issued w)
    (hc : deepcopy E o w = (.ok c, w')) :
    ∃ f : Oid → Oid, f o = c ∧ Grown E w' [f R] ∧ Grown E w' Rs ∧
      (∀ p q, InTree w R p → InTree w R q → f p = f q → p = q) ∧
      (∀ x, InTree w' (f R) x ↔ ∃ p, InTree w R p ∧ x = f p) ∧
      ∀ p k d, InTree w R p → (Contains w' (f p) k (f d) ∧ InTree w R d ↔ Contains w p k d) := by
  have hf := h.forest hE
  obtain ⟨rfl, h1, h2, -, h3⟩ := hf.deepcopy hs hR ho hi hc
  obtain ⟨r, hr⟩ := h1.live _ List.mem_cons_self
  have hin := hf.reached hs hR ho
  refine ⟨w.moved (w.reach o), rfl, .copyOf h hs hR ho hi hc ((h3 _).mpr ⟨o, ho, rfl⟩) hr.tree.top,
    .copied h hs hR ho hi hc, fun p q hp hq e => moved_inj (hin p hp) (hin q hq) e, h3, fun p k d hp => ?_⟩
  have hL := (reached (hf.lt hR ho)).complete hs
  have hch : ∀ q, w'.children q = (w.deep (w.reach o)).children q := by
    unfold deepcopy at hc
    split at hc
    · exact (hf.deepPipe hs hR ho _ hi hc).2.2.2
    · cases hc
  have hcon : Contains w' (w.moved (w.reach o) p) k (w.moved (w.reach o) d) ↔
      Contains (w.deep (w.reach o)) (w.moved (w.reach o) p) k (w.moved (w.reach o) d) := by
    show (w'.children _).get? k = _ ↔ ((w.deep (w.reach o)).children _).get? k = _
    rw [hch]
  rw [hcon, contains_copied hf.wf hL]
  constructor
  · rintro ⟨⟨hlt, -⟩ | ⟨q, hq, y, hy, e, hqy, e'⟩, hd⟩
    · exact absurd hlt (Nat.not_lt.mpr (moved_lt (hin p hp)).1)
    · rw [moved_inj (hin p hp) hq e, moved_inj (hin d hd) hy e']
      exact hqy
  · exact fun hk => ⟨.inr ⟨p, hin p hp, d, hin d (hp.child hk), rfl, hk, rfl⟩, hp.child hk⟩

/-- Without `UUIDAware` the copies have the uuids of the originals: where the original answers with a node, the copy
answers with the copy of this node. -/
theorem c92_same (hE : 0 < E.depth) {w w' : World} {Rs : List Oid} (h : Grown E w Rs) (hs : Intact w) {R o c : Oid}
    (hR : R ∈ Rs) (ho : InTree w R o) (hu : Bhv.uuidAware ∉ (clsOf E w o).bhvs) (hc : deepcopy E o w = (.ok c, w')) :
    ∃ f : Oid → Oid, f o = c ∧ (∀ x, InTree w' (f R) x ↔ ∃ p, InTree w R p ∧ x = f p) ∧
      (∀ p, InTree w R p → w.nobj ≤ f p) ∧
      ∀ x u, InTree w R x → ∃ a, refNode x u w = (.ok a, w) ∧ refNode (f x) u w' = (.ok (a.map f), w') := by
  have hf := h.forest hE
  obtain ⟨rfl, h1, -, -, h3⟩ := hf.deepcopy hs hR ho (fun hx => absurd hx hu) hc
  have hin := hf.reached hs hR ho
  refine ⟨w.moved (w.reach o), rfl, h3, fun p hp => (moved_lt (hin p hp)).1, fun x u hx => ?_⟩
  obtain ⟨-, rfl⟩ := deepEnd_ok (deepcopy_plain hu hc)
  obtain ⟨r, hr⟩ := hf.live R hR
  refine ⟨_, refNode_known (hr.shared x hx) u, ?_⟩
  have hk : ((w.deep (w.reach o)).objs (w.moved (w.reach o) x)).index = some (w.nidx + r) := by
    rw [deep_moved (hin x hx)]
    show (w.objs x).index.map (w.nidx + ·) = _
    rw [hr.shared x hx]
    rfl
  rw [refNode_known hk, ← get?_moveIdx]
  unfold World.known
  rw [hk, hr.shared x hx]
  show (_, _) = (_, _)
  dsimp only
  rw [show (w.deep (w.reach o)).idxs (w.nidx + r) = moveIdx (w.moved (w.reach o)) (w.idxs r) from
    moveDicts_moved (hin x hx) (hr.shared x hx)]

/-! ### Two trees -/

theorem refChain_intact : Intact (after sampleEnv refChain) := intact_after (by decide +kernel)

theorem c71Pair_intact : Intact (after gapEnv c71Pair) := intact_after (by decide +kernel)

/-- The chain 0, 1, 2 with the uuids 1, 2, 3, copied from its middle node: 4 is the copy of that, 3 of the root and 5
of the leaf, and they have the same uuids. -/
example : let w' := (deepcopy sampleEnv 1 (after sampleEnv refChain)).2
    (deepcopy sampleEnv 1 (after sampleEnv refChain)).1 = .ok 4 ∧ (refNode 4 1 w').1 = .ok (some 3) ∧
    (refNode 3 2 w').1 = .ok (some 4) ∧ (refNode 4 3 w').1 = .ok (some 5) ∧ (refNode 0 3 w').1 = .ok (some 2) := by
  decide +kernel

/-- Root 0 and child 1 with the uuids 2 and 4; the copies get new ones. -/
example : let w' := (deepcopy gapEnv 0 (after gapEnv c71Pair)).2
    (deepcopy gapEnv 0 (after gapEnv c71Pair)).1 = .ok 2 ∧ (refNode 2 2 w').1 = .ok none ∧
    (refNode 3 5 w').1 = .ok (some 2) ∧ (refNode 2 6 w').1 = .ok (some 3) ∧ (refNode 0 5 w').1 = .ok none := by
  decide +kernel

example : ∃ A, InTree (deepcopy sampleEnv 1 (after sampleEnv refChain)).2 A 4 ∧
    Grown sampleEnv (deepcopy sampleEnv 1 (after sampleEnv refChain)).2 [A] := by
  obtain ⟨f, h1, h2, -, -, h3, -⟩ := c92_grown (by decide) refChain_grown refChain_intact (R := 0) (o := 1) (c := 4)
    (by decide) (.child (.refl 0) (k := ka) rfl) (fun h => absurd h (by decide))
    (Prod.ext (show (deepcopy sampleEnv 1 (after sampleEnv refChain)).1 = _ by decide +kernel) rfl)
  exact ⟨f 0, (h3 4).mpr ⟨1, .child (.refl 0) (k := ka) rfl, h1.symm⟩, h2⟩

example : ∃ A, InTree (deepcopy gapEnv 0 (after gapEnv c71Pair)).2 A 2 ∧
    ∀ B ∈ [A, 0], ∀ x, InTree (deepcopy gapEnv 0 (after gapEnv c71Pair)).2 B x → ∀ u,
      ∃ a, refNode x u (deepcopy gapEnv 0 (after gapEnv c71Pair)).2 = (.ok a, (deepcopy gapEnv 0 (after gapEnv c71Pair)).2) ∧
        ∀ y, a = some y ↔ InTree (deepcopy gapEnv 0 (after gapEnv c71Pair)).2 B y ∧
          HasUuid (deepcopy gapEnv 0 (after gapEnv c71Pair)).2 y u := by
  obtain ⟨A, h1, -, -, h2⟩ := c92_asked (by decide) c71Pair_grown c71Pair_intact (R := 0) (o := 0) (c := 2)
    (by decide) (.refl 0) (fun _ => c71Pair_issued 3)
    (Prod.ext (show (deepcopy gapEnv 0 (after gapEnv c71Pair)).1 = _ by decide +kernel) rfl)
  exact ⟨A, h1, h2⟩

end Verif
