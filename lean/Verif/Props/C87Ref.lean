import Verif.Props.C87
import Verif.Props.C91

/-!
# C87 for Reference classes

`create_tree` of a class with `Reference` returns, and the tree it makes is indexed: `node(uuid)` asked on any of its
nodes answers with the node of the tree that has the uuid.
-/

namespace Verif

open Ser (serEnv)

variable {E : Env} {c : ClassId}

/-- Trees grown through the API, the uuids to be drawn being unused. -/
structure Sown (E : Env) (w : World) (Rs : List Oid) : Prop where
  grown : Grown E w Rs
  spare : ∀ u, w.nuuid ≤ u → Unused w Rs u

theorem Sown.ready {w : World} {Rs : List Oid} (h : Sown E w Rs) (hE : 0 < E.depth) : Ready E w Rs :=
  ⟨h.grown.forest hE, h.spare⟩

theorem Sown.new {w : World} {Rs : List Oid} (h : Sown E w Rs) (hE : 0 < E.depth) (hc : RefClass (E.cls c))
    (ha : (E.cls c).Accepts .none none) :
    ∃ w', newNode E c .none none w = (.ok w.nobj, w') ∧ Sown E w' (w.nobj :: Rs) ∧ w'.nobj = w.nobj + 1 ∧
      w'.children w.nobj = [] ∧ (∀ p, p ≠ w.nobj → w'.children p = w.children p) ∧
      (w'.objs w.nobj).cls = c ∧ ∀ p, p ≠ w.nobj → (w'.objs p).cls = (w.objs p).cls := by
  obtain ⟨w', u, e1, e2, -⟩ := (h.ready hE).forest.new .none none hE ha hc
  obtain ⟨r1, r2, r3, r4⟩ := (h.ready hE).new hE ha hc e1
  exact ⟨w', e1, ⟨h.grown.new hc ha e1 fun u hu _ => h.spare u hu, r1.spare⟩, e2.nobj, r2, r3,
    by rw [e2.cls, if_pos rfl], r4⟩

theorem Sown.leaf {w : World} {Rs : List Oid} {N R o : Oid} {k : Key} (h : Sown E w (N :: Rs)) (hE : 0 < E.depth)
    (hN : N ∉ Rs) (hR : R ∈ Rs) (ho : InTree w R o) (hleaf : w.children N = []) (hk : k ∉ (w.children o).keys)
    (hkf : KeyFor (clsOf E w o) k) :
    ∃ w', setitem E o k (.node N) w = (.ok (), w') ∧ Sown E w' Rs ∧ w'.nobj = w.nobj ∧
      (∀ p, w'.children p = if p = o then (w.children o).set k (.node N) else w.children p) ∧
      ∀ p, (w'.objs p).cls = (w.objs p).cls := by
  have hne : N ≠ R := fun e => hN (e ▸ hR)
  have hl : ∀ j d, ¬ Contains w N j d := fun j d hd => by
    have hd : (w.children N).get? j = some (.node d) := hd
    rw [hleaf] at hd
    cases hd
  have hfil : (N :: Rs).filter (· ≠ N) = Rs := by
    rw [List.filter_cons_of_neg (by simp)]
    exact List.filter_eq_self.mpr fun a ha => by simpa using fun e : a = N => hN (e ▸ ha)
  have hR' : R ∈ N :: Rs := List.mem_cons_of_mem _ hR
  obtain ⟨w', e1, -, e3, -, e5, e6, -⟩ := (h.ready hE).forest.setLeaf hR' ho List.mem_cons_self hne hl hk hkf
  have g := Grown.leaf h.grown hR' ho List.mem_cons_self hne hl hk hkf e1
  have s := ((h.ready hE).setLeaf hR' ho List.mem_cons_self hne hl hk hkf e1).spare
  rw [hfil] at g s
  refine ⟨w', e1, ⟨g, s⟩, e6, fun p => ?_, e5⟩
  exact e3 p

theorem Sown.fresh {w : World} {Rs : List Oid} (h : Sown E w Rs) (hE : 0 < E.depth) : w.nobj ∉ Rs := fun hm =>
  Nat.lt_irrefl _ ((h.ready hE).forest.lt hm (.refl _))

theorem Sown.sub {w : World} {Rs : List Oid} {r x : Oid} {i j : Nat} (h : Sown E w Rs) (hE : 0 < E.depth)
    (hc : RefClass (E.cls c)) (ha : (E.cls c).Accepts .none none) (hr : r ∈ Rs) (hx : Contains w r (childName i) x)
    (hj : subchildName j ∉ (w.children x).keys) :
    ∃ w', createSub E c r i j w = (.ok (), w') ∧ Sown E w' Rs ∧ w'.nobj = w.nobj + 1 ∧
      (∀ p, p < w.nobj → w'.children p =
        if p = x then (w.children x).set (subchildName j) (.node w.nobj) else w.children p) := by
  have hf := (h.ready hE).forest
  have hxt : InTree w r x := (InTree.refl r).child hx
  have hrl := hf.lt hr (.refl r)
  have hxl := hf.lt hr hxt
  obtain ⟨w1, e1, h1, n1, m1, c1, k1, l1⟩ := h.new hE hc ha
  have hx1 : Contains w1 r (childName i) x := by
    show (w1.children r).get? (childName i) = _
    rw [c1 r (Nat.ne_of_lt hrl)]
    exact hx
  have hf1 := (h1.ready hE).forest
  have hr1 : r ∈ w.nobj :: Rs := List.mem_cons_of_mem _ hr
  obtain ⟨q, hq⟩ := hf1.live r hr1
  have hkf : KeyFor (clsOf E w1 r) (childName i) := fun _ => child_plain i
  obtain ⟨w2, e2, h2⟩ := getitem_ref hf1.wf (hq.tree.cls r (.refl r)) hkf
  have hv : lookup (w1.children r) (childName i) = .ok (.node x) := by
    unfold lookup
    rw [show (w1.children r).get? (childName i) = some (.node x) from hx1]
  rw [hv] at e2
  have g2 : Sown E w2 (w.nobj :: Rs) :=
    ⟨.get h1.grown hr1 (.refl r) hkf e2, ((h1.ready hE).calm h2.calm).spare⟩
  have hx2 : InTree w2 r x := (InTree.refl r).child ((h2.contains _ _ _).mpr hx1)
  obtain ⟨w3, e3, h3, n3, c3, l3⟩ := g2.leaf hE (h.fresh hE) hr hx2 (k := subchildName j)
    (by rw [h2.same.children, m1]) (by rw [h2.same.children, c1 x (Nat.ne_of_lt hxl)]; exact hj)
    (fun _ => subchild_plain j)
  refine ⟨w3, ?_, h3, by rw [n3, h2.same.nobj, n1], fun p hp => ?_⟩
  · simp only [createSub, M.bind_apply, e1, e2, setIn, e3]
  · rw [c3, h2.same.children, h2.same.children, c1 x (Nat.ne_of_lt hxl), c1 p (Nat.ne_of_lt hp)]

theorem Sown.child {w : World} {Rs : List Oid} {r : Oid} {i : Nat} (h : Sown E w Rs) (hE : 0 < E.depth)
    (hc : RefClass (E.cls c)) (ha : (E.cls c).Accepts .none none) (hr : r ∈ Rs)
    (hi : childName i ∉ (w.children r).keys) :
    ∃ w', createChild E c r i w = (.ok (), w') ∧ Sown E w' Rs ∧ w.nobj ≤ w'.nobj ∧
      w'.children r = (w.children r).set (childName i) (.node w.nobj) := by
  have hrl := (h.ready hE).forest.lt hr (.refl r)
  have hrn := Nat.ne_of_lt hrl
  obtain ⟨w1, e1, h1, n1, m1, c1, -, -⟩ := h.new hE hc ha
  obtain ⟨w2, e2, h2, n2, c2, -⟩ := h1.leaf hE (h.fresh hE) hr (.refl r) m1 (k := childName i)
    (by rw [c1 r hrn]; exact hi) (fun _ => child_plain i)
  have hx2 : Contains w2 r (childName i) w.nobj := by
    show (w2.children r).get? (childName i) = _
    rw [c2, if_pos rfl, Od.get?_set, if_pos rfl]
  have hm2 : w2.children w.nobj = [] := by rw [c2, if_neg (Ne.symm hrn), m1]
  obtain ⟨w3, e3, h3, n3, c3⟩ := h2.sub hE hc ha hr hx2 (j := 0) (by rw [hm2]; exact List.not_mem_nil)
  have hx3 : Contains w3 r (childName i) w.nobj := by
    show (w3.children r).get? (childName i) = _
    rw [c3 r (by omega), if_neg hrn]
    exact hx2
  obtain ⟨w4, e4, h4, n4, c4⟩ := h3.sub hE hc ha hr hx3 (j := 1) (by
    rw [c3 _ (by omega), if_pos rfl, hm2]
    show subchildName 1 ∉ [subchildName 0]
    decide)
  refine ⟨w4, ?_, h4, by omega, ?_⟩
  · simp only [createChild, M.bind_apply, e1, e2, show List.range 2 = [0, 1] from rfl, forU, e3, e4, M.pure_apply]
  · rw [c4 r (by omega), if_neg hrn, c3 r (by omega), if_neg hrn, c2, if_pos rfl, c1 r hrn]

/-- **C87 and C15.**  In a forest of `Reference` trees grown through the API, where the uuids to be drawn are not in use,
`create_tree` of a class with `Reference` that takes a name and a parent returns.  Asked on a node of any tree `R`, the new one or one that
was there, `node(uuid)` answers with the node of `R` that has the uuid.  The uuids to be drawn next are not in use either. -/
theorem c87_reference (hE : 0 < E.depth) {w : World} {Rs : List Oid} (h : Grown E w Rs)
    (hi : ∀ u, w.nuuid ≤ u → Unused w Rs u) (hc : RefClass (E.cls c)) (ha : (E.cls c).Accepts .none none) :
    ∃ w', createTree E c w = (.ok w.nobj, w') ∧ Grown E w' (w.nobj :: Rs) ∧
      (∀ u, w'.nuuid ≤ u → Unused w' (w.nobj :: Rs) u) ∧
      ∀ R ∈ w.nobj :: Rs, ∀ o, InTree w' R o → ∀ u, ∃ a, refNode o u w' = (.ok a, w') ∧
        ∀ x, a = some x ↔ InTree w' R x ∧ HasUuid w' x u := by
  obtain ⟨w1, e1, h1, n1, m1, -⟩ := Sown.new ⟨h, hi⟩ hE hc ha
  obtain ⟨w2, e2, h2, n2, c2⟩ := h1.child hE hc ha List.mem_cons_self (i := 0) (by rw [m1]; exact List.not_mem_nil)
  rw [m1] at c2
  obtain ⟨w3, e3, h3, n3, c3⟩ := h2.child hE hc ha List.mem_cons_self (i := 1) (by
    rw [c2]
    show childName 1 ∉ [childName 0]
    decide)
  rw [c2] at c3
  obtain ⟨w4, e4, h4, n4, c4⟩ := h3.child hE hc ha List.mem_cons_self (i := 2) (by
    rw [c3, Od.keys_set, Od.keys_set]
    decide)
  refine ⟨w4, ?_, h4.grown, h4.spare, fun R hR o ho u => ?_⟩
  · simp only [createTree, M.bind_apply, e1, show List.range 3 = [0, 1, 2] from rfl, forU, e2, e3, e4, M.pure_apply]
  · obtain ⟨r, hl⟩ := (h4.grown.forest hE).live R hR
    exact hl.indexed.asked ho (hl.shared o ho) u

/-- Beside a tree that is there: the new tree has uuids 2 to 11, its nodes find each other and not the other root. -/
example : ∃ w', createTree serEnv 2 c91Root = (.ok 1, w') ∧ Grown serEnv w' [1, 0] := by
  obtain ⟨w', h1, h2, -⟩ := c87_reference (E := serEnv) (c := 2) (by decide) c91_root_grown c91_root_spare ser_full_ref
    (by decide)
  exact ⟨w', h1, h2⟩

example : (refNode 10 3 (createTree serEnv 2 c91Root).2).1 = .ok (some 2) ∧
    (refNode 10 1 (createTree serEnv 2 c91Root).2).1 = .ok none ∧
    (refNode 0 1 (createTree serEnv 2 c91Root).2).1 = .ok (some 0) := by decide +kernel

end Verif
