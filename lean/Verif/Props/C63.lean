import Verif.Props.C15
import Verif.Props.C21

/-!
# C63: what insertions refuse

Nodes without a name, nodes whose uuid the tree already knows, and reference nodes that are
no children of the node.
-/

namespace Verif

variable {E : Env}

/-- **C63.**  A node without a name is refused; nothing at all changes. -/
theorem c63_unnamed (before : Bool) (o n ref : Oid) {w : World} (h : (w.loc n).1 = .none) :
    insertAt E before o n ref w = (.error (.value "Given node has no __name__ set."), w) := by
  have hv : validateInsertion E o n w = (.error (.value "Given node has no __name__ set."), w) := by
    simp only [validateInsertion, M.bind_apply, M.getW_apply]
    rw [if_pos (show (w.objs n).name = .none from h)]
    rfl
  simp only [insertAt, M.bind_apply, hv]

/-- **C63.**  In a class with `Reference`, a named node whose uuid the index of `o` knows is
refused with `KeyError`; nothing at all changes. -/
theorem c63_contained (before : Bool) (o n ref x : Oid) {w : World} {u : Nat}
    (hr : Bhv.reference ∈ (clsOf E w o).bhvs)
    (hn : Bhv.reference ∈ (clsOf E w n).bhvs ∨ Bhv.uuidAware ∈ (clsOf E w n).bhvs)
    (h : (w.loc n).1 ≠ .none) (hu : HasUuid w n u) (hk : (w.known o).get? (some u) = some x) :
    insertAt E before o n ref w = (.error (.key (.msg "Given node already contained in tree.")), w) := by
  have hv : validateInsertion E o n w =
      (.error (.key (.msg "Given node already contained in tree.")), w) := by
    cases hi : (w.objs o).index with
    | none => simp only [World.known, hi] at hk; cases hk
    | some i =>
      simp only [World.known, hi] at hk
      have h1 : (bhvsOf E w o).contains .reference = true := List.contains_iff_mem.mpr hr
      have h2 : ((bhvsOf E w n).contains .reference || (bhvsOf E w n).contains .uuidAware) = true := by
        rw [Bool.or_eq_true]
        exact hn.imp List.contains_iff_mem.mpr List.contains_iff_mem.mpr
      simp only [validateInsertion, M.bind_apply, M.getW_apply]
      rw [if_neg (show ¬ (w.objs n).name = .none from h), h1, if_pos rfl, h2, if_pos rfl,
        show (w.objs n).uuid = some u from hu]
      simp only [M.bind_apply, indexRef, hi, hk, Option.isSome_some, if_true]
      rfl
  simp only [insertAt, M.bind_apply, hv]

/-- C63 in trees grown through the API: every named node of the tree is refused anywhere in
the tree. -/
theorem c63_grown (hE : 0 < E.depth) {w : World} {Rs : List Oid} (h : Grown E w Rs) {R o n : Oid}
    (hR : R ∈ Rs) (ho : InTree w R o) (hn : InTree w R n) (hname : (w.loc n).1 ≠ .none)
    (before : Bool) (ref : Oid) :
    insertAt E before o n ref w = (.error (.key (.msg "Given node already contained in tree.")), w) := by
  obtain ⟨r, hr⟩ := (h.forest hE).live R hR
  obtain ⟨u, hu, hg⟩ := hr.own hn
  exact c63_contained before o n ref n (hr.tree.cls o ho).reference (.inl (hr.tree.cls n hn).reference) hname hu
    (by rw [hr.known ho]; exact hg)

/-- `o` takes `n` for new: its class has no `Reference` (and no `GetattrChildren`, which answers for it),
or its index does not know the uuid of `n`. -/
def TakenForNew (E : Env) (w : World) (o n : Oid) : Prop :=
  Bhv.reference ∉ (clsOf E w o).bhvs ∧ Bhv.getattrChildren ∉ (clsOf E w o).bhvs ∨
  Bhv.reference ∈ (clsOf E w o).bhvs ∧
  (Bhv.reference ∈ (clsOf E w n).bhvs ∨ Bhv.uuidAware ∈ (clsOf E w n).bhvs) ∧ (w.objs o).index ≠ none ∧
    ∃ u, HasUuid w n u ∧ (w.known o).get? (some u) = none

theorem validateInsertion_new {w : World} {o n : Oid} (h : TakenForNew E w o n) (hname : (w.loc n).1 ≠ .none) :
    validateInsertion E o n w = (.ok (), w) := by
  simp only [validateInsertion, M.bind_apply, M.getW_apply]
  rw [if_neg (show ¬ (w.objs n).name = .none from hname)]
  by_cases hr : Bhv.reference ∈ (clsOf E w o).bhvs
  · obtain ⟨-, hn, hi, u, hu, hk⟩ := h.resolve_left (fun h => h.1 hr)
    have h1 : (bhvsOf E w o).contains .reference = true := List.contains_iff_mem.mpr hr
    have h2 : ((bhvsOf E w n).contains .reference || (bhvsOf E w n).contains .uuidAware) = true := by
      rw [Bool.or_eq_true]
      exact hn.imp List.contains_iff_mem.mpr List.contains_iff_mem.mpr
    rw [h1, if_pos rfl, h2, if_pos rfl, show (w.objs n).uuid = some u from hu]
    cases hx : (w.objs o).index with
    | none => exact absurd hx hi
    | some i =>
      simp only [World.known, hx] at hk
      simp only [M.bind_apply, indexRef, hx, hk, Option.isSome_none, Bool.false_eq_true, if_false]
      rfl
  · have h1 : (bhvsOf E w o).contains .reference = false := by
      rw [Bool.eq_false_iff]
      exact fun h => hr (List.contains_iff_mem.mp h)
    have h2 : (bhvsOf E w o).contains .getattrChildren = false := by
      rw [Bool.eq_false_iff]
      exact fun hg => (h.elim (fun x => x.2 (List.contains_iff_mem.mp hg)) fun x => hr x.1)
    rw [h1, h2]
    rfl

/-- **C63.**  A reference node whose name is no key of `o` is refused with `ValueError`; no mapping and
no location changes (only the storage dictionary may come into being). -/
theorem c63_not_child_partial (before : Bool) (o n ref : Oid) {w : World} (hw : WF w)
    (hod : storageKind (clsOf E w o).bhvs = some .odictStorage)
    (hfix : Bhv.fixedChildren ∉ (clsOf E w o).bhvs) (hnew : TakenForNew E w o n)
    (hname : (w.loc n).1 ≠ .none) (href : (w.loc ref).1 ∉ (w.omap o).keys) :
    ∃ w', insertAt E before o n ref w =
        (.error (.value "Given reference node not child of self."), w') ∧ MapsSame w w' ∧
      ∀ p, w'.loc p = w.loc p := by
  have hv := validateInsertion_new hnew hname
  have hst : Stores (clsOf E w o) := ⟨⟨_, hod, by decide⟩, hfix⟩
  obtain ⟨s, w2, hr⟩ := hst.storageRef (E := E) (o := o) (w := w)
  have hq := storageRef_quiet E o w hw
  rw [hr] at hq
  have hch : w2.stores s = w.children o := by
    rw [← hq.2.children o, children_eq (storageRef_ok hr)]
  have hb : bhvsOf E w2 o = (clsOf E w o).bhvs :=
    congrArg ClassDef.bhvs (congrArg E.cls (hq.2.obj o).cls)
  have hs : storageInsert E before o (w.objs ref).name (w.objs n).name (.node n) w =
      (.error (.value "Given reference node not child of self."), w2) := by
    unfold storageInsert
    simp only [M.bind_apply, hr, M.getW_apply]
    rw [hb, if_pos hod, hch, if_neg (show ¬ (w.children o).has (w.objs ref).name = true from
      fun h => href ((Od.has_iff ..).mp h))]
    rfl
  replace hq : Same w w2 := hq.2
  refine ⟨w2, ?_, MapsSame.of hq.children, fun p => by
    simp only [World.loc, (hq.obj p).name, (hq.obj p).parent]⟩
  simp only [insertAt, M.bind_apply, hv, M.getW_apply, hs]

/-- A `Node` with one child, and a named `BaseNode`, which has no uuid. -/
def c63Bare : List Op := [.new 2 .none none, .new 2 .none none, .new 0 kc none, .set 0 ka (.node 1)]

/-- C63 does not hold as stated: a class with `Reference` asks the inserted node for its uuid before it looks at
the reference node, which raises `AttributeError` for a node of a class without uuids. -/
theorem c63_refuted : ¬ ∀ (E : Env) (w : World) (before : Bool) (o n ref : Oid), Reachable E w → o < w.nobj → n < w.nobj →
    ref < w.nobj → Bhv.order ∈ (clsOf E w o).bhvs → storageKind (clsOf E w o).bhvs = some .odictStorage →
    (w.loc n).1 ≠ .none → (w.loc ref).1 ∉ (w.omap o).keys →
    (insertAt E before o n ref w).1 = .error (.value "Given reference node not child of self.") ∨
    (insertAt E before o n ref w).1 = .error (.key (.msg "Given node already contained in tree.")) := by
  intro h
  have he : (insertAt sampleEnv true 0 2 0 (after sampleEnv c63Bare)).1 = .error .attr := by decide +kernel
  have h1 := h sampleEnv _ true 0 2 0 (reachable_after sampleEnv c63Bare) (by decide +kernel) (by decide +kernel)
    (by decide +kernel) (by decide +kernel) (by decide +kernel) (by decide +kernel) (by decide +kernel)
  rw [he] at h1
  simp at h1

/-- **C63.**  Such a node is refused all the same; nothing at all changes. -/
theorem c63_no_uuid (before : Bool) (o n ref : Oid) {w : World} (hr : Bhv.reference ∈ (clsOf E w o).bhvs)
    (hn : Bhv.reference ∉ (clsOf E w n).bhvs) (hn' : Bhv.uuidAware ∉ (clsOf E w n).bhvs) (hname : (w.loc n).1 ≠ .none) :
    insertAt E before o n ref w = (.error .attr, w) := by
  have hv : validateInsertion E o n w = (.error .attr, w) := by
    simp only [validateInsertion, M.bind_apply, M.getW_apply]
    rw [if_neg (show ¬ (w.objs n).name = .none from hname)]
    have h1 : (bhvsOf E w o).contains .reference = true := List.contains_iff_mem.mpr hr
    have h2 : ((bhvsOf E w n).contains .reference || (bhvsOf E w n).contains .uuidAware) = false := by
      rw [Bool.or_eq_false_iff]
      exact ⟨Bool.eq_false_iff.mpr fun h => hn (List.contains_iff_mem.mp h),
        Bool.eq_false_iff.mpr fun h => hn' (List.contains_iff_mem.mp h)⟩
    rw [h1, if_pos rfl, h2]
    rfl
  simp only [insertAt, M.bind_apply, hv]

example : insertAt sampleEnv false 0 2 1 (after sampleEnv c63Bare) = (.error .attr, after sampleEnv c63Bare) :=
  c63_no_uuid false 0 2 1 (by decide +kernel) (by decide +kernel) (by decide +kernel) (by decide +kernel)

/-- The chain of three refuses its last node at the root and takes nothing that is unnamed. -/
example : insertAt sampleEnv true 0 2 1 (after sampleEnv refChain) =
      (.error (.key (.msg "Given node already contained in tree.")), after sampleEnv refChain) ∧
    insertAt sampleEnv true 1 0 2 (after sampleEnv refChain) =
      (.error (.value "Given node has no __name__ set."), after sampleEnv refChain) :=
  ⟨c63_grown (by decide) refChain_grown (by decide) (.refl 0)
    (.child (.child (.refl 0) (k := ka) (c := 1) rfl) (k := kb) rfl) (by decide +kernel) true 1,
   c63_unnamed true 1 0 2 (by decide +kernel)⟩

/-- An `OrderedNode`-like class with `Order` refuses a reference node that is elsewhere. -/
example : (insertAt orderEnv true 0 3 0 (after orderEnv c21Ops)).1 =
      .error (.value "Given reference node not child of self.") :=
  (c63_not_child_partial (E := orderEnv) true 0 3 0 (reachable_after orderEnv c21Ops).wf rfl (by decide) (.inl ⟨by decide, by decide⟩)
    (by decide +kernel) (by decide +kernel)).elim fun _ h => congrArg Prod.fst h.1

/-- A `Node` with a child refuses a reference node of another tree. -/
def c63Ops : List Op := [.new 2 .none none, .new 2 .none none, .new 2 kc none, .set 0 ka (.node 1)]

example : (insertAt sampleEnv true 0 2 0 (after sampleEnv c63Ops)).1 =
      .error (.value "Given reference node not child of self.") :=
  (c63_not_child_partial (E := sampleEnv) true 0 2 0 (reachable_after sampleEnv c63Ops).wf rfl (by decide)
    (.inr ⟨by decide, .inl (by decide +kernel), by decide +kernel, 3, (by unfold HasUuid; decide +kernel), by decide +kernel⟩)
    (by decide +kernel) (by decide +kernel)).elim fun _ h => congrArg Prod.fst h.1

end Verif
