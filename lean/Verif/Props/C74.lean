import Verif.Props.C21
import Verif.Model.Index

/-!
# C74 The ends, swapping, and nodes without order

What C63 says about `insertbefore` and `insertafter` for `insertfirst`, `insertlast` and `swap`, and what
happens without an ordered storage.  This is false in two ways.  `insertfirst` and `insertlast` check
nothing if there are no children; and reference nodes are looked up by name only.
-/

namespace Verif

section
variable {E : Env} {o n ref a b : Oid} {w : World}

/-- No mapping, no nodespace, no name, parent or uuid changed, and no index. -/
def NothingChanged (w w' : World) : Prop :=
  MapsSame w w' ∧ (∀ p, w'.nmap p = w.nmap p) ∧ (∀ p, w'.loc p = w.loc p) ∧
  ∀ p u, (refNode p u w').1 = (refNode p u w).1

theorem refNode_some {i : Ref} {u : Nat} (h : (w.objs o).index = some i) :
    refNode o u w = (.ok ((w.idxs i).get? (some u)), w) := by
  simp only [refNode, M.bind_apply, indexRef, h, M.getW_apply, M.pure_apply]

theorem NothingChanged.refl (w : World) : NothingChanged w w :=
  ⟨fun _ => rfl, fun _ => rfl, fun _ => rfl, fun _ _ => rfl⟩

theorem NothingChanged.quiet {w w' : World} (h : Same w w') : NothingChanged w w' := by
  refine ⟨MapsSame.of h.children, fun p => congrArg Od.toMap (h.nsview p), h.loc, fun p u => ?_⟩
  simp only [refNode, M.bind_apply, indexRef, (h.obj p).index]
  cases (w.objs p).index with
  | none => rfl
  | some i => simp only [M.getW_apply, M.pure_apply, h.idxs]

/-- `_validateinsertion` finds the node in the tree. -/
theorem validateInsertion_present (hn : (w.loc n).1 ≠ .none)
    (hr : Bhv.reference ∈ (clsOf E w o).bhvs)
    (hu : Bhv.reference ∈ (clsOf E w n).bhvs ∨ Bhv.uuidAware ∈ (clsOf E w n).bhvs)
    {u : Nat} (hnu : (w.objs n).uuid = some u) {x : Oid} (hx : (refNode o u w).1 = .ok (some x)) :
    validateInsertion E o n w =
      (.error (.key (.msg "Given node already contained in tree.")), w) := by
  have hn : ¬ (w.objs n).name = .none := hn
  have hr : (bhvsOf E w o).contains .reference = true := List.contains_iff_mem.mpr hr
  have hu : ((bhvsOf E w n).contains .reference || (bhvsOf E w n).contains .uuidAware) = true := by
    simpa [Bool.or_eq_true, List.contains_iff_mem, bhvsOf, clsOf] using hu
  have hi : ∃ i, (w.objs o).index = some i := by
    cases hi : (w.objs o).index with
    | some i => exact ⟨i, rfl⟩
    | none => simp only [refNode, M.bind_apply, indexRef, hi] at hx; cases hx
  obtain ⟨i, hi⟩ := hi
  rw [refNode_some hi] at hx
  have hx : (w.idxs i).get? (some u) = some x := Except.ok.inj hx
  simp only [validateInsertion, M.bind_apply, M.getW_apply, hn, if_false, hr, if_true, hu,
    hnu, indexRef, hi, hx, Option.isSome_some]
  rfl

/-- The node may be inserted as far as its name and its uuid are concerned; no item answers for
`Reference`. -/
def Insertable (E : Env) (w : World) (o n : Oid) : Prop :=
  (w.loc n).1 ≠ .none ∧ (Bhv.reference ∈ (clsOf E w o).bhvs →
    (Bhv.reference ∈ (clsOf E w n).bhvs ∨ Bhv.uuidAware ∈ (clsOf E w n).bhvs) ∧
    ∃ u, (w.objs n).uuid = some u ∧ (refNode o u w).1 = .ok none) ∧
  (Bhv.reference ∉ (clsOf E w o).bhvs → Bhv.getattrChildren ∉ (clsOf E w o).bhvs)

theorem Insertable.valid (h : Insertable E w o n) : validateInsertion E o n w = (.ok (), w) := by
  have hn : ¬ (w.objs n).name = .none := h.1
  by_cases hr : Bhv.reference ∈ (clsOf E w o).bhvs
  · obtain ⟨hu, u, hnu, hx⟩ := h.2.1 hr
    have hr : (bhvsOf E w o).contains .reference = true := List.contains_iff_mem.mpr hr
    have hu : ((bhvsOf E w n).contains .reference || (bhvsOf E w n).contains .uuidAware) = true := by
      simpa [Bool.or_eq_true, List.contains_iff_mem, bhvsOf, clsOf] using hu
    have hi : ∃ i, (w.objs o).index = some i := by
      cases hi : (w.objs o).index with
      | some i => exact ⟨i, rfl⟩
      | none => simp only [refNode, M.bind_apply, indexRef, hi] at hx; cases hx
    obtain ⟨i, hi⟩ := hi
    rw [refNode_some hi] at hx
    have hx : (w.idxs i).get? (some u) = none := Except.ok.inj hx
    simp only [validateInsertion, M.bind_apply, M.getW_apply, hn, if_false, hr, if_true, hu,
      hnu, indexRef, hi, hx]
    rfl
  · have hg := h.2.2 hr
    have hr : ¬ (bhvsOf E w o).contains .reference = true :=
      fun h => hr (List.contains_iff_mem.mp h)
    have hg : ¬ (bhvsOf E w o).contains .getattrChildren = true :=
      fun h => hg (List.contains_iff_mem.mp h)
    simp only [validateInsertion, M.bind_apply, M.getW_apply, hn, if_false, hr, hg]
    rfl

/-- C74: without an ordered storage `insertbefore`, `insertafter` raise `AttributeError`, and
nothing changed. -/
theorem c74_unordered (hw : WF w) (before : Bool) (hs : Stores (clsOf E w o))
    (hod : storageKind (clsOf E w o).bhvs ≠ some .odictStorage) (hi : Insertable E w o n) : ∃ w',
    insertAt E before o n ref w = (.error .attr, w') ∧ NothingChanged w w' := by
  obtain ⟨s, w2, hr'⟩ := hs.storageRef (E := E) (o := o) (w := w)
  have hq := storageRef_quiet E o w hw
  rw [hr'] at hq
  have hb' : bhvsOf E w2 o = (clsOf E w o).bhvs :=
    congrArg ClassDef.bhvs (congrArg E.cls (hq.2.obj o).cls)
  refine ⟨w2, ?_, .quiet hq.2⟩
  simp only [insertAt, M.bind_apply, hi.valid, M.getW_apply, storageInsert, hr']
  rw [hb', if_neg hod]
  rfl

/-- C74: `swap` with a node whose name is no key raises `KeyError`, and nothing changed. -/
theorem c74_swap_partial (hw : WF w) (hs : Stores (clsOf E w o))
    (hod : storageKind (clsOf E w o).bhvs = some .odictStorage) (hab : (w.loc a).1 ≠ (w.loc b).1)
    (h : (w.loc a).1 ∉ (w.omap o).keys ∨ (w.loc b).1 ∉ (w.omap o).keys) : ∃ m w',
    swapNodes E o a b w = (.error (.key m), w') ∧ NothingChanged w w' := by
  obtain ⟨s, w2, hr'⟩ := hs.storageRef (E := E) (o := o) (w := w)
  have hq := storageRef_quiet E o w hw
  rw [hr'] at hq
  have hch : w2.stores s = w.children o := by
    rw [← hq.2.children o, children_eq (storageRef_ok hr')]
  have hb' : bhvsOf E w2 o = (clsOf E w o).bhvs :=
    congrArg ClassDef.bhvs (congrArg E.cls (hq.2.obj o).cls)
  have hna : (w2.objs a).name = (w.loc a).1 := (hq.2.obj a).name
  have hnb : (w2.objs b).name = (w.loc b).1 := (hq.2.obj b).name
  unfold swapNodes
  simp only [M.bind_apply, hr', M.getW_apply]
  rw [hb', if_pos hod, hna, hnb, hch, if_neg hab]
  by_cases ha : (w.loc a).1 ∈ (w.omap o).keys
  · have hb := h.resolve_left fun h => h ha
    refine ⟨.key (w.loc b).1, w2, ?_, .quiet hq.2⟩
    rw [if_pos (show (w.children o).has (w.loc a).1 = true from (Od.has_iff ..).mpr ha),
      if_neg (show ¬ (w.children o).has (w.loc b).1 = true from fun h => hb ((Od.has_iff ..).mp h))]
    rfl
  · refine ⟨.key (w.loc a).1, w2, ?_, .quiet hq.2⟩
    rw [if_neg (show ¬ (w.children o).has (w.loc a).1 = true from fun h => ha ((Od.has_iff ..).mp h))]
    rfl

/-- C74: without an ordered storage `swap` raises `AttributeError`, and nothing changed. -/
theorem c74_swap_unordered (hw : WF w) (hs : Stores (clsOf E w o))
    (hod : storageKind (clsOf E w o).bhvs ≠ some .odictStorage) : ∃ w',
    swapNodes E o a b w = (.error .attr, w') ∧ NothingChanged w w' := by
  obtain ⟨s, w2, hr'⟩ := hs.storageRef (E := E) (o := o) (w := w)
  have hq := storageRef_quiet E o w hw
  rw [hr'] at hq
  have hb' : bhvsOf E w2 o = (clsOf E w o).bhvs :=
    congrArg ClassDef.bhvs (congrArg E.cls (hq.2.obj o).cls)
  refine ⟨w2, ?_, .quiet hq.2⟩
  unfold swapNodes
  simp only [M.bind_apply, hr', M.getW_apply]
  rw [hb', if_neg hod]
  rfl

/-- What `insertfirst` / `insertlast` do if there are children. -/
theorem insertEnd_some (hw : WF w) (ho : Open E w o) (hne : (w.omap o).keys ≠ []) (first : Bool)
    (n : Oid) : ∃ w1, Same w w1 ∧
      ((∃ ref, insertEnd E first o n w = insertAt E first o n ref w1) ∨
       insertEnd E first o n w = (validateInsertion E o n >>= fun _ => M.raise .attr) w1) := by
  obtain ⟨w1, h1, h2⟩ := iter_open (S := (· = o)) ho.concrete hw ho.coh
  have hks : mkeys E o w = (.ok (w.children o).keys, w1) := by
    simp only [mkeys, M.bind_apply, h1, endIter, M.pure_apply]
  unfold insertEnd
  simp only [M.bind_apply, hks]
  have hne : (w.children o).keys ≠ [] := hne
  rcases hd : (if first = true then (w.children o).keys.head? else (w.children o).keys.getLast?) with _ | k
  · exfalso
    cases first
    · exact hne (by simpa using hd)
    · exact hne (by simpa using hd)
  · have hm : k ∈ (w.children o).keys := by
      cases first
      · exact List.mem_of_getLast? (by simpa using hd)
      · exact List.mem_of_mem_head? (by simpa using hd)
    obtain ⟨v, hv⟩ := Od.get?_of_mem_keys hm
    have hcls : clsOf E w1 o = clsOf E w o := h2.clsOf o
    obtain ⟨w2, h3, h4⟩ := getitem_hit (E := E) (o := o) (k := k) (w := w1)
      (by rw [hcls]; exact ⟨ho.concrete.stores, ho.concrete.noAlias, ho.keys k hm⟩) h2.wf h2.coh rfl
      (v := v) (by rw [h2.same.children]; exact hv)
    simp only [M.bind_apply, h3]
    refine ⟨w2, h2.same.trans h4.same, ?_⟩
    cases v with
    | node ref => exact .inl ⟨ref, rfl⟩
    | data d => exact .inr rfl

/-- A refusal by `_validateinsertion` is one of `insertfirst` / `insertlast` if there are
children. -/
theorem insertEnd_refused (hw : WF w) (ho : Open E w o) (hne : (w.omap o).keys ≠ []) (first : Bool)
    {e : Exc} (he : ∀ w1, Same w w1 → validateInsertion E o n w1 = (.error e, w1)) :
    ∃ w', insertEnd E first o n w = (.error e, w') ∧ NothingChanged w w' := by
  obtain ⟨w1, hs, ⟨ref, h⟩ | h⟩ := insertEnd_some hw ho hne first n
  · refine ⟨w1, ?_, .quiet hs⟩
    rw [h]
    simp only [insertAt, M.bind_apply, he w1 hs]
  · refine ⟨w1, ?_, .quiet hs⟩
    rw [h]
    simp only [M.bind_apply, he w1 hs]

/-- C74 for `insertfirst` and `insertlast` of a node that has children: a node without a name is
refused with `ValueError`, and nothing changed. -/
theorem c74_ends_nameless_partial (hw : WF w) (ho : Open E w o) (hne : (w.omap o).keys ≠ [])
    (first : Bool) (hn : (w.loc n).1 = .none) : ∃ m w',
    insertEnd E first o n w = (.error (.value m), w') ∧ NothingChanged w w' := by
  refine ⟨"Given node has no __name__ set.", insertEnd_refused hw ho hne first fun w1 hs => ?_⟩
  have hn : (w1.objs n).name = .none := (hs.obj n).name.trans hn
  simp only [validateInsertion, M.bind_apply, M.getW_apply, hn, if_true]
  rfl

/-- C74 for `insertfirst` and `insertlast` of a node that has children: a node already in the tree
is refused with `KeyError`, and nothing changed. -/
theorem c74_ends_present_partial (hw : WF w) (ho : Open E w o) (hne : (w.omap o).keys ≠ [])
    (first : Bool) (hn : (w.loc n).1 ≠ .none) (hr : Bhv.reference ∈ (clsOf E w o).bhvs)
    (hu : Bhv.reference ∈ (clsOf E w n).bhvs ∨ Bhv.uuidAware ∈ (clsOf E w n).bhvs)
    {u : Nat} (hnu : (w.objs n).uuid = some u) {x : Oid} (hx : (refNode o u w).1 = .ok (some x)) :
    ∃ m w', insertEnd E first o n w = (.error (.key m), w') ∧ NothingChanged w w' := by
  refine ⟨.msg "Given node already contained in tree.", insertEnd_refused hw ho hne first
    fun w1 hs => ?_⟩
  have hcls : ∀ p, clsOf E w1 p = clsOf E w p := fun p => congrArg E.cls (hs.obj p).cls
  exact validateInsertion_present (by rw [hs.loc]; exact hn) (by rw [hcls]; exact hr)
    (by rw [hcls]; exact hu) ((hs.obj n).uuid.trans hnu)
    (((NothingChanged.quiet hs).2.2.2 o u).trans hx)

end

/-! ### Instances -/

/-- A node with the children `a` and `b`, two named nodes, one without a name, and one named `a`
that is no child. -/
def c74Ops : List Op := c21Ops ++ [.new 0 .none none, .new 0 ka none]

theorem c74_open : Open orderEnv (after orderEnv c74Ops) 0 := by
  have hcls : clsOf orderEnv (after orderEnv c74Ops) 0 = orderNode := rfl
  refine ⟨?_, fun k hk _ => ?_, fun hc => ?_⟩
  · rw [hcls]; exact ⟨by decide, by decide, by decide, by decide⟩
  · have : k ∈ [ka, kb] := hk
    rcases List.mem_cons.mp this with rfl | h
    · exact ⟨_, rfl, by decide⟩
    · rw [List.mem_singleton.mp h]; exact ⟨_, rfl, by decide⟩
  · rw [hcls] at hc; exact absurd hc (by decide)

theorem c74_stores : Stores (clsOf orderEnv (after orderEnv c74Ops) 0) := ⟨by decide, by decide⟩

example : ∃ m w', insertEnd orderEnv false 0 5 (after orderEnv c74Ops) = (.error (.value m), w') ∧
    NothingChanged (after orderEnv c74Ops) w' :=
  c74_ends_nameless_partial (reachable_after ..).wf c74_open (by decide +kernel) false
    (by decide +kernel)

example : ∃ m w', swapNodes orderEnv 0 1 4 (after orderEnv c74Ops) = (.error (.key m), w') ∧
    NothingChanged (after orderEnv c74Ops) w' :=
  c74_swap_partial (reachable_after ..).wf c74_stores rfl (by decide +kernel)
    (.inr (by decide +kernel))

/-- A tree of `Node`: two children, and a leaf below the first. -/
def c74Tree : List Op := [.new 2 .none none, .new 2 .none none, .new 2 .none none, .new 2 .none none,
  .set 0 ka (.node 1), .set 0 kb (.node 2), .set 1 kc (.node 3)]

theorem c74_treeOpen : Open sampleEnv (after sampleEnv c74Tree) 0 := by
  have hcls : clsOf sampleEnv (after sampleEnv c74Tree) 0 = fullNode := rfl
  refine ⟨?_, fun k hk _ => ?_, fun hc => ?_⟩
  · rw [hcls]; exact ⟨by decide, by decide, by decide, by decide⟩
  · have : k ∈ [ka, kb] := hk
    rcases List.mem_cons.mp this with rfl | h
    · exact ⟨_, rfl, by decide⟩
    · rw [List.mem_singleton.mp h]; exact ⟨_, rfl, by decide⟩
  · rw [hcls] at hc; exact absurd hc (by decide)

/-- The leaf cannot be inserted at the end of the root. -/
example : ∃ m w', insertEnd sampleEnv false 0 3 (after sampleEnv c74Tree) = (.error (.key m), w') ∧
    NothingChanged (after sampleEnv c74Tree) w' :=
  c74_ends_present_partial (reachable_after ..).wf c74_treeOpen (by decide +kernel) false (u := 4) (x := 3)
    (by decide +kernel) (by decide +kernel) (.inl (by decide +kernel)) (by decide +kernel) (by decide +kernel)

/-- `Order` above a `DictStorage`. -/
def dictOrderEnv : Env where
  cls _ := { bhvs := [.adopt, .order, .defaultInit, .nodify, .dictStorage] }

/-- A node with two children, and a named one. -/
def c74Dict : List Op := [.new 0 .none none, .new 0 .none none, .new 0 .none none, .new 0 kc none,
  .set 0 ka (.node 1), .set 0 kb (.node 2)]

example : ∃ w', insertAt dictOrderEnv true 0 3 1 (after dictOrderEnv c74Dict) = (.error .attr, w') ∧
    NothingChanged (after dictOrderEnv c74Dict) w' :=
  c74_unordered (reachable_after ..).wf true ⟨by decide, by decide⟩ (by decide +kernel)
    ⟨by decide +kernel, fun h => absurd h (by decide), fun _ => by decide⟩

example : ∃ w', swapNodes dictOrderEnv 0 1 2 (after dictOrderEnv c74Dict) = (.error .attr, w') ∧
    NothingChanged (after dictOrderEnv c74Dict) w' :=
  c74_swap_unordered (reachable_after ..).wf ⟨by decide, by decide⟩ (by decide +kernel)

/-! ### What is false -/

/-- `Order` without `Nodespaces`. -/
def plainOrderEnv : Env where
  cls _ := { bhvs := [.nodeChildValidate, .adopt, .order, .defaultInit, .nodify, .odictStorage] }

/-- C74 is false for `insertfirst` at a node without children: a node without a name becomes the
child `None`. -/
theorem c74_refuted_nameless : ∃ ops w', (after plainOrderEnv ops).loc 1 = (.none, none) ∧
    insertEnd plainOrderEnv true 0 1 (after plainOrderEnv ops) = (.ok (), w') ∧
    (mitems plainOrderEnv 0 w').1 = .ok [(.none, .node 1)] :=
  ⟨[.new 0 .none none, .new 0 .none none], _, by decide +kernel, Prod.ext (by decide +kernel) rfl,
    by decide +kernel⟩

/-- With `Nodespaces`, as in `Node`, the error is not the one promised. -/
theorem c74_refuted_error : ∃ ops, (after sampleEnv ops).loc 1 = (.none, none) ∧
    (insertEnd sampleEnv true 0 1 (after sampleEnv ops)).1 = .error .attr :=
  ⟨[.new 2 .none none, .new 2 .none none], by decide +kernel, by decide +kernel⟩

/-- C74 is false for `insertlast` at a node without children: a node already in the tree is put in
a second time. -/
theorem c74_refuted_present : ∃ w', insertEnd sampleEnv false 2 3 (after sampleEnv c74Tree) = (.ok (), w') ∧
    (mitems sampleEnv 1 w').1 = .ok [(kc, .node 3)] ∧ (mitems sampleEnv 2 w').1 = .ok [(kc, .node 3)] :=
  ⟨_, Prod.ext (by decide +kernel) rfl, by decide +kernel, by decide +kernel⟩

/-- C74 is false for reference nodes that are no children but named like one: `insertbefore` takes
the child of that name. -/
theorem c74_refuted_stranger : ∃ w', (after orderEnv c74Ops).loc 6 = (ka, none) ∧
    (mvalues orderEnv 0 (after orderEnv c74Ops)).1 = .ok [.node 1, .node 2] ∧
    insertAt orderEnv true 0 3 6 (after orderEnv c74Ops) = (.ok (), w') ∧
    (mvalues orderEnv 0 w').1 = .ok [.node 3, .node 1, .node 2] :=
  ⟨_, by decide +kernel, by decide +kernel, Prod.ext (by decide +kernel) rfl, by decide +kernel⟩

/-- The same with `swap`. -/
theorem c74_refuted_swap : ∃ w', (after orderEnv c74Ops).loc 6 = (ka, none) ∧
    swapNodes orderEnv 0 6 2 (after orderEnv c74Ops) = (.ok (), w') ∧
    (mvalues orderEnv 0 w').1 = .ok [.node 2, .node 1] :=
  ⟨_, by decide +kernel, Prod.ext (by decide +kernel) rfl, by decide +kernel⟩

end Verif
