import Verif.Props.C72

/-!
# C71: `set_uuid_for` fills gaps

`set_uuid_for(node, override=False, recursiv=True)` gives each `UUIDAware` node of the tree that has no uuid
one of its own and leaves all others alone; `override=True` replaces the uuids of all `UUIDAware` nodes of
the tree; `recursiv=False` is about the one node; nothing but uuids changes.
-/

namespace Verif

variable {E : Env}

section
variable {w w' : World} {o : Oid} {res : Except Exc Unit}

theorem openSet_tree (hs : Intact w) (ho : o < w.nobj) (hop : ∀ p, InTree w o p → Open E w p) :
    OpenSet E (InTree w o) w where
  op := hop
  lt p hp := InTree.induct (P := (· < w.nobj)) ho (fun p _ _ _ hc hp => hs.next (q := p) hp (mem_reach_child hc)) hp
  next _ _ _ hp hc := hp.child hc

/-- Nothing but uuids changes, and only uuids of `UUIDAware` nodes of the tree; with `override=False` those
that are there stay.  This holds also if the call raises on its way. -/
theorem c71_rest_partial {ov : Bool} (hw : WF w) (hs : Intact w) (ho : o < w.nobj) (hi : Issued w)
    (hop : ∀ p, InTree w o p → Open E w p) (h : setUuidForNode E ov true o w = (res, w')) :
    w'.nobj = w.nobj ∧ w'.log = w.log ∧ ∀ p, (w'.objs p).cls = (w.objs p).cls ∧ w'.loc p = w.loc p ∧
      w'.omap p = w.omap p ∧ w'.nmap p = w.nmap p ∧
      (¬ InTree w o p → (w'.objs p).uuid = (w.objs p).uuid) ∧
      (Bhv.uuidAware ∉ (clsOf E w p).bhvs → (w'.objs p).uuid = (w.objs p).uuid) ∧
      (ov = false → ∀ u, HasUuid w p u → HasUuid w' p u) := by
  obtain ⟨r, f, _⟩ := setUuidFor_any ov _ hw hi.numbered (openSet_tree hs ho hop) (fun c hc => by
    injection hc with hc; subst hc; exact .refl _) h
  exact ⟨r.nobj, r.log, fun p => ⟨r.cls p, r.loc p, r.omap p, by unfold World.nmap; rw [r.nsview], r.others p, r.plain p,
    fun hov u => f hov p u⟩⟩

/-- `override=False`: afterwards each `UUIDAware` node of the tree has a uuid, its own if it had one, else
one that no node had before and no other node has. -/
theorem c71_fills_partial (hw : WF w) (hs : Intact w) (ho : o < w.nobj) (hi : Issued w)
    (hop : ∀ p, InTree w o p → Open E w p) (h : setUuidForNode E false true o w = (.ok (), w'))
    {p : Oid} (hp : InTree w o p) (hu : Bhv.uuidAware ∈ (clsOf E w p).bhvs) :
    ∃ u, HasUuid w' p u ∧ ((w.objs p).uuid ≠ none → HasUuid w p u) ∧
      ((w.objs p).uuid = none → (∀ q, q < w.nobj → ¬ HasUuid w q u) ∧ ∀ q, q < w'.nobj → HasUuid w' q u → q = p) := by
  have hS := openSet_tree hs ho hop
  obtain ⟨r, f, g⟩ := setUuidFor_any false _ hw hi.numbered hS (fun c hc => by
    injection hc with hc; subst hc; exact .refl _) h
  obtain ⟨u, hu', _⟩ := g rfl o rfl p hp hu
  refine ⟨u, hu', fun hne => ?_, fun hno => ?_⟩
  · obtain ⟨x, hx⟩ := Option.ne_none_iff_exists'.mp hne
    have := f rfl p x hx
    rw [hu'] at this
    injection this with this
    exact this ▸ hx
  · have hle : w.nuuid ≤ u := by
      rcases r.step p with e | ⟨x, hx, hle⟩
      · rw [e, hno] at hu'; cases hu'
      · rw [hx] at hu'; injection hu' with hu'; exact hu' ▸ hle
    refine ⟨fun q hq hx => absurd (hi.uuid q u hq hx) (Nat.not_lt.mpr hle), fun q hq hx => ?_⟩
    exact r.num.inj q p u hq (by rw [r.nobj]; exact hS.lt p hp) hle hx hu'

/-- `override=True`: each `UUIDAware` node of the tree has a uuid that no node had before and no other node
has. -/
theorem c71_override_partial (hw : WF w) (hs : Intact w) (ho : o < w.nobj) (hi : Issued w)
    (hop : ∀ p, InTree w o p → Open E w p) (h : setUuidForNode E true true o w = (.ok (), w'))
    {p : Oid} (hp : InTree w o p) (hu : Bhv.uuidAware ∈ (clsOf E w p).bhvs) :
    ∃ u, HasUuid w' p u ∧ (∀ q, q < w.nobj → ¬ HasUuid w q u) ∧ ∀ q, q < w'.nobj → HasUuid w' q u → q = p := by
  have hS := openSet_tree hs ho hop
  obtain ⟨r, _, g⟩ := setUuidFor_any true _ hw hi.numbered hS (fun c hc => by
    injection hc with hc; subst hc; exact .refl _) h
  obtain ⟨u, hu', hle⟩ := g rfl o rfl p hp hu
  have hle := hle rfl
  exact ⟨u, hu', fun q hq hx => absurd (hi.uuid q u hq hx) (Nat.not_lt.mpr hle),
    fun q hq hx => r.num.inj q p u hq (by rw [r.nobj]; exact hS.lt p hp) hle hx hu'⟩

/-- It returns if all items in the tree are nodes. -/
theorem c71_returns_partial (ov : Bool) (hw : WF w) (hs : Intact w) (ho : o < w.nobj) (hi : Issued w)
    (hop : ∀ p, InTree w o p → Open E w p) (hix : ∀ p, InTree w o p → HasIndex E w p) (ht : NodeTree w o) :
    ∃ w', setUuidForNode E ov true o w = (.ok (), w') :=
  setUuidFor_total ov hw (openSet_tree hs ho hop) hix ht (w.nobj + 1) [] w (.refl hw hi.numbered) (.refl _)
    List.nodup_nil nofun (Nat.le_refl _)

/-- Doing it again with `override=False` does nothing to the uuids, whether or not the first time was with
`override`. -/
theorem c71_again_partial {ov : Bool} {w'' : World} (hw : WF w) (hs : Intact w) (ho : o < w.nobj) (hi : Issued w)
    (hop : ∀ p, InTree w o p → Open E w p) (h : setUuidForNode E ov true o w = (.ok (), w'))
    (h' : setUuidForNode E false true o w' = (res, w'')) : ∀ p, (w''.objs p).uuid = (w'.objs p).uuid := by
  have hS := openSet_tree hs ho hop
  obtain ⟨r, _, g⟩ := setUuidFor_any ov _ hw hi.numbered hS (fun c hc => by
    injection hc with hc; subst hc; exact .refl _) h
  obtain ⟨r', f', _⟩ := setUuidFor_any false _ r.wf r.num (hS.renew r) (fun c hc => by
    injection hc with hc; subst hc; exact .refl _) h'
  intro p
  by_cases hp : InTree w o p
  · by_cases hu : Bhv.uuidAware ∈ (clsOf E w p).bhvs
    · obtain ⟨u, hu', _⟩ := g rfl o rfl p hp hu
      rw [hu', f' rfl p u hu']
    · exact r'.plain p (by rw [r.clsOf]; exact hu)
  · exact r'.others p hp

/-- `recursiv=False`: all other nodes keep their uuids, whatever the class and the contents; the node itself
keeps it if it has one and `override` is `False`, else it gets a new one. -/
theorem c71_one {ov : Bool} (hw : WF w) (ho : o < w.nobj) (hi : Issued w)
    (h : setUuidForNode E ov false o w = (res, w')) :
    (∀ p, p ≠ o → (w'.objs p).uuid = (w.objs p).uuid) ∧ (∀ p, w'.omap p = w.omap p ∧ w'.loc p = w.loc p) ∧
    (ov = false → ∀ u, HasUuid w o u → HasUuid w' o u) ∧
    (res = .ok () → Bhv.uuidAware ∈ (clsOf E w o).bhvs → (ov = true ∨ (w.objs o).uuid = none) →
      ∃ u, HasUuid w' o u ∧ (∀ q, q < w.nobj → ¬ HasUuid w q u) ∧ ∀ q, q < w'.nobj → HasUuid w' q u → q = o) := by
  have e : setUuidForNode E ov false o w = assignUuid E ov o w := by
    simp only [setUuidForNode, setUuidFor, M.bind_apply, Bool.false_eq_true, if_false]
    rcases assignUuid E ov o w with ⟨x | ⟨⟩, v⟩ <;> rfl
  rw [e] at h
  obtain ⟨r, f, g, _⟩ := assignUuid_any (E := E) (S := (· = o)) (n0 := w.nuuid) ov hw hi.numbered rfl ho
  rw [h] at r f g
  refine ⟨r.others, fun p => ⟨r.omap p, r.loc p⟩, fun hov u => f hov o u, fun hres hu hcase => ?_⟩
  obtain ⟨u, hu', hle⟩ := g hres hu
  have hle : w.nuuid ≤ u := by
    rcases hcase with hov | hno
    · exact hle hov
    · rcases r.step o with e | ⟨x, hx, hle⟩
      · rw [e, hno] at hu'; cases hu'
      · rw [hx] at hu'; injection hu' with hu'; exact hu' ▸ hle
  exact ⟨u, hu', fun q hq hx => absurd (hi.uuid q u hq hx) (Nat.not_lt.mpr hle),
    fun q hq hx => r.num.inj q o u hq (by rw [r.nobj]; exact ho) hle hx hu'⟩
end

/-! ### A concrete tree -/

/-- `0`: nodes with uuids and an index. -/
def gapEnv : Env where
  cls _ := { bhvs := [.adopt, .reference, .uuidAware, .defaultInit, .nodify, .odictStorage] }

/-- The tree of `c58Ops` where two nodes have lost their uuids. -/
def c71Ops : List Op :=
  [.new 0 (.str ['r']) none, .new 0 .none none, .setUuid 1 none, .set 0 ka (.node 1), .new 0 .none none,
   .set 0 kb (.node 2), .new 0 .none none, .setUuid 3 none, .set 2 kc (.node 3)]

/-- Before. -/
example : ((List.range 4).map fun p => ((after gapEnv c71Ops).objs p).uuid) = [some 2, none, some 6, none] := by
  decide +kernel

/-- The gaps are filled. -/
example : ((List.range 4).map fun p => ((setUuidForNode gapEnv false true 0 (after gapEnv c71Ops)).2.objs p).uuid) =
    [some 2, some 9, some 6, some 10] := by
  decide +kernel

/-- All are replaced. -/
example : ((List.range 4).map fun p => ((setUuidForNode gapEnv true true 0 (after gapEnv c71Ops)).2.objs p).uuid) =
    [some 9, some 10, some 11, some 12] := by
  decide +kernel

theorem c71Intact : Intact (after gapEnv c71Ops) := intact_after (by decide +kernel)

theorem c71Issued : Issued (after gapEnv c71Ops) := issued_execAll (by simp [c71Ops])

theorem c71Open : ∀ p, InTree (after gapEnv c71Ops) 0 p → Open gapEnv (after gapEnv c71Ops) p := fun p _ =>
  ⟨⟨⟨.odictStorage, rfl, nofun⟩, show _ ∉ (gapEnv.cls 0).bhvs by decide, show _ ∉ (gapEnv.cls 0).bhvs by decide,
    show _ ∉ (gapEnv.cls 0).bhvs by decide⟩, fun _ _ h => absurd h (show _ ∉ (gapEnv.cls 0).bhvs by decide),
    fun h => absurd h (show _ ∉ (gapEnv.cls 0).bhvs by decide)⟩

theorem c71HasIndex : ∀ p, InTree (after gapEnv c71Ops) 0 p → HasIndex gapEnv (after gapEnv c71Ops) p := by
  intro p hp _ _
  have hlt : p < 4 := InTree.induct (P := (· < 4)) (by decide) (fun p k c _ hc hp =>
    c71Intact.next (q := p) hp (mem_reach_child hc)) hp
  have : ∀ p, p < 4 → ((after gapEnv c71Ops).objs p).index ≠ none := by decide +kernel
  exact this p hlt

theorem c71NodeTree : NodeTree (after gapEnv c71Ops) 0 := by
  have one : ∀ p l, (after gapEnv c71Ops).children p = l → (∀ kv ∈ l, ∃ c, kv.2 = .node c ∧
      NodeTree (after gapEnv c71Ops) c) → NodeTree (after gapEnv c71Ops) p := by
    rintro p l rfl hl
    refine .mk (fun k v hv => ?_) (fun k c hc => ?_)
    · obtain ⟨c, hc, _⟩ := hl _ (Od.get?_some_mem hv)
      exact ⟨c, hc⟩
    · obtain ⟨a, ha, ht⟩ := hl _ (Od.get?_some_mem hc)
      injection ha with ha
      exact ha ▸ ht
  have leaf : ∀ p, (after gapEnv c71Ops).children p = [] → NodeTree (after gapEnv c71Ops) p := fun p hp =>
    one p [] hp fun _ h => nomatch h
  refine one 0 [(ka, .node 1), (kb, .node 2)] (by decide +kernel) fun kv hkv => ?_
  rcases List.mem_cons.mp hkv with rfl | hkv
  · exact ⟨1, rfl, leaf 1 (by decide +kernel)⟩
  · rw [List.mem_singleton] at hkv
    subst hkv
    refine ⟨2, rfl, one 2 [(kc, .node 3)] (by decide +kernel) fun kv hkv => ?_⟩
    rw [List.mem_singleton] at hkv
    subst hkv
    exact ⟨3, rfl, leaf 3 (by decide +kernel)⟩

example (ov : Bool) : ∃ w', setUuidForNode gapEnv ov true 0 (after gapEnv c71Ops) = (.ok (), w') :=
  c71_returns_partial ov (reachable_after gapEnv c71Ops).wf c71Intact (by decide +kernel) c71Issued c71Open c71HasIndex
    c71NodeTree

example : ∃ w', setUuidForNode gapEnv false true 0 (after gapEnv c71Ops) = (.ok (), w') ∧ HasUuid w' 2 6 ∧
    ∃ u, HasUuid w' 3 u ∧ ∀ q, q < w'.nobj → HasUuid w' q u → q = 3 := by
  have hw := (reachable_after gapEnv c71Ops).wf
  obtain ⟨w', h⟩ := c71_returns_partial false hw c71Intact (by decide +kernel) c71Issued c71Open c71HasIndex c71NodeTree
  have h2 : InTree (after gapEnv c71Ops) 0 2 := (InTree.refl 0).child (k := kb) (by unfold Contains; decide +kernel)
  have h3 : InTree (after gapEnv c71Ops) 0 3 := h2.child (k := kc) (by unfold Contains; decide +kernel)
  obtain ⟨u, h5, _, h6⟩ := c71_fills_partial hw c71Intact (by decide +kernel) c71Issued c71Open h h3
    (show _ ∈ (gapEnv.cls 0).bhvs by decide)
  exact ⟨w', h, ((c71_rest_partial hw c71Intact (by decide +kernel) c71Issued c71Open h).2.2 2).2.2.2.2.2.2 rfl 6
    (by unfold HasUuid; decide +kernel), u, h5, (h6 (by decide +kernel)).2⟩

/-! ### Where it fails -/

/-- A value that is not a node: `AttributeError`, after the nodes before it got their uuids. -/
theorem c71_refuted_values : ∃ w', setUuidForNode gapEnv false true 0 (after gapEnv
    [.new 0 .none none, .set 0 ka (.data (.int 1))]) = (.error .attr, w') := ⟨_, rfl⟩

/-- In a tree of `Reference` nodes at most one node can be given the uuid `None`. -/
theorem c71_refuted_none : ((execAll gapEnv (c58Ops 0 ++ [.setUuid 1 none, .setUuid 3 none]) {}).1.map
    fun r => r.toOption.isSome) = [true, true, true, true, true, true, true, true, false] := by
  decide +kernel

end Verif
