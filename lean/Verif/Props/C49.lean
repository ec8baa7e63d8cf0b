import Verif.Props.C48

/-!
# C49: deserializing below a root

Every serialized node becomes the child of the root under its name; other children stay
(`c49_below_partial`, `c49_one_partial`).  The claim is false when names collide: a child with the
same name is replaced (`c49_refuted`).
-/

namespace Verif.Ser

variable {E : Env} {N : Codec}

/-- The children after assigning nodes under their names, one after the other. -/
def putAll : List (Key × Val) → List NTree → List Oid → List (Key × Val)
  | d, t :: ts, o :: os => putAll (Od.set d t.name (.node o)) ts os
  | d, _, _ => d

theorem decode_below {f : Data → J} {A : Data → Prop}
    (hA : ∀ d, A d → Proper d ∧ Safe N d ∧ encData N {} d = .ok (f d)) (hE : 0 < E.depth) (n : Nat) (r : Oid) :
    ∀ (ts : List NTree) (w : World), WF w → Buildables E N A ts → talls ts < n → r < w.nobj →
    (∀ t ∈ ts, Par E t w r) →
    ∃ os w', forM' (fun j => decode E N n j (some r)) (jNodes E f {} ts) w = (.ok (os.map Dec.node), w') ∧
      IxKeep w w' ∧ os.length = ts.length ∧ os.Nodup ∧ w'.children r = putAll (w.children r) ts os ∧
      (∀ to ∈ ts.zip os, Shape E (fun p => w.nobj ≤ p ∧ p < w'.nobj) w' to.1 to.2 ∧
        w.nobj ≤ to.2 ∧ (w'.objs to.2).parent = some r) ∧ (∀ o ∈ os, w.nobj ≤ o) ∧
      (w'.objs r).cls = (w.objs r).cls ∧ w'.loc r = w.loc r ∧
      (w'.nsview r).get? attrsKey = (w.nsview r).get? attrsKey ∧
      ∀ p, p < w.nobj → p ≠ r → Agree w w' p
  | [], w, _, _, _, _, _ => ⟨[], w, rfl, .refl w, rfl, .nil, rfl, nofun, nofun, rfl, rfl, rfl, fun _ _ _ => .refl w _⟩
  | t :: ts, w, hw, hb, hn, hr, hp => by
    simp only [talls] at hn
    obtain ⟨w1, h1, hbt⟩ := decode_tree hA hE t n (some r) w hw hb.1 (by omega) (by
      intro p e; cases e; exact hp t List.mem_cons_self)
    obtain ⟨p1, p2, p3, p4⟩ := hbt.par r rfl
    have hcl : clsOf E w1 r = clsOf E w r := congrArg E.cls p3
    obtain ⟨os, w2, h2, e1, e2, e3, e4, e5, e6, e7, e8, e9, e10⟩ := decode_below hA hE n r ts w1 hbt.wf hb.2 (by omega)
      (Nat.lt_trans hr hbt.lt) (fun t' ht' => by
        have := hp t' (List.mem_cons_of_mem _ ht')
        exact ⟨Nat.lt_trans hr hbt.lt, by rw [hcl]; exact this.read, by rw [hcl]; exact this.adopt,
          by rw [hcl]; exact this.key, fun h => ⟨hbt.index.keep r hr (this.ref (hcl ▸ h)).1, (this.ref (hcl ▸ h)).2⟩⟩)
    refine ⟨w.nobj :: os, w2, ?_, hbt.index.trans e1, by simp only [List.length_cons, e2], ?_, ?_, ?_, ?_,
      e7.trans p3, e8.trans p4, e9.trans p2, ?_⟩
    · simp only [jNodes, forM', M.bind_apply, h1, h2, M.pure_apply, List.map_cons]
    · refine List.nodup_cons.mpr ⟨fun h => ?_, e3⟩
      exact absurd hbt.lt (Nat.not_lt.mpr (e6 _ h))
    · rw [e4, p1]; rfl
    · intro x hx
      simp only [List.zip_cons_cons, List.mem_cons] at hx
      rcases hx with rfl | hx
      · refine ⟨Shape.mono (fun p hp => ⟨hp.1, Nat.lt_of_lt_of_le hp.2 e1.le⟩) t w.nobj
          (Shape.agree (fun p hp => e10 p hp.2 (Nat.ne_of_gt (Nat.lt_of_lt_of_le hr hp.1))) t w.nobj hbt.shape),
          Nat.le_refl _, ?_⟩
        exact (e10 w.nobj hbt.lt (Nat.ne_of_gt hr)).parent.trans (hbt.inner r rfl)
      · obtain ⟨g1, g2, g3⟩ := e5 x hx
        exact ⟨Shape.mono (fun p hp => ⟨Nat.le_trans (Nat.le_of_lt hbt.lt) hp.1, hp.2⟩) _ _ g1,
          Nat.le_trans (Nat.le_of_lt hbt.lt) g2, g3⟩
    · intro o ho
      rcases List.mem_cons.mp ho with rfl | ho
      · exact Nat.le_refl _
      · exact Nat.le_trans (Nat.le_of_lt hbt.lt) (e6 o ho)
    · intro p hpl hpr
      exact (hbt.old p hpl (fun e => hpr (by cases e; rfl))).trans (e10 p (Nat.lt_trans hpl hbt.lt) hpr)

theorem putAll_append : ∀ (ts : List NTree) (os : List Oid) (d : List (Key × Val)), os.length = ts.length →
    (ts.map NTree.name).Nodup → (∀ t ∈ ts, t.name ∉ d.map Prod.fst) →
    putAll d ts os = d ++ (ts.zip os).map fun to => (to.1.name, Val.node to.2)
  | [], [], d, _, _, _ => by simp [putAll]
  | [], _ :: _, _, h, _, _ => by cases h
  | _ :: _, [], _, h, _, _ => by cases h
  | t :: ts, o :: os, d, h, hn, hd => by
    simp only [List.map_cons, List.nodup_cons] at hn
    simp only [putAll]
    rw [Od.set_append (d := d) (hd t List.mem_cons_self), putAll_append ts os _ (by simpa using h) hn.2 (by
      intro t' ht'
      simp only [List.map_append, List.map_cons, List.map_nil, List.mem_append, List.mem_cons, List.not_mem_nil,
        or_false, not_or]
      exact ⟨hd t' (List.mem_cons_of_mem _ ht'), fun e => hn.1 (List.mem_map.mpr ⟨t', ht', e⟩)⟩)]
    simp

/-- C49, what is true of it: reading the JSON list of trees below `r`, with names that differ and
are not used by `r`, appends exactly one child per tree to the children of `r`: a new tree of the
same shape, located below `r`.  All other nodes stay as they are. -/
theorem c49_below_partial (hE : 0 < E.depth) {w : World} (hw : Reachable E w) {ts : List NTree} {r : Oid}
    (hb : Buildables E N (Keeps N) ts) {n : Nat} (hn : talls ts < n) (hr : r < w.nobj)
    (hp : ∀ t ∈ ts, Par E t w r) (hnames : (ts.map NTree.name).Nodup)
    (hfresh : ∀ t ∈ ts, t.name ∉ (w.omap r).keys) :
    ∃ os w', deserialize E N (n + 1) (.list (jNodes E (shown N {}) {} ts)) (some r) w =
        (.ok (.list (os.map Dec.node)), w') ∧ os.length = ts.length ∧ os.Nodup ∧
      w'.children r = w.children r ++ (ts.zip os).map (fun to => (to.1.name, Val.node to.2)) ∧
      (∀ to ∈ ts.zip os, Shape E (fun p => w.nobj ≤ p ∧ p < w'.nobj) w' to.1 to.2 ∧
        (w'.objs to.2).parent = some r) ∧
      ∀ p, p < w.nobj → (p ≠ r → w'.omap p = w.omap p) ∧ (w'.objs p).cls = (w.objs p).cls ∧
        (w'.objs p).name = (w.objs p).name ∧ (w'.objs p).parent = (w.objs p).parent := by
  obtain ⟨os, w', h1, -, h3, h4, h5, h6, -, h8, h9, -, h11⟩ := decode_below (f := shown N {}) (A := Keeps N)
    (fun d hd => hd.shown) hE n r ts w hw.wf hb hn hr hp
  refine ⟨os, w', ?_, h3, h4, ?_, fun x hx => ⟨(h6 x hx).1, (h6 x hx).2.2⟩, fun p hpl => ⟨fun hne =>
    (h11 p hpl hne).omap, ?_⟩⟩
  · simp only [deserialize, decode, M.bind_apply, h1, M.pure_apply]
  · rw [h5]
    exact putAll_append ts os _ h3 hnames hfresh
  · by_cases e : p = r
    · subst e
      exact ⟨h8, congrArg Prod.fst h9, congrArg Prod.snd h9⟩
    · exact ⟨(h11 p hpl e).cls, (h11 p hpl e).name, (h11 p hpl e).parent⟩

/-- One tree, whatever its name: it is the child of `r` under its name, and every other key of `r`
keeps its value and its position. -/
theorem c49_one_partial (hE : 0 < E.depth) {w : World} (hw : Reachable E w) {t : NTree} {r : Oid}
    (hb : Buildable E N (Keeps N) t) {n : Nat} (hn : tall t < n) (hp : Par E t w r) :
    ∃ o w', deserialize E N n (jNode E (shown N {}) {} t) (some r) w = (.ok (.node o), w') ∧
      Shape E (fun p => w.nobj ≤ p ∧ p < w'.nobj) w' t o ∧ (w'.objs o).parent = some r ∧
      (w'.omap r).val t.name = some (.node o) ∧
      (∀ k, k ≠ t.name → (w'.omap r).val k = (w.omap r).val k) ∧
      (w'.omap r).keys = (if t.name ∈ (w.omap r).keys then (w.omap r).keys else (w.omap r).keys ++ [t.name]) ∧
      ∀ p, p < w.nobj → p ≠ r → w'.omap p = w.omap p ∧ (w'.objs p).name = (w.objs p).name ∧
        (w'.objs p).parent = (w.objs p).parent := by
  obtain ⟨w', h1, h2⟩ := decode_tree (f := shown N {}) (A := Keeps N) (fun d hd => hd.shown) hE t n (some r) w hw.wf hb hn
    (by intro p e; cases e; exact hp)
  obtain ⟨p1, -⟩ := h2.par r rfl
  have hv : ∀ k, (w'.omap r).val k = if k = t.name then some (.node w.nobj) else (w.omap r).val k := by
    intro k
    show Od.get? (w'.children r) k = _
    rw [p1, Od.get?_set]
    rfl
  refine ⟨_, w', h1, h2.shape, h2.inner r rfl, by rw [hv, if_pos rfl], fun k hk => by rw [hv, if_neg hk], ?_,
    fun p hpl hne => ?_⟩
  · show Od.keys (w'.children r) = _
    rw [p1, Od.keys_set]
    rfl
  · have := h2.old p hpl (fun e => hne (by cases e; rfl))
    exact ⟨this.omap, this.name, this.parent⟩

/-- Copying a subtree by writing and reading: also below a node of the same tree. -/
theorem c49_roundtrip_partial (hE : 0 < E.depth) {w : World} (hw : Reachable E w) {t : NTree} {o r : Oid}
    (hs : Shape E (· < w.nobj) w t o) (hb : Buildable E N (Keeps N) t) (hu : Unwrapped E t) {n : Nat} (hn : tall t < n)
    (hp : Par E t w r) :
    ∃ j w1 o' w2, serialize E N {} n (.val (.node o)) w = (.ok j, w1) ∧
      deserialize E N n j (some r) w1 = (.ok (.node o'), w2) ∧
      Shape E (fun p => w1.nobj ≤ p ∧ p < w2.nobj) w2 t o' ∧ (w2.objs o').parent = some r ∧
      (w2.omap r).val t.name = some (.node o') ∧
      ∀ k, k ≠ t.name → (w2.omap r).val k = (w.omap r).val k := by
  obtain ⟨w1, h1, h2⟩ := serialize_tree (f := shown N {}) (fun d hd => (Keeps.shown hd).2.2) hE hw.wf hs
    (Buildable.readable t hb hu) hn
  have hp1 := Grows.par h2 hp
  obtain ⟨w2, h3, h4⟩ := decode_tree (f := shown N {}) (A := Keeps N) (fun d hd => hd.shown) hE t n (some r) w1 h2.wf hb hn
    (by intro p e; cases e; exact hp1)
  obtain ⟨p1, -⟩ := h4.par r rfl
  have hv : ∀ k, (w2.omap r).val k = if k = t.name then some (.node w1.nobj) else (w.omap r).val k := by
    intro k
    show Od.get? (w2.children r) k = _
    rw [p1, Od.get?_set, h2.children r hp.lt]
    rfl
  exact ⟨_, w1, _, w2, h1, h3, h4.shape, h4.inner r rfl, by rw [hv, if_pos rfl], fun k hk => by rw [hv, if_neg hk]⟩

/-! ### Concrete cases -/

theorem c49_sample_par : Par serEnv c46Tree (after serEnv c46Ops) 3 := by
  refine ⟨by decide +kernel, ?_, by decide +kernel, ?_, fun _ => ⟨by decide +kernel, ?_⟩⟩
  · rw [show clsOf serEnv (after serEnv c46Ops) 3 = serEnv.cls 2 by
      unfold clsOf; rw [show ((after serEnv c46Ops).objs 3).cls = 2 by decide +kernel]]
    exact readClass_full
  · exact fun _ => ⟨_, rfl, by rintro ⟨⟨t, ht⟩, -⟩; cases ht⟩
  · exact (by decide : Bhv.reference ∈ (serEnv.cls 2).bhvs)

/-- The sample tree below one of its own nodes. -/
example : ∃ j w1 o' w2, serialize serEnv sampleCodec {} 5 (.val (.node 0)) (after serEnv c46Ops) = (.ok j, w1) ∧
    deserialize serEnv sampleCodec 5 j (some 3) w1 = (.ok (.node o'), w2) ∧
    Shape serEnv (fun p => w1.nobj ≤ p ∧ p < w2.nobj) w2 c46Tree o' ∧ (w2.objs o').parent = some 3 := by
  obtain ⟨j, w1, o', w2, h1, h2, h3, h4, -⟩ := c49_roundtrip_partial (N := sampleCodec) (by decide)
    (reachable_after serEnv c46Ops) c46_sample_shape c46_sample_buildable c46_sample_unwrapped (n := 5) (by decide) c49_sample_par
  exact ⟨j, w1, o', w2, h1, h2, h3, h4⟩

/-- Two trees below a node that has children already. -/
example : ∃ (os : List Oid) (w' : World), deserialize serEnv sampleCodec 6 (.list (jNodes serEnv (shown sampleCodec {}) {}
      [c46Tree, .mk 2 kc [] []])) (some 0) (after serEnv c46Ops) = (.ok (.list (os.map Dec.node)), w') ∧
    os.length = 2 := by
  have hp : ∀ t : NTree, t.cls = 2 → (∃ s, t.name = .str s ∧ ¬ Reserved s) → Par serEnv t (after serEnv c46Ops) 0 := by
    intro t ht hn
    refine ⟨by decide +kernel, ?_, by decide +kernel, fun _ => hn, fun _ => ⟨by decide +kernel, ?_⟩⟩
    · rw [show clsOf serEnv (after serEnv c46Ops) 0 = serEnv.cls 2 by
        unfold clsOf; rw [show ((after serEnv c46Ops).objs 0).cls = 2 by decide +kernel]]
      exact readClass_full
    · rw [ht]; decide
  have leaf : Buildable serEnv sampleCodec (Keeps sampleCodec) (.mk 2 kc [] []) := by
    refine ⟨readClass_full, nofun, by decide +kernel, ?_, by decide, nofun, trivial⟩
    rw [if_pos (by decide)]
    exact ⟨by decide, readClass_attrs, by decide, by decide, nofun⟩
  obtain ⟨os, w', h1, h2, -⟩ := c49_below_partial (N := sampleCodec) (by decide) (reachable_after serEnv c46Ops)
    (ts := [c46Tree, .mk 2 kc [] []]) (r := 0) ⟨c46_sample_buildable, leaf, trivial⟩ (n := 5) (by decide)
    (by decide +kernel) (by
      intro t ht
      simp only [List.mem_cons, List.not_mem_nil, or_false] at ht
      rcases ht with rfl | rfl
      · exact hp _ rfl ⟨_, rfl, by rintro ⟨⟨t, ht⟩, -⟩; cases ht⟩
      · exact hp _ rfl ⟨_, rfl, by rintro ⟨⟨t, ht⟩, -⟩; cases ht⟩)
    (by decide) (by
      rw [show ((after serEnv c46Ops).omap 0).keys = [ka, kb] by decide +kernel]
      intro t ht
      simp only [List.mem_cons, List.not_mem_nil, or_false] at ht
      rcases ht with rfl | rfl <;> decide)
  exact ⟨os, w', h1, h2⟩

/-- C49 is false: the root has a child of that name, which is replaced, with its children. -/
theorem c49_refuted : ∃ ops, ∃ j w1 o' w2,
    serialize serEnv sampleCodec {} 3 (.val (.node 2)) (after serEnv ops) = (.ok j, w1) ∧
    deserialize serEnv sampleCodec 3 j (some 0) w1 = (.ok (.node o'), w2) ∧
    w1.children 0 = [(ka, .node 1)] ∧ w2.children 0 = [(ka, .node o')] ∧ o' ≠ 1 :=
  ⟨[.new 1 .none none, .new 1 .none none, .set 0 ka (.node 1), .new 1 ka none], _, _, 3, _, rfl, rfl, rfl, rfl,
    by decide⟩

end Verif.Ser
