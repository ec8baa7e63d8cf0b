import Verif.Props.C64

/-!
# C100: the serialized data tell trees apart

For trees whose attributes survive serialization, the data written for two trees are equal exactly if
the trees have the same classes, names, attributes and children in the same order, wherever the two
trees live (`c100_identify_partial`), and every such tree has its data (`c100_every_partial`); so a program can compare trees, or notice changes, by the data.
False in general: a string spelled like the text of a uuid is written like the uuid (`c100_refuted`).
-/

namespace Verif.Ser

variable {E : Env} {N : Codec}

theorem attrs_unique : ∀ {a b : List (Str × Data)},
    a.map (fun kv => (Key.str kv.1, Val.data kv.2)) = b.map (fun kv => (Key.str kv.1, Val.data kv.2)) → a = b
  | [], [], _ => rfl
  | [], _ :: _, h => by cases h
  | _ :: _, [], h => by cases h
  | (s, d) :: r, (s', d') :: r', h => by
    simp only [List.map_cons, List.cons.injEq, Prod.mk.injEq, Key.str.injEq, Val.data.injEq] at h
    obtain ⟨⟨rfl, rfl⟩, h⟩ := h
    rw [attrs_unique h]

theorem HasAttrs.unique {P Q : Oid → Prop} {w : World} {o : Oid} {a b : List (Str × Data)}
    (h : HasAttrs E P w o a) (h' : HasAttrs E Q w o b) : a = b := by
  unfold HasAttrs at h h'
  split at h
  · rename_i x hx
    rw [hx] at h'
    exact attrs_unique (h.2.2.symm.trans h'.2.2)
  · exact h.elim
  · rename_i hx
    rw [hx] at h'
    exact h.trans h'.symm

mutual
/-- A node of a heap has one shape. -/
theorem Shape.unique {P Q : Oid → Prop} {w : World} :
    ∀ (t t' : NTree) (o : Oid), Shape E P w t o → Shape E Q w t' o → t = t'
  | .mk c n a ks, .mk c' n' a' ks', o, ⟨_, h2, h3, h4, h5⟩, ⟨_, g2, g3, g4, g5⟩ => by
    have hc : c = c' := h2.symm.trans g2
    subst hc
    have hn : n = n' := h3.symm.trans g3
    have hk : ks = ks' := Shapes.unique ks ks' o _ h5 g5
    have ha : a = a' := by
      split at h4
      · rename_i hb
        rw [if_pos hb] at g4
        exact HasAttrs.unique h4 g4
      · rename_i hb
        rw [if_neg hb] at g4
        exact h4.trans g4.symm
    rw [hn, ha, hk]
theorem Shapes.unique {P Q : Oid → Prop} {w : World} :
    ∀ (ts ts' : List NTree) (o : Oid) (l : List (Key × Val)), Shapes E P w o ts l → Shapes E Q w o ts' l → ts = ts'
  | [], [], _, _, _, _ => rfl
  | [], _ :: _, _, _, h, ⟨_, _, g, _⟩ => by rw [h] at g; cases g
  | _ :: _, [], _, _, ⟨_, _, h, _⟩, g => by rw [g] at h; cases h
  | t :: ts, t' :: ts', o, l, ⟨c, r, h1, _, h3, h4⟩, ⟨c', r', g1, _, g3, g4⟩ => by
    rw [h1] at g1
    simp only [List.cons.injEq, Prod.mk.injEq, Val.node.injEq] at g1
    obtain ⟨⟨_, rfl⟩, rfl⟩ := g1
    rw [Shape.unique t t' c h3 g3, Shapes.unique ts ts' o r h4 g4]
end

/-- C100, what is true of it: the data of two trees, written by the same or by different runs of a
program, are equal exactly if the trees have the same shape. -/
theorem c100_identify_partial (hE : 0 < E.depth) {w w' : World} (hw : Reachable E w) (hw' : Reachable E w')
    {t t' : NTree} {o o' : Oid} (hs : Shape E (· < w.nobj) w t o) (hs' : Shape E (· < w'.nobj) w' t' o')
    (hb : Buildable E N (Keeps N) t) (hb' : Buildable E N (Keeps N) t') (hu : Unwrapped E t) (hu' : Unwrapped E t')
    {n n' : Nat} (hn : tall t < n) (hn' : tall t' < n') :
    ∃ j j' w1 w1', serialize E N {} n (.val (.node o)) w = (.ok j, w1) ∧
      serialize E N {} n' (.val (.node o')) w' = (.ok j', w1') ∧ (j = j' ↔ t = t') := by
  obtain ⟨w1, h1, g1⟩ := serialize_tree (f := shown N {}) (fun d hd => (Keeps.shown hd).2.2) hE hw.wf hs
    (Buildable.readable t hb hu) hn
  obtain ⟨w1', h1', _⟩ := serialize_tree (f := shown N {}) (fun d hd => (Keeps.shown hd).2.2) hE hw'.wf hs'
    (Buildable.readable t' hb' hu') hn'
  refine ⟨_, _, w1, w1', h1, h1', fun e => ?_, fun e => by rw [e]⟩
  obtain ⟨w2, h2, b2⟩ := decode_tree (f := shown N {}) (A := Keeps N) (fun d hd => hd.shown) hE t (max n n') none w1
    g1.wf hb (Nat.lt_of_lt_of_le hn (Nat.le_max_left _ _)) nofun
  obtain ⟨w3, h3, b3⟩ := decode_tree (f := shown N {}) (A := Keeps N) (fun d hd => hd.shown) hE t' (max n n') none w1
    g1.wf hb' (Nat.lt_of_lt_of_le hn' (Nat.le_max_right _ _)) nofun
  rw [e, h3] at h2
  simp only [Prod.mk.injEq, true_and] at h2
  subst h2
  exact Shape.unique _ _ _ b2.shape b3.shape

/-- Within one heap, and in terms of nodes only: whatever two nodes hold, if the data are equal then
the nodes have the same class and name and as many children, under the same keys in the same order. -/
theorem c100_nodes_partial (hE : 0 < E.depth) {w : World} (hw : Reachable E w)
    {t t' : NTree} {o o' : Oid} (hs : Shape E (· < w.nobj) w t o) (hs' : Shape E (· < w.nobj) w t' o')
    (hb : Buildable E N (Keeps N) t) (hb' : Buildable E N (Keeps N) t') (hu : Unwrapped E t) (hu' : Unwrapped E t')
    {n n' : Nat} (hn : tall t < n) (hn' : tall t' < n') {j : J} {w1 w1' : World}
    (h : serialize E N {} n (.val (.node o)) w = (.ok j, w1))
    (h' : serialize E N {} n' (.val (.node o')) w = (.ok j, w1')) :
    (w.objs o).cls = (w.objs o').cls ∧ (w.objs o).name = (w.objs o').name ∧
      (w.omap o).items.map Prod.fst = (w.omap o').items.map Prod.fst := by
  obtain ⟨j1, j2, v, v', e1, e2, hj⟩ := c100_identify_partial hE hw hw hs hs' hb hb' hu hu' hn hn'
  rw [h] at e1
  rw [h'] at e2
  simp only [Prod.mk.injEq, Except.ok.injEq] at e1 e2
  have ht := hj.1 (e1.1.symm.trans e2.1)
  subst ht
  cases t with
  | mk c nm a ks =>
    refine ⟨hs.2.1.trans hs'.2.1.symm, hs.2.2.1.trans hs'.2.2.1.symm, ?_⟩
    have hk : ∀ (ts : List NTree) (p : Oid) (l : List (Key × Val)),
        Shapes E (· < w.nobj) w p ts l → l.map Prod.fst = ts.map NTree.name := by
      intro ts
      induction ts with
      | nil => intro p l hl; rw [show l = [] from hl]; rfl
      | cons t r ih =>
        rintro p l ⟨c, r', rfl, _, _, hr⟩
        rw [List.map_cons, List.map_cons, ih p r' hr]
    exact (hk ks o _ hs.2.2.2.2).trans (hk ks o' _ hs'.2.2.2.2).symm

/-- And every tree has its data: for every shape there are data from which a tree of that shape is read
in every state of every run, and which are what is written for it. -/
theorem c100_every_partial (hE : 0 < E.depth) {t : NTree} (hb : Buildable E N (Keeps N) t) (hu : Unwrapped E t) :
    ∃ j, ∀ w, Reachable E w → ∀ n, tall t < n → ∃ o w1 w2, deserialize E N n j none w = (.ok (.node o), w1) ∧
      Shape E (fun p => w.nobj ≤ p ∧ p < w1.nobj) w1 t o ∧ serialize E N {} n (.val (.node o)) w1 = (.ok j, w2) := by
  refine ⟨jNode E (shown N {}) {} t, fun w hw n hn => ?_⟩
  obtain ⟨w1, h1, h2⟩ := decode_tree (f := shown N {}) (A := Keeps N) (fun d hd => hd.shown) hE t n none w hw.wf hb hn
    nofun
  obtain ⟨w2, h3, _⟩ := serialize_tree (f := shown N {}) (fun d hd => (Keeps.shown hd).2.2) hE h2.wf
    (Shape.mono (fun p hp => hp.2) t _ h2.shape) (Buildable.readable t hb hu) hn
  exact ⟨_, w1, w2, h1, h2.shape, h3⟩

/-! ### Concrete cases -/

/-- Two nodes of the sample tree look alike, at different places, and are written alike; the whole
tree is written differently. -/
example : (∃ j w1 w2, serialize serEnv sampleCodec {} 5 (.val (.node 4)) (after serEnv c46Ops) = (.ok j, w1) ∧
      serialize serEnv sampleCodec {} 5 (.val (.node 3)) (after serEnv c46Ops) = (.ok j, w2)) ∧
    ∃ j j' w1 w2, serialize serEnv sampleCodec {} 5 (.val (.node 0)) (after serEnv c46Ops) = (.ok j, w1) ∧
      serialize serEnv sampleCodec {} 5 (.val (.node 3)) (after serEnv c46Ops) = (.ok j', w2) ∧ j ≠ j' := by
  have noattrs : ∀ o, ((after serEnv c46Ops).nmap o).val attrsKey = none →
      HasAttrs serEnv (· < (after serEnv c46Ops).nobj) (after serEnv c46Ops) o [] := by
    intro o h
    unfold HasAttrs
    rw [h]
  have hb : Bhv.attributes ∈ (serEnv.cls 2).bhvs := by decide
  have h3 : Shape serEnv (· < (after serEnv c46Ops).nobj) (after serEnv c46Ops) (.mk 2 kb [] []) 3 := by
    refine ⟨by decide +kernel, by decide +kernel, by decide +kernel, ?_, by
      show _ = _; decide +kernel⟩
    rw [if_pos hb]
    exact noattrs 3 (by decide +kernel)
  have h4 : Shape serEnv (· < (after serEnv c46Ops).nobj) (after serEnv c46Ops) (.mk 2 kb [] []) 4 := by
    refine ⟨by decide +kernel, by decide +kernel, by decide +kernel, ?_, by
      show _ = _; decide +kernel⟩
    rw [if_pos hb]
    exact noattrs 4 (by decide +kernel)
  have leaf : Buildable serEnv sampleCodec (Keeps sampleCodec) (.mk 2 kb [] []) := c46_sample_buildable.2.2.2.2.2.2.2.1
  have hu : Unwrapped serEnv (.mk 2 kb [] []) := c46_sample_unwrapped.2.2.1
  constructor
  · obtain ⟨j, j', w1, w2, e1, e2, hj⟩ := c100_identify_partial (N := sampleCodec) (by decide) (reachable_after _ _)
      (reachable_after _ _) h4 h3 leaf leaf hu hu (n := 5) (n' := 5) (by decide) (by decide)
    cases hj.2 rfl
    exact ⟨_, w1, w2, e1, e2⟩
  · obtain ⟨j, j', w1, w2, e1, e2, hj⟩ := c100_identify_partial (N := sampleCodec) (by decide) (reachable_after _ _)
      (reachable_after _ _) c46_sample_shape h3 c46_sample_buildable leaf c46_sample_unwrapped hu (n := 5) (n' := 5)
      (by decide) (by decide)
    exact ⟨j, j', w1, w2, e1, e2, fun e => by have := hj.1 e; simp [c46Tree] at this⟩

/-- The sample tree can be read in a heap where there is nothing. -/
example : ∃ j o w1 w2, deserialize serEnv sampleCodec 5 j none (after serEnv []) = (.ok (.node o), w1) ∧
    Shape serEnv (fun p => 0 ≤ p ∧ p < w1.nobj) w1 c46Tree o ∧
    serialize serEnv sampleCodec {} 5 (.val (.node o)) w1 = (.ok j, w2) := by
  obtain ⟨j, h⟩ := c100_every_partial (N := sampleCodec) (E := serEnv) (by decide) c46_sample_buildable c46_sample_unwrapped
  obtain ⟨o, w1, w2, h1, h2, h3⟩ := h _ (reachable_after serEnv []) 5 (by decide)
  exact ⟨j, o, w1, w2, h1, h2, h3⟩

/-- A node whose attribute is a uuid or the text a uuid is written as. -/
def c100Ops (d : Data) : List Op := [.new 2 (.str ['r']) none, .attrs 0, .set 1 ka (.data d)]

theorem c100_sample (d : Data) (h : d = .uuid 2 ∨ d = .str "<UUID>:xx".toList) :
    Shape serEnv (· < (after serEnv (c100Ops d)).nobj) (after serEnv (c100Ops d)) (.mk 2 (.str ['r']) [(['a'], d)] []) 0 ∧
    Readable serEnv Writable (.mk 2 (.str ['r']) [(['a'], d)] []) := by
  have hb : Bhv.attributes ∈ (serEnv.cls 2).bhvs := by decide
  have hk : ∀ k : Str, KeyFor (serEnv.cls 3) (.str k) := fun k h => absurd h (by decide)
  have hat : ∀ w : World, (w.nmap 0).val attrsKey = some (.node 1) → 1 < w.nobj →
      (w.objs 1).cls = (clsOf serEnv w 0).attrsFactory → (w.omap 1).items = [(ka, .data d)] →
      HasAttrs serEnv (· < w.nobj) w 0 [(['a'], d)] := by
    intro w h1 h2 h3 h4
    unfold HasAttrs
    rw [h1]
    exact ⟨h2, h3, h4⟩
  refine ⟨?_, readClass_full, nofun, fun _ => ⟨by decide, rfl, readClass_attrs, by decide, fun kv hkv => ?_⟩, nofun, trivial⟩
  · rcases h with rfl | rfl
    all_goals
      refine ⟨by decide +kernel, by decide +kernel, by decide +kernel, ?_, by show _ = _; decide +kernel⟩
      rw [if_pos hb]
      exact hat _ (by decide +kernel) (by decide +kernel) (by decide +kernel) (by decide +kernel)
  · simp only [List.mem_cons, List.not_mem_nil, or_false] at hkv
    subst hkv
    refine ⟨hk _, ?_⟩
    rcases h with rfl | rfl <;> trivial

/-- C100 is false: a node with a uuid as attribute and a node with the text of the uuid as attribute
are written alike. -/
theorem c100_refuted : ∃ ops ops' t t' j w1 w1', t ≠ t' ∧
    Shape serEnv (· < (after serEnv ops).nobj) (after serEnv ops) t 0 ∧
    Shape serEnv (· < (after serEnv ops').nobj) (after serEnv ops') t' 0 ∧
    serialize serEnv sampleCodec {} 5 (.val (.node 0)) (after serEnv ops) = (.ok j, w1) ∧
    serialize serEnv sampleCodec {} 5 (.val (.node 0)) (after serEnv ops') = (.ok j, w1') := by
  obtain ⟨s1, r1⟩ := c100_sample _ (.inl rfl)
  obtain ⟨s2, r2⟩ := c100_sample _ (.inr rfl)
  obtain ⟨w1, h1, _⟩ := serialize_tree (N := sampleCodec) (f := shown sampleCodec {}) (fun d hd => enc_shown {} d hd)
    (by decide) (reachable_after _ _).wf s1 r1 (n := 5) (by decide)
  obtain ⟨w2, h2, _⟩ := serialize_tree (N := sampleCodec) (f := shown sampleCodec {}) (fun d hd => enc_shown {} d hd)
    (by decide) (reachable_after _ _).wf s2 r2 (n := 5) (by decide)
  exact ⟨_, _, _, _, _, w1, w2, by simp, s1, s2, h1, h2⟩

end Verif.Ser
