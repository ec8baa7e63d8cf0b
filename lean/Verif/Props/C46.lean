import Verif.Lemmas.Decode
import Verif.Lemmas.Grow
import Verif.Sample

/-!
# C46: trees survive serialization

True for trees whose classes are found by their dotted name, whose names are not bytes, and whose
attributes survive (`c46_roundtrip_partial`).  False in general: names made of bytes raise, and a
class whose dotted name belongs to another class comes back as the other class
(`c46_refuted_bytes`, `c46_refuted_class`), and nodes with `attribute_access_for_attrs` cannot be
written (`c46_refuted_access`).
-/

namespace Verif.Ser

variable {E : Env} {N : Codec}

/-- The values of attributes that survive. -/
def Keeps (N : Codec) (d : Data) : Prop := Proper d ∧ Safe N d

theorem Keeps.shown {d : Data} (h : Keeps N d) : Proper d ∧ Safe N d ∧ encData N {} d = .ok (shown N {} d) :=
  ⟨h.1, h.2, enc_shown {} d (safe_writable d h.1 h.2)⟩

mutual
theorem Buildable.readable {A : Data → Prop} : ∀ (t : NTree), Buildable E N A t → Unwrapped E t → Readable E A t
  | .mk c name at' kids, ⟨b1, b2, _, b4, _, b6, b7⟩, hu => by
    refine ⟨b1, b2, fun h => ?_, fun t ht => (b6 t ht).2.1, Buildables.readable kids b7 hu.2⟩
    rw [if_pos h] at b4
    exact ⟨b4.1, hu.1 h, b4.2.1, b4.2.2.1, fun kv hkv => ⟨(b4.2.2.2.2 kv hkv).1, (b4.2.2.2.2 kv hkv).2.2⟩⟩
theorem Buildables.readable {A : Data → Prop} :
    ∀ (ts : List NTree), Buildables E N A ts → Unwrappeds E ts → Readables E A ts
  | [], _, _ => trivial
  | t :: ts, h, hu => ⟨Buildable.readable t h.1 hu.1, Buildables.readable ts h.2 hu.2⟩
end

theorem Grows.par {t : NTree} {w w' : World} {p : Oid} (hg : Grows E w w') (h : Par E t w p) : Par E t w' p := by
  have e := hg.clsOf h.lt
  exact ⟨Nat.lt_of_lt_of_le h.lt hg.index.le, by rw [e]; exact h.read, by rw [e]; exact h.adopt,
    by rw [e]; exact h.key, fun hr => ⟨hg.index.keep p h.lt (h.ref (e ▸ hr)).1, (h.ref (e ▸ hr)).2⟩⟩

theorem serialize_tree {f : Data → J} {m : Mode} {A : Data → Prop} (hA : ∀ d, A d → encData N m d = .ok (f d))
    (hE : 0 < E.depth) {t : NTree} {o : Oid} {n : Nat} {w : World} (hw : WF w)
    (hs : Shape E (· < w.nobj) w t o) (hr : Readable E A t) (hn : tall t < n) :
    ∃ w', serialize E N m n (.val (.node o)) w = (.ok (jNode E f m t), w') ∧ Grows E w w' := by
  obtain ⟨p, w', h1, h2, h3⟩ := encode (N := N) hA hE t o n w hw hs hr hn
  exact ⟨w', by simp only [serialize, M.bind_apply, h1, M.ofExcept_apply, h2], h3⟩

/-- C46, what is true of it: writing and reading a tree yields a tree of the same shape - classes,
names, attributes and order of children at every position - made of new nodes only, without a
parent, and leaves the tree that was written alone. -/
theorem c46_roundtrip_partial (hE : 0 < E.depth) {w : World} (hw : Reachable E w) {t : NTree} {o : Oid}
    (hs : Shape E (· < w.nobj) w t o) (hb : Buildable E N (Keeps N) t) (hu : Unwrapped E t) {n : Nat} (hn : tall t < n) :
    ∃ j w1 o' w2, serialize E N {} n (.val (.node o)) w = (.ok j, w1) ∧
      deserialize E N n j none w1 = (.ok (.node o'), w2) ∧
      Shape E (fun p => w1.nobj ≤ p ∧ p < w2.nobj) w2 t o' ∧
      (Bhv.defaultInit ∈ (E.cls t.cls).bhvs → (w2.objs o').parent = none) ∧
      Shape E (· < w1.nobj) w2 t o := by
  obtain ⟨w1, h1, h2⟩ := serialize_tree (f := shown N {}) (fun d hd => (Keeps.shown hd).2.2) hE hw.wf hs
    (Buildable.readable t hb hu) hn
  obtain ⟨w2, h3, h4⟩ := decode_tree (f := shown N {}) (A := Keeps N) (fun d hd => hd.shown) hE t n none w1 h2.wf hb hn
    nofun
  exact ⟨_, w1, _, w2, h1, h3, h4.shape, h4.root rfl, Shape.agree (fun p hp => h4.old p hp nofun) t o
    (Shape.grows h2 t o hs)⟩

/-- What reading and writing leave alone: children, class, name and parent of every node that was
there before. -/
theorem c46_frame (hE : 0 < E.depth) {w : World} (hw : Reachable E w) {t : NTree} {o : Oid}
    (hs : Shape E (· < w.nobj) w t o) (hb : Buildable E N (Keeps N) t) (hu : Unwrapped E t) {n : Nat} (hn : tall t < n) :
    ∃ j w1 x w2, serialize E N {} n (.val (.node o)) w = (.ok j, w1) ∧
      deserialize E N n j none w1 = (.ok x, w2) ∧ ∀ p, p < w.nobj → w2.omap p = w.omap p ∧
        (w2.objs p).cls = (w.objs p).cls ∧ (w2.objs p).name = (w.objs p).name ∧
        (w2.objs p).parent = (w.objs p).parent := by
  obtain ⟨w1, h1, h2⟩ := serialize_tree (f := shown N {}) (fun d hd => (Keeps.shown hd).2.2) hE hw.wf hs
    (Buildable.readable t hb hu) hn
  obtain ⟨w2, h3, h4⟩ := decode_tree (f := shown N {}) (A := Keeps N) (fun d hd => hd.shown) hE t n none w1 h2.wf hb hn
    nofun
  refine ⟨_, w1, _, w2, h1, h3, fun p hp => ?_⟩
  have ha := h4.old p (Nat.lt_of_lt_of_le hp h2.index.le) nofun
  exact ⟨ha.omap.trans (congrArg Od.toMap (h2.children p hp)), ha.cls.trans (h2.cls p hp),
    ha.name.trans (congrArg Prod.fst (h2.loc p hp)), ha.parent.trans (congrArg Prod.snd (h2.loc p hp))⟩

/-- A well-located tree of nodes of the heap: everything below is a node, knows its key and its
parent, and the attributes are a node of the attributes class with text keys and plain values. -/
inductive Tidy (E : Env) (w : World) : Oid → Prop
  | mk (o : Oid) : o < w.nobj →
      (∀ k v, (k, v) ∈ (w.omap o).items → ∃ c, v = .node c ∧ (w.objs c).name = k ∧ (w.objs c).parent = some o) →
      (∀ k c, (k, Val.node c) ∈ (w.omap o).items → Tidy E w c) →
      (Bhv.attributes ∈ (clsOf E w o).bhvs → ∀ v, (w.nmap o).val attrsKey = some v → ∃ a, v = .node a ∧
        a < w.nobj ∧ (w.objs a).cls = (clsOf E w o).attrsFactory ∧
        ∀ k x, (k, x) ∈ (w.omap a).items → ∃ s d, k = .str s ∧ x = .data d) → Tidy E w o

/-- Every such tree has a shape. -/
theorem c46_shape {w : World} {o : Oid} (h : Tidy E w o) : ∃ t, Shape E (· < w.nobj) w t o := by
  induction h with
  | mk o ho hk hsub hat ih =>
    have kids : ∀ l : List (Key × Val), (∀ kv ∈ l, kv ∈ (w.omap o).items) →
        ∃ ts, Shapes E (· < w.nobj) w o ts l := by
      intro l
      induction l with
      | nil => exact fun _ => ⟨[], rfl⟩
      | cons a r ihl =>
        intro hl
        obtain ⟨k, v⟩ := a
        have hm := hl _ List.mem_cons_self
        obtain ⟨c, rfl, h1, h2⟩ := hk k v hm
        obtain ⟨t, ht⟩ := ih k c hm
        obtain ⟨ts, hts⟩ := ihl fun kv hkv => hl kv (List.mem_cons_of_mem _ hkv)
        refine ⟨t :: ts, c, r, ?_, h2, ht, hts⟩
        have : t.name = k := by
          cases t; exact ht.2.2.1.symm.trans h1
        rw [this]
    obtain ⟨ts, hts⟩ := kids _ fun _ h => h
    have attrs : ∃ at', if Bhv.attributes ∈ (clsOf E w o).bhvs then HasAttrs E (· < w.nobj) w o at' else at' = [] := by
      by_cases hb : Bhv.attributes ∈ (clsOf E w o).bhvs
      · simp only [if_pos hb]
        cases hv : (w.nmap o).val attrsKey with
        | none => exact ⟨[], by unfold HasAttrs; rw [hv]⟩
        | some v =>
          obtain ⟨a, rfl, h1, h2, h3⟩ := hat hb v hv
          have : ∀ l : List (Key × Val), (∀ kv ∈ l, kv ∈ (w.omap a).items) →
              ∃ at' : List (Str × Data), l = at'.map fun kv => (Key.str kv.1, Val.data kv.2) := by
            intro l
            induction l with
            | nil => exact fun _ => ⟨[], rfl⟩
            | cons x r ihl =>
              intro hl
              obtain ⟨k, v⟩ := x
              obtain ⟨s, d, rfl, rfl⟩ := h3 k v (hl _ List.mem_cons_self)
              obtain ⟨at', rfl⟩ := ihl fun kv hkv => hl kv (List.mem_cons_of_mem _ hkv)
              exact ⟨(s, d) :: at', rfl⟩
          obtain ⟨at', he⟩ := this _ fun _ h => h
          exact ⟨at', by unfold HasAttrs; rw [hv]; exact ⟨h1, h2, he⟩⟩
      · simp only [if_neg hb]
        exact ⟨[], rfl⟩
    obtain ⟨at', hat'⟩ := attrs
    exact ⟨.mk (w.objs o).cls (w.objs o).name at' ts, ho, rfl, rfl, hat', hts⟩

/-! ### Concrete cases -/

/-- The classes of `Sample` with their dotted names.  The class 4 is a `BaseNode` defined inside of
another class of `node.base`: `dotted_name` (serializer.py:91-104) uses `__module__` and `__name__`. -/
def serEnv : Env where
  cls
    | 0 => { baseNode with dotted := "node.base.BaseNode".toList }
    | 1 => { orderedNode with dotted := "node.base.OrderedNode".toList }
    | 2 => { fullNode with dotted := "node.base.AttributedNode".toList }
    | 4 => { orderedNode with dotted := "node.base.BaseNode".toList }
    | 5 => { fullNode with dotted := "app.Wrapped".toList, attrAccess := true }
    | c => sampleEnv.cls c

/-- A root with two children; the first has an attribute and a child of its own. -/
def c46Ops : List Op := [.new 2 (.str ['r']) none, .new 2 .none none, .set 0 ka (.node 1), .attrs 1,
  .set 2 kc (.data (.list [.unset, .int 5])), .new 2 .none none, .set 0 kb (.node 3), .new 2 .none none,
  .set 1 kb (.node 4)]

/-- Its shape. -/
def c46Tree : NTree := .mk 2 (.str ['r']) [] [.mk 2 ka [(['c'], .list [.unset, .int 5])] [.mk 2 kb [] []], .mk 2 kb [] []]

theorem c46_sample_shape : Shape serEnv (· < (after serEnv c46Ops).nobj) (after serEnv c46Ops) c46Tree 0 := by
  have hb : Bhv.attributes ∈ (serEnv.cls 2).bhvs := by decide
  have noattrs : ∀ o, ((after serEnv c46Ops).nmap o).val attrsKey = none →
      HasAttrs serEnv (· < (after serEnv c46Ops).nobj) (after serEnv c46Ops) o [] := by
    intro o h
    unfold HasAttrs
    rw [h]
  refine ⟨by decide +kernel, by decide +kernel, by decide +kernel, ?_, 1, [(kb, .node 3)], by decide +kernel,
    by decide +kernel, ⟨by decide +kernel, by decide +kernel, by decide +kernel, ?_, 4, [], by decide +kernel,
      by decide +kernel, ⟨by decide +kernel, by decide +kernel, by decide +kernel, ?_, by
        show _ = _; decide +kernel⟩, rfl⟩,
    3, [], by decide +kernel, by decide +kernel, ⟨by decide +kernel, by decide +kernel, by decide +kernel, ?_, by
      show _ = _; decide +kernel⟩, rfl⟩
  all_goals rw [if_pos hb]
  · exact noattrs 0 (by decide +kernel)
  · unfold HasAttrs
    rw [show ((after serEnv c46Ops).nmap 1).val attrsKey = some (.node 2) by decide +kernel]
    exact ⟨by decide +kernel, by decide +kernel, by decide +kernel⟩
  · exact noattrs 4 (by decide +kernel)
  · exact noattrs 3 (by decide +kernel)

theorem readClass_full : ReadClass (serEnv.cls 2) := ⟨⟨.odictStorage, by decide, by decide⟩, by decide⟩

theorem readClass_attrs : ReadClass (serEnv.cls 3) := ⟨⟨.odictStorage, by decide, by decide⟩, by decide⟩

theorem c46_sample_buildable : Buildable serEnv sampleCodec (Keeps sampleCodec) c46Tree := by
  have hb : Bhv.attributes ∈ (serEnv.cls 2).bhvs := by decide
  have hk : ∀ k : Str, KeyFor (serEnv.cls 3) (.str k) := fun k h => absurd h (by decide)
  have hka : KeyFor (serEnv.cls 2) ka := fun _ => ⟨_, rfl, by rintro ⟨⟨t, ht⟩, -⟩; cases ht⟩
  have hkb : KeyFor (serEnv.cls 2) kb := fun _ => ⟨_, rfl, by rintro ⟨⟨t, ht⟩, -⟩; cases ht⟩
  have leaf : Buildable serEnv sampleCodec (Keeps sampleCodec) (.mk 2 kb [] []) := by
    refine ⟨readClass_full, nofun, by decide +kernel, ?_, by decide, nofun, trivial⟩
    rw [if_pos hb]
    exact ⟨by decide, readClass_attrs, by decide, by decide, nofun⟩
  refine ⟨readClass_full, nofun, by decide +kernel, ?_, by decide, ?_, ⟨readClass_full, nofun, by decide +kernel,
    ?_, by decide, ?_, leaf, trivial⟩, leaf, trivial⟩
  · rw [if_pos hb]
    exact ⟨by decide, readClass_attrs, by decide, by decide, nofun⟩
  · intro t ht
    simp only [List.mem_cons, List.not_mem_nil, or_false] at ht
    rcases ht with rfl | rfl
    · exact ⟨by decide, hka, fun _ => (by decide : Bhv.reference ∈ (serEnv.cls 2).bhvs)⟩
    · exact ⟨by decide, hkb, fun _ => (by decide : Bhv.reference ∈ (serEnv.cls 2).bhvs)⟩
  · rw [if_pos hb]
    refine ⟨by decide, readClass_attrs, by decide, by decide, fun kv hkv => ?_⟩
    simp only [List.mem_cons, List.not_mem_nil, or_false] at hkv
    subst hkv
    exact ⟨hk _, by decide, ⟨trivial, trivial, trivial⟩, trivial, trivial, trivial⟩
  · intro t ht
    simp only [List.mem_cons, List.not_mem_nil, or_false] at ht
    subst ht
    exact ⟨by decide, hkb, fun _ => (by decide : Bhv.reference ∈ (serEnv.cls 2).bhvs)⟩

theorem c46_sample_unwrapped : Unwrapped serEnv c46Tree :=
  ⟨fun _ => rfl, ⟨fun _ => rfl, ⟨fun _ => rfl, trivial⟩, trivial⟩, ⟨fun _ => rfl, trivial⟩, trivial⟩

example : ∃ j w1 o' w2, serialize serEnv sampleCodec {} 5 (.val (.node 0)) (after serEnv c46Ops) = (.ok j, w1) ∧
    deserialize serEnv sampleCodec 5 j none w1 = (.ok (.node o'), w2) ∧
    Shape serEnv (fun p => w1.nobj ≤ p ∧ p < w2.nobj) w2 c46Tree o' := by
  obtain ⟨j, w1, o', w2, h1, h2, h3, -⟩ := c46_roundtrip_partial (N := sampleCodec) (by decide) (reachable_after _ _)
    c46_sample_shape c46_sample_buildable c46_sample_unwrapped (n := 5) (by decide)
  exact ⟨j, w1, o', w2, h1, h2, h3⟩

/-- C46 is false: a well-located tree with a name made of bytes cannot be written. -/
theorem c46_refuted_bytes : ∃ ops, Tidy serEnv (after serEnv ops) 0 ∧ ∀ n, 2 ≤ n →
    (serialize serEnv sampleCodec {} n (.val (.node 0)) (after serEnv ops)).1 =
      .error (.value "Circular reference detected") := by
  refine ⟨[.new 1 .none none, .new 1 .none none, .set 0 (.bytes [1]) (.node 1)], ?_, ?_⟩
  · have hno : ∀ o, o < 2 → Bhv.attributes ∉ (clsOf serEnv (after serEnv [.new 1 .none none, .new 1 .none none,
      .set 0 (.bytes [1]) (.node 1)]) o).bhvs := by decide +kernel
    have hone : Tidy serEnv (after serEnv [.new 1 .none none, .new 1 .none none,
        .set 0 (.bytes [1]) (.node 1)]) 1 := by
      have e : ((after serEnv [.new 1 .none none, .new 1 .none none,
        .set 0 (.bytes [1]) (.node 1)]).omap 1).items = [] := by decide +kernel
      refine .mk 1 (by decide +kernel) ?_ ?_ fun h => absurd h (hno 1 (by decide))
      · rw [e]; nofun
      · rw [e]; nofun
    have e : ((after serEnv [.new 1 .none none, .new 1 .none none,
      .set 0 (.bytes [1]) (.node 1)]).omap 0).items = [(.bytes [1], .node 1)] := by decide +kernel
    refine .mk 0 (by decide +kernel) ?_ ?_ fun h => absurd h (hno 0 (by decide))
    · rw [e]
      intro k v h
      simp only [List.mem_cons, List.not_mem_nil, or_false, Prod.mk.injEq] at h
      obtain ⟨rfl, rfl⟩ := h
      exact ⟨1, rfl, by decide +kernel, by decide +kernel⟩
    · rw [e]
      intro k c h
      simp only [List.mem_cons, List.not_mem_nil, or_false, Prod.mk.injEq, Val.node.injEq] at h
      obtain ⟨rfl, rfl⟩ := h
      exact hone
  · rintro (_ | _ | n) h
    · cases h
    · cases h with | step h => cases h
    · rfl

/-- C46 is false: a class with the dotted name of another class comes back as the other class. -/
theorem c46_refuted_class : ∃ ops, ∃ j w1 o' w2, Tidy serEnv (after serEnv ops) 0 ∧
    serialize serEnv sampleCodec {} 3 (.val (.node 0)) (after serEnv ops) = (.ok j, w1) ∧
    deserialize serEnv sampleCodec 3 j none w1 = (.ok (.node o'), w2) ∧
    (w1.objs 0).cls = 4 ∧ (w2.objs o').cls = 0 := by
  refine ⟨[.new 4 ka none], _, _, 1, _, ?_, rfl, rfl, rfl, rfl⟩
  have e : ((after serEnv [.new 4 ka none]).omap 0).items = [] := by decide +kernel
  have hno : Bhv.attributes ∉ (clsOf serEnv (after serEnv [.new 4 ka none]) 0).bhvs := by decide +kernel
  refine .mk 0 (by decide +kernel) ?_ ?_ fun h => absurd h hno
  · rw [e]; nofun
  · rw [e]; nofun

/-- C46 is false: a node with `attribute_access_for_attrs` cannot be written, in no mode.
`serialize_node_attributes` (serializer.py:229) calls `node.attrs.items()`, and an `AttributeAccess` takes
`items` for the name of an attribute. -/
theorem c46_refuted_access (N : Codec) (m : Mode) : ∃ ops, Tidy serEnv (after serEnv ops) 0 ∧ ∀ n, 2 ≤ n →
    (serialize serEnv N m n (.val (.node 0)) (after serEnv ops)).1 = .error .attr := by
  refine ⟨[.new 5 ka none], ?_, ?_⟩
  · have e : ((after serEnv [.new 5 ka none]).omap 0).items = [] := by decide +kernel
    have ea : ((after serEnv [.new 5 ka none]).nmap 0).val attrsKey = none := by decide +kernel
    refine .mk 0 (by decide +kernel) ?_ ?_ ?_
    · rw [e]; nofun
    · rw [e]; nofun
    · rw [ea]; nofun
  · rintro (_ | _ | n) h
    · cases h
    · cases h with | step h => cases h
    · rfl

end Verif.Ser
