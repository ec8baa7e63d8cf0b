import Verif.Props.C46

/-!
# C48: simple mode

For trees that can be written, simple mode writes exactly names, children and attributes, and
classes on demand (`c48_written_partial`); what is written is the same for two trees exactly if
they agree in these (`c48_exactly`).  Names made of bytes raise (`c48_refuted`),
and so do nodes with `attribute_access_for_attrs` (`c46_refuted_access`).
-/

namespace Verif.Ser

variable {E : Env} {N : Codec}

mutual
/-- Two trees agree in names, children and attributes, and, with `cls`, in the names of their
classes. -/
def Alike (E : Env) (f : Data → J) (cls : Bool) : NTree → NTree → Prop
  | .mk c name attrs kids, .mk c' name' attrs' kids' => name = name' ∧ AlikeAll E f cls kids kids' ∧
      (Bhv.attributes ∈ (E.cls c).bhvs ↔ Bhv.attributes ∈ (E.cls c').bhvs) ∧
      (Bhv.attributes ∈ (E.cls c).bhvs →
        attrs.map (fun kv => (kv.1, f kv.2)) = attrs'.map fun kv => (kv.1, f kv.2)) ∧
      (cls = true → (E.cls c).dotted = (E.cls c').dotted)
/-- The same for all trees of two lists. -/
def AlikeAll (E : Env) (f : Data → J) (cls : Bool) : List NTree → List NTree → Prop
  | [], [] => True
  | t :: ts, t' :: ts' => Alike E f cls t t' ∧ AlikeAll E f cls ts ts'
  | _, _ => False
end

mutual
/-- No names made of bytes. -/
def TextNames : NTree → Prop
  | .mk _ name _ kids => (∀ b, name ≠ .bytes b) ∧ TextNamesAll kids
/-- The same for all trees. -/
def TextNamesAll : List NTree → Prop
  | [] => True
  | t :: ts => TextNames t ∧ TextNamesAll ts
end

mutual
theorem Readable.textNames {A : Data → Prop} : ∀ (t : NTree), Readable E A t → TextNames t
  | .mk _ _ _ kids, ⟨_, h, _, _, h'⟩ => ⟨h, Readables.textNames kids h'⟩
theorem Readables.textNames {A : Data → Prop} : ∀ (ts : List NTree), Readables E A ts → TextNamesAll ts
  | [], _ => trivial
  | t :: ts, h => ⟨Readable.textNames t h.1, Readables.textNames ts h.2⟩
end

theorem jKey_inj {a b : Key} (ha : ∀ x, a ≠ .bytes x) (hb : ∀ x, b ≠ .bytes x) (h : jKey a = jKey b) : a = b := by
  cases a with
  | bytes x => exact absurd rfl (ha x)
  | none => cases b with
    | bytes x => exact absurd rfl (hb x)
    | none => rfl
    | _ => cases h
  | str s => cases b with
    | bytes x => exact absurd rfl (hb x)
    | str t => cases h; rfl
    | _ => cases h
  | int s => cases b with
    | bytes x => exact absurd rfl (hb x)
    | int t => cases h; rfl
    | _ => cases h

theorem opt_members {k3 k4 : Str} (hk : k3 ≠ k4) {b2 b3 c2 c3 : Prop} [Decidable b2] [Decidable b3] [Decidable c2]
    [Decidable c3] {x3 x4 y3 y4 : J} :
    ((if b2 then [] else [(k3, x3)]) ++ (if b3 then [(k4, x4)] else []) =
      (if c2 then [] else [(k3, y3)]) ++ if c3 then [(k4, y4)] else []) ↔
    (b2 ↔ c2) ∧ (b3 ↔ c3) ∧ (¬ b2 → x3 = y3) ∧ (b3 → x4 = y4) := by
  by_cases h1 : b2 <;> by_cases h2 : b3 <;> by_cases h3 : c2 <;> by_cases h4 : c3 <;>
    simp [h1, h2, h3, h4, hk, hk.symm]

theorem head_members {k1 : Str} {b : Prop} [Decidable b] {x y : J} {r r' : List (Str × J)} :
    ((if b then [(k1, x)] else []) ++ r = (if b then [(k1, y)] else []) ++ r') ↔ (b → x = y) ∧ r = r' := by
  by_cases h : b <;> simp [h]

mutual
/-- What is written says exactly that. -/
theorem jNode_alike (f : Data → J) (b : Bool) : ∀ (t t' : NTree), TextNames t → TextNames t' →
    (jNode E f ⟨true, b⟩ t = jNode E f ⟨true, b⟩ t' ↔ Alike E f b t t')
  | .mk c name at' kids, .mk c' name' at'' kids', h, h' => by
    have ih := jNodes_alike f b kids kids' h.2 h'.2
    unfold jNode Alike
    simp only [if_true, J.obj.injEq]
    rw [head_members]
    simp only [List.cons.injEq, Prod.mk.injEq, true_and, J.str.injEq]
    rw [opt_members (by decide)]
    simp only [J.list.injEq, J.obj.injEq, ih]
    have hn : jKey name = jKey name' ↔ name = name' := ⟨jKey_inj h.1 h'.1, fun e => by rw [e]⟩
    have he : (kids.isEmpty = true ↔ kids'.isEmpty = true) ∧ (¬ kids.isEmpty = true → AlikeAll E f b kids kids') ↔
        AlikeAll E f b kids kids' := by
      cases kids <;> cases kids' <;> simp [AlikeAll]
    rw [hn]
    constructor
    · rintro ⟨h1, h2, h3, h4, h5, h6⟩
      exact ⟨h2, he.mp ⟨h3, h5⟩, h4, h6, fun hb => h1 (.inr hb)⟩
    · rintro ⟨h1, h2, h3, h4, h5⟩
      exact ⟨fun hb => h5 (hb.resolve_left (by decide)), h1, (he.mpr h2).1, h3, fun _ => h2, h4⟩
theorem jNodes_alike (f : Data → J) (b : Bool) : ∀ (ts ts' : List NTree), TextNamesAll ts → TextNamesAll ts' →
    (jNodes E f ⟨true, b⟩ ts = jNodes E f ⟨true, b⟩ ts' ↔ AlikeAll E f b ts ts')
  | [], [], _, _ => by simp [jNodes, AlikeAll]
  | [], _ :: _, _, _ => by simp [jNodes, AlikeAll]
  | _ :: _, [], _, _ => by simp [jNodes, AlikeAll]
  | t :: ts, t' :: ts', h, h' => by
    simp only [jNodes, AlikeAll, List.cons.injEq, jNode_alike f b t t' h.1 h'.1, jNodes_alike f b ts ts' h.2 h'.2]
end

/-- C48, what is true of it: in simple mode the JSON value of the tree is written - name, children
and attributes of every node in the same shape, and the class with `include_class` only -, and
nothing changes except that attributes nobody asked for so far are there, empty. -/
theorem c48_written_partial (hE : 0 < E.depth) {w : World} (hw : Reachable E w) {t : NTree} {o : Oid} (b : Bool)
    (hs : Shape E (· < w.nobj) w t o) (hr : Readable E Writable t) {n : Nat} (hn : tall t < n) :
    ∃ w', serialize E N ⟨true, b⟩ n (.val (.node o)) w =
        (.ok (jNode E (shown N ⟨true, b⟩) ⟨true, b⟩ t), w') ∧
      Shape E (· < w'.nobj) w' t o ∧ ∀ p, p < w.nobj → w'.omap p = w.omap p ∧
        (w'.objs p).cls = (w.objs p).cls ∧ (w'.objs p).name = (w.objs p).name ∧
        (w'.objs p).parent = (w.objs p).parent := by
  obtain ⟨w1, h1, h2⟩ := serialize_tree (f := shown N ⟨true, b⟩) (fun d hd => enc_shown ⟨true, b⟩ d hd) hE hw.wf hs hr hn
  exact ⟨w1, h1, Shape.grows h2 t o hs, fun p hp => ⟨congrArg Od.toMap (h2.children p hp), h2.cls p hp,
    congrArg Prod.fst (h2.loc p hp), congrArg Prod.snd (h2.loc p hp)⟩⟩

/-- Two trees are written alike exactly if they agree in names, children and attributes, and, with
`include_class`, in their classes: nothing is lost and nothing else is in it. -/
theorem c48_exactly (hE : 0 < E.depth) {w v : World} (hw : Reachable E w) (hv : Reachable E v) {t u : NTree}
    {o p : Oid} (b : Bool) (hs : Shape E (· < w.nobj) w t o) (hs' : Shape E (· < v.nobj) v u p)
    (hr : Readable E Writable t) (hr' : Readable E Writable u) {n : Nat} (hn : tall t < n) (hn' : tall u < n) :
    (serialize E N ⟨true, b⟩ n (.val (.node o)) w).1 = (serialize E N ⟨true, b⟩ n (.val (.node p)) v).1 ↔
      Alike E (shown N ⟨true, b⟩) b t u := by
  obtain ⟨w1, h1, -⟩ := c48_written_partial (N := N) hE hw b hs hr hn
  obtain ⟨w2, h2, -⟩ := c48_written_partial (N := N) hE hv b hs' hr' hn'
  rw [h1, h2]
  simp only [Except.ok.injEq]
  exact jNode_alike _ b t u (Readable.textNames t hr) (Readable.textNames u hr')

/-! ### Concrete cases -/

mutual
theorem Readable.weaken {A B : Data → Prop} (h : ∀ d, A d → B d) : ∀ (t : NTree), Readable E A t → Readable E B t
  | .mk _ _ _ kids, ⟨h1, h2, h3, h4, h5⟩ => ⟨h1, h2, fun hb => ⟨(h3 hb).1, (h3 hb).2.1, (h3 hb).2.2.1,
      (h3 hb).2.2.2.1, fun kv hkv => ⟨((h3 hb).2.2.2.2 kv hkv).1, h _ ((h3 hb).2.2.2.2 kv hkv).2⟩⟩, h4, Readables.weaken h kids h5⟩
theorem Readables.weaken {A B : Data → Prop} (h : ∀ d, A d → B d) : ∀ (ts : List NTree), Readables E A ts →
    Readables E B ts
  | [], _ => trivial
  | t :: ts, hr => ⟨Readable.weaken h t hr.1, Readables.weaken h ts hr.2⟩
end

theorem c48_sample_readable : Readable serEnv Writable c46Tree :=
  Readable.weaken (fun d hd => safe_writable (N := sampleCodec) d hd.1 hd.2) _ (Buildable.readable _ c46_sample_buildable c46_sample_unwrapped)

example : ∃ w', serialize serEnv sampleCodec ⟨true, false⟩ 5 (.val (.node 0)) (after serEnv c46Ops) =
    (.ok (.obj [("name".toList, .str ['r']), ("children".toList, .list [
      .obj [("name".toList, .str ['a']),
        ("children".toList, .list [.obj [("name".toList, .str ['b']), ("attrs".toList, .obj [])]]),
        ("attrs".toList, .obj [(['c'], .list [.str "<UNSET>".toList, .int 5])])],
      .obj [("name".toList, .str ['b']), ("attrs".toList, .obj [])]]), ("attrs".toList, .obj [])]), w') := by
  obtain ⟨w', h, -⟩ := c48_written_partial (N := sampleCodec) (by decide) (reachable_after serEnv c46Ops) false
    c46_sample_shape c48_sample_readable (n := 5) (by decide)
  exact ⟨w', h⟩

/-- C48 is false: a tree with a name made of bytes cannot be written in simple mode either. -/
theorem c48_refuted : ∃ ops, ∀ n b, 2 ≤ n →
    (serialize serEnv sampleCodec ⟨true, b⟩ n (.val (.node 0)) (after serEnv ops)).1 =
      .error (.value "Circular reference detected") := by
  refine ⟨[.new 1 .none none, .new 1 .none none, .set 0 (.bytes [1]) (.node 1)], ?_⟩
  rintro (_ | _ | n) b h
  · cases h
  · cases h with | step h => cases h
  · cases b <;> rfl

end Verif.Ser
