import Verif.Lemmas.UncacheSer
import Verif.Props.C15Cached
import Verif.Props.C48
import Verif.Props.C49
import Verif.Props.C64

/-!
# C46, C48, C49 and C64 with `Cache`

Serializing and deserializing trees of caching nodes, after any history in which `Cache` is transparent (C31).
The trees must be readable and buildable by the classes without `Cache`.
-/

namespace Verif.Ser

open Verif

section
variable {E : Env}

theorem attributes_uncached (c : ClassId) : Bhv.attributes ∈ (E.uncached.cls c).bhvs ↔ Bhv.attributes ∈ (E.cls c).bhvs := by
  rw [bhvs_uncached, unc, List.mem_filter]
  exact ⟨fun h => h.1, fun h => ⟨h, by decide⟩⟩

mutual
theorem shape_uncache {P : Oid → Prop} {w : World} : ∀ (t : NTree) (o : Oid), Shape E.uncached P w.uncache t o ↔ Shape E P w t o
  | .mk c name attrs kids, o => by
    refine and_congr Iff.rfl (and_congr Iff.rfl (and_congr Iff.rfl (and_congr ?_ (shapes_uncache kids o _))))
    by_cases h : Bhv.attributes ∈ (E.cls c).bhvs
    · rw [if_pos h, if_pos ((attributes_uncached c).mpr h)]; exact Iff.rfl
    · rw [if_neg h, if_neg (fun x => h ((attributes_uncached c).mp x))]
theorem shapes_uncache {P : Oid → Prop} {w : World} : ∀ (ts : List NTree) (o : Oid) (l : List (Key × Val)),
    Shapes E.uncached P w.uncache o ts l ↔ Shapes E P w o ts l
  | [], _, _ => Iff.rfl
  | t :: ts, o, l => exists_congr fun c => exists_congr fun r => and_congr Iff.rfl (and_congr Iff.rfl
      (and_congr (shape_uncache t c) (shapes_uncache ts o r)))
end

mutual
theorem unwrapped_uncached : ∀ {t : NTree}, Unwrapped E t → Unwrapped E.uncached t
  | .mk c _ _ _, h => ⟨fun x => h.1 ((attributes_uncached c).mp x), unwrappeds_uncached h.2⟩
theorem unwrappeds_uncached : ∀ {ts : List NTree}, Unwrappeds E ts → Unwrappeds E.uncached ts
  | [], _ => trivial
  | _ :: _, h => ⟨unwrapped_uncached h.1, unwrappeds_uncached h.2⟩
end

mutual
theorem jNode_uncached (f : Data → J) (m : Mode) : ∀ t : NTree, jNode E.uncached f m t = jNode E f m t
  | .mk c name attrs kids => by
    have h : (if Bhv.attributes ∈ (E.uncached.cls c).bhvs then
        [("attrs".toList, J.obj (attrs.map fun kv => (kv.1, f kv.2)))] else []) =
        if Bhv.attributes ∈ (E.cls c).bhvs then [("attrs".toList, J.obj (attrs.map fun kv => (kv.1, f kv.2)))] else [] := by
      simp only [attributes_uncached]
    simp only [jNode, h, jNodes_uncached f m kids]
    rfl
theorem jNodes_uncached (f : Data → J) (m : Mode) : ∀ ts : List NTree, jNodes E.uncached f m ts = jNodes E f m ts
  | [] => rfl
  | t :: ts => by simp only [jNodes, jNode_uncached f m t, jNodes_uncached f m ts]
end

end

section
variable {E : Env} {N : Codec} {ops : List Op} (hs : ∀ c, CacheSafe (E.cls c)) (hh : FitsAll E ops {}) (hE : 0 < E.depth)
include hs hh

theorem inv_after : Inv Prot.none (after E ops) := by
  refine intact_iff.mp (Intact.empty.execAll (E := E) (ops := ops) ?_)
  clear hs
  generalize ({} : World) = w at hh
  induction ops generalizing w with
  | nil => trivial
  | cons op r ih => exact ⟨fun c hc => ⟨hh.1.1 c hc, trivial⟩, ih _ hh.2⟩

omit hh in
theorem serialized {w : World} (hf : Fresh E w) (hI : Inv Prot.none w) {o : Oid} (ho : o < w.nobj) (m : Mode) (n : Nat) {j : J}
    {v : World} (h : serialize E.uncached N m n (.val (.node o)) w.uncache = (.ok j, v)) :
    ∃ w1, serialize E N m n (.val (.node o)) w = (.ok j, w1) ∧ w1.uncache = v ∧ Fresh E w1 ∧ Inv Prot.none w1 ∧
      w.nobj ≤ w1.nobj := by
  obtain ⟨h1, h2, h3, -⟩ := srel_serialize (N := N) (n := w.nobj) hs m n (.val (.node o))
    (.val fun c hc => ⟨id, by injection hc with hc; subst hc; exact ho⟩) w hf hI (Nat.le_refl _)
  rw [h1.1] at h
  obtain ⟨e1, e2⟩ := Prod.mk.inj h
  exact ⟨_, Prod.ext e1 rfl, e2, h1.2, h2, h3⟩

omit hh in
theorem deserialized {w : World} (hf : Fresh E w) (hI : Inv Prot.none w) {root : Option Oid}
    (hr : ∀ r, root = some r → r < w.nobj) (n : Nat) {j : J} {x : Dec}
    {v : World} (h : deserialize E.uncached N n j root w.uncache = (.ok x, v)) :
    ∃ w1, deserialize E N n j root w = (.ok x, w1) ∧ w1.uncache = v ∧ Fresh E w1 ∧ Inv Prot.none w1 := by
  obtain ⟨h1, h2, h3, -⟩ := srel_decode (N := N) (n := w.nobj) hs n (j := j) (parent := root)
    (fun p hp => ⟨id, hr p hp⟩) w hf hI (Nat.le_refl _)
  rw [deserialize, h1.1] at h
  obtain ⟨e1, e2⟩ := Prod.mk.inj h
  exact ⟨_, Prod.ext e1 rfl, e2, h1.2, h2⟩

include hE

/-- **C46** with caches. -/
theorem c46_cached_partial {t : NTree} {o : Oid} (hsh : Shape E (· < (after E ops).nobj) (after E ops) t o)
    (hb : Buildable E.uncached N (Keeps N) t) (hu : Unwrapped E t) {n : Nat} (hn : tall t < n) :
    ∃ j w1 o' w2, serialize E N {} n (.val (.node o)) (after E ops) = (.ok j, w1) ∧
      deserialize E N n j none w1 = (.ok (.node o'), w2) ∧
      Shape E (fun p => w1.nobj ≤ p ∧ p < w2.nobj) w2 t o' ∧
      (Bhv.defaultInit ∈ (E.cls t.cls).bhvs → (w2.objs o').parent = none) ∧
      Shape E (· < w1.nobj) w2 t o := by
  have hr := reachable_uncached hs hh
  have hf := fresh_after hs hh
  have hI := inv_after hs hh
  generalize after E ops = w at *
  have ho : o < w.nobj := by cases t; exact hsh.1
  obtain ⟨j, v1, o', v2, h1, h2, h3, h4, h5⟩ := c46_roundtrip_partial (E := E.uncached) (N := N) hE hr
    ((shape_uncache t o).mpr hsh) hb (unwrapped_uncached hu) hn
  obtain ⟨w1, g1, rfl, f1, i1, -⟩ := serialized hs hf hI ho _ _ h1
  obtain ⟨w2, g2, rfl, -, -⟩ := deserialized (root := none) hs f1 i1 nofun _ h2
  refine ⟨j, w1, o', w2, g1, g2, (shape_uncache t o').mp h3, fun hd => h4 ?_, (shape_uncache t o).mp h5⟩
  rw [bhvs_uncached, unc, List.mem_filter]
  exact ⟨hd, by decide⟩

/-- **C48** with caches. -/
theorem c48_cached_partial {t : NTree} {o : Oid} (b : Bool) (hsh : Shape E (· < (after E ops).nobj) (after E ops) t o)
    (hrd : Readable E.uncached Writable t) {n : Nat} (hn : tall t < n) :
    ∃ w', serialize E N ⟨true, b⟩ n (.val (.node o)) (after E ops) =
        (.ok (jNode E (shown N ⟨true, b⟩) ⟨true, b⟩ t), w') ∧
      Shape E (· < w'.nobj) w' t o ∧ ∀ p, p < (after E ops).nobj → w'.omap p = (after E ops).omap p ∧
        (w'.objs p).cls = ((after E ops).objs p).cls ∧ (w'.objs p).name = ((after E ops).objs p).name ∧
        (w'.objs p).parent = ((after E ops).objs p).parent := by
  have hr := reachable_uncached hs hh
  have hf := fresh_after hs hh
  have hI := inv_after hs hh
  generalize after E ops = w at *
  have ho : o < w.nobj := by cases t; exact hsh.1
  obtain ⟨v1, h1, h2, h3⟩ := c48_written_partial (E := E.uncached) (N := N) hE hr b ((shape_uncache t o).mpr hsh) hrd hn
  obtain ⟨w1, g1, rfl, -⟩ := serialized hs hf hI ho _ _ h1
  exact ⟨w1, by rw [g1, jNode_uncached], (shape_uncache t o).mp h2, h3⟩

/-- **C49** with caches: copying a subtree by writing and reading, also below a node of the same tree. -/
theorem c49_cached_partial {t : NTree} {o r : Oid} (hsh : Shape E (· < (after E ops).nobj) (after E ops) t o)
    (hb : Buildable E.uncached N (Keeps N) t) (hu : Unwrapped E t) {n : Nat} (hn : tall t < n)
    (hp : Par E.uncached t (after E ops).uncache r) :
    ∃ j w1 o' w2, serialize E N {} n (.val (.node o)) (after E ops) = (.ok j, w1) ∧
      deserialize E N n j (some r) w1 = (.ok (.node o'), w2) ∧
      Shape E (fun p => w1.nobj ≤ p ∧ p < w2.nobj) w2 t o' ∧ (w2.objs o').parent = some r ∧
      (w2.omap r).val t.name = some (.node o') ∧
      ∀ k, k ≠ t.name → (w2.omap r).val k = ((after E ops).omap r).val k := by
  have hr := reachable_uncached hs hh
  have hf := fresh_after hs hh
  have hI := inv_after hs hh
  generalize after E ops = w at *
  have ho : o < w.nobj := by cases t; exact hsh.1
  obtain ⟨j, v1, o', v2, h1, h2, h3, h4, h5, h6⟩ := c49_roundtrip_partial (E := E.uncached) (N := N) hE hr
    ((shape_uncache t o).mpr hsh) hb (unwrapped_uncached hu) hn hp
  obtain ⟨w1, g1, rfl, f1, i1, hle⟩ := serialized hs hf hI ho _ _ h1
  obtain ⟨w2, g2, rfl, -, -⟩ := deserialized hs f1 i1
    (fun r' e => by injection e with e; subst e; exact Nat.lt_of_lt_of_le hp.lt hle) _ h2
  exact ⟨j, w1, o', w2, g1, g2, (shape_uncache t o').mp h3, h4, h5, h6⟩

/-- **C64** with caches: what is read from the data of a tree is written like the tree itself, in any mode. -/
theorem c64_cached_partial {t : NTree} {o : Oid} (hsh : Shape E (· < (after E ops).nobj) (after E ops) t o)
    (hb : Buildable E.uncached N (Keeps N) t) (hu : Unwrapped E t) {n : Nat} (hn : tall t < n) (m : Mode) :
    ∃ j w1 o' w2 j' w3 w4, serialize E N {} n (.val (.node o)) (after E ops) = (.ok j, w1) ∧
      deserialize E N n j none w1 = (.ok (.node o'), w2) ∧ o' ≠ o ∧
      serialize E N m n (.val (.node o')) w2 = (.ok j', w3) ∧
      serialize E N m n (.val (.node o)) (after E ops) = (.ok j', w4) := by
  have hr := reachable_uncached hs hh
  have hf := fresh_after hs hh
  have hI := inv_after hs hh
  generalize after E ops = w at *
  have ho : o < w.nobj := by cases t; exact hsh.1
  obtain ⟨j, v1, o', v2, j', v3, v4, h1, h2, h3, h4, h5⟩ := c64_roundtrip_partial (E := E.uncached) (N := N) hE hr
    ((shape_uncache t o).mpr hsh) hb (unwrapped_uncached hu) hn m
  obtain ⟨w1, g1, rfl, f1, i1, -⟩ := serialized hs hf hI ho _ _ h1
  obtain ⟨w4, g4, -⟩ := serialized hs hf hI ho _ _ h5
  obtain ⟨hd1, hd2, -, hd3⟩ := srel_decode (N := N) (n := w1.nobj) hs n (j := j) (parent := none) nofun w1 f1 i1 (Nat.le_refl _)
  obtain ⟨w2, g2, rfl, f2, i2⟩ := deserialized (root := none) hs f1 i1 nofun _ h2
  have ho' : o' < w2.nobj := by
    rw [show decode E N n j none w1 = _ from g2] at hd3
    exact (hd3 _ rfl o' (by simp [Dec.nodes])).2
  obtain ⟨w3, g3, -⟩ := serialized hs f2 i2 ho' _ _ h4
  exact ⟨j, w1, o', w2, j', w3, w4, g1, g2, h3, g3, g4⟩

end

/-! ### Concrete cases -/

/-- Caching nodes with attributes. -/
def cachedSerEnv : Env where
  cls
    | 2 => { bhvs := [.nodeChildValidate, .nodespaces, .adopt, .attributes, .reference, .order, .asAttrAccess, .cache,
        .defaultInit, .nodify, .odictStorage], attrsFactory := 3, dotted := "node.base.AttributedNode".toList }
    | _ => nodeAttributes

theorem cachedSerEnv_safe : ∀ c, CacheSafe (cachedSerEnv.cls c) := by
  have h : CacheSafe nodeAttributes := ⟨by decide, by decide, by decide⟩
  intro c
  match c with
  | 0 => exact h
  | 1 => exact h
  | 2 => exact ⟨by decide, by decide, by decide⟩
  | _ + 3 => exact h

/-- A root with a child that has an attribute, read so that the cache of the root is filled. -/
def cachedSerOps : List Op := [.new 2 (.str ['r']) none, .new 2 .none none, .set 0 ka (.node 1), .attrs 1,
  .set 2 kc (.data (.list [.unset, .int 5])), .get 0 ka]

/-- Its shape. -/
def cachedSerTree : NTree := .mk 2 (.str ['r']) [] [.mk 2 ka [(['c'], .list [.unset, .int 5])] []]

theorem cachedSer_fits : FitsAll cachedSerEnv cachedSerOps {} := by
  have none' : ∀ {w : World} {op : Op}, (∀ o, op ≠ .invalidate o .none) → ∀ o, op = .invalidate o .none →
      Bhv.cache ∉ (clsOf cachedSerEnv w o).bhvs := fun h o e => absurd e (h o)
  refine ⟨⟨?_, none' nofun⟩, ⟨?_, none' nofun⟩, ⟨?_, none' nofun⟩, ⟨?_, none' nofun⟩, ⟨?_, none' nofun⟩, ⟨?_, none' nofun⟩,
    trivial⟩ <;> (intro c hc; simp [Op.vals] at hc) <;> (try rcases hc with rfl | rfl) <;> (try subst hc) <;> decide +kernel

theorem cachedSer_shape : Shape cachedSerEnv (· < (after cachedSerEnv cachedSerOps).nobj) (after cachedSerEnv cachedSerOps)
    cachedSerTree 0 := by
  have hb : Bhv.attributes ∈ (cachedSerEnv.cls 2).bhvs := by decide
  refine ⟨by decide +kernel, by decide +kernel, by decide +kernel, ?_, 1, [], by decide +kernel, by decide +kernel,
    ⟨by decide +kernel, by decide +kernel, by decide +kernel, ?_, by show _ = _; decide +kernel⟩, rfl⟩
  all_goals rw [if_pos hb]; unfold HasAttrs
  · rw [show ((after cachedSerEnv cachedSerOps).nmap 0).val attrsKey = none by decide +kernel]
  · rw [show ((after cachedSerEnv cachedSerOps).nmap 1).val attrsKey = some (.node 2) by decide +kernel]
    exact ⟨by decide +kernel, by decide +kernel, by decide +kernel⟩

theorem cachedSer_buildable : Buildable cachedSerEnv.uncached sampleCodec (Keeps sampleCodec) cachedSerTree := by
  have hb : Bhv.attributes ∈ (cachedSerEnv.uncached.cls 2).bhvs := by decide
  have r2 : ReadClass (cachedSerEnv.uncached.cls 2) := ⟨⟨.odictStorage, by decide, by decide⟩, by decide⟩
  have r3 : ReadClass (cachedSerEnv.uncached.cls 3) := ⟨⟨.odictStorage, by decide, by decide⟩, by decide⟩
  have hk : ∀ k : Str, KeyFor (cachedSerEnv.uncached.cls 3) (.str k) := fun k h => absurd h (by decide)
  have hka : KeyFor (cachedSerEnv.uncached.cls 2) ka := fun _ => ⟨_, rfl, by rintro ⟨⟨t, ht⟩, -⟩; cases ht⟩
  refine ⟨r2, nofun, by decide +kernel, ?_, by decide, ?_, ⟨r2, nofun, by decide +kernel, ?_, by decide, nofun, trivial⟩, trivial⟩
  · rw [if_pos hb]
    exact ⟨by decide, r3, by decide, by decide, nofun⟩
  · intro t ht
    simp only [List.mem_cons, List.not_mem_nil, or_false] at ht
    subst ht
    exact ⟨by decide, hka, fun _ => (by decide : Bhv.reference ∈ (cachedSerEnv.uncached.cls 2).bhvs)⟩
  · rw [if_pos hb]
    refine ⟨by decide, r3, by decide, by decide, fun kv hkv => ?_⟩
    simp only [List.mem_cons, List.not_mem_nil, or_false] at hkv
    subst hkv
    exact ⟨hk _, by decide, ⟨trivial, trivial, trivial⟩, trivial, trivial, trivial⟩

example : (after cachedSerEnv cachedSerOps).cached 0 = [(ka, .node 1)] ∧
    ∃ j w1 o' w2, serialize cachedSerEnv sampleCodec {} 5 (.val (.node 0)) (after cachedSerEnv cachedSerOps) = (.ok j, w1) ∧
    deserialize cachedSerEnv sampleCodec 5 j none w1 = (.ok (.node o'), w2) ∧
    Shape cachedSerEnv (fun p => w1.nobj ≤ p ∧ p < w2.nobj) w2 cachedSerTree o' := by
  obtain ⟨j, w1, o', w2, h1, h2, h3, -⟩ := c46_cached_partial (N := sampleCodec) cachedSerEnv_safe cachedSer_fits (by decide)
    cachedSer_shape cachedSer_buildable ⟨fun _ => rfl, ⟨fun _ => rfl, trivial⟩, trivial⟩ (n := 5) (by decide)
  exact ⟨by decide +kernel, j, w1, o', w2, h1, h2, h3⟩

end Verif.Ser
