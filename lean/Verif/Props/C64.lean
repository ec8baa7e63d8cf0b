import Verif.Props.C48
import Verif.Props.C60

/-!
# C64: serialization is stable

Writing a tree twice, writing what was read from the written data, and writing a deep copy all
give the same data (`c64_again_partial`, `c64_roundtrip_partial`, `c64_deepcopy_partial`), in every
mode, for trees whose nodes are read item by item.  For trees with marker-like strings the claim
about data read back is false: the text of a uuid is normalised (`c64_refuted`).
-/

namespace Verif.Ser

variable {E : Env} {N : Codec}

/-- C64, what is true of it: writing a tree leaves everything so that writing it again, in the same
or any other mode, gives what it would have given before. -/
theorem c64_again_partial (hE : 0 < E.depth) {w : World} (hw : Reachable E w) {t : NTree} {o : Oid}
    (hs : Shape E (· < w.nobj) w t o) (hr : Readable E Writable t) {n n' : Nat} (hn : tall t < n) (hn' : tall t < n')
    (m m' : Mode) :
    ∃ j j' w1 w2 w3, serialize E N m n (.val (.node o)) w = (.ok j, w1) ∧
      serialize E N m' n' (.val (.node o)) w = (.ok j', w2) ∧
      serialize E N m' n' (.val (.node o)) w1 = (.ok j', w3) := by
  obtain ⟨w1, h1, g1⟩ := serialize_tree (N := N) (f := shown N m) (fun d hd => enc_shown m d hd) hE hw.wf hs hr hn
  obtain ⟨w2, h2, _⟩ := serialize_tree (N := N) (f := shown N m') (fun d hd => enc_shown m' d hd) hE hw.wf hs hr hn'
  obtain ⟨w3, h3, _⟩ := serialize_tree (N := N) (f := shown N m') (fun d hd => enc_shown m' d hd) hE g1.wf
    (Shape.grows g1 t o hs) hr hn'
  exact ⟨_, _, w1, w2, w3, h1, h2, h3⟩

/-- C64, what is true of it: what is read from the data of a tree is written like the tree itself,
in any mode. -/
theorem c64_roundtrip_partial (hE : 0 < E.depth) {w : World} (hw : Reachable E w) {t : NTree} {o : Oid}
    (hs : Shape E (· < w.nobj) w t o) (hb : Buildable E N (Keeps N) t) (hu : Unwrapped E t) {n : Nat} (hn : tall t < n) (m : Mode) :
    ∃ j w1 o' w2 j' w3 w4, serialize E N {} n (.val (.node o)) w = (.ok j, w1) ∧
      deserialize E N n j none w1 = (.ok (.node o'), w2) ∧ o' ≠ o ∧
      serialize E N m n (.val (.node o')) w2 = (.ok j', w3) ∧
      serialize E N m n (.val (.node o)) w = (.ok j', w4) := by
  have hr := Buildable.readable t hb hu
  have hm : ∀ d, Keeps N d → encData N m d = .ok (shown N m d) := fun d hd => enc_shown m d (safe_writable d hd.1 hd.2)
  obtain ⟨w1, h1, h2⟩ := serialize_tree (f := shown N {}) (fun d hd => (Keeps.shown hd).2.2) hE hw.wf hs hr hn
  obtain ⟨w2, h3, h4⟩ := decode_tree (f := shown N {}) (A := Keeps N) (fun d hd => hd.shown) hE t n none w1 h2.wf hb hn
    nofun
  obtain ⟨w3, h5, _⟩ := serialize_tree hm hE h4.wf (Shape.mono (fun p hp => hp.2) t _ h4.shape) hr hn
  obtain ⟨w4, h6, _⟩ := serialize_tree hm hE hw.wf hs hr hn
  refine ⟨_, w1, _, w2, _, w3, w4, h1, h3, ?_, h5, h6⟩
  have : o < w1.nobj := Nat.lt_of_lt_of_le (by cases t; exact hs.1) h2.index.le
  omega

/-- C64, what is true of it: a deep copy is written like the original, in any mode. -/
theorem c64_deepcopy_partial (hE : 0 < E.depth) {w w' : World} (hw : WF w) (hi : Intact w) {t : NTree} {o c : Oid}
    (hs : Shape E (· < w.nobj) w t o) (hr : Readable E Writable t) (hu : Bhv.uuidAware ∉ (clsOf E w o).bhvs)
    (h : deepcopy E o w = (.ok c, w')) {n : Nat} (hn : tall t < n) (m : Mode) :
    c ≠ o ∧ ∃ j w1 w2, serialize E N m n (.val (.node c)) w' = (.ok j, w1) ∧
      serialize E N m n (.val (.node o)) w = (.ok j, w2) := by
  have ho : o < w.nobj := by cases t; exact hs.1
  have hc := c60_shape_partial hw hi ho hu hs h
  obtain ⟨w1, h1, _⟩ := serialize_tree (N := N) (f := shown N m) (fun d hd => enc_shown m d hd) hE
    (deepcopy_wf hw hi ho hu h) (Shape.mono (fun p hp => hp.2) t _ hc) hr hn
  obtain ⟨w2, h2, _⟩ := serialize_tree (N := N) (f := shown N m) (fun d hd => enc_shown m d hd) hE hw hs hr hn
  have : w.nobj ≤ c := by cases t; exact hc.1.1
  exact ⟨by omega, _, w1, w2, h1, h2⟩

/-! ### Concrete cases -/

example : ∃ j w1 o' w2 j' w3 w4, serialize serEnv sampleCodec {} 5 (.val (.node 0)) (after serEnv c46Ops) = (.ok j, w1) ∧
    deserialize serEnv sampleCodec 5 j none w1 = (.ok (.node o'), w2) ∧ o' ≠ 0 ∧
    serialize serEnv sampleCodec ⟨true, false⟩ 5 (.val (.node o')) w2 = (.ok j', w3) ∧
    serialize serEnv sampleCodec ⟨true, false⟩ 5 (.val (.node 0)) (after serEnv c46Ops) = (.ok j', w4) :=
  c64_roundtrip_partial (by decide) (reachable_after _ _) c46_sample_shape c46_sample_buildable c46_sample_unwrapped (by decide) _

example : ∃ j j' w1 w2 w3, serialize serEnv sampleCodec {} 5 (.val (.node 0)) (after serEnv c46Ops) = (.ok j, w1) ∧
    serialize serEnv sampleCodec ⟨true, true⟩ 6 (.val (.node 0)) (after serEnv c46Ops) = (.ok j', w2) ∧
    serialize serEnv sampleCodec ⟨true, true⟩ 6 (.val (.node 0)) w1 = (.ok j', w3) :=
  c64_again_partial (by decide) (reachable_after _ _) c46_sample_shape c48_sample_readable (by decide) (by decide) _ _

example (w' : World) (h : deepcopy serEnv 0 (after serEnv c46Ops) = (.ok 5, w')) :
    ∃ j w1 w2, serialize serEnv sampleCodec {} 5 (.val (.node 5)) w' = (.ok j, w1) ∧
      serialize serEnv sampleCodec {} 5 (.val (.node 0)) (after serEnv c46Ops) = (.ok j, w2) :=
  (c64_deepcopy_partial (by decide) (reachable_after _ _).wf (intact_after (by decide +kernel)) c46_sample_shape
    c48_sample_readable (by decide +kernel) h (by decide) {}).2

example : (deepcopy serEnv 0 (after serEnv c46Ops)).1.toOption = some 5 := by decide +kernel

mutual
/-- Equality of JSON values. -/
def J.eqb : J → J → Bool
  | .null, .null => true
  | .bool a, .bool b => a == b
  | .int a, .int b => a == b
  | .str a, .str b => a == b
  | .list a, .list b => J.eqbs a b
  | .obj a, .obj b => J.eqbp a b
  | _, _ => false
/-- Equality of lists. -/
def J.eqbs : List J → List J → Bool
  | [], [] => true
  | x :: r, y :: s => J.eqb x y && J.eqbs r s
  | _, _ => false
/-- Equality of members. -/
def J.eqbp : List (Str × J) → List (Str × J) → Bool
  | [], [] => true
  | (k, x) :: r, (j, y) :: s => k == j && J.eqb x y && J.eqbp r s
  | _, _ => false
end

mutual
theorem J.eqb_refl : ∀ j : J, J.eqb j j = true
  | .null => rfl
  | .bool _ => by simp [J.eqb]
  | .int _ => by simp [J.eqb]
  | .str _ => by simp [J.eqb]
  | .list l => by simp [J.eqb, J.eqbs_refl l]
  | .obj l => by simp [J.eqb, J.eqbp_refl l]
theorem J.eqbs_refl : ∀ l : List J, J.eqbs l l = true
  | [] => rfl
  | x :: r => by simp [J.eqbs, J.eqb_refl x, J.eqbs_refl r]
theorem J.eqbp_refl : ∀ l : List (Str × J), J.eqbp l l = true
  | [] => rfl
  | (_, x) :: r => by simp [J.eqbp, J.eqb_refl x, J.eqbp_refl r]
end

/-- A node with a string as attribute that spells a uuid in another way. -/
def c64Ops : List Op := [.new 2 (.str ['r']) none, .attrs 0, .set 1 ka (.data (.str "<UUID>:ab".toList))]

/-- Writing, reading and writing again: whether both times the same was written. -/
def c64Run : Option Bool :=
  let a := serialize serEnv sampleCodec {} 5 (.val (.node 0)) (after serEnv c64Ops)
  match a.1 with
  | .error _ => none
  | .ok j =>
    let b := deserialize serEnv sampleCodec 5 j none a.2
    match b.1 with
    | .ok (.node o') =>
      match (serialize serEnv sampleCodec {} 5 (.val (.node o')) b.2).1 with
      | .ok j' => some (J.eqb j j')
      | .error _ => none
    | _ => none

/-- C64 is false: a string that looks like a uuid in another spelling comes back as the uuid, which
is written in the normal spelling. -/
theorem c64_refuted : ∃ ops j w1 o' w2 j' w3,
    serialize serEnv sampleCodec {} 5 (.val (.node 0)) (after serEnv ops) = (.ok j, w1) ∧
    deserialize serEnv sampleCodec 5 j none w1 = (.ok (.node o'), w2) ∧
    serialize serEnv sampleCodec {} 5 (.val (.node o')) w2 = (.ok j', w3) ∧ j ≠ j' := by
  have h : c64Run = some false := by decide +kernel
  unfold c64Run at h
  refine ⟨c64Ops, ?_⟩
  rcases h1 : serialize serEnv sampleCodec {} 5 (.val (.node 0)) (after serEnv c64Ops) with ⟨e | j, w1⟩
  · simp only [h1] at h; cases h
  simp only [h1] at h
  rcases h2 : deserialize serEnv sampleCodec 5 j none w1 with ⟨e | x, w2⟩
  · simp only [h2] at h; cases h
  simp only [h2] at h
  cases x with
  | node o' =>
    simp only at h
    rcases h3 : serialize serEnv sampleCodec {} 5 (.val (.node o')) w2 with ⟨e | j', w3⟩
    · simp only [h3] at h; cases h
    simp only [h3, Option.some.injEq] at h
    refine ⟨j, w1, o', w2, j', w3, rfl, h2, h3, fun e => ?_⟩
    subst e
    rw [J.eqb_refl] at h
    cases h
  | data _ => cases h
  | list _ => cases h

end Verif.Ser
