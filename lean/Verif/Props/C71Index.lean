import Verif.Props.C15
import Verif.Props.C71

/-!
# C71: `set_uuid_for` and the index

In a tree of `Reference` nodes `set_uuid_for` keeps the index exact: each node is found under the uuid it
has afterwards and under no other, whether the call returns or raises.
-/

namespace Verif

variable {E : Env}

/-- In a forest of `Reference` trees grown through the API, `set_uuid_for` on any node, with or without
`override` and `recursiv`, returning or raising, leaves every tree exactly indexed: asked on any node,
`node(uuid)` answers with the node that has the uuid now. -/
theorem c71_index (hE : 0 < E.depth) {w w' : World} {Rs : List Oid} (h : Grown E w Rs) (hi : Issued w)
    {override recursiv : Bool} {R o : Oid} (hR : R ∈ Rs) (ho : InTree w R o) {res : Except Exc Unit}
    (hs : setUuidForNode E override recursiv o w = (res, w')) : ∀ A ∈ Rs, Indexed w' A := fun A hA => by
  obtain ⟨r, hr⟩ := ((h.uuids hR ho hi hs).forest hE).live A hA
  exact hr.indexed

/-! ### A tree -/

theorem gap_ref : RefClass (gapEnv.cls 0) :=
  ⟨⟨.odictStorage, rfl, nofun⟩, ⟨[.adopt], [.uuidAware, .defaultInit, .nodify, .odictStorage], rfl, by decide, by decide⟩,
    by decide⟩

/-- Root and child. -/
def c71Pair : List Op := [.new 0 (.str ['r']) none, .new 0 .none none, .set 0 ka (.node 1)]

theorem c71Pair_issued : ∀ n, Issued (after gapEnv (c71Pair.take n)) := fun n => issued_execAll (by
  intro o u h
  have := List.mem_of_mem_take h
  simp [c71Pair] at this)

theorem c71Pair_grown : Grown gapEnv (after gapEnv c71Pair) [0] := by
  have none : ∀ {w : World} {o : Oid}, w.children o = [] → ∀ j c, ¬ Contains w o j c :=
    fun {w o} e j c h => by
      replace h : (w.children o).get? j = _ := h
      rw [e] at h
      cases h
  have h0 : Grown gapEnv (after gapEnv (c71Pair.take 1)) [0] :=
    .new (x := .ok 0) (c := 0) (name := .str ['r']) (parent := Option.none) .start gap_ref (by decide) rfl fun _ _ _ A hA => nomatch hA
  have h1 : Grown gapEnv (after gapEnv (c71Pair.take 2)) [1, 0] :=
    .new (x := .ok 1) (c := 0) (name := .none) (parent := Option.none) h0 gap_ref (by decide) rfl fun u h1 _ A hA x hx hu => by
      rw [List.mem_singleton] at hA
      subst hA
      rcases hx.down with rfl | ⟨j, c, hc, -⟩
      · exact absurd ((c71Pair_issued 1).uuid 0 u (by decide +kernel) hu) (Nat.not_lt.mpr h1)
      · exact absurd hc (none rfl j c)
  exact .leaf (x := .ok ()) (R := 0) (o := 0) (N := 1) (k := ka) (Rs := [1, 0]) h1 (by decide) (.refl 0) (by decide)
    (by decide) (none rfl) (by decide +kernel) (fun h => absurd h (by decide)) rfl

/-- Root and child had the uuids 2 and 4; now they have, and are found under, 5 and 6. -/
example : let w' := (setUuidForNode gapEnv true true 0 (after gapEnv c71Pair)).2
    (refNode 1 5 w').1 = .ok (some 0) ∧ (refNode 0 6 w').1 = .ok (some 1) ∧ (refNode 0 2 w').1 = .ok none ∧
    (refNode 0 4 w').1 = .ok none := by decide +kernel

example (override recursiv : Bool) :
    Indexed (setUuidForNode gapEnv override recursiv 0 (after gapEnv c71Pair)).2 0 :=
  c71_index (by decide) c71Pair_grown (c71Pair_issued 3) (R := 0) (by decide) (.refl 0) rfl 0 (by decide)

end Verif
