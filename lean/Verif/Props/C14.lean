import Verif.Lemmas.Lookup
import Verif.Sample

/-!
# C14 `filteredvalues` selects in order

For every node that can be read (`Open`: storage, no alias, no child factory) the
result consists of the children with the property, in the order of the mapping; the
mapping is not changed.
-/

namespace Verif

/-- C14. -/
theorem c14_filtered {E : Env} {w : World} (hw : WF w) {o : Oid} (h : Open E w o) (p : Val → Bool) :
    ∃ w', filteredvalues E p o w = (.ok ((w.omap o).values.filter p), w') ∧ Same w w' := by
  obtain ⟨w', h1, h2⟩ := mvalues_open h hw h.coh rfl
  refine ⟨w', ?_, h2.same⟩
  simp only [filteredvalues, M.bind_apply, h1, M.pure_apply]

/-- The specification: a value is returned exactly if it is stored under some key and
has the property. -/
theorem c14_mem {E : Env} {w w' : World} (hw : WF w) {o : Oid} (h : Open E w o) {p : Val → Bool}
    {l : List Val} (hl : filteredvalues E p o w = (.ok l, w')) (v : Val) :
    v ∈ l ↔ p v = true ∧ ∃ k, (w.omap o).val k = some v := by
  obtain ⟨w2, h1, -⟩ := c14_filtered hw h p
  rw [h1] at hl
  injection hl with hl _
  injection hl with hl
  rw [← hl, List.mem_filter, and_comm]
  refine and_congr_right fun _ => ?_
  simp only [OMap.values, List.mem_filterMap]
  exact ⟨fun ⟨k, _, hk⟩ => ⟨k, hk⟩, fun ⟨k, hk⟩ => ⟨k, Od.mem_keys_of_get? hk, hk⟩⟩

/-- For every class and every heap: the selection among what `values()` returns. -/
theorem c14_of_values {E : Env} {w w' : World} {o : Oid} {vs : List Val}
    (h : mvalues E o w = (.ok vs, w')) (p : Val → Bool) :
    filteredvalues E p o w = (.ok (vs.filter p), w') := by
  simp only [filteredvalues, M.bind_apply, h, M.pure_apply]

/-! A node with three children of two classes. -/

def c14Ops : List Op := [.new 0 .none none, .new 0 .none none, .new 1 .none none, .new 0 .none none,
  .set 0 kb (.node 1), .set 0 ka (.node 2), .set 0 kc (.node 3)]

example : (filteredvalues sampleEnv (fun v => v != .node 2) 0 (after sampleEnv c14Ops)).1 =
    .ok [.node 1, .node 3] := by
  have ho : Open sampleEnv (after sampleEnv c14Ops) 0 := by
    have hcls : clsOf sampleEnv (after sampleEnv c14Ops) 0 = baseNode := rfl
    refine ⟨?_, fun k _ hn => ?_, fun hc => ?_⟩
    · rw [hcls]; exact ⟨by decide, by decide, by decide, by decide⟩
    · rw [hcls] at hn; exact absurd hn (by decide)
    · rw [hcls] at hc; exact absurd hc (by decide)
  obtain ⟨w', h, -⟩ := c14_filtered (reachable_after sampleEnv c14Ops).wf ho fun v => v != .node 2
  rw [h]
  exact congrArg Except.ok (by decide +kernel)

end Verif
