import Verif.Model.AttrAccess
import Verif.Props.C28

/-!
# C54: attribute access maps to item access

Names that are attributes of the view itself cannot be read back: `context` and the class
attributes, which all have the form `__x__`.  The others can, on every class that passes keys and
values through to its storage.
-/

namespace Verif

/-- A name the view does not have itself. -/
def Free (cls : Str → Bool) (name : Str) : Prop := name ≠ contextName ∧ cls name = false

section
variable {E : Env} {o : Oid} {w : World} {cls : Str → Bool} (hmc : MapClass (clsOf E w o)) (hw : WF w)
  (hc : CacheAgrees E w o) {k : Str} (hk : KeyFor (clsOf E w o) (.str k)) (hf : Free cls k)
include hmc hw hc hk hf

/-- Reading `a.k` gives the value stored under `k`, and raises `AttributeError` if there is none;
it changes no mapping. -/
theorem c54_get_partial :
    (aaGet E cls o k w).1 = (match (w.omap o).val (.str k) with
      | some v => .ok (.item v)
      | none => .error .attr) ∧ MapsSame w (aaGet E cls o k w).2 := by
  obtain ⟨w', h1, h2⟩ := getitem_pt hmc hw hc.coh rfl hk
  have : (w.omap o).val (.str k) = (w.children o).get? (.str k) := rfl
  unfold aaGet
  rw [if_neg hf.1, if_neg (by rw [hf.2]; decide), h1, this]
  unfold lookup
  cases (w.children o).get? (.str k) with
  | some v => exact ⟨rfl, MapsSame.of h2.same.children⟩
  | none => exact ⟨rfl, MapsSame.of h2.same.children⟩

/-- After `a.k = v` went through, `v` is stored under `k` (and nothing else changed), and `a.k`
reads it. -/
theorem c54_set_partial {v : Val} {w' : World} (h : aaSet E o k v w = (.ok (), w')) :
    w'.omap o = (w.omap o).set (.str k) v ∧ (∀ p, p ≠ o → w'.omap p = w.omap p) ∧
    (aaGet E cls o k w').1 = .ok (.item v) := by
  obtain ⟨w1, h1, h2⟩ := setitem_pt hmc hw hc.coh rfl v hk
  have h : setitem E o (.str k) v w = (.ok (), w') := h
  rw [h1] at h
  have hr : refuses (clsOf E w o) v = none := by
    cases hr : refuses (clsOf E w o) v with
    | none => rfl
    | some m => rw [hr] at h; cases congrArg Prod.fst h
  have hww : w1 = w' := congrArg Prod.snd h
  subst hww
  have hcls : clsOf E w1 o = clsOf E w o := congrArg E.cls (h2.keep.cls o)
  have hm : w1.omap o = (w.omap o).set (.str k) v := by
    simp only [World.omap, h2.children o, hr, and_self, if_true, toMap_set]
  refine ⟨hm, fun p hp => ?_, ?_⟩
  · simp only [World.omap, h2.children p, hp, false_and, if_false]
  · obtain ⟨w3, h3, -⟩ := getitem_pt (E := E) (o := o) (w := w1) (hcls ▸ hmc) h2.wf h2.coh rfl (hcls ▸ hk)
    unfold aaGet
    rw [if_neg hf.1, if_neg (by rw [hf.2]; decide), h3, h2.children o]
    simp only [hr, and_self, if_true, lookup, Od.get?_set]

/-- It goes through exactly if the class accepts the value. -/
theorem c54_accepts_partial (v : Val) : (aaSet E o k v w).1 =
    match refuses (clsOf E w o) v with
    | some m => .error (.value m)
    | none => .ok () := by
  obtain ⟨w1, h1, -⟩ := setitem_pt hmc hw hc.coh rfl v hk
  show (setitem E o (.str k) v w).1 = _
  rw [h1]
  cases refuses (clsOf E w o) v <;> rfl

end

/-- On any class, the errors of `node[k]` other than `KeyError` come through. -/
theorem c54_other_errors {E : Env} {cls : Str → Bool} {o : Oid} {k : Str} {w w' : World} {e : Exc} (hf : Free cls k)
    (h : getitem E o (.str k) w = (.error e, w')) (he : ∀ a, e ≠ .key a) :
    aaGet E cls o k w = (.error e, w') := by
  unfold aaGet
  rw [if_neg hf.1, if_neg (by rw [hf.2]; decide), h]
  have : e.isKey = false := by
    cases e <;> first | rfl | exact absurd rfl (he _)
  simp [this]

/-! ### Concrete cases -/

/-- An ordered node with two children. -/
def c54W : World := after sampleEnv [.new 1 .none none, .new 1 .none none, .new 1 .none none,
  .set 0 (.str ['a']) (.node 1)]

/-- Dunder names. -/
def dunder (s : Str) : Bool := startsWith s ['_', '_'] && endsWith s ['_', '_']

example : MapClass (clsOf sampleEnv c54W 0) ∧ WF c54W ∧ Free dunder ['b'] ∧ Free dunder ['a'] ∧
    (aaGet sampleEnv dunder 0 ['a'] c54W).1 = .ok (.item (.node 1)) ∧
    (aaGet sampleEnv dunder 0 ['b'] c54W).1 = .error .attr ∧
    (aaGet sampleEnv dunder 0 ['b'] (aaSet sampleEnv 0 ['b'] (.node 2) c54W).2).1 = .ok (.item (.node 2)) :=
  ⟨⟨by decide, by decide, by decide⟩, (reachable_after ..).wf, ⟨by decide, by decide⟩, ⟨by decide, by decide⟩,
    by decide +kernel, by decide +kernel, by decide +kernel⟩

/-- C54 fails for the name `context`: the value is stored, but reading gives the node. -/
theorem c54_refuted : ∃ (E : Env) (w w' : World) (o : Oid) (v : Val), Reachable E w ∧ MapClass (clsOf E w o) ∧
    aaSet E o contextName v w = (.ok (), w') ∧ (w'.omap o).val (.str contextName) = some v ∧
    ∀ cls, (aaGet E cls o contextName w').1 = .ok (.context o) :=
  ⟨sampleEnv, c54W, (aaSet sampleEnv 0 contextName (.node 2) c54W).2, 0, .node 2, reachable_after .., ⟨by decide, by decide, by decide⟩,
    rfl, by decide +kernel, fun _ => rfl⟩

end Verif
