import Verif.Lemmas.Detach
import Verif.Props.C02

/-!
# C13 `detach` removes exactly one child

A successful `detach` returns the child stored under the key, and changes the
mapping of exactly that node by exactly that key.  No other mapping changes, and no
node's name or parent, in particular nothing in the subtree of the child.  For a key
that is not there it raises `KeyError` and changes no mapping and no location.

Classes without `Reference` always succeed if the key is there; with `Reference`
indexing the detached subtree may raise after the removal (`c13_refuted`).
-/

namespace Verif

section
variable {E : Env} (o : Oid) (k : Key) {w w' : World} (hE : DetachReads E (clsOf E w o)) (hw : WF w)
include hE hw

/-- C13: a successful `detach` removes the key from the node and does nothing else to
mappings and locations; for every class. -/
theorem c13_removes {v : Val} (h : detach E o k w = (.ok v, w')) :
    MapsDel w w' o (dest (clsOf E w o).aliaser (clsOf E w o).bhvs k) ∧ ∀ p, w'.loc p = w.loc p := by
  obtain ⟨w1, x, h1, h2, h3, h4, -, -⟩ := detachPipe_cases (bhvsOf E w o) hE.reference o k w
  have e1 := h4 v (congrArg Prod.fst h)
  rw [show detachPipe E (bhvsOf E w o) o k w = (.ok v, w') from h] at h3
  have hw1 := h1.wf hw
  have hcls1 : clsOf E w1 o = clsOf E w o := congrArg E.cls (h1.cls o)
  subst h2
  simp only [detachEnd, M.bind_apply] at e1 h3
  have hq := getitem_quiet_at (k := k) (by rw [hcls1]; exact hE.item) hw1
  rcases hg : getitem E o k w1 with ⟨e | v', w2⟩
  · rw [hg] at e1; cases e1
  · rw [hg] at hq e1 h3
    simp only at e1 h3
    have hout := delitem_out_of (o := o) k (w := w2)
      (by rw [show clsOf E w2 o = clsOf E w1 o from congrArg E.cls (hq.2.obj o).cls, hcls1]; exact hE.del) hq.1
    rcases hd : delitem E o k w2 with ⟨e | u, w3⟩
    · rw [hd] at e1; cases e1
    · rw [hd] at h3 hout
      simp only [M.pure_apply] at h3
      have hcls : clsOf E w2 o = clsOf E w o :=
        (congrArg E.cls (hq.2.obj o).cls).trans (congrArg E.cls (h1.cls o))
      have hmd := MapsDel.of hq.1 (hout.ok rfl)
      rw [hcls, show bhvsOf E w2 o = (clsOf E w o).bhvs from congrArg ClassDef.bhvs hcls] at hmd
      have pre : MapsSame w w2 := MapsSame.of fun p => (hq.2.children p).trans (h1.children p)
      have post : MapsSame w3 w' := MapsSame.of (h3.children hout.wf)
      refine ⟨?_, fun p => ?_⟩
      · rcases hmd with ⟨j, a, b, c, d⟩ | ⟨j, a, b⟩
        · refine .inl ⟨j, a, by rw [← pre o]; exact b, ?_, fun p hp => ?_⟩
          · rw [post o, c, pre o]
          · rw [post p, d p hp, pre p]
        · exact .inr ⟨j, a, fun p => by rw [post p, b p, pre p]⟩
      · rw [h3.loc hout.wf p, hout.loc p, hq.2.loc p, h1.loc p]

/-- C13: the value returned is the child that was stored under the key. -/
theorem c13_returns {v : Val} (hl : Looks (clsOf E w o) k)
    (hc : Bhv.cache ∈ (clsOf E w o).bhvs → ∀ j x, (w.cached o).get? j = some x →
      (w.omap o).val j = some x)
    (h : detach E o k w = (.ok v, w')) : (w.omap o).val k = some v := by
  have hrem := (c13_removes o k hE hw h).1
  rw [show dest (clsOf E w o).aliaser (clsOf E w o).bhvs k = some (.child k) from
    hl.dest _] at hrem
  have hm : k ∈ (w.children o).keys := by
    rcases hrem with ⟨j, a, b, -⟩ | ⟨j, a, -⟩
    · injection a with a; injection a with a; subst a; exact b
    · injection a with a; cases a
  obtain ⟨u, hu⟩ := Od.get?_of_mem_keys hm
  obtain ⟨w1, x, h1, h2, -, h4, -, -⟩ := detachPipe_cases (bhvsOf E w o) hE.reference o k w
  have e1 := h4 v (congrArg Prod.fst h)
  have hcls : clsOf E w1 o = clsOf E w o := congrArg E.cls (h1.cls o)
  obtain ⟨w2, h5, -⟩ := getitem_hit (E := E) (S := (· = o)) (o := o) (k := k) (w := w1) (v := u)
    (by rw [hcls]; exact hl) (h1.wf hw)
    (fun p hp hx j y hy => by
      subst hp
      rw [hcls] at hx
      rw [h1.cached] at hy
      rw [h1.children]; exact hc hx j y hy) rfl (by rw [h1.children]; exact hu)
  rw [← h2] at e1
  simp only [detachEnd, M.bind_apply, h5] at e1
  generalize delitem E o k w2 = z at e1
  rcases z with ⟨_ | _, _⟩
  · cases e1
  · injection e1 with e1; rw [← e1]; exact hu

/-- C13: detaching a key that is not there raises `KeyError` and changes nothing. -/
theorem c13_missing (hl : Looks (clsOf E w o) k) (hfb : Bhv.fallback ∉ (clsOf E w o).bhvs)
    (hc : Bhv.cache ∈ (clsOf E w o).bhvs → ∀ j x, (w.cached o).get? j = some x →
      (w.omap o).val j = some x)
    (hk : k ∉ (w.omap o).keys) :
    ∃ w', detach E o k w = (.error (.key (.key k)), w') ∧ MapsSame w w' ∧ ∀ p, w'.loc p = w.loc p := by
  obtain ⟨w1, x, h1, h2, h3, -, h5, -⟩ := detachPipe_cases (bhvsOf E w o) hE.reference o k w
  have hcls : clsOf E w1 o = clsOf E w o := congrArg E.cls (h1.cls o)
  obtain ⟨w2, h6, h7⟩ := getitem_look (E := E) (S := (· = o)) (o := o) (k := k) (w := w1)
    (by rw [hcls]; exact hl) (h1.wf hw)
    (fun p hp hx j y hy => by
      subst hp
      rw [hcls] at hx
      rw [h1.cached] at hy
      rw [h1.children]; exact hc hx j y hy) rfl (by rw [hcls]; exact hE.noFactory rfl)
      (by rw [hcls]; exact hfb)
  have hno : (w1.children o).get? k = none := by
    rw [h1.children]; exact (Od.get?_eq_none_iff _ _).mpr hk
  simp only [lookup, hno] at h6
  have hx : x = (.error (.key (.key k)), w2) := by
    rw [← h2]; simp only [detachEnd, M.bind_apply, h6]
  subst hx
  refine ⟨(detach E o k w).2, Prod.ext (h5 _ rfl) rfl, ?_, fun p => ?_⟩
  · exact MapsSame.of fun p => by
      rw [show (detach E o k w).2.children p = w2.children p from h3.children h7.wf p,
        h7.same.children p, h1.children p]
  · rw [show (detach E o k w).2.loc p = w2.loc p from h3.loc h7.wf p, h7.same.loc p, h1.loc p]

omit hE in
/-- C13: without `Reference` in the class, a child that is there is detached. -/
theorem c13_succeeds (hmc : MapClass (clsOf E w o)) (hk : KeyFor (clsOf E w o) k)
    (hc : Bhv.cache ∈ (clsOf E w o).bhvs → ∀ j x, (w.cached o).get? j = some x →
      (w.omap o).val j = some x) {v : Val} (hv : (w.omap o).val k = some v) :
    ∃ w', detach E o k w = (.ok v, w') := by
  obtain ⟨w1, x, h1, h2, -, -, -, h6⟩ := detachPipe_cases (bhvsOf E w o)
    (E := E) (fun h => by have := hmc.passes _ h; cases this) o k w
  have hcls : clsOf E w1 o = clsOf E w o := congrArg E.cls (h1.cls o)
  have hcoh : Coh E (· = o) w1 := fun p hp hx j y hy => by
    subst hp
    rw [hcls] at hx
    rw [h1.cached] at hy
    rw [h1.children]; exact hc hx j y hy
  obtain ⟨w2, h3, h4⟩ := getitem_pt (E := E) (o := o) (k := k) (by rw [hcls]; exact hmc) (h1.wf hw)
    hcoh rfl (by rw [hcls]; exact hk)
  have hv' : (w1.children o).get? k = some v := by rw [h1.children]; exact hv
  obtain ⟨w3, h7, -⟩ := delitem_pt (E := E) (o := o) (k := k) (w := w2)
    (by rw [h4.clsOf, hcls]; exact hmc) h4.wf h4.coh rfl (by rw [h4.clsOf, hcls]; exact hk)
  simp only [lookup, hv'] at h3
  rw [if_pos (by rw [h4.same.children]; exact Od.mem_keys_of_get? hv')] at h7
  have hr := h6 fun hm => by have := hmc.passes _ hm; cases this
  refine ⟨(detach E o k w).2, Prod.ext (hr.trans ?_) rfl⟩
  rw [← h2]
  simp only [detachEnd, M.bind_apply, h3, h7, M.pure_apply]

end

/-! ### Instances -/

/-- A `Node` with a child that has a child. -/
def c13Ops : List Op := [.new 2 .none none, .new 2 .none none, .new 2 .none none,
  .set 1 kb (.node 2), .set 0 ka (.node 1)]

example : ∃ w', detach sampleEnv 0 ka (after sampleEnv c13Ops) = (.ok (.node 1), w') ∧
    ((after sampleEnv c13Ops).omap 0).val ka = some (.node 1) ∧
    MapsDel (after sampleEnv c13Ops) w' 0 (some (.child ka)) := by
  have h : detach sampleEnv 0 ka (after sampleEnv c13Ops) =
      (.ok (.node 1), (detach sampleEnv 0 ka (after sampleEnv c13Ops)).2) :=
    Prod.ext (by decide +kernel) rfl
  have hw := (reachable_after sampleEnv c13Ops).wf
  have hcls : clsOf sampleEnv (after sampleEnv c13Ops) 0 = fullNode := rfl
  refine ⟨_, h, c13_returns 0 ka (sample_noFactory.detachReads _) hw ?_ (fun hc => ?_) h, ?_⟩
  · rw [hcls]; exact ⟨⟨by decide, by decide⟩, by decide, fun _ => ⟨_, rfl, by decide⟩⟩
  · rw [hcls] at hc; exact absurd hc (by decide)
  · exact (c13_removes 0 ka (sample_noFactory.detachReads _) hw h).1

/-- A `Node` that stores a value of its own key, with an ordinary value: `detach`
raises `AttributeError` and the value is gone. -/
theorem c13_refuted : ∃ ops, (execAll sampleEnv ops {}).1.getLast? = some (.error .attr) ∧
    ((after sampleEnv ops).omap 0).keys = [] ∧ ∃ pre, pre ++ [.detach 0 ka] = ops ∧
    ((after sampleEnv pre).omap 0).keys = [ka] :=
  ⟨[.new 7 .none none, .set 0 ka (.data (.int 1)), .detach 0 ka], by decide +kernel, by decide +kernel,
    [.new 7 .none none, .set 0 ka (.data (.int 1))], rfl, by decide +kernel⟩

end Verif
