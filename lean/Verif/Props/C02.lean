import Verif.Lemmas.DelOutcome
import Verif.Lemmas.OMap
import Verif.Lemmas.Grow
import Verif.Sample

/-!
# C02 Failed assignment and failed deletion leave every mapping unchanged

Full statement: for every class, state, key and value, `node[k] = v` and
`del node[k]` either take effect exactly once, on the key handed to the storage, or
raise and leave the children of every node as they were.

`AttributesLifecycle` notifies the parent after the write and raises
`AttributeError` if there is no parent with `Lifecycle`, so the full statement is
false; it is proved for all other stacks.  Deletion additionally assumes that no factory
runs when `Reference` or `Lifecycle` read what is to be deleted (`DelReads`): with child factories
below `Reference` it is false (`c02_refuted_factory`).
-/

namespace Verif

/-- The mapping of every node is what it was. -/
def MapsSame (w w' : World) : Prop := ∀ p, w'.omap p = w.omap p

/-- Exactly the mapping of `o` changed, by assigning `v` under the key the
specification `dest` names; for a nodespace no mapping changed. -/
def MapsSet (w w' : World) (o : Oid) (v : Val) (d : Option Dest) : Prop :=
  (∃ j, d = some (.child j) ∧ w'.omap o = (w.omap o).set j v ∧ ∀ p, p ≠ o → w'.omap p = w.omap p) ∨
  (∃ j, d = some (.nodespace j) ∧ MapsSame w w')

/-- Exactly the mapping of `o` changed, by removing the key the specification
`dest` names, which was there; for a nodespace no mapping changed. -/
def MapsDel (w w' : World) (o : Oid) (d : Option Dest) : Prop :=
  (∃ j, d = some (.child j) ∧ j ∈ (w.omap o).keys ∧ w'.omap o = (w.omap o).del j ∧
    ∀ p, p ≠ o → w'.omap p = w.omap p) ∨
  (∃ j, d = some (.nodespace j) ∧ MapsSame w w')

theorem MapsSame.of {w w' : World} (h : ChSame w w') : MapsSame w w' := fun p => by
  simp only [World.omap, h p]

theorem MapsSet.of {w w' : World} {o : Oid} {v : Val} {d : Option Dest}
    (h : ChildSet w w' o v d) : MapsSet w w' o v d := by
  rcases d with _ | (j | j)
  · exact h.elim
  · refine .inl ⟨j, rfl, ?_, fun p hp => ?_⟩
    · simp only [World.omap, h o, if_true, toMap_set]
    · simp only [World.omap, h p, if_neg hp]
  · exact .inr ⟨j, rfl, MapsSame.of h⟩

theorem MapsDel.of {w w' : World} (hw : WF w) {o : Oid} {d : Option Dest}
    (h : ChildDel w w' o d) : MapsDel w w' o d := by
  rcases d with _ | (j | j)
  · exact h.elim
  · refine .inl ⟨j, rfl, h.1, ?_, fun p hp => ?_⟩
    · simp only [World.omap, h.2 o, if_true, toMap_del (hw.children_nodup o)]
    · simp only [World.omap, h.2 p, if_neg hp]
  · exact .inr ⟨j, rfl, MapsSame.of h⟩

/-- A successful assignment takes effect exactly once, for every stack. -/
theorem c02_set_ok (E : Env) (o : Oid) (k : Key) (v : Val) {w w' : World} (hw : WF w)
    (h : setitem E o k v w = (.ok (), w')) :
    MapsSet w w' o v (dest (clsOf E w o).aliaser (clsOf E w o).bhvs k) := by
  have := setitem_out E o k v hw
  rw [h] at this
  exact MapsSet.of (this.ok rfl)

/-- A failed assignment changes no mapping, or it is the `AttributeError` of
`AttributesLifecycle` and the assignment took effect exactly once. -/
theorem c02_set_err (E : Env) (o : Oid) (k : Key) (v : Val) {w w' : World} {e : Exc} (hw : WF w)
    (h : setitem E o k v w = (.error e, w')) :
    MapsSame w w' ∨ (Bhv.attributesLifecycle ∈ (clsOf E w o).bhvs ∧ e = .attr ∧
      MapsSet w w' o v (dest (clsOf E w o).aliaser (clsOf E w o).bhvs k)) := by
  have := setitem_out E o k v hw
  rw [h] at this
  rcases this.err e rfl with h | ⟨h1, h2, h3⟩
  · exact .inl (MapsSame.of h)
  · refine .inr ⟨h1, ?_, MapsSet.of h3⟩
    cases e <;> simp_all [Exc.isAttr]

/-- C02 for assignment, for every stack without `AttributesLifecycle`. -/
theorem c02_set_partial (E : Env) (o : Oid) (k : Key) (v : Val) {w w' : World} {e : Exc}
    (hw : WF w) (hb : Bhv.attributesLifecycle ∉ (clsOf E w o).bhvs)
    (h : setitem E o k v w = (.error e, w')) : MapsSame w w' :=
  (c02_set_err E o k v hw h).elim id fun x => absurd x.1 hb

/-- A successful deletion takes effect exactly once. -/
theorem c02_del_ok {E : Env} (o : Oid) (k : Key) {w w' : World} (hE : DelReads E (clsOf E w o)) (hw : WF w)
    (h : delitem E o k w = (.ok (), w')) :
    MapsDel w w' o (dest (clsOf E w o).aliaser (clsOf E w o).bhvs k) := by
  have := delitem_out_of k hE hw
  rw [h] at this
  exact MapsDel.of hw (this.ok rfl)

/-- A failed deletion changes no mapping, or it is the `AttributeError` of
`AttributesLifecycle` and the deletion took effect exactly once. -/
theorem c02_del_err {E : Env} (o : Oid) (k : Key) {w w' : World} {e : Exc}
    (hE : DelReads E (clsOf E w o)) (hw : WF w) (h : delitem E o k w = (.error e, w')) :
    MapsSame w w' ∨ (Bhv.attributesLifecycle ∈ (clsOf E w o).bhvs ∧ e = .attr ∧
      MapsDel w w' o (dest (clsOf E w o).aliaser (clsOf E w o).bhvs k)) := by
  have := delitem_out_of k hE hw
  rw [h] at this
  rcases this.err e rfl with h | ⟨h1, h2, h3⟩
  · exact .inl (MapsSame.of h)
  · refine .inr ⟨h1, ?_, MapsDel.of hw h3⟩
    cases e <;> simp_all [Exc.isAttr]

/-- C02 for deletion, for every stack without `AttributesLifecycle`. -/
theorem c02_del_partial {E : Env} (o : Oid) (k : Key) {w w' : World} {e : Exc}
    (hE : DelReads E (clsOf E w o)) (hw : WF w) (hb : Bhv.attributesLifecycle ∉ (clsOf E w o).bhvs)
    (h : delitem E o k w = (.error e, w')) : MapsSame w w' :=
  (c02_del_err o k hE hw h).elim id fun x => absurd x.1 hb

/-- The sample program has no child factories. -/
theorem sample_noFactory : NoFactory sampleEnv := by
  intro c
  unfold sampleEnv
  dsimp only
  split <;> decide

/-! A reference tree in which putting a subtree in twice fails: all hypotheses are
met, by an assignment that is not refused at once (the value was adopted, checked,
and the adoption reverted). -/

/-- Root 0 with child 1 that has child 2. -/
def c02W : World := after sampleEnv
  [.new 7 (.str ['r']) none, .new 7 .none none, .new 7 .none none,
   .set 1 kb (.node 2), .set 0 ka (.node 1)]

example : WF c02W ∧ Bhv.attributesLifecycle ∉ (clsOf sampleEnv c02W 0).bhvs ∧
    (setitem sampleEnv 0 kc (.node 1) c02W).1 = .error (.value "Node with uuid already exists") ∧
    (setitem sampleEnv 0 ka (.node 2) c02W).1 = .ok () ∧
    (delitem sampleEnv 0 kc c02W).1 = .error (.key (.key kc)) ∧
    (delitem sampleEnv 0 ka c02W).1 = .ok () :=
  ⟨(reachable_after ..).wf, by decide, rfl, rfl, rfl, rfl⟩

/-- The full statement is false: `attrs['a'] = 1` on lifecycle-aware attributes
without parent raises and stores the value. -/
theorem c02_refuted : ∃ (E : Env) (w w' : World) (o : Oid) (k : Key) (v : Val) (e : Exc),
    Reachable E w ∧ setitem E o k v w = (.error e, w') ∧ (w.omap o).keys = [] ∧
    (w'.omap o).keys = [k] := by
  refine ⟨sampleEnv, after sampleEnv [.new 8 .none none], _, 0, ka, .data (.int 1), .attr,
    reachable_after .., rfl, rfl, rfl⟩

/-- `Reference` nodes that make the child `b` when it is first read. -/
def lazyRefNode : ClassDef :=
  { bhvs := [.adopt, .reference, .childFactory, .defaultInit, .nodify, .odictStorage], factories := [(kb, 7)] }

/-- The sample program with that class. -/
def lazyRefEnv : Env where
  cls c := if c = 20 then lazyRefNode else sampleEnv.cls c

/-- A `Reference` node with a child of that class. -/
def lazyRefOps : List Op := [.new 20 .none none, .new 20 .none none, .set 0 ka (.node 1)]

/-- False with child factories: `del node['a']` on a `Reference` node reads all nodes below `a`, and
thereby makes the children their factories list. -/
theorem c02_refuted_factory : ∃ (E : Env) (w w' : World) (o p : Oid) (k j : Key),
    Reachable E w ∧ delitem E o k w = (.ok (), w') ∧ p ≠ o ∧ j ∉ (w.omap p).keys ∧ j ∈ (w'.omap p).keys := by
  have h1 : (delitem lazyRefEnv 0 ka (after lazyRefEnv lazyRefOps)).1 = .ok () := by decide +kernel
  have h2 : kb ∉ ((after lazyRefEnv lazyRefOps).omap 1).keys := by decide +kernel
  have h3 : kb ∈ ((delitem lazyRefEnv 0 ka (after lazyRefEnv lazyRefOps)).2.omap 1).keys := by decide +kernel
  have h4 := reachable_after lazyRefEnv lazyRefOps
  generalize after lazyRefEnv lazyRefOps = w at h1 h2 h3 h4
  exact ⟨lazyRefEnv, w, _, 0, 1, ka, kb, h4, Prod.ext h1 rfl, by decide, h2, h3⟩

/-- A class with `Lifecycle` in that program: the hypotheses are met. -/
example : ∃ w', delitem lazyRefEnv 0 ka (after lazyRefEnv
      [.new 6 .none none, .new 20 .none none, .set 0 ka (.node 1)]) = (.ok (), w') ∧
    MapsDel (after lazyRefEnv [.new 6 .none none, .new 20 .none none, .set 0 ka (.node 1)]) w' 0
      (some (.child ka)) := by
  have h : (delitem lazyRefEnv 0 ka (after lazyRefEnv
      [.new 6 .none none, .new 20 .none none, .set 0 ka (.node 1)])).1 = .ok () := by decide +kernel
  have hc : clsOf lazyRefEnv (after lazyRefEnv [.new 6 .none none, .new 20 .none none, .set 0 ka (.node 1)]) 0 =
    lifecycleNode := rfl
  have hw := (reachable_after lazyRefEnv [.new 6 .none none, .new 20 .none none, .set 0 ka (.node 1)]).wf
  generalize after lazyRefEnv [.new 6 .none none, .new 20 .none none, .set 0 ka (.node 1)] = w at h hc hw
  have hd := c02_del_ok (E := lazyRefEnv) (w := w) 0 ka
    (by rw [hc]; exact ⟨fun h => absurd h (by decide), fun _ => .inr (by decide)⟩) hw (Prod.ext h rfl)
  rw [hc] at hd
  exact ⟨_, Prod.ext h rfl, hd⟩

/-- A refused assignment and the deletion of a missing key: `c02_set_partial`, `c02_set_err`, `c02_del_partial`,
`c02_del_err`; an assignment that replaces a child: `c02_set_ok`. -/
example : MapsSame c02W (setitem sampleEnv 0 kc (.node 1) c02W).2 ∧ MapsSame c02W (delitem sampleEnv 0 kc c02W).2 ∧
    MapsSet c02W (setitem sampleEnv 0 ka (.node 2) c02W).2 0 (.node 2) (some (.child ka)) :=
  ⟨c02_set_partial sampleEnv 0 kc (.node 1) (reachable_after ..).wf (by decide)
      (show setitem sampleEnv 0 kc (.node 1) c02W = (.error (.value "Node with uuid already exists"), _) from rfl),
    c02_del_partial 0 kc (sample_noFactory.delReads ..) (reachable_after ..).wf (by decide)
      (show delitem sampleEnv 0 kc c02W = (.error (.key (.key kc)), _) from rfl),
    c02_set_ok sampleEnv 0 ka (.node 2) (reachable_after ..).wf
      (show setitem sampleEnv 0 ka (.node 2) c02W = (.ok (), _) from rfl)⟩

example : MapsSame c02W (setitem sampleEnv 0 kc (.node 1) c02W).2 :=
  (c02_set_err sampleEnv 0 kc (.node 1) (reachable_after ..).wf
    (show setitem sampleEnv 0 kc (.node 1) c02W = (.error (.value "Node with uuid already exists"), _) from rfl)).resolve_right
    fun h => absurd h.1 (by decide)

example : MapsSame c02W (delitem sampleEnv 0 kc c02W).2 :=
  (c02_del_err 0 kc (sample_noFactory.delReads ..) (reachable_after ..).wf
    (show delitem sampleEnv 0 kc c02W = (.error (.key (.key kc)), _) from rfl)).resolve_right
    fun h => absurd h.1 (by decide)

end Verif
