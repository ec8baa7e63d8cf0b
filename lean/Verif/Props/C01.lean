import Verif.Lemmas.MapRefine
import Verif.Sample

/-!
# C01: nodes are insertion-ordered dictionaries

Every history of mapping operations on any number of nodes of pass-through
classes returns what the interpreter on ordered maps (`MapSpec.run`) returns, and
the contents of all nodes agree afterwards.
-/

namespace Verif

/-- Results and final contents are those of ordered dictionaries. -/
theorem c01_refines (E : Env) (hd : 0 < E.depth) (ops : List Op)
    (h : MapHistory E (refOf E) ops {}) :
    (execAll E ops {}).1 = (MapSpec.runAll (refOf E) ops {}).1 ∧
    (execAll E ops {}).2.nobj = (MapSpec.runAll (refOf E) ops {}).2.n ∧
    ∀ o, o < (execAll E ops {}).2.nobj →
      (execAll E ops {}).2.omap o = (MapSpec.runAll (refOf E) ops {}).2.map o := by
  obtain ⟨h1, h2⟩ := execAll_pt hd ops Rel.empty h
  exact ⟨h1, h2.nobj, fun o ho => h2.map o (h2.nobj ▸ ho)⟩

theorem execAll_append (E : Env) (a b : List Op) (w : World) :
    (execAll E (a ++ b) w).2 = (execAll E b (execAll E a w).2).2 := by
  induction a generalizing w with
  | nil => rfl
  | cons op r ih => exact ih _

theorem runAll_append (ref : ClassId → Val → Option String) (a b : List Op) (s : MapSpec) :
    (MapSpec.runAll ref (a ++ b) s).2 = (MapSpec.runAll ref b (MapSpec.runAll ref a s).2).2 := by
  induction a generalizing s with
  | nil => rfl
  | cons op r ih => exact ih _

theorem mapHistory_append {E : Env} {ref : ClassId → Val → Option String} (a b : List Op)
    (s : MapSpec) : MapHistory E ref (a ++ b) s ↔
      MapHistory E ref a s ∧ MapHistory E ref b (MapSpec.runAll ref a s).2 := by
  induction a generalizing s with
  | nil => exact ⟨fun h => ⟨trivial, h⟩, fun h => h.2⟩
  | cons op r ih =>
    constructor
    · intro h
      obtain ⟨h1, h2⟩ := (ih _).mp h.2
      exact ⟨⟨h.1, h1⟩, h2⟩
    · intro h
      exact ⟨h.1.1, (ih _).mpr ⟨h.1.2, h.2⟩⟩

theorem assignAll_other (ref : ClassId → Val → Option String) (o : Oid) (kvs : List (Key × Val))
    (s : MapSpec) {p : Oid} (hp : p ≠ o) : (MapSpec.assignAll ref o kvs s).2.map p = s.map p := by
  induction kvs generalizing s with
  | nil => rfl
  | cons a t ih =>
    obtain ⟨k, v⟩ := a
    simp only [MapSpec.assignAll, MapSpec.assign]
    cases ref (s.cls o) v with
    | some m => rfl
    | none =>
      simp only
      rw [ih]
      simp [MapSpec.put, hp]

/-- In the specification an operation concerns one map only. -/
theorem run_other (ref : ClassId → Val → Option String) (s : MapSpec) (op : Op) {o : Oid}
    {ks : List Key} (ht : op.target = some (o, ks)) {p : Oid} (hp : p ≠ o) :
    (s.run ref op).2.map p = s.map p := by
  cases op <;> simp only [Op.target, reduceCtorEq, Option.some.injEq, Prod.mk.injEq] at ht
  all_goals obtain ⟨rfl, rfl⟩ := ht
  case update o kvs =>
    have := assignAll_other ref o kvs s hp
    simp only [MapSpec.run]
    rcases hs : MapSpec.assignAll ref o kvs s with ⟨e | u, s1⟩ <;> (rw [hs] at this; exact this)
  case set o k v =>
    simp only [MapSpec.run, MapSpec.assign]
    cases ref (s.cls o) v <;> simp [MapSpec.put, hp]
  case setdefault o k v =>
    simp only [MapSpec.run, MapSpec.assign]
    cases (s.map o).val k <;> cases ref (s.cls o) v <;> simp [MapSpec.put, hp]
  all_goals
    simp only [MapSpec.run]
    repeat' split
    all_goals first | rfl | (simp [MapSpec.put, hp])

/-- An operation on one node leaves every other node's mapping as it is. -/
theorem c01_noninterference (E : Env) (hd : 0 < E.depth) (ops : List Op) (op : Op) {o : Oid}
    {ks : List Key} (ht : op.target = some (o, ks))
    (h : MapHistory E (refOf E) (ops ++ [op]) {}) {p : Oid}
    (hp : p < (execAll E ops {}).2.nobj) (hpo : p ≠ o) :
    (execAll E (ops ++ [op]) {}).2.omap p = (execAll E ops {}).2.omap p := by
  obtain ⟨h1, h2⟩ := (mapHistory_append ops [op] {}).mp h
  obtain ⟨-, hr⟩ := execAll_pt hd ops Rel.empty h1
  obtain ⟨-, hr2⟩ := execAll_pt hd (ops ++ [op]) Rel.empty h
  have hn : p < (MapSpec.runAll (refOf E) ops {}).2.n := hr.nobj ▸ hp
  have hr' := hr2
  rw [execAll_append] at hr'
  have hn2 : p < (MapSpec.runAll (refOf E) (ops ++ [op]) {}).2.n := by
    rw [← hr2.nobj, execAll_append]
    exact Nat.lt_of_lt_of_le hp (grow_execAll E [op] _).nobj
  rw [hr2.map p hn2, hr.map p hn, runAll_append]
  exact run_other (refOf E) _ op ht hpo

/-! The shipped classes `BaseNode`, `OrderedNode` and `NodeAttributes` qualify. -/

theorem mapClass_baseNode : MapClass baseNode := ⟨by decide, by decide, by decide⟩
theorem mapClass_orderedNode : MapClass orderedNode := ⟨by decide, by decide, by decide⟩
theorem mapClass_nodeAttributes : MapClass nodeAttributes := ⟨by decide, by decide, by decide⟩

/-- A parent with two children, one of them overwritten, a refused value, a missing
key. -/
def c01Ops : List Op :=
  [.new 1 .none none, .new 0 .none none, .new 0 .none none, .set 0 ka (.node 1),
   .set 0 kb (.node 2), .set 0 ka (.node 2), .set 0 kc (.data (.int 1)), .keys 0, .pop 0 kc none,
   .popitem 0, .items 0]

theorem c01Ops_history : MapHistory sampleEnv (refOf sampleEnv) c01Ops {} := by
  refine ⟨.inl ⟨_, _, _, rfl, mapClass_orderedNode, by decide⟩, .inl ⟨_, _, _, rfl, mapClass_baseNode, by decide⟩,
    .inl ⟨_, _, _, rfl, mapClass_baseNode, by decide⟩, ?_⟩
  have hk : ∀ k, KeyFor orderedNode k := fun k h => absurd h (by decide)
  refine ⟨.inr ⟨_, _, rfl, by decide, fun k _ => hk k⟩, .inr ⟨_, _, rfl, by decide, fun k _ => hk k⟩,
    .inr ⟨_, _, rfl, by decide, fun k _ => hk k⟩, .inr ⟨_, _, rfl, by decide, fun k _ => hk k⟩,
    .inr ⟨_, _, rfl, by decide, fun k _ => hk k⟩, .inr ⟨_, _, rfl, by decide, fun k _ => hk k⟩,
    .inr ⟨_, _, rfl, by decide, fun k _ => hk k⟩, .inr ⟨_, _, rfl, by decide, fun k _ => hk k⟩,
    trivial⟩

example : (execAll sampleEnv c01Ops {}).1 =
    [.ok (.val (.node 0)), .ok (.val (.node 1)), .ok (.val (.node 2)), .ok .unit, .ok .unit,
     .ok .unit, .error (.value "Non-node childs are not allowed."), .ok (.keys [ka, kb]),
     .error (.key (.key kc)), .ok (.item kb (.node 2)), .ok (.items [(ka, .node 2)])] := by
  decide +kernel

/-- `c01_refines` and `c01_noninterference` for this history. -/
example : (execAll sampleEnv c01Ops {}).1 = (MapSpec.runAll (refOf sampleEnv) c01Ops {}).1 :=
  (c01_refines sampleEnv (by decide) c01Ops c01Ops_history).1

example : (execAll sampleEnv c01Ops {}).2.omap 1 = (execAll sampleEnv c01Ops.dropLast {}).2.omap 1 :=
  c01_noninterference sampleEnv (by decide) c01Ops.dropLast (.items 0) (o := 0) (ks := []) rfl c01Ops_history
    (by decide +kernel) (by decide)

end Verif
