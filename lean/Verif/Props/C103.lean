import Verif.Props.C98
import Verif.Props.C03

/-!
# C103: operations that read or fail may be left out

Leaving out of a history all operations that read, and all that raised (but for `update`, which may
fail half way), changes no result of the others and no child of any node in the end.
-/

namespace Verif

/-- An operation of a history, with its result, that has to stay: it writes, and it returned or is an `update`. -/
def matters (x : Op × Except Exc Res) : Bool :=
  match x with
  | (op, .ok _) => !op.isRead
  | (.update _ _, .error _) => true
  | (_, .error _) => false

/-- The operations that have to stay, with their results. -/
def stays (ops : List Op) (rs : List (Except Exc Res)) : List (Op × Except Exc Res) := (ops.zip rs).filter matters

/-- In the specification, the others leave no trace. -/
theorem run_idle {E : Env} {ref : ClassId → Val → Option String} {s : MapSpec} {op : Op} (hop : MapOp E s op)
    (h : matters (op, (s.run ref op).1) = false) : (s.run ref op).2 = s := by
  rcases hop with ⟨c, nm, p, rfl, -⟩ | ⟨p, ks, e, -, -⟩
  · cases h
  · cases op <;> simp only [Op.target, reduceCtorEq] at e
    case get o k => simp only [MapSpec.run]; split <;> rfl
    case set o k v =>
      simp only [MapSpec.run, MapSpec.assign] at h ⊢
      cases hr : ref (s.cls o) v with
      | none => simp [hr, matters, Op.isRead] at h
      | some m => rfl
    case setdefault o k v =>
      simp only [MapSpec.run, MapSpec.assign] at h ⊢
      cases hv : (s.map o).val k with
      | some x => simp [hv, matters, Op.isRead] at h
      | none =>
        cases hr : ref (s.cls o) v with
        | none => simp [hv, hr, matters, Op.isRead] at h
        | some m => rfl
    case del o k =>
      simp only [MapSpec.run] at h ⊢
      split
      · rename_i hk; rw [if_pos hk] at h; cases h
      · rfl
    case pop o k d =>
      simp only [MapSpec.run] at h ⊢
      cases hv : (s.map o).val k with
      | some x => simp [hv, matters, Op.isRead] at h
      | none => cases d <;> rfl
    case popitem o =>
      simp only [MapSpec.run] at h ⊢
      cases hv : (s.map o).items.getLast? with
      | some x => simp [hv, matters, Op.isRead] at h
      | none => rfl
    case update o kvs =>
      simp only [MapSpec.run] at h ⊢
      rcases hx : MapSpec.assignAll ref o kvs s with ⟨e | u, s'⟩ <;> simp [hx, matters, Op.isRead] at h
    case clear o => cases h
    all_goals rfl

theorem runAll_stays {E : Env} {ref : ClassId → Val → Option String} : ∀ (l : List Op) {s : MapSpec},
    MapHistory E ref l s → MapHistory E ref ((stays l (MapSpec.runAll ref l s).1).map Prod.fst) s ∧
    MapSpec.runAll ref ((stays l (MapSpec.runAll ref l s).1).map Prod.fst) s =
      ((stays l (MapSpec.runAll ref l s).1).map Prod.snd, (MapSpec.runAll ref l s).2)
  | [], _, _ => ⟨trivial, rfl⟩
  | op :: r, s, ⟨hop, hr⟩ => by
    obtain ⟨i1, i2⟩ := runAll_stays r hr
    simp only [stays, MapSpec.runAll, List.zip_cons_cons] at i1 i2 ⊢
    cases hm : matters (op, (s.run ref op).1) with
    | true =>
      rw [List.filter_cons_of_pos hm]
      refine ⟨⟨hop, i1⟩, ?_⟩
      simp only [List.map_cons, MapSpec.runAll, i2]
    | false =>
      rw [List.filter_cons_of_neg (by rw [hm]; decide)]
      have e := run_idle hop hm
      rw [e] at i1 i2 ⊢
      exact ⟨i1, i2⟩

/-- **C103.** After any history, out of any continuation all operations that read and all that raised, but for
`update`, may be left out: the others return what they returned, and all nodes have the children they had,
in the same order. -/
theorem c103_idle (E : Env) (hd : 0 < E.depth) (ops l : List Op) (h : MapHistory E (refOf E) (ops ++ l) {}) {w : World}
    (hw : w = (execAll E ops {}).2) {k : List (Op × Except Exc Res)} (hk : k = stays l (execAll E l w).1) :
    (execAll E (k.map Prod.fst) w).1 = k.map Prod.snd ∧
    (execAll E (k.map Prod.fst) w).2.nobj = (execAll E l w).2.nobj ∧
    ∀ p, p < (execAll E l w).2.nobj → (execAll E (k.map Prod.fst) w).2.omap p = (execAll E l w).2.omap p := by
  subst hw hk
  obtain ⟨ha, hb⟩ := (mapHistory_append ops l {}).mp h
  obtain ⟨-, hr⟩ := execAll_pt hd ops Rel.empty ha
  obtain ⟨j1, j2⟩ := execAll_pt hd l hr hb
  obtain ⟨i1, i2⟩ := runAll_stays (E := E) l hb
  rw [← j1] at i1 i2
  obtain ⟨k1, k2⟩ := execAll_pt hd _ hr i1
  rw [i2] at k1 k2
  refine ⟨k1, k2.nobj.trans j2.nobj.symm, fun p hp => ?_⟩
  have hn := j2.nobj ▸ hp
  rw [j2.map p hn, k2.map p hn]

/-- What is done afterwards does not notice either. -/
theorem c103_later (E : Env) (hd : 0 < E.depth) (ops l l' : List Op) (h : MapHistory E (refOf E) (ops ++ (l ++ l')) {})
    {w : World} (hw : w = (execAll E ops {}).2) {k : List (Op × Except Exc Res)} (hk : k = stays l (execAll E l w).1) :
    (execAll E l' (execAll E (k.map Prod.fst) w).2).1 = (execAll E l' (execAll E l w).2).1 := by
  subst hw hk
  obtain ⟨ha, hb⟩ := (mapHistory_append ops _ {}).mp h
  obtain ⟨-, hr⟩ := execAll_pt hd ops Rel.empty ha
  obtain ⟨hb1, hb2⟩ := (mapHistory_append l l' _).mp hb
  obtain ⟨j1, j2⟩ := execAll_pt hd l hr hb1
  obtain ⟨i1, i2⟩ := runAll_stays (E := E) l hb1
  rw [← j1] at i1 i2
  obtain ⟨-, k2⟩ := execAll_pt hd _ hr i1
  rw [i2] at k2
  rw [(execAll_pt hd l' k2 hb2).1, (execAll_pt hd l' j2 hb2).1]

/-- Reads, a refused deletion and a refused default among other work. -/
def c103Ops : List Op := [.get 0 ka, .set 0 ka (.node 1), .del 0 kb, .keys 0, .pop 0 kc none, .set 0 kb (.node 2)]

theorem c103_history : MapHistory sampleEnv (refOf sampleEnv) (c94Pre ++ c103Ops) {} := by
  have hk : ∀ k, KeyFor orderedNode k := fun k h => absurd h (by decide)
  have hpre := ((mapHistory_append c94Pre (c01Ops.drop 3) {}).mp c01Ops_history).1
  refine (mapHistory_append _ _ _).mpr ⟨hpre, ?_⟩
  exact ⟨.inr ⟨_, _, rfl, by decide, fun k _ => hk k⟩, .inr ⟨_, _, rfl, by decide, fun k _ => hk k⟩,
      .inr ⟨_, _, rfl, by decide, fun k _ => hk k⟩, .inr ⟨_, _, rfl, by decide, fun k _ => hk k⟩,
      .inr ⟨_, _, rfl, by decide, fun k _ => hk k⟩, .inr ⟨_, _, rfl, by decide, fun k _ => hk k⟩, trivial⟩

/-- Only the two assignments have to stay. -/
example : (stays c103Ops (execAll sampleEnv c103Ops (execAll sampleEnv c94Pre {}).2).1).map Prod.snd =
    [.ok .unit, .ok .unit] := by decide +kernel

example := c103_idle sampleEnv (by decide) c94Pre c103Ops c103_history rfl rfl

end Verif
