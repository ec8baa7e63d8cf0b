import Verif.Props.C01

/-!
# C94: interleaved work on nodes

What a node answers and holds depends on what was done to this node only.
-/

namespace Verif

/-- An operation on this node. -/
def Op.isOn (o : Oid) (op : Op) : Bool :=
  match op.target with
  | some (p, _) => p == o
  | none => false

/-- The results of the operations on this node, out of those of all operations. -/
def resultsOn (o : Oid) (ops : List Op) (rs : List (Except Exc Res)) : List (Except Exc Res) :=
  ((ops.zip rs).filter fun x => x.1.isOn o).map (·.2)

section spec
variable {ref : ClassId → Val → Option String}

theorem assignAll_local (o : Oid) : ∀ (kvs : List (Key × Val)) {s t : MapSpec}, s.cls o = t.cls o → s.map o = t.map o →
    (MapSpec.assignAll ref o kvs s).1 = (MapSpec.assignAll ref o kvs t).1 ∧
    (MapSpec.assignAll ref o kvs s).2.map o = (MapSpec.assignAll ref o kvs t).2.map o ∧
    (MapSpec.assignAll ref o kvs s).2.cls = s.cls ∧ (MapSpec.assignAll ref o kvs s).2.n = s.n
  | [], _, _, _, hm => ⟨rfl, hm, rfl, rfl⟩
  | (k, v) :: r, s, t, hc, hm => by
    simp only [MapSpec.assignAll, MapSpec.assign, hc]
    cases ref (t.cls o) v with
    | some m => exact ⟨rfl, hm, rfl, rfl⟩
    | none =>
      exact assignAll_local o r (s := s.put o ((s.map o).set k v)) (t := t.put o ((t.map o).set k v)) hc
        (by simp only [MapSpec.put, if_true, hm])

/-- In the specification an operation looks at its node only. -/
theorem run_local {s t : MapSpec} {op : Op} {o : Oid} {ks : List Key} (ht : op.target = some (o, ks))
    (hc : s.cls o = t.cls o) (hm : s.map o = t.map o) :
    (s.run ref op).1 = (t.run ref op).1 ∧ (s.run ref op).2.map o = (t.run ref op).2.map o := by
  cases op <;> simp only [Op.target, reduceCtorEq, Option.some.injEq, Prod.mk.injEq] at ht
  all_goals obtain ⟨rfl, rfl⟩ := ht
  case update o kvs =>
    obtain ⟨h1, h2, -, -⟩ := assignAll_local (ref := ref) o kvs hc hm
    simp only [MapSpec.run]
    rcases hs : MapSpec.assignAll ref o kvs s with ⟨x, s1⟩
    rcases hu : MapSpec.assignAll ref o kvs t with ⟨y, t1⟩
    rw [hs, hu] at h1 h2
    obtain rfl : x = y := h1
    cases x <;> exact ⟨rfl, h2⟩
  case set o k v =>
    simp only [MapSpec.run, MapSpec.assign, hc, hm]
    cases ref (t.cls o) v <;> simp [MapSpec.put, hm]
  case setdefault o k v =>
    simp only [MapSpec.run, MapSpec.assign, hc, hm]
    cases (t.map o).val k <;> cases ref (t.cls o) v <;> simp [MapSpec.put, hm]
  all_goals
    simp only [MapSpec.run, MapSpec.assign, hc, hm]
    repeat' split
    all_goals simp_all [MapSpec.put]

/-- It makes no nodes and changes no classes. -/
theorem run_target {s : MapSpec} {op : Op} {o : Oid} {ks : List Key} (ht : op.target = some (o, ks)) :
    (s.run ref op).2.cls = s.cls ∧ (s.run ref op).2.n = s.n := by
  cases op <;> simp only [Op.target, reduceCtorEq, Option.some.injEq, Prod.mk.injEq] at ht
  all_goals obtain ⟨rfl, rfl⟩ := ht
  case update o kvs =>
    obtain ⟨-, -, h3, h4⟩ := assignAll_local (ref := ref) o kvs (s := s) rfl rfl
    simp only [MapSpec.run]
    rcases hs : MapSpec.assignAll ref o kvs s with ⟨x, s1⟩
    rw [hs] at h3 h4
    cases x <;> exact ⟨h3, h4⟩
  case set o k v =>
    simp only [MapSpec.run, MapSpec.assign]
    cases ref (s.cls o) v <;> exact ⟨rfl, rfl⟩
  case setdefault o k v =>
    simp only [MapSpec.run, MapSpec.assign]
    cases (s.map o).val k <;> cases ref (s.cls o) v <;> exact ⟨rfl, rfl⟩
  all_goals
    simp only [MapSpec.run, MapSpec.assign]
    repeat' split
    all_goals first | exact ⟨rfl, rfl⟩ | (simp_all [MapSpec.put])

theorem runAll_on {E : Env} (o : Oid) : ∀ (l : List Op) {s t : MapSpec}, MapHistory E ref l s → o < s.n → o < t.n →
    s.cls o = t.cls o → s.map o = t.map o →
    MapHistory E ref (l.filter (Op.isOn o)) t ∧
    resultsOn o l (MapSpec.runAll ref l s).1 = (MapSpec.runAll ref (l.filter (Op.isOn o)) t).1 ∧
    (MapSpec.runAll ref l s).2.map o = (MapSpec.runAll ref (l.filter (Op.isOn o)) t).2.map o
  | [], _, _, _, _, _, _, hm => ⟨trivial, rfl, hm⟩
  | op :: r, s, t, hh, hs, ht, hc, hm => by
    obtain ⟨hop, hr⟩ := hh
    by_cases hon : op.isOn o = true
    · have htg : ∃ ks, op.target = some (o, ks) := by
        unfold Op.isOn at hon
        split at hon
        · rename_i e
          exact ⟨_, (beq_iff_eq.mp hon) ▸ e⟩
        · cases hon
      obtain ⟨ks, htg⟩ := htg
      obtain ⟨h1, h2⟩ := run_local (ref := ref) htg hc hm
      obtain ⟨c1, n1⟩ := run_target (ref := ref) (s := s) htg
      obtain ⟨c2, n2⟩ := run_target (ref := ref) (s := t) htg
      obtain ⟨i1, i2, i3⟩ := runAll_on o r hr (n1 ▸ hs) (n2 ▸ ht) (by rw [c1, c2, hc]) h2
      rw [List.filter_cons_of_pos hon]
      refine ⟨⟨?_, i1⟩, ?_, i3⟩
      · rcases hop with ⟨c, nm, p, rfl, -⟩ | ⟨o', ks', e, -, hk⟩
        · cases htg
        · rw [e] at htg
          obtain ⟨rfl, rfl⟩ := Prod.mk.inj (Option.some.inj htg)
          exact .inr ⟨o', ks', e, ht, hc ▸ hk⟩
      · simp only [resultsOn, MapSpec.runAll, List.zip_cons_cons] at i2 ⊢
        rw [List.filter_cons_of_pos (by exact hon), List.map_cons, i2, h1]
    · have hst : o < (s.run ref op).2.n ∧ (s.run ref op).2.cls o = s.cls o ∧ (s.run ref op).2.map o = s.map o := by
        rcases hop with ⟨c, nm, p, rfl, -⟩ | ⟨o', ks', e, -, -⟩
        · simp only [MapSpec.run]
          exact ⟨by omega, if_neg (by omega), if_neg (by omega)⟩
        · obtain ⟨c1, n1⟩ := run_target (ref := ref) (s := s) e
          refine ⟨n1 ▸ hs, congrFun c1 o, run_other ref s op e fun h => hon ?_⟩
          simp [Op.isOn, e, h]
      obtain ⟨i1, i2, i3⟩ := runAll_on o r hr hst.1 ht (hst.2.1.trans hc) (hst.2.2.trans hm)
      rw [List.filter_cons_of_neg hon]
      refine ⟨i1, ?_, i3⟩
      simp only [resultsOn, MapSpec.runAll, List.zip_cons_cons] at i2 ⊢
      rw [List.filter_cons_of_neg (by exact hon), i2]

end spec

/-- **C94.** After any history, whatever is done to any nodes: what the operations on one node return, in order, and what
the node holds in the end are the same as if the operations on other nodes and the constructions had not been there. -/
theorem c94_alone (E : Env) (hd : 0 < E.depth) (ops l : List Op) (h : MapHistory E (refOf E) (ops ++ l) {}) {w : World}
    (hw : w = (execAll E ops {}).2) {o : Oid} (ho : o < w.nobj) :
    resultsOn o l (execAll E l w).1 = (execAll E (l.filter (Op.isOn o)) w).1 ∧
    (execAll E l w).2.omap o = (execAll E (l.filter (Op.isOn o)) w).2.omap o := by
  subst hw
  obtain ⟨ha, hb⟩ := (mapHistory_append ops l {}).mp h
  obtain ⟨-, hr⟩ := execAll_pt hd ops Rel.empty ha
  have hos := hr.nobj ▸ ho
  obtain ⟨i1, i2, i3⟩ := runAll_on o l hb hos hos rfl rfl
  obtain ⟨j1, j2⟩ := execAll_pt hd l hr hb
  obtain ⟨k1, k2⟩ := execAll_pt hd _ hr i1
  rw [j1, k1, i2]
  refine ⟨rfl, ?_⟩
  have hn1 := Nat.lt_of_lt_of_le ho (grow_execAll E l _).nobj
  have hn2 := Nat.lt_of_lt_of_le ho (grow_execAll E (l.filter (Op.isOn o)) (execAll E ops {}).2).nobj
  rw [j2.map o (j2.nobj ▸ hn1), k2.map o (k2.nobj ▸ hn2), i3]

/-- **C94.** Two ways of interleaving the same work on each node return the same and leave the same. -/
theorem c94_interleave (E : Env) (hd : 0 < E.depth) (ops l l' : List Op) (h : MapHistory E (refOf E) (ops ++ l) {})
    (h' : MapHistory E (refOf E) (ops ++ l') {}) {w : World} (hw : w = (execAll E ops {}).2)
    (hsame : ∀ o, o < w.nobj → l.filter (Op.isOn o) = l'.filter (Op.isOn o)) {o : Oid} (ho : o < w.nobj) :
    resultsOn o l (execAll E l w).1 = resultsOn o l' (execAll E l' w).1 ∧
    (execAll E l w).2.omap o = (execAll E l' w).2.omap o := by
  obtain ⟨a1, a2⟩ := c94_alone E hd ops l h hw ho
  obtain ⟨b1, b2⟩ := c94_alone E hd ops l' h' hw ho
  rw [a1, a2, b1, b2, hsame o ho]
  exact ⟨rfl, rfl⟩

/-- Three nodes. -/
def c94Pre : List Op := c01Ops.take 3

/-- `c94_alone` for the rest of the history of C01. -/
example := c94_alone sampleEnv (by decide) c94Pre (c01Ops.drop 3) c01Ops_history rfl (o := 0) (by decide +kernel)

/-- Work on two nodes, one after the other and mixed. -/
def c94A : List Op := [.set 1 ka (.node 2), .set 1 kb (.node 2), .popitem 1, .set 0 ka (.node 2), .del 0 kb, .keys 0]
def c94B : List Op := [.set 0 ka (.node 2), .set 1 ka (.node 2), .del 0 kb, .set 1 kb (.node 2), .keys 0, .popitem 1]

theorem c94_history : MapHistory sampleEnv (refOf sampleEnv) (c94Pre ++ c94A) {} ∧
    MapHistory sampleEnv (refOf sampleEnv) (c94Pre ++ c94B) {} := by
  have hk : ∀ k, KeyFor orderedNode k := fun k h => absurd h (by decide)
  have hb : ∀ k, KeyFor baseNode k := fun k h => absurd h (by decide)
  have hpre := ((mapHistory_append c94Pre (c01Ops.drop 3) {}).mp c01Ops_history).1
  refine ⟨(mapHistory_append _ _ _).mpr ⟨hpre, ?_⟩, (mapHistory_append _ _ _).mpr ⟨hpre, ?_⟩⟩
  · exact ⟨.inr ⟨_, _, rfl, by decide, fun k _ => hb k⟩, .inr ⟨_, _, rfl, by decide, fun k _ => hb k⟩,
      .inr ⟨_, _, rfl, by decide, fun k _ => hb k⟩, .inr ⟨_, _, rfl, by decide, fun k _ => hk k⟩,
      .inr ⟨_, _, rfl, by decide, fun k _ => hk k⟩, .inr ⟨_, _, rfl, by decide, fun k _ => hk k⟩, trivial⟩
  · exact ⟨.inr ⟨_, _, rfl, by decide, fun k _ => hk k⟩, .inr ⟨_, _, rfl, by decide, fun k _ => hb k⟩,
      .inr ⟨_, _, rfl, by decide, fun k _ => hk k⟩, .inr ⟨_, _, rfl, by decide, fun k _ => hb k⟩,
      .inr ⟨_, _, rfl, by decide, fun k _ => hk k⟩, .inr ⟨_, _, rfl, by decide, fun k _ => hb k⟩, trivial⟩

/-- `c94_interleave` for them. -/
example := c94_interleave sampleEnv (by decide) c94Pre c94A c94B c94_history.1 c94_history.2 rfl
  (by
    have hn : (execAll sampleEnv c94Pre {}).2.nobj = 3 := by decide +kernel
    rw [hn]
    intro o ho
    rcases o with _ | _ | _ | o
    · rfl
    · rfl
    · rfl
    · omega) (o := 1) (by decide +kernel)

example : resultsOn 1 c94B (execAll sampleEnv c94B (execAll sampleEnv c94Pre {}).2).1 =
    [.ok .unit, .ok .unit, .ok (.item kb (.node 2))] := by decide +kernel

end Verif
