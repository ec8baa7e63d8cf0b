import Verif.Props.C94

/-!
# C104: what a node shows is all it remembers

Nodes of the same class with the same children, however they came by them, answer the same to everything
that is done to them.
-/

namespace Verif

/-- The same operation on another node. -/
def Op.aim (q : Oid) : Op → Op
  | .get _ k => .get q k
  | .set _ k v => .set q k v
  | .del _ k => .del q k
  | .getD _ k d => .getD q k d
  | .contains _ k => .contains q k
  | .keys _ => .keys q
  | .values _ => .values q
  | .items _ => .items q
  | .len _ => .len q
  | .setdefault _ k v => .setdefault q k v
  | .pop _ k d => .pop q k d
  | .popitem _ => .popitem q
  | .update _ kvs => .update q kvs
  | .clear _ => .clear q
  | op => op

section spec
variable {ref : ClassId → Val → Option String}

theorem assignAll_aim {o q : Oid} : ∀ (kvs : List (Key × Val)) {s t : MapSpec}, s.cls o = t.cls q → s.map o = t.map q →
    (MapSpec.assignAll ref o kvs s).1 = (MapSpec.assignAll ref q kvs t).1 ∧
    (MapSpec.assignAll ref o kvs s).2.map o = (MapSpec.assignAll ref q kvs t).2.map q
  | [], _, _, _, hm => ⟨rfl, hm⟩
  | (k, v) :: r, s, t, hc, hm => by
    simp only [MapSpec.assignAll, MapSpec.assign, hc]
    cases ref (t.cls q) v with
    | some m => exact ⟨rfl, hm⟩
    | none =>
      exact assignAll_aim r (s := s.put o ((s.map o).set k v)) (t := t.put q ((t.map q).set k v)) hc
        (by simp only [MapSpec.put, if_true, hm])

theorem aim_target {op : Op} {o : Oid} {ks : List Key} (ht : op.target = some (o, ks)) (q : Oid) :
    (op.aim q).target = some (q, ks) := by
  cases op <;> simp only [Op.target, reduceCtorEq, Option.some.injEq, Prod.mk.injEq] at ht
  all_goals (obtain ⟨rfl, rfl⟩ := ht; rfl)

/-- In the specification an operation sees the class and the children of its node only. -/
theorem run_aim {s t : MapSpec} {op : Op} {o q : Oid} {ks : List Key} (ht : op.target = some (o, ks))
    (hc : s.cls o = t.cls q) (hm : s.map o = t.map q) :
    (s.run ref op).1 = (t.run ref (op.aim q)).1 ∧ (s.run ref op).2.map o = (t.run ref (op.aim q)).2.map q := by
  cases op <;> simp only [Op.target, reduceCtorEq, Option.some.injEq, Prod.mk.injEq] at ht
  all_goals obtain ⟨rfl, rfl⟩ := ht
  case update o kvs =>
    obtain ⟨h1, h2⟩ := assignAll_aim (ref := ref) kvs hc hm
    simp only [MapSpec.run, Op.aim]
    rcases hs : MapSpec.assignAll ref o kvs s with ⟨x, s1⟩
    rcases hu : MapSpec.assignAll ref q kvs t with ⟨y, t1⟩
    rw [hs, hu] at h1 h2
    obtain rfl : x = y := h1
    cases x <;> exact ⟨rfl, h2⟩
  case set o k v =>
    simp only [MapSpec.run, Op.aim, MapSpec.assign, hc, hm]
    cases ref (t.cls q) v <;> simp [MapSpec.put, hm]
  case setdefault o k v =>
    simp only [MapSpec.run, Op.aim, MapSpec.assign, hc, hm]
    cases (t.map q).val k <;> cases ref (t.cls q) v <;> simp [MapSpec.put, hm]
  all_goals
    simp only [MapSpec.run, Op.aim, MapSpec.assign, hc, hm]
    repeat' split
    all_goals simp_all [MapSpec.put]

theorem runAll_aim {E : Env} {o q : Oid} : ∀ (l : List Op) {s t : MapSpec}, MapHistory E ref l s →
    (∀ op ∈ l, op.isOn o = true) → q < t.n → s.cls o = t.cls q → s.map o = t.map q →
    MapHistory E ref (l.map (Op.aim q)) t ∧
    (MapSpec.runAll ref (l.map (Op.aim q)) t).1 = (MapSpec.runAll ref l s).1 ∧
    (MapSpec.runAll ref (l.map (Op.aim q)) t).2.map q = (MapSpec.runAll ref l s).2.map o
  | [], _, _, _, _, _, _, hm => ⟨trivial, rfl, hm.symm⟩
  | op :: r, s, t, ⟨hop, hr⟩, hon, hq, hc, hm => by
    have ho := hon op List.mem_cons_self
    rcases hop with ⟨c, nm, p, rfl, -⟩ | ⟨o', ks, e, -, hk⟩
    · cases ho
    · obtain rfl : o' = o := by simpa [Op.isOn, e] using ho
      obtain ⟨h1, h2⟩ := run_aim (ref := ref) e hc hm
      obtain ⟨c1, n1⟩ := run_target (ref := ref) (s := s) e
      obtain ⟨c2, n2⟩ := run_target (ref := ref) (s := t) (aim_target e q)
      obtain ⟨i1, i2, i3⟩ := runAll_aim r hr (fun x hx => hon x (List.mem_cons_of_mem _ hx)) (n2 ▸ hq)
        (by rw [c1, c2, hc]) h2
      refine ⟨⟨.inr ⟨q, ks, aim_target e q, hq, hc ▸ hk⟩, i1⟩, ?_, i3⟩
      simp only [List.map_cons, MapSpec.runAll, i2, h1]

end spec

/-- **C104.** Two nodes of the same class with the same children in the same order, in the heaps of any two histories:
whatever sequence of mapping operations is applied to either, all results are the same, and so are the children in
the end. -/
theorem c104_shown (E : Env) (hd : 0 < E.depth) (ops ops' l : List Op) {o q : Oid}
    (h : MapHistory E (refOf E) (ops ++ l) {}) (h' : MapHistory E (refOf E) ops' {}) (hl : ∀ op ∈ l, op.isOn o = true)
    {w w' : World} (hw : w = (execAll E ops {}).2) (hw' : w' = (execAll E ops' {}).2) (ho : o < w.nobj)
    (hq : q < w'.nobj) (hc : (w.objs o).cls = (w'.objs q).cls) (hm : w.omap o = w'.omap q) :
    (execAll E (l.map (Op.aim q)) w').1 = (execAll E l w).1 ∧
    (execAll E (l.map (Op.aim q)) w').2.omap q = (execAll E l w).2.omap o := by
  subst hw hw'
  obtain ⟨ha, hb⟩ := (mapHistory_append ops l {}).mp h
  obtain ⟨-, hr⟩ := execAll_pt hd ops Rel.empty ha
  obtain ⟨-, hr'⟩ := execAll_pt hd ops' Rel.empty h'
  have hos := hr.nobj ▸ ho
  have hqs := hr'.nobj ▸ hq
  rw [hr.cls o hos, hr'.cls q hqs] at hc
  rw [hr.map o hos, hr'.map q hqs] at hm
  obtain ⟨i1, i2, i3⟩ := runAll_aim (E := E) l hb hl hqs hc hm
  obtain ⟨j1, j2⟩ := execAll_pt hd l hr hb
  obtain ⟨k1, k2⟩ := execAll_pt hd _ hr' i1
  refine ⟨by rw [k1, j1, i2], ?_⟩
  have hn := Nat.lt_of_lt_of_le ho (grow_execAll E l _).nobj
  have hn' := Nat.lt_of_lt_of_le hq (grow_execAll E (l.map (Op.aim q)) (execAll E ops' {}).2).nobj
  rw [k2.map q (k2.nobj ▸ hn'), j2.map o (j2.nobj ▸ hn), i3]

/-- The same nodes, of the same classes, with the same children. -/
structure SameShown (s t : MapSpec) : Prop where
  n : s.n = t.n
  cls : ∀ p, p < s.n → s.cls p = t.cls p
  map : ∀ p, p < s.n → s.map p = t.map p

theorem run_shown {E : Env} {ref : ClassId → Val → Option String} {s t : MapSpec} {op : Op} (hop : MapOp E s op)
    (h : SameShown s t) : MapOp E t op ∧ (s.run ref op).1 = (t.run ref op).1 ∧ SameShown (s.run ref op).2 (t.run ref op).2 := by
  rcases hop with ⟨c, nm, p, rfl, hc⟩ | ⟨o, ks, e, ho, hk⟩
  · refine ⟨.inl ⟨c, nm, p, rfl, hc⟩, by simp only [MapSpec.run, h.n], ?_⟩
    simp only [MapSpec.run]
    refine ⟨congrArg (· + 1) h.n, fun q hq => ?_, fun q hq => ?_⟩
    · by_cases hs : q = s.n
      · simp only [hs, h.n, if_true]
      · have hq : q < s.n := Nat.lt_of_le_of_ne (Nat.lt_succ_iff.mp hq) hs
        simp only [if_neg hs, if_neg (h.n ▸ hs), h.cls q hq]
    · by_cases hs : q = s.n
      · simp only [hs, h.n, if_true]
      · have hq : q < s.n := Nat.lt_of_le_of_ne (Nat.lt_succ_iff.mp hq) hs
        simp only [if_neg hs, if_neg (h.n ▸ hs), h.map q hq]
  · obtain ⟨h1, h2⟩ := run_local (ref := ref) e (h.cls o ho) (h.map o ho)
    obtain ⟨c1, n1⟩ := run_target (ref := ref) (s := s) e
    obtain ⟨c2, n2⟩ := run_target (ref := ref) (s := t) e
    refine ⟨.inr ⟨o, ks, e, h.n ▸ ho, h.cls o ho ▸ hk⟩, h1, ⟨by rw [n1, n2, h.n], fun q hq => ?_, fun q hq => ?_⟩⟩
    · rw [c1, c2, h.cls q (n1 ▸ hq)]
    · by_cases hq' : q = o
      · rw [hq', h2]
      · rw [run_other ref s op e hq', run_other ref t op e hq', h.map q (n1 ▸ hq)]

theorem runAll_shown {E : Env} {ref : ClassId → Val → Option String} : ∀ (l : List Op) {s t : MapSpec},
    MapHistory E ref l s → SameShown s t → MapHistory E ref l t ∧
    (MapSpec.runAll ref l s).1 = (MapSpec.runAll ref l t).1 ∧ SameShown (MapSpec.runAll ref l s).2 (MapSpec.runAll ref l t).2
  | [], _, _, _, h => ⟨trivial, rfl, h⟩
  | op :: r, s, t, ⟨hop, hr⟩, h => by
    obtain ⟨h1, h2, h3⟩ := run_shown (ref := ref) hop h
    obtain ⟨i1, i2, i3⟩ := runAll_shown r hr h3
    exact ⟨⟨h1, i1⟩, by simp only [MapSpec.runAll, h2, i2], i3⟩

/-- **C104.** Two histories after which there are as many nodes, of the same classes and with the same children, cannot be
told apart: whatever is done next, to any nodes and with new ones, all results are the same, and so are the children of
all nodes in the end. -/
theorem c104_heap (E : Env) (hd : 0 < E.depth) (ops ops' l : List Op) (h : MapHistory E (refOf E) (ops ++ l) {})
    (h' : MapHistory E (refOf E) ops' {}) {w w' : World} (hw : w = (execAll E ops {}).2) (hw' : w' = (execAll E ops' {}).2)
    (hn : w.nobj = w'.nobj) (hc : ∀ p, p < w.nobj → (w.objs p).cls = (w'.objs p).cls)
    (hm : ∀ p, p < w.nobj → w.omap p = w'.omap p) :
    (execAll E l w').1 = (execAll E l w).1 ∧ (execAll E l w').2.nobj = (execAll E l w).2.nobj ∧
    ∀ p, p < (execAll E l w).2.nobj → (execAll E l w').2.omap p = (execAll E l w).2.omap p := by
  subst hw hw'
  obtain ⟨ha, hb⟩ := (mapHistory_append ops l {}).mp h
  obtain ⟨-, hr⟩ := execAll_pt hd ops Rel.empty ha
  obtain ⟨-, hr'⟩ := execAll_pt hd ops' Rel.empty h'
  have hs : SameShown (MapSpec.runAll (refOf E) ops {}).2 (MapSpec.runAll (refOf E) ops' {}).2 := by
    have e := hr.nobj.symm.trans (hn.trans hr'.nobj)
    refine ⟨e, fun p hp => ?_, fun p hp => ?_⟩
    · rw [← hr.cls p hp, ← hr'.cls p (e ▸ hp), hc p (hr.nobj.symm ▸ hp)]
    · rw [← hr.map p hp, ← hr'.map p (e ▸ hp), hm p (hr.nobj.symm ▸ hp)]
  obtain ⟨i1, i2, i3⟩ := runAll_shown (E := E) l hb hs
  obtain ⟨j1, j2⟩ := execAll_pt hd l hr hb
  obtain ⟨k1, k2⟩ := execAll_pt hd l hr' i1
  refine ⟨by rw [k1, j1, i2], by rw [k2.nobj, j2.nobj, i3.n], fun p hp => ?_⟩
  have hps := j2.nobj ▸ hp
  rw [k2.map p (i3.n ▸ hps), j2.map p hps, i3.map p hps]

/-- Two ways to the same children of the first and of the last node. -/
def c104A : List Op := [.set 0 ka (.node 1), .set 0 kb (.node 2), .del 0 ka]
def c104B : List Op := [.new 1 .none none, .update 3 [(kb, .node 2)]]
/-- What is done next. -/
def c104Next : List Op := [.setdefault 0 ka (.node 1), .del 0 kc, .popitem 0, .items 0]

theorem c104_history : MapHistory sampleEnv (refOf sampleEnv) ((c94Pre ++ c104A) ++ c104Next) {} ∧
    MapHistory sampleEnv (refOf sampleEnv) (c94Pre ++ c104B) {} := by
  have hk : ∀ k, KeyFor orderedNode k := fun k h => absurd h (by decide)
  have hpre := ((mapHistory_append c94Pre (c01Ops.drop 3) {}).mp c01Ops_history).1
  have on : ∀ {s : MapSpec} {op : Op} {o : Oid} {ks : List Key}, op.target = some (o, ks) → o < s.n →
      sampleEnv.cls (s.cls o) = orderedNode → MapOp sampleEnv s op := fun e h h' =>
    .inr ⟨_, _, e, h, fun k _ => h' ▸ hk k⟩
  refine ⟨?_, (mapHistory_append _ _ _).mpr ⟨hpre, ?_⟩⟩
  · rw [List.append_assoc]
    refine (mapHistory_append _ _ _).mpr ⟨hpre, ?_⟩
    exact ⟨on rfl (by decide) rfl, on rfl (by decide) rfl, on rfl (by decide) rfl, on rfl (by decide) rfl,
      on rfl (by decide) rfl, on rfl (by decide) rfl, on rfl (by decide) rfl, trivial⟩
  · exact ⟨.inl ⟨_, _, _, rfl, ⟨by decide, by decide, by decide⟩, by decide⟩, on rfl (by decide) rfl, trivial⟩

/-- `c104_shown` for them. -/
example := c104_shown sampleEnv (by decide) (c94Pre ++ c104A) (c94Pre ++ c104B) c104Next (o := 0) (q := 3)
  c104_history.1 c104_history.2 (by decide) rfl rfl (by decide +kernel) (by decide +kernel) (by decide +kernel) rfl

/-- A child taken out again, and one never put in. -/
def c104C : List Op := [.set 0 kb (.node 2)]

theorem c104_history_heap : MapHistory sampleEnv (refOf sampleEnv) (c94Pre ++ c104C) {} :=
  (mapHistory_append _ _ _).mpr ⟨((mapHistory_append c94Pre (c01Ops.drop 3) {}).mp c01Ops_history).1,
    .inr ⟨_, _, rfl, by decide, fun _ _ h => absurd h (by decide)⟩, trivial⟩

/-- `c104_heap` for two histories that differ. -/
example := c104_heap sampleEnv (by decide) (c94Pre ++ c104A) (c94Pre ++ c104C) c104Next c104_history.1 c104_history_heap rfl rfl
  (by decide +kernel) (by decide +kernel)
  (by
    have hn : (execAll sampleEnv (c94Pre ++ c104A) {}).2.nobj = 3 := by decide +kernel
    rw [hn]
    intro p hp
    rcases p with _ | _ | _ | p
    · rfl
    · rfl
    · rfl
    · omega)

end Verif
