import Verif.Props.C94

/-!
# C98: the keys of a node are independent

What a node answers for a key depends on what was done with this key only.
-/

namespace Verif

/-- An operation about this key of this node, or about all keys of the node alike. -/
def Op.isAbout (o : Oid) (k : Key) : Op → Bool
  | .get p j | .del p j | .getD p j _ | .contains p j | .pop p j _ | .set p j _ | .setdefault p j _ =>
    decide (p = o ∧ j = k)
  | .clear p => decide (p = o)
  | _ => false

/-- Operations that choose or name several keys of the node. -/
def Op.isMixed (o : Oid) : Op → Bool
  | .popitem p | .update p _ => decide (p = o)
  | _ => false

/-- The results of the operations about this key, out of those of all operations. -/
def resultsFor (o : Oid) (k : Key) (ops : List Op) (rs : List (Except Exc Res)) : List (Except Exc Res) :=
  ((ops.zip rs).filter fun x => x.1.isAbout o k).map (·.2)

section spec
variable {ref : ClassId → Val → Option String} {o : Oid} {k : Key}

/-- Two states agree about a key of a node. -/
structure AgreeFor (o : Oid) (k : Key) (s t : MapSpec) : Prop where
  cls : s.cls o = t.cls o
  val : (s.map o).val k = (t.map o).val k
  mem : k ∈ (s.map o).keys ↔ k ∈ (t.map o).keys

theorem OMap.mem_set {m : OMap Key Val} {j : Key} {v : Val} : k ∈ (m.set j v).keys ↔ k = j ∨ k ∈ m.keys := by
  simp only [OMap.set]
  split
  · exact ⟨.inr, fun h => h.elim (fun e => e ▸ ‹_›) id⟩
  · rw [List.mem_append, List.mem_singleton]; exact or_comm

theorem OMap.mem_del {m : OMap Key Val} {j : Key} : k ∈ (m.del j).keys ↔ k ∈ m.keys ∧ k ≠ j := by
  simp [OMap.del]

/-- In the specification an operation about a key looks at this key only. -/
theorem run_about {s t : MapSpec} {op : Op} (h : op.isAbout o k = true) (ha : AgreeFor o k s t) :
    (s.run ref op).1 = (t.run ref op).1 ∧ AgreeFor o k (s.run ref op).2 (t.run ref op).2 := by
  obtain ⟨hc, hv, hm⟩ := ha
  have same : AgreeFor o k s t := ⟨hc, hv, hm⟩
  have hset : ∀ v, AgreeFor o k (s.put o ((s.map o).set k v)) (t.put o ((t.map o).set k v)) := fun v =>
    ⟨hc, by simp [MapSpec.put, OMap.set], by simp [MapSpec.put, OMap.mem_set]⟩
  have hdel : AgreeFor o k (s.put o ((s.map o).del k)) (t.put o ((t.map o).del k)) :=
    ⟨hc, by simp [MapSpec.put, OMap.del], by simp [MapSpec.put, OMap.mem_del]⟩
  cases op <;> simp only [Op.isAbout, decide_eq_true_eq, reduceCtorEq, Bool.false_eq_true] at h
  case clear p =>
    subst h
    exact ⟨rfl, hc, by simp [MapSpec.run, MapSpec.put], by simp [MapSpec.run, MapSpec.put]⟩
  all_goals obtain ⟨rfl, rfl⟩ := h
  case get p j =>
    simp only [MapSpec.run, hv]
    cases (t.map p).val j <;> exact ⟨rfl, same⟩
  case getD p j d => simp only [MapSpec.run, hv]; exact ⟨trivial, same⟩
  case contains p j => simp only [MapSpec.run, hm]; exact ⟨trivial, same⟩
  case set p j v =>
    simp only [MapSpec.run, MapSpec.assign, hc]
    cases ref (t.cls p) v
    · exact ⟨rfl, hset v⟩
    · exact ⟨rfl, same⟩
  case del p j =>
    simp only [MapSpec.run, hm]
    split
    · exact ⟨rfl, hdel⟩
    · exact ⟨rfl, same⟩
  case pop p j d =>
    simp only [MapSpec.run, hv]
    cases (t.map p).val j
    · cases d <;> exact ⟨rfl, same⟩
    · exact ⟨rfl, hdel⟩
  case setdefault p j v =>
    simp only [MapSpec.run, MapSpec.assign, hc, hv]
    cases (t.map p).val j
    · cases ref (t.cls p) v
      · exact ⟨rfl, hset v⟩
      · exact ⟨rfl, same⟩
    · exact ⟨rfl, same⟩

/-- The others leave the key alone. -/
theorem run_aside {E : Env} {s : MapSpec} {op : Op} (hop : MapOp E s op) (ho : o < s.n) (h : ¬ op.isAbout o k = true)
    (h' : ¬ op.isMixed o = true) : o < (s.run ref op).2.n ∧ AgreeFor o k (s.run ref op).2 s := by
  have same : AgreeFor o k s s := ⟨rfl, rfl, .rfl⟩
  rcases hop with ⟨c, nm, p, rfl, -⟩ | ⟨p, ks, e, -, -⟩
  · have hm : (s.run ref (.new c nm p)).2.map o = s.map o := if_neg (by omega)
    exact ⟨Nat.lt_succ_of_lt ho, ⟨if_neg (by omega), by rw [hm], by rw [hm]⟩⟩
  · obtain ⟨c1, n1⟩ := run_target (ref := ref) (s := s) e
    refine ⟨n1 ▸ ho, ?_⟩
    by_cases hp : p = o
    · subst hp
      have hset : ∀ j v, j ≠ k → AgreeFor p k (s.put p ((s.map p).set j v)) s := fun j v hj =>
        ⟨rfl, by simp [MapSpec.put, OMap.set, Ne.symm hj], by simp [MapSpec.put, OMap.mem_set, Ne.symm hj]⟩
      have hdel : ∀ j, j ≠ k → AgreeFor p k (s.put p ((s.map p).del j)) s := fun j hj =>
        ⟨rfl, by simp [MapSpec.put, OMap.del, Ne.symm hj], by simp [MapSpec.put, OMap.mem_del, Ne.symm hj]⟩
      cases op <;> simp only [Op.target, reduceCtorEq, Option.some.injEq, Prod.mk.injEq] at e
      all_goals obtain ⟨rfl, rfl⟩ := e
      all_goals simp only [Op.isAbout, Op.isMixed, decide_eq_true_eq, true_and, not_true_eq_false] at h h'
      case set p j v =>
        simp only [MapSpec.run, MapSpec.assign]
        cases ref (s.cls p) v
        · exact hset j v h
        · exact same
      case setdefault p j v =>
        simp only [MapSpec.run, MapSpec.assign]
        cases (s.map p).val j
        · cases ref (s.cls p) v
          · exact hset j v h
          · exact same
        · exact same
      case del p j =>
        simp only [MapSpec.run]
        split
        · exact hdel j h
        · exact same
      case pop p j d =>
        simp only [MapSpec.run]
        cases (s.map p).val j
        · cases d <;> exact same
        · exact hdel j h
      case get p j =>
        simp only [MapSpec.run]
        cases (s.map p).val j <;> exact same
      all_goals exact same
    · have hm := run_other ref s op e (fun h => hp h.symm)
      exact ⟨congrFun c1 o, by rw [hm], by rw [hm]⟩

theorem runAll_about {E : Env} : ∀ (l : List Op) {s t : MapSpec}, MapHistory E ref l s → o < s.n → o < t.n →
    (∀ op ∈ l, ¬ op.isMixed o = true) → AgreeFor o k s t →
    MapHistory E ref (l.filter (Op.isAbout o k)) t ∧
    resultsFor o k l (MapSpec.runAll ref l s).1 = (MapSpec.runAll ref (l.filter (Op.isAbout o k)) t).1 ∧
    AgreeFor o k (MapSpec.runAll ref l s).2 (MapSpec.runAll ref (l.filter (Op.isAbout o k)) t).2
  | [], _, _, _, _, _, _, ha => ⟨trivial, rfl, ha⟩
  | op :: r, s, t, hh, hs, ht, hx, ha => by
    obtain ⟨hop, hr⟩ := hh
    have hx' : ∀ op ∈ r, ¬ op.isMixed o = true := fun op h => hx op (List.mem_cons_of_mem _ h)
    by_cases hon : op.isAbout o k = true
    · have htg : ∃ ks, op.target = some (o, ks) := by
        cases op <;> simp only [Op.isAbout, decide_eq_true_eq, reduceCtorEq, Bool.false_eq_true] at hon
        case clear p => exact ⟨_, by rw [hon]; rfl⟩
        all_goals exact ⟨_, by rw [hon.1]; rfl⟩
      obtain ⟨ks, htg⟩ := htg
      obtain ⟨h1, h2⟩ := run_about (ref := ref) hon ha
      obtain ⟨c1, n1⟩ := run_target (ref := ref) (s := s) htg
      obtain ⟨c2, n2⟩ := run_target (ref := ref) (s := t) htg
      obtain ⟨i1, i2, i3⟩ := runAll_about r hr (n1 ▸ hs) (n2 ▸ ht) hx' h2
      rw [List.filter_cons_of_pos hon]
      refine ⟨⟨?_, i1⟩, ?_, i3⟩
      · rcases hop with ⟨c, nm, p, rfl, -⟩ | ⟨o', ks', e, -, hk⟩
        · cases htg
        · rw [e] at htg
          obtain ⟨rfl, rfl⟩ := Prod.mk.inj (Option.some.inj htg)
          exact .inr ⟨o', ks', e, ht, ha.cls ▸ hk⟩
      · simp only [resultsFor, MapSpec.runAll, List.zip_cons_cons] at i2 ⊢
        rw [List.filter_cons_of_pos (by exact hon), List.map_cons, i2, h1]
    · obtain ⟨h1, h2⟩ := run_aside (ref := ref) hop hs hon (hx op List.mem_cons_self)
      obtain ⟨i1, i2, i3⟩ := runAll_about r hr h1 ht hx'
        ⟨h2.cls.trans ha.cls, h2.val.trans ha.val, h2.mem.trans ha.mem⟩
      rw [List.filter_cons_of_neg hon]
      refine ⟨i1, ?_, i3⟩
      simp only [resultsFor, MapSpec.runAll, List.zip_cons_cons] at i2 ⊢
      rw [List.filter_cons_of_neg (by exact hon), i2]

end spec

/-- **C98.** After any history, whatever is done to any nodes, but for `popitem` and `update` on this node: what the
operations about one key return, in order, and what is found under the key in the end are the same as if nothing
had been done with other keys, and to other nodes. -/
theorem c98_alone (E : Env) (hd : 0 < E.depth) (ops l : List Op) (h : MapHistory E (refOf E) (ops ++ l) {}) {w : World}
    (hw : w = (execAll E ops {}).2) {o : Oid} (ho : o < w.nobj) (hx : ∀ op ∈ l, ¬ op.isMixed o = true) (k : Key) :
    resultsFor o k l (execAll E l w).1 = (execAll E (l.filter (Op.isAbout o k)) w).1 ∧
    ((execAll E l w).2.omap o).val k = ((execAll E (l.filter (Op.isAbout o k)) w).2.omap o).val k := by
  subst hw
  obtain ⟨ha, hb⟩ := (mapHistory_append ops l {}).mp h
  obtain ⟨-, hr⟩ := execAll_pt hd ops Rel.empty ha
  have hos := hr.nobj ▸ ho
  obtain ⟨i1, i2, i3⟩ := runAll_about (k := k) l hb hos hos hx ⟨rfl, rfl, .rfl⟩
  obtain ⟨j1, j2⟩ := execAll_pt hd l hr hb
  obtain ⟨k1, k2⟩ := execAll_pt hd _ hr i1
  rw [j1, k1, i2]
  refine ⟨rfl, ?_⟩
  have hn1 := Nat.lt_of_lt_of_le ho (grow_execAll E l _).nobj
  have hn2 := Nat.lt_of_lt_of_le ho (grow_execAll E (l.filter (Op.isAbout o k)) (execAll E ops {}).2).nobj
  rw [j2.map o (j2.nobj ▸ hn1), k2.map o (k2.nobj ▸ hn2), i3.val]

/-- **C98.** Two ways of interleaving the same work on each key of a node return the same for each key and leave the
same under it; only the order of the keys may differ. -/
theorem c98_interleave (E : Env) (hd : 0 < E.depth) (ops l l' : List Op) (h : MapHistory E (refOf E) (ops ++ l) {})
    (h' : MapHistory E (refOf E) (ops ++ l') {}) {w : World} (hw : w = (execAll E ops {}).2) {o : Oid}
    (ho : o < w.nobj) (hx : ∀ op ∈ l, ¬ op.isMixed o = true) (hx' : ∀ op ∈ l', ¬ op.isMixed o = true)
    (hsame : ∀ k, l.filter (Op.isAbout o k) = l'.filter (Op.isAbout o k)) :
    (∀ k, resultsFor o k l (execAll E l w).1 = resultsFor o k l' (execAll E l' w).1) ∧
    ((execAll E l w).2.omap o).val = ((execAll E l' w).2.omap o).val ∧
    ((execAll E l w).2.omap o).keys.Perm ((execAll E l' w).2.omap o).keys := by
  have key := fun k => (⟨c98_alone E hd ops l h hw ho hx k, c98_alone E hd ops l' h' hw ho hx' k⟩ : _ ∧ _)
  have hval : ((execAll E l w).2.omap o).val = ((execAll E l' w).2.omap o).val := funext fun k => by
    rw [(key k).1.2, (key k).2.2, hsame k]
  refine ⟨fun k => by rw [(key k).1.1, (key k).2.1, hsame k], hval, ?_⟩
  subst hw
  have hwf := (reachable_after E ops).wf
  refine (List.perm_ext_iff_of_nodup (((grow_execAll E l _).wf hwf).children_nodup o)
    (((grow_execAll E l' _).wf hwf).children_nodup o)).mpr fun j => ?_
  have e1 : ∀ {x : World}, j ∈ (x.children o).keys ↔ ∃ v, (x.omap o).val j = some v := fun {x} =>
    ⟨fun h => Od.get?_of_mem_keys h, fun ⟨v, h⟩ => Od.mem_keys_of_get? h⟩
  rw [e1, e1]
  exact ⟨fun ⟨v, h⟩ => ⟨v, by rw [← h]; exact (congrFun hval j).symm⟩, fun ⟨v, h⟩ => ⟨v, by rw [← h]; exact congrFun hval j⟩⟩

/-- Work on two keys of a node, one after the other and mixed. -/
def c98A : List Op := [.set 0 ka (.node 1), .pop 0 ka none, .set 0 ka (.node 2), .set 0 kb (.node 1), .get 0 kb, .keys 0]
def c98B : List Op := [.set 0 kb (.node 1), .set 0 ka (.node 1), .get 0 kb, .pop 0 ka none, .set 0 ka (.node 2), .len 0]

theorem c98_history : MapHistory sampleEnv (refOf sampleEnv) (c94Pre ++ c98A) {} ∧
    MapHistory sampleEnv (refOf sampleEnv) (c94Pre ++ c98B) {} := by
  have hk : ∀ k, KeyFor orderedNode k := fun k h => absurd h (by decide)
  have hpre := ((mapHistory_append c94Pre (c01Ops.drop 3) {}).mp c01Ops_history).1
  refine ⟨(mapHistory_append _ _ _).mpr ⟨hpre, ?_⟩, (mapHistory_append _ _ _).mpr ⟨hpre, ?_⟩⟩
  all_goals
    exact ⟨.inr ⟨_, _, rfl, by decide, fun k _ => hk k⟩, .inr ⟨_, _, rfl, by decide, fun k _ => hk k⟩,
      .inr ⟨_, _, rfl, by decide, fun k _ => hk k⟩, .inr ⟨_, _, rfl, by decide, fun k _ => hk k⟩,
      .inr ⟨_, _, rfl, by decide, fun k _ => hk k⟩, .inr ⟨_, _, rfl, by decide, fun k _ => hk k⟩, trivial⟩

/-- `c98_interleave` for them. -/
example := c98_interleave sampleEnv (by decide) c94Pre c98A c98B c98_history.1 c98_history.2 rfl (o := 0)
  (by decide +kernel) (by decide) (by decide) (fun k => by
    have hab : ka ≠ kb := by decide
    by_cases h1 : ka = k
    · subst h1; rfl
    · by_cases h2 : kb = k
      · subst h2; rfl
      · simp [c98A, c98B, Op.isAbout, h1, h2])

example : ((execAll sampleEnv c98A (execAll sampleEnv c94Pre {}).2).2.omap 0).keys = [ka, kb] ∧
    ((execAll sampleEnv c98B (execAll sampleEnv c94Pre {}).2).2.omap 0).keys = [kb, ka] := by decide +kernel

end Verif
