import Verif.Props.C93
import Verif.Model.Update

/-!
# C95: update merges

`update(other, **kw)` merges the items of another node, or any pairs, and the keywords into a node.
-/

namespace Verif

/-- The pairs an argument stands for. -/
def UpdateArg.given (w : World) : UpdateArg → List (Key × Val)
  | .node b => (w.omap b).items
  | .pairs kvs => kvs

/-- All pairs, in the order of the call. -/
def givenBy (w : World) (args : List UpdateArg) (kw : List (Str × Val)) : List (Key × Val) :=
  (args.flatMap (UpdateArg.given w)) ++ kw.map fun kv => (.str kv.1, kv.2)

/-- Assigning all pairs to an ordered map, one after the other. -/
def OMap.setAll (m : OMap Key Val) : List (Key × Val) → OMap Key Val
  | [] => m
  | kv :: r => (m.set kv.1 kv.2).setAll r

/-- The value given last. -/
def lastGiven (k : Key) : List (Key × Val) → Option Val
  | [] => none
  | kv :: r => (lastGiven k r).or (if kv.1 = k then some kv.2 else none)

section spec

theorem setAll_val (l : List (Key × Val)) (m : OMap Key Val) (k : Key) :
    (m.setAll l).val k = (lastGiven k l).or (m.val k) := by
  induction l generalizing m with
  | nil => rfl
  | cons a r ih =>
    rw [OMap.setAll, ih, lastGiven, Option.or_assoc]
    congr 1
    simp only [OMap.set]
    by_cases h : k = a.1
    · rw [if_pos h, if_pos h.symm]; rfl
    · rw [if_neg h, if_neg (Ne.symm h)]; rfl

theorem setAll_mem (l : List (Key × Val)) (m : OMap Key Val) (k : Key) :
    k ∈ (m.setAll l).keys ↔ k ∈ m.keys ∨ k ∈ l.map (·.1) := by
  induction l generalizing m with
  | nil => simp [OMap.setAll]
  | cons a r ih =>
    rw [OMap.setAll, ih]
    simp only [OMap.set, List.map_cons, List.mem_cons]
    split
    · rename_i h
      constructor
      · rintro (h' | h')
        · exact .inl h'
        · exact .inr (.inr h')
      · rintro (h' | rfl | h')
        · exact .inl h'
        · exact .inl h
        · exact .inr h'
    · simp only [List.mem_append, List.mem_singleton]
      exact or_assoc

/-- Keys that are there keep their places, new ones are appended in the order given. -/
theorem setAll_keys (l : List (Key × Val)) (m : OMap Key Val) (hl : (l.map (·.1)).Nodup) :
    (m.setAll l).keys = m.keys ++ (l.map (·.1)).filter (· ∉ m.keys) := by
  induction l generalizing m with
  | nil => simp [OMap.setAll]
  | cons a r ih =>
    obtain ⟨h1, h2⟩ := List.nodup_cons.mp hl
    rw [OMap.setAll, ih _ h2]
    simp only [OMap.set, List.map_cons]
    split
    · rename_i h
      rw [List.filter_cons_of_neg (by simpa using h)]
    · rename_i h
      rw [List.filter_cons_of_pos (by simpa using h), List.append_assoc]
      congr 1
      show [a.1] ++ _ = _
      rw [List.singleton_append]
      congr 1
      refine List.filter_congr fun k hk => ?_
      have : k ≠ a.1 := by rintro rfl; exact h1 hk
      simp [this]

theorem setAll_append (a b : List (Key × Val)) (m : OMap Key Val) : m.setAll (a ++ b) = (m.setAll a).setAll b := by
  induction a generalizing m with
  | nil => rfl
  | cons x r ih => exact ih _

theorem lastGiven_items {d : Od Key Val} (hd : d.keys.Nodup) (k : Key) : lastGiven k d = d.get? k := by
  induction d with
  | nil => rfl
  | cons a r ih =>
    obtain ⟨h1, h2⟩ := List.nodup_cons.mp (show (a.1 :: Od.keys r).Nodup from hd)
    rw [lastGiven, ih h2]
    by_cases h : a.1 = k
    · subst h
      rw [if_pos rfl, (Od.get?_eq_none_iff _ _).mpr h1]
      simp [Od.get?]
    · rw [if_neg h]
      simp [Od.get?, h]

theorem assignAll_setAll {ref : ClassId → Val → Option String} (o : Oid) : ∀ (l : List (Key × Val)) {s : MapSpec},
    (∀ kv ∈ l, ref (s.cls o) kv.2 = none) →
    MapSpec.assignAll ref o l s = (.ok (), s.put o ((s.map o).setAll l))
  | [], _, _ => Prod.ext rfl (specPut_same rfl).symm
  | (k, v) :: r, s, h => by
    simp only [MapSpec.assignAll, MapSpec.assign, h (k, v) List.mem_cons_self]
    rw [assignAll_setAll o r (s := s.put o ((s.map o).set k v)) fun kv hkv => h kv (List.mem_cons_of_mem _ hkv),
      specPut_put, map_specPut]
    rfl

end spec

/-- More than one positional argument: `TypeError`, nothing happens. -/
theorem c95_arguments (E : Env) (o : Oid) (a b : UpdateArg) (r : List UpdateArg) (kw : List (Str × Val)) (w : World) :
    updateWith E o (a :: b :: r) kw w = (.error .type, w) := by
  simp [updateWith, M.raise]

/-- **C95.** After every history, for every node and at most one positional argument, if all values given are taken by
the class: `update` returns, the node's items are those of assigning the pairs given, in the order of the call, and no other
node changes. -/
theorem c95_update (E : Env) (hd : 0 < E.depth) (ops : List Op) (h : MapHistory E (refOf E) ops {}) {w : World}
    (hw : w = (execAll E ops {}).2) {o : Oid} (ho : o < w.nobj) {args : List UpdateArg} {kw : List (Str × Val)}
    (hlen : args.length ≤ 1) (hb : ∀ b, UpdateArg.node b ∈ args → b < w.nobj)
    (hacc : ∀ kv ∈ givenBy w args kw, refuses (clsOf E w o) kv.2 = none)
    (hkey : ∀ kv ∈ givenBy w args kw, KeyFor (clsOf E w o) kv.1) :
    ∃ w', updateWith E o args kw w = (.ok (), w') ∧ w'.nobj = w.nobj ∧
      w'.omap o = (w.omap o).setAll (givenBy w args kw) ∧ ∀ p, p < w.nobj → p ≠ o → w'.omap p = w.omap p := by
  subst hw
  obtain ⟨-, hr⟩ := execAll_pt hd ops Rel.empty h
  generalize (execAll E ops {}).2 = w at *
  generalize (MapSpec.runAll (refOf E) ops {}).2 = s at *
  have hos := hr.nobj ▸ ho
  have hcls := hr.clsOf hos
  -- reading the argument
  have hread : ∃ w1, (match args with
      | [] => pure []
      | a :: _ => a.read E : M (List (Key × Val))) w = (.ok (args.flatMap (UpdateArg.given w)), w1) ∧ Rel E w1 s := by
    match args, hlen with
    | [], _ => exact ⟨w, rfl, hr⟩
    | [.pairs kvs], _ =>
      refine ⟨w, ?_, hr⟩
      simp [UpdateArg.read, UpdateArg.given, M.pure_apply]
    | [.node b], _ =>
      have hbl := hr.nobj ▸ hb b (by simp)
      obtain ⟨w1, e1, e2⟩ := exec_pt hd hr (.items b) (.inr ⟨b, [], rfl, hbl, fun _ h => nomatch h⟩)
      refine ⟨w1, ?_, e2⟩
      simp only [exec, M.bind_apply, MapSpec.run] at e1
      simp only [UpdateArg.read, List.flatMap_cons, List.flatMap_nil, List.append_nil, UpdateArg.given]
      rcases hm : mitems E b w with ⟨x, w2⟩
      rw [hm] at e1
      cases x with
      | error e => simp at e1
      | ok l =>
        simp only [M.pure_apply, Prod.mk.injEq, Except.ok.injEq, Res.items.injEq] at e1
        rw [e1.1, e1.2, hr.map b hbl]
  obtain ⟨w1, e1, hr1⟩ := hread
  have hop : MapOp E s (.update o (givenBy w args kw)) := .inr ⟨o, _, rfl, hos, fun k hk => by
    obtain ⟨kv, hkv, rfl⟩ := List.mem_map.mp hk
    exact hcls ▸ hkey kv hkv⟩
  obtain ⟨w2, e2, hr2⟩ := exec_pt hd hr1 _ hop
  have hall : MapSpec.assignAll (refOf E) o (givenBy w args kw) s =
      (.ok (), s.put o ((s.map o).setAll (givenBy w args kw))) :=
    assignAll_setAll o _ fun kv hkv => by
      unfold refOf
      rw [← hcls]
      exact hacc kv hkv
  have hrun : s.run (refOf E) (.update o (givenBy w args kw)) =
      (.ok .unit, s.put o ((s.map o).setAll (givenBy w args kw))) := by
    simp only [MapSpec.run, hall]
  rw [hrun] at e2 hr2
  have hup : mupdate E o (givenBy w args kw) w1 = (.ok (), w2) := by
    simp only [exec, M.bind_apply] at e2
    rcases hm : mupdate E o (givenBy w args kw) w1 with ⟨x, w3⟩
    rw [hm] at e2
    cases x with
    | error e => simp at e2
    | ok u =>
      simp only [M.pure_apply, Prod.mk.injEq] at e2
      rw [e2.2]
  refine ⟨w2, ?_, hr2.nobj.trans hr.nobj.symm, ?_, fun p hp hpo => ?_⟩
  · have hfor : ∀ (l : List (Str × Val)) (u : World), forU (fun kv : Str × Val => setitem E o (.str kv.1) kv.2) l u =
        mupdate E o (l.map fun kv => (Key.str kv.1, kv.2)) u := fun l => by
      induction l with
      | nil => exact fun _ => rfl
      | cons a r ih =>
        intro u
        simp only [mupdate, List.map_cons, forU, M.bind_apply] at ih ⊢
        split
        · exact ih _
        · rfl
    have happ : ∀ (a b : List (Key × Val)) (u : World), mupdate E o (a ++ b) u =
        (do mupdate E o a; mupdate E o b : M Unit) u := fun a b => by
      induction a with
      | nil => exact fun _ => rfl
      | cons x r ih =>
        intro u
        simp only [mupdate, List.cons_append, forU, M.bind_apply] at ih ⊢
        split
        · exact ih _
        · rfl
    rw [givenBy, happ] at hup
    simp only [updateWith, if_neg (Nat.not_lt.mpr hlen)]
    match args, hlen, e1, hup with
    | [], _, e1, hup =>
      obtain rfl : w = w1 := (Prod.mk.inj e1).2
      simp only [M.bind_apply, M.pure_apply, hfor] at hup ⊢
      exact hup
    | [a], _, e1, hup =>
      simp only at e1
      simp only [M.bind_apply, e1] at hup ⊢
      have hm : ∀ l u, forU (fun kv : Key × Val => setitem E o kv.1 kv.2) l u = mupdate E o l u := fun _ _ => rfl
      simp only [hm, hfor]
      exact hup
  · rw [hr2.map o hos, hr.map o hos]
    exact if_pos rfl
  · rw [hr2.map p (hr.nobj ▸ hp), hr.map p (hr.nobj ▸ hp)]
    exact if_neg hpo

/-- **C95.** What the node holds then: under each key the value given last for it, the keywords after the argument, or else
what it held; the keys it had in the order they had. -/
theorem c95_values (E : Env) (hd : 0 < E.depth) (ops : List Op) (h : MapHistory E (refOf E) ops {}) {w w' : World}
    (hw : w = (execAll E ops {}).2) {o : Oid} (ho : o < w.nobj) {args : List UpdateArg} {kw : List (Str × Val)}
    (hlen : args.length ≤ 1) (hb : ∀ b, UpdateArg.node b ∈ args → b < w.nobj)
    (hacc : ∀ kv ∈ givenBy w args kw, refuses (clsOf E w o) kv.2 = none)
    (hkey : ∀ kv ∈ givenBy w args kw, KeyFor (clsOf E w o) kv.1) (he : updateWith E o args kw w = (.ok (), w')) :
    (∀ k, (w'.omap o).val k = (lastGiven k (givenBy w args kw)).or ((w.omap o).val k)) ∧
    (∀ k, k ∈ (w'.omap o).keys ↔ k ∈ (w.omap o).keys ∨ k ∈ (givenBy w args kw).map (·.1)) ∧
    (w.omap o).keys <+: (w'.omap o).keys := by
  obtain ⟨w1, e1, -, e3, -⟩ := c95_update E hd ops h hw ho hlen hb hacc hkey
  obtain rfl : w1 = w' := (Prod.mk.inj (e1.symm.trans he)).2
  rw [e3]
  refine ⟨setAll_val _ _, setAll_mem _ _, ?_⟩
  generalize givenBy w args kw = l
  generalize w.omap o = m
  induction l generalizing m with
  | nil => exact List.prefix_refl _
  | cons a r ih =>
    refine List.IsPrefix.trans ?_ (ih (m.set a.1 a.2))
    simp only [OMap.set]
    split
    · exact List.prefix_refl _
    · exact List.prefix_append _ _

/-- **C95.** `a.update(b)` for two nodes, or a node and itself: `a` has its own keys in their order and then those only `b`
has, in the order of `b`, and under each key what `b` has, or else what it had. -/
theorem c95_merge (E : Env) (hd : 0 < E.depth) (ops : List Op) (h : MapHistory E (refOf E) ops {}) {w : World}
    (hw : w = (execAll E ops {}).2) {a b : Oid} (ha : a < w.nobj) (hb : b < w.nobj)
    (hacc : ∀ v ∈ (w.omap b).values, refuses (clsOf E w a) v = none)
    (hkey : ∀ k ∈ (w.omap b).keys, KeyFor (clsOf E w a) k) :
    ∃ w', updateWith E a [.node b] [] w = (.ok (), w') ∧
      (w'.omap a).keys = (w.omap a).keys ++ (w.omap b).keys.filter (· ∉ (w.omap a).keys) ∧
      (∀ k, (w'.omap a).val k = ((w.omap b).val k).or ((w.omap a).val k)) ∧
      (∀ p, p < w.nobj → p ≠ a → w'.omap p = w.omap p) ∧ (a = b → w'.omap a = w.omap a) := by
  have hnd : (w.children b).keys.Nodup := by
    subst hw
    exact (execAll_pt hd ops Rel.empty h).2.wf.children_nodup b
  have hit : (w.omap b).items = w.children b := toMap_items hnd
  have hg : givenBy w [.node b] [] = w.children b := by
    simp [givenBy, UpdateArg.given, hit]
  obtain ⟨w', e1, -, e3, e4⟩ := c95_update E hd ops h hw ha (args := [.node b]) (kw := []) (Nat.le_refl _)
    (fun x hx => by simp at hx; exact hx ▸ hb)
    (fun kv hkv => by
      rw [hg] at hkv
      refine hacc kv.2 (List.mem_filterMap.mpr ⟨kv.1, List.mem_map.mpr ⟨kv, hkv, rfl⟩, Od.get?_of_mem hnd hkv⟩))
    (fun kv hkv => by
      rw [hg] at hkv
      exact hkey kv.1 (List.mem_map.mpr ⟨kv, hkv, rfl⟩))
  rw [hg] at e3
  have hk : (w'.omap a).keys = (w.omap a).keys ++ (w.omap b).keys.filter (· ∉ (w.omap a).keys) := by
    rw [e3]
    exact setAll_keys _ _ hnd
  have hv : ∀ k, (w'.omap a).val k = ((w.omap b).val k).or ((w.omap a).val k) := fun k => by
    rw [e3, setAll_val, lastGiven_items hnd]
    rfl
  refine ⟨w', e1, hk, hv, e4, ?_⟩
  rintro rfl
  refine OMap.ext ?_ (funext fun k => ?_)
  · rw [hk, List.filter_eq_nil_iff.mpr fun k hk => by simpa using hk, List.append_nil]
  · rw [hv]
    cases (w.omap a).val k <;> rfl

/-- An ordered node with two children and another one with one of them. -/
def c95Ops : List Op := c01Ops.take 6 ++ [.new 1 .none none, .set 3 kb (.node 1), .set 3 kc (.node 0)]

theorem c95Ops_history : MapHistory sampleEnv (refOf sampleEnv) c95Ops {} := by
  have hk : ∀ k, KeyFor orderedNode k := fun k h => absurd h (by decide)
  have hpre := ((mapHistory_append (c01Ops.take 6) (c01Ops.drop 6) {}).mp c01Ops_history).1
  exact (mapHistory_append _ _ _).mpr ⟨hpre, .inl ⟨_, _, _, rfl, mapClass_orderedNode, by decide⟩,
    .inr ⟨_, _, rfl, by decide, fun k _ => hk k⟩, .inr ⟨_, _, rfl, by decide, fun k _ => hk k⟩, trivial⟩

/-- `c95_merge` for them. -/
example : ∃ w', updateWith sampleEnv 0 [.node 3] [] (execAll sampleEnv c95Ops {}).2 = (.ok (), w') ∧
    (w'.omap 0).keys = [ka, kb, kc] ∧ (w'.omap 0).val kb = some (.node 1) := by
  have hc : clsOf sampleEnv (execAll sampleEnv c95Ops {}).2 0 = orderedNode := by
    have : ((execAll sampleEnv c95Ops {}).2.objs 0).cls = 1 := by decide +kernel
    unfold clsOf
    rw [this]
    rfl
  obtain ⟨w', h1, h2, h3, -⟩ := c95_merge sampleEnv (by decide) c95Ops c95Ops_history rfl (a := 0) (b := 3)
    (by decide +kernel) (by decide +kernel) (by rw [hc]; decide +kernel) (fun k _ h => absurd (hc ▸ h) (by decide))
  refine ⟨w', h1, ?_, ?_⟩
  · rw [h2]; decide +kernel
  · rw [h3]; decide +kernel

/-- Pairs with a key twice, and a keyword. -/
example : (updateWith sampleEnv 0 [.pairs [(kc, .node 1), (ka, .node 1), (kc, .node 2)]] [(['x'], .node 1)]
      (execAll sampleEnv c95Ops {}).2).1 = .ok () ∧
    ((updateWith sampleEnv 0 [.pairs [(kc, .node 1), (ka, .node 1), (kc, .node 2)]] [(['x'], .node 1)]
      (execAll sampleEnv c95Ops {}).2).2.omap 0).items =
    [(ka, .node 1), (kb, .node 2), (kc, .node 2), (.str ['x'], .node 1)] := by decide +kernel

end Verif
