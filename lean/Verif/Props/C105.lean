import Verif.Props.C94
import Verif.Props.C06

/-!
# C105: a tree may be built in any order

Which of the nodes of a new tree are put into their parents first makes no difference, to the children, to the
locations and to the paths.
-/

namespace Verif

/-- Assignments `o[k] = c`. -/
def puts (l : List (Oid × Key × Oid)) : List Op := l.map fun x => .set x.1 x.2.1 (.node x.2.2)

/-- A step of building a tree: a node that adopts and a key it takes for children. -/
structure BuildStep (E : Env) (s : MapSpec) (x : Oid × Key × Oid) : Prop where
  node : x.1 < s.n
  key : KeyFor (E.cls (s.cls x.1)) x.2.1
  adopts : Bhv.adopt ∈ (E.cls (s.cls x.1)).bhvs

theorem puts_loc {E : Env} (hd : 0 < E.depth) : ∀ (l : List (Oid × Key × Oid)) {w : World} {s : MapSpec}, Rel E w s →
    (∀ x ∈ l, BuildStep E s x) → (l.map fun x => x.2.2).Nodup →
    MapHistory E (refOf E) (puts l) s ∧ (execAll E (puts l) w).2.nobj = w.nobj ∧
    (∀ x ∈ l, (execAll E (puts l) w).2.loc x.2.2 = (x.2.1, some x.1)) ∧
    ∀ p, p ∉ l.map (fun x => x.2.2) → (execAll E (puts l) w).2.loc p = w.loc p
  | [], _, _, _, _, _ => ⟨trivial, rfl, fun _ h => (nomatch h), fun _ _ => rfl⟩
  | (o, k, c) :: r, w, s, hr, hl, hn => by
    obtain ⟨h1, h2, h3⟩ := hl _ List.mem_cons_self
    have hop : MapOp E s (.set o k (.node c)) := .inr ⟨o, [k], rfl, h1, fun j hj => (List.mem_singleton.mp hj) ▸ h2⟩
    obtain ⟨w1, e1, hr1⟩ := exec_pt hd hr _ hop
    have hcls := hr.clsOf h1
    have hs : setitem E o k (.node c) w = (.ok (), w1) := by
      simp only [exec, M.bind_apply, MapSpec.run, MapSpec.assign, refOf, refuses] at e1
      rcases hx : setitem E o k (.node c) w with ⟨e | u, w2⟩ <;> rw [hx] at e1
      · cases e1
      · cases e1; rfl
    obtain ⟨a1, a2⟩ := c06_adopted E o k c hr.wf (hcls ▸ h3) (hcls ▸ (hr.mc o h1).concrete.noAlias) hs
    obtain ⟨c1, n1⟩ := run_target (ref := refOf E) (s := s) (op := .set o k (.node c)) rfl
    have hl' : ∀ x ∈ r, BuildStep E (s.run (refOf E) (.set o k (.node c))).2 x := fun x hx => by
      obtain ⟨b1, b2, b3⟩ := hl x (List.mem_cons_of_mem _ hx)
      exact ⟨n1 ▸ b1, by rw [c1]; exact b2, by rw [c1]; exact b3⟩
    obtain ⟨hn1, hn2⟩ := List.nodup_cons.mp hn
    obtain ⟨i1, i2, i3, i4⟩ := puts_loc hd r hr1 hl' hn2
    have ew : (execAll E (puts ((o, k, c) :: r)) w).2 = (execAll E (puts r) w1).2 := by
      show (execAll E (puts r) (exec E (.set o k (.node c)) w).2).2 = _
      rw [e1]
    rw [ew]
    refine ⟨⟨hop, i1⟩, ?_, fun x hx => ?_, fun p hp => ?_⟩
    · rw [i2, hr1.nobj, n1, hr.nobj]
    · rcases List.mem_cons.mp hx with rfl | hx
      · rw [i4 c hn1, a1]
      · exact i3 x hx
    · simp only [List.map_cons, List.mem_cons, not_or] at hp
      rw [i4 p hp.2, a2 p hp.1]

theorem namesUp_congr {w w' : World} (h : ∀ p, w'.loc p = w.loc p) : ∀ n o, namesUp w' n o = namesUp w n o
  | 0, _ => rfl
  | n + 1, o => by
    have h1 : (w'.objs o).name = (w.objs o).name := congrArg Prod.fst (h o)
    have h2 : (w'.objs o).parent = (w.objs o).parent := congrArg Prod.snd (h o)
    simp only [namesUp, h1, h2, namesUp_congr h n]

theorem puts_on (o : Oid) (l : List (Oid × Key × Oid)) :
    (puts l).filter (Op.isOn o) = puts (l.filter fun x => x.1 == o) := by
  simp only [puts, List.filter_map]
  rfl

/-- **C105.** After any history, nodes are put under keys of other nodes, each node once.  If this is done in another
order, in which only the order for each parent is kept, all nodes have the same children in the same order, the
same name and parent and the same path in the end; the location of each of the nodes is where it was put. -/
theorem c105_order (E : Env) (hd : 0 < E.depth) (ops : List Op) (h : MapHistory E (refOf E) ops {}) {w : World}
    (hw : w = (execAll E ops {}).2) (l l' : List (Oid × Key × Oid))
    (hl : ∀ x ∈ l, x.1 < w.nobj ∧ KeyFor (clsOf E w x.1) x.2.1 ∧ Bhv.adopt ∈ (clsOf E w x.1).bhvs)
    (hn : (l.map fun x => x.2.2).Nodup) (hp : l'.Perm l)
    (ho : ∀ o, o < w.nobj → l'.filter (fun x => x.1 == o) = l.filter fun x => x.1 == o)
    {u u' : World} (hu : u = (execAll E (puts l) w).2) (hu' : u' = (execAll E (puts l') w).2) :
    (∀ o, o < w.nobj → u'.omap o = u.omap o) ∧ (∀ p, u'.loc p = u.loc p) ∧ (∀ p, pathOf u' p = pathOf u p) ∧
    ∀ x ∈ l, u'.loc x.2.2 = (x.2.1, some x.1) := by
  subst hw hu hu'
  obtain ⟨-, hr⟩ := execAll_pt hd ops Rel.empty h
  have steps : ∀ x ∈ l, BuildStep E (MapSpec.runAll (refOf E) ops {}).2 x := fun x hx => by
    obtain ⟨a, b, c⟩ := hl x hx
    have hs := hr.nobj ▸ a
    rw [hr.clsOf hs] at b c
    exact ⟨hs, b, c⟩
  obtain ⟨a1, a2, a3, a4⟩ := puts_loc hd l hr steps hn
  obtain ⟨b1, b2, b3, b4⟩ := puts_loc hd l' hr (fun x hx => steps x (hp.mem_iff.mp hx))
    ((hp.map fun x => x.2.2).nodup_iff.mpr hn)
  have hloc : ∀ p, (execAll E (puts l') (execAll E ops {}).2).2.loc p = (execAll E (puts l) (execAll E ops {}).2).2.loc p := by
    intro p
    by_cases hx : p ∈ l.map fun x => x.2.2
    · obtain ⟨x, hm, rfl⟩ := List.mem_map.mp hx
      rw [a3 x hm, b3 x (hp.mem_iff.mpr hm)]
    · rw [a4 p hx, b4 p fun h => hx ((hp.map fun x => x.2.2).mem_iff.mp h)]
  refine ⟨fun o hlt => ?_, hloc, fun p => ?_, fun x hx => b3 x (hp.mem_iff.mpr hx)⟩
  · refine (c94_interleave E hd ops (puts l') (puts l) ((mapHistory_append _ _ _).mpr ⟨h, b1⟩)
      ((mapHistory_append _ _ _).mpr ⟨h, a1⟩) rfl (fun q hq => ?_) hlt).2
    rw [puts_on, puts_on, ho q hq]
  · unfold pathOf
    rw [a2, b2, namesUp_congr hloc]

/-- From the top down and from the bottom up. -/
def c105Down : List (Oid × Key × Oid) := [(0, ka, 1), (0, kb, 3), (1, kb, 2)]
def c105Up : List (Oid × Key × Oid) := [(1, kb, 2), (0, ka, 1), (0, kb, 3)]

def c105Pre : List Op := c94Pre ++ [.new 1 .none none]

theorem c105_history : MapHistory sampleEnv (refOf sampleEnv) c105Pre {} :=
  (mapHistory_append _ _ _).mpr ⟨((mapHistory_append c94Pre (c01Ops.drop 3) {}).mp c01Ops_history).1,
    .inl ⟨_, _, _, rfl, mapClass_orderedNode, by decide⟩, trivial⟩

/-- `c105_order` for them. -/
example := c105_order sampleEnv (by decide) c105Pre c105_history rfl c105Down c105Up
  (by
    have h0 : clsOf sampleEnv (execAll sampleEnv c105Pre {}).2 0 = orderedNode := rfl
    have h1 : clsOf sampleEnv (execAll sampleEnv c105Pre {}).2 1 = baseNode := rfl
    have hn : (execAll sampleEnv c105Pre {}).2.nobj = 4 := by decide +kernel
    intro x hx
    simp only [c105Down, List.mem_cons, List.not_mem_nil, or_false] at hx
    rcases hx with rfl | rfl | rfl
    · exact ⟨by rw [hn]; decide, by rw [h0]; exact fun h => absurd h (by decide), by rw [h0]; decide⟩
    · exact ⟨by rw [hn]; decide, by rw [h0]; exact fun h => absurd h (by decide), by rw [h0]; decide⟩
    · exact ⟨by rw [hn]; decide, by rw [h1]; exact fun h => absurd h (by decide), by rw [h1]; decide⟩)
  (by decide) (List.perm_append_comm (l₁ := [(1, kb, 2)]) (l₂ := [(0, ka, 1), (0, kb, 3)]))
  (by
    have hn : (execAll sampleEnv c105Pre {}).2.nobj = 4 := by decide +kernel
    rw [hn]
    intro o ho
    rcases o with _ | _ | _ | _ | o
    · rfl
    · rfl
    · rfl
    · rfl
    · omega) rfl rfl

/-- The path of the innermost node. -/
example : pathOf (execAll sampleEnv (puts c105Up) (execAll sampleEnv c105Pre {}).2).2 2 = some [.none, ka, kb] := by
  decide +kernel

end Verif
