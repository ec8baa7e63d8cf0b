import Verif.Model.Debug
import Verif.Sample

/-!
# C86 debug only logs

A function decorated with `debug` is called with the same arguments, once, and does what it does.
False if an argument is a `NodeAttributes` object without a parent, which cannot be printed
(`c86_refuted`).
-/

namespace Verif

variable {P : Namer} {name : Str} {func : List Val → List (Str × Val) → M Val} {args : List Val}
  {kws : List (Str × Val)} {w : World} {lines : List Str}

/-- The value is an attributes node that has no parent. -/
def Orphan (P : Namer) (w : World) : Val → Prop
  | .node o => P.attrsCls (w.objs o).cls = true ∧ (w.objs o).parent = none
  | .data _ => False

theorem reprVal_cases (P : Namer) (w : World) (v : Val) :
    (¬ Orphan P w v ∧ ∃ s, reprVal P w v = .ok s) ∨ (Orphan P w v ∧ reprVal P w v = .error .attr) := by
  cases v with
  | data d => exact .inl ⟨id, _, rfl⟩
  | node o =>
    unfold reprVal attrsRepr Orphan
    by_cases h : P.attrsCls (w.objs o).cls
    · simp only [h, if_true, true_and]
      cases hp : (w.objs o).parent with
      | none => exact .inr ⟨rfl, rfl⟩
      | some p => exact .inl ⟨nofun, _, rfl⟩
    · simp only [h, if_false, Bool.false_eq_true, false_and, not_false_iff, true_and]
      exact .inl ⟨_, rfl⟩

theorem reprAll_cases (P : Namer) (w : World) (l : List Val) :
    ((∀ v ∈ l, ¬ Orphan P w v) ∧ ∃ ss, reprAll P w l = .ok ss ∧
        ss.length = l.length ∧ ∀ (i : Nat) (v : Val), l[i]? = some v → ∃ s, ss[i]? = some s ∧ reprVal P w v = .ok s) ∨
      ((∃ v ∈ l, Orphan P w v) ∧ reprAll P w l = .error .attr) := by
  induction l with
  | nil => exact .inl ⟨by simp, [], rfl, rfl, by simp⟩
  | cons v r ih =>
    rcases reprVal_cases P w v with ⟨h1, s, h2⟩ | ⟨h1, h2⟩
    · rcases ih with ⟨h3, ss, h4, h5, h6⟩ | ⟨⟨x, h3, h4⟩, h5⟩
      · refine .inl ⟨fun x hx => ?_, s :: ss, by simp only [reprAll, h2, h4], by simp [h5], fun i x hx => ?_⟩
        · rcases List.mem_cons.mp hx with rfl | hx
          · exact h1
          · exact h3 x hx
        · cases i with
          | zero => obtain rfl : v = x := by simpa using hx
                    exact ⟨s, rfl, h2⟩
          | succ i => exact h6 i x hx
      · exact .inr ⟨⟨x, List.mem_cons_of_mem _ h3, h4⟩, by simp only [reprAll, h2, h5]⟩
    · exact .inr ⟨⟨v, List.mem_cons_self, h1⟩, by simp only [reprAll, h2]⟩

/-- C86: for arguments that can be printed the decorated function does what the function does: the
same result or exception and the same heap.  One line is logged before the call and, if it returned,
one after it. -/
theorem c86_logs_partial (ha : ∀ v ∈ args, ¬ Orphan P w v) (hk : ∀ kv ∈ kws, ¬ Orphan P w kv.2) :
    ∃ as ks, reprAll P w args = .ok as ∧ reprAll P w (kws.map Prod.snd) = .ok ks ∧
    debugged P name func args kws w lines = ((func args kws w).1, (func args kws w).2,
      lines ++ callLine name (tupleText as) (kwText P (kws.map Prod.fst) ks) ::
        match (func args kws w).1 with
        | .ok v => [resultLine name (strVal P (func args kws w).2 v)]
        | .error _ => []) := by
  rcases reprAll_cases P w args with ⟨-, as, h1, -⟩ | ⟨⟨v, h1, h2⟩, -⟩
  · rcases reprAll_cases P w (kws.map Prod.snd) with ⟨-, ks, h2, -⟩ | ⟨⟨v, h2, h3⟩, -⟩
    · refine ⟨as, ks, h1, h2, ?_⟩
      unfold debugged
      rw [h1, h2]
      rcases func args kws w with ⟨_ | v, w'⟩ <;> simp
    · obtain ⟨kv, h4, rfl⟩ := List.mem_map.mp h2
      exact absurd h3 (hk kv h4)
  · exact absurd h2 (ha v h1)

/-- C86: so nothing but the log tells the decorated function from the other. -/
theorem c86_same_partial (ha : ∀ v ∈ args, ¬ Orphan P w v) (hk : ∀ kv ∈ kws, ¬ Orphan P w kv.2) :
    (debugged P name func args kws w lines).1 = (func args kws w).1 ∧
    (debugged P name func args kws w lines).2.1 = (func args kws w).2 := by
  obtain ⟨_, _, -, -, h⟩ := c86_logs_partial (name := name) (func := func) (lines := lines) ha hk
  rw [h]
  exact ⟨rfl, rfl⟩

/-- C86: the log is only appended to, whatever the arguments. -/
theorem c86_appends (P : Namer) (name : Str) (func : List Val → List (Str × Val) → M Val) (args : List Val)
    (kws : List (Str × Val)) (w : World) (lines : List Str) :
    ∃ more, (debugged P name func args kws w lines).2.2 = lines ++ more ∧ more.length ≤ 2 := by
  unfold debugged
  split
  · exact ⟨[], by simp, by simp⟩
  · split
    · exact ⟨[], by simp, by simp⟩
    · split
      · exact ⟨[_], rfl, by simp⟩
      · exact ⟨[_, _], List.append_assoc _ _ _, by simp⟩

/-- C86: an argument that cannot be printed: the function does not run at all. -/
theorem c86_unprintable (h : (∃ v ∈ args, Orphan P w v) ∨ ∃ kv ∈ kws, Orphan P w kv.2) :
    debugged P name func args kws w lines = (.error .attr, w, lines) := by
  unfold debugged
  rcases reprAll_cases P w args with ⟨h0, as, h1, -⟩ | ⟨-, h1⟩
  · rcases h with ⟨v, hv, ho⟩ | ⟨kv, hkv, ho⟩
    · exact absurd ho (h0 v hv)
    · rcases reprAll_cases P w (kws.map Prod.snd) with ⟨h2, -⟩ | ⟨-, h2⟩
      · exact absurd ho (h2 kv.2 (List.mem_map_of_mem hkv))
      · rw [h1]
        simp only [h2]
  · simp only [h1]

/-! ### Instances -/

/-- Texts for the sample classes; class 3 is `NodeAttributes`. -/
def sampleNamer : Namer where
  bytes := fun _ => []
  data := fun _ => ['d']
  cls := fun _ => ['C']
  clsName := fun _ => ['C']
  addr := fun _ => ['0']
  text := fun _ => ['d']
  quote := fun s => s
  attrsCls := fun c => c == 3

/-- A function that makes a node the child `a` of another and returns it. -/
def putA : List Val → List (Str × Val) → M Val
  | [.node o, v], _ => do
    setitem sampleEnv o ka v
    pure v
  | _, _ => M.raise .type

/-- The attributes of a node, then a node for its own. -/
def orphanOps : List Op := [.new 2 .none none, .attrs 0, .new 3 attrsKey none]

/-- C86 does not hold: with attributes that belong to no node the function does not run. -/
theorem c86_refuted : ∃ w, Reachable sampleEnv w ∧
    (putA [.node 1, .node 2] [] w).1 = .ok (.node 2) ∧
    ∀ lines, debugged sampleNamer ['f'] putA [.node 1, .node 2] [] w lines = (.error .attr, w, lines) := by
  refine ⟨_, reachable_after sampleEnv orphanOps, by decide +kernel, fun lines => ?_⟩
  refine c86_unprintable (.inl ⟨.node 2, by simp, ?_⟩)
  show sampleNamer.attrsCls ((after sampleEnv orphanOps).objs 2).cls = true ∧
    ((after sampleEnv orphanOps).objs 2).parent = none
  decide +kernel

/-- The attributes of a node are printed and handed on. -/
example : (debugged sampleNamer ['f'] putA [.node 1, .node 0] [] (after sampleEnv orphanOps) []).1 = .ok (.node 0) ∧
    (debugged sampleNamer ['f'] putA [.node 1, .node 0] [] (after sampleEnv orphanOps) []).2.2 =
      ["f: args=(<C object 'None' at 0>, <C object 'None' at 0>), kws={}".toList,
       "f: --> <C object 'a' at 0>".toList] := by decide +kernel

example : ∀ v ∈ [Val.node 1, .node 0], ¬ Orphan sampleNamer (after sampleEnv orphanOps) v := by
  intro v hv
  rcases List.mem_cons.mp hv with rfl | hv
  · show ¬ (sampleNamer.attrsCls ((after sampleEnv orphanOps).objs 1).cls = true ∧
      ((after sampleEnv orphanOps).objs 1).parent = none)
    decide +kernel
  · obtain rfl : v = .node 0 := by simpa using hv
    show ¬ (sampleNamer.attrsCls ((after sampleEnv orphanOps).objs 0).cls = true ∧
      ((after sampleEnv orphanOps).objs 0).parent = none)
    decide +kernel

end Verif
