import Verif.Props.C02

/-!
# C04 update applies a prefix

`update(pairs)` performs the assignments left to right up to the first that
raises, and raises that.
-/

namespace Verif

/-- Assignments `o[k] = v` as API operations. -/
def setOps (o : Oid) (kvs : List (Key × Val)) : List Op := kvs.map fun kv => .set o kv.1 kv.2

/-- C04: there is a prefix of the pairs whose assignments all succeed one by one;
either that is all of them and `update` returns in the resulting state, or the next
assignment raises in that state and `update` raises the same in the state that
assignment leaves. -/
theorem c04_prefix (E : Env) (o : Oid) (kvs : List (Key × Val)) (w : World) :
    ∃ pre post, kvs = pre ++ post ∧
      (∀ r ∈ (execAll E (setOps o pre) w).1, r = .ok .unit) ∧
      ((post = [] ∧ mupdate E o kvs w = (.ok (), (execAll E (setOps o pre) w).2)) ∨
       (∃ k v rest e w', post = (k, v) :: rest ∧
          setitem E o k v (execAll E (setOps o pre) w).2 = (.error e, w') ∧
          mupdate E o kvs w = (.error e, w'))) := by
  induction kvs generalizing w with
  | nil => exact ⟨[], [], rfl, by simp [setOps, execAll], .inl ⟨rfl, rfl⟩⟩
  | cons kv r ih =>
    obtain ⟨k, v⟩ := kv
    rcases hx : setitem E o k v w with ⟨e | u, w1⟩
    · refine ⟨[], (k, v) :: r, rfl, by simp [setOps, execAll], .inr ⟨k, v, r, e, w1, rfl, hx, ?_⟩⟩
      simp only [mupdate, forU, M.bind_apply, hx]
    · obtain ⟨pre, post, he, hp, hq⟩ := ih w1
      have hs : exec E (.set o k v) w = (.ok .unit, w1) := by
        simp only [exec, M.bind_apply, hx, M.pure_apply]
      have hm : mupdate E o ((k, v) :: r) w = mupdate E o r w1 := by
        simp only [mupdate, forU, M.bind_apply, hx]
      refine ⟨(k, v) :: pre, post, by rw [he]; rfl, ?_, ?_⟩
      · intro x hx'
        simp only [setOps, List.map_cons, execAll, hs, List.mem_cons] at hx'
        rcases hx' with h | h
        · exact h
        · exact hp x h
      · simp only [setOps, List.map_cons, execAll, hs, hm] at hq ⊢
        exact hq

/-- For a class that neither translates nor redirects keys (and without
`AttributesLifecycle`): after `update` the node's mapping is the old one with
exactly a prefix of the pairs assigned in order, all of them if `update` returned;
no other node's mapping changed. -/
theorem c04_contents_partial (E : Env) (o : Oid) (kvs : List (Key × Val)) {w : World} (hw : WF w)
    (ha : Bhv.alias ∉ (clsOf E w o).bhvs) (hn : Bhv.nodespaces ∉ (clsOf E w o).bhvs)
    (hl : Bhv.attributesLifecycle ∉ (clsOf E w o).bhvs) :
    ∃ n ≤ kvs.length,
      ((mupdate E o kvs w).2.omap o = (kvs.take n).foldl (fun m kv => m.set kv.1 kv.2) (w.omap o)) ∧
      (∀ p, p ≠ o → (mupdate E o kvs w).2.omap p = w.omap p) ∧
      ((mupdate E o kvs w).1 = .ok () ↔ n = kvs.length) := by
  have hd : ∀ {bs : List Bhv} (al : Option Aliaser) (k : Key), Bhv.alias ∉ bs →
      Bhv.nodespaces ∉ bs → dest al bs k = some (.child k) := by
    intro bs al k h1 h2
    induction bs with
    | nil => rfl
    | cons b r ih =>
      have := ih (fun h => h1 (List.mem_cons_of_mem _ h)) (fun h => h2 (List.mem_cons_of_mem _ h))
      cases b
      case alias => exact absurd List.mem_cons_self h1
      case nodespaces => exact absurd List.mem_cons_self h2
      all_goals exact this
  induction kvs generalizing w with
  | nil => exact ⟨0, by simp, rfl, fun _ _ => rfl, by simp [mupdate, forU]⟩
  | cons kv r ih =>
    obtain ⟨k, v⟩ := kv
    have hout := setitem_out E o k v hw
    rcases hx : setitem E o k v w with ⟨e | u, w1⟩
    · have hm : mupdate E o ((k, v) :: r) w = (.error e, w1) := by
        simp only [mupdate, forU, M.bind_apply, hx]
      have hs := c02_set_partial E o k v hw hl hx
      rw [hm]
      exact ⟨0, Nat.zero_le _, hs o, fun p _ => hs p, by constructor <;> intro h <;> simp at h⟩
    · have hm : mupdate E o ((k, v) :: r) w = mupdate E o r w1 := by
        simp only [mupdate, forU, M.bind_apply, hx]
      rw [hx] at hout
      have hc : clsOf E w1 o = clsOf E w o := congrArg E.cls (hout.cls o)
      obtain ⟨n, hn', h1, h2, h3⟩ := ih hout.wf (hc ▸ ha) (hc ▸ hn) (hc ▸ hl)
      rcases c02_set_ok E o k v hw hx with ⟨j, hj, hs, hp⟩ | ⟨j, hj, -⟩
      · rw [hd _ _ ha hn] at hj
        injection hj with hj; injection hj with hj; subst hj
        rw [hm]
        refine ⟨n + 1, Nat.succ_le_succ hn', ?_, fun p hp' => (h2 p hp').trans (hp p hp'), ?_⟩
        · rw [h1, hs]; rfl
        · rw [h3, List.length_cons, Nat.succ_inj]
      · rw [hd _ _ ha hn] at hj; exact absurd hj (by simp)

/-- For every class without `AttributesLifecycle`, also where keys are translated or redirected: if the assignment of a pair
raises, so does `update`, and all nodes have the children they had after the assignments before it. -/
theorem c04_held_partial (E : Env) (o : Oid) (kvs : List (Key × Val)) {w w' : World} (hw : WF w)
    (hl : Bhv.attributesLifecycle ∉ (clsOf E w o).bhvs) {e : Exc} (h : mupdate E o kvs w = (.error e, w')) :
    ∃ pre kv post, kvs = pre ++ kv :: post ∧ (∀ r ∈ (execAll E (setOps o pre) w).1, r = .ok .unit) ∧
      (setitem E o kv.1 kv.2 (execAll E (setOps o pre) w).2).1 = .error e ∧
      MapsSame (execAll E (setOps o pre) w).2 w' := by
  obtain ⟨pre, post, h1, h2, ⟨-, h3⟩ | ⟨k, v, rest, e', w1, rfl, h4, h5⟩⟩ := c04_prefix E o kvs w
  · rw [h] at h3; cases h3
  · rw [h] at h5
    injection h5 with h5 h6
    injection h5 with h5
    subst h5; subst h6
    refine ⟨pre, (k, v), rest, h1, h2, by rw [h4], c02_set_partial E o k v ?_ ?_ h4⟩
    · exact (grow_execAll E (setOps o pre) w).wf hw
    · clear h1 h4 h h2
      suffices clsOf E (execAll E (setOps o pre) w).2 o = clsOf E w o by rw [this]; exact hl
      induction pre generalizing w with
      | nil => rfl
      | cons kv r ih =>
        have hx : (exec E (.set o kv.1 kv.2) w).2 = (setitem E o kv.1 kv.2 w).2 := by
          simp only [exec, M.bind_apply]
          rcases setitem E o kv.1 kv.2 w with ⟨_ | _, w1⟩ <;> rfl
        have hc : clsOf E (exec E (.set o kv.1 kv.2) w).2 o = clsOf E w o := by
          rw [hx]; exact congrArg E.cls ((setitem_out E o kv.1 kv.2 hw).cls o)
        show clsOf E (execAll E (setOps o r) (exec E (.set o kv.1 kv.2) w).2).2 o = _
        rw [ih ((grow_exec E _ w).wf hw) (by rw [hc]; exact hl), hc]

/-- With `AttributesLifecycle` the claim is false: the pair whose assignment raised is stored. -/
theorem c04_refuted : ∃ (E : Env) (w w' : World) (o : Oid) (k : Key) (v : Val) (e : Exc), Reachable E w ∧
    mupdate E o [(k, v)] w = (.error e, w') ∧ (w.omap o).keys = [] ∧ (w'.omap o).keys = [k] := by
  refine ⟨sampleEnv, after sampleEnv [.new 8 .none none], _, 0, ka, .data (.int 1), .attr,
    reachable_after .., rfl, rfl, rfl⟩

/-! `root.update([('a', node), ('b', 1), ('c', node)])` on a `BaseNode`: the second
assignment fails. -/

/-- Two plain nodes. -/
def c04W : World := after sampleEnv [.new 0 .none none, .new 1 .none none]

example : WF c04W ∧ Bhv.alias ∉ (clsOf sampleEnv c04W 0).bhvs ∧
    Bhv.nodespaces ∉ (clsOf sampleEnv c04W 0).bhvs ∧
    Bhv.attributesLifecycle ∉ (clsOf sampleEnv c04W 0).bhvs ∧
    (mupdate sampleEnv 0 [(ka, .node 1), (kb, .data (.int 1)), (kc, .node 1)] c04W).1 =
      .error (.value "Non-node childs are not allowed.") ∧
    ((mupdate sampleEnv 0 [(ka, .node 1), (kb, .data (.int 1)), (kc, .node 1)] c04W).2.omap 0).keys
      = [ka] :=
  ⟨(reachable_after ..).wf, by decide, by decide, by decide, rfl, rfl⟩

/-- `update([('p-a', node), ('b', node)])` on an aliased node: the second key is no alias. -/
def c04A : World := after sampleEnv [.new 9 .none none, .new 1 .none none]

example : WF c04A ∧ Bhv.attributesLifecycle ∉ (clsOf sampleEnv c04A 0).bhvs ∧ Bhv.alias ∈ (clsOf sampleEnv c04A 0).bhvs ∧
    (mupdate sampleEnv 0 [(.str "p-a".toList, .node 1), (kb, .node 1)] c04A).1 =
      .error (.key (.msg "key does not match prefix")) ∧
    ((mupdate sampleEnv 0 [(.str "p-a".toList, .node 1), (kb, .node 1)] c04A).2.omap 0).keys = [ka] :=
  ⟨(reachable_after ..).wf, by decide, by decide, by decide +kernel, by decide +kernel⟩

/-- `c04_prefix`, `c04_contents_partial` and `c04_held_partial` for these updates. -/
example : ∃ n ≤ 3, (mupdate sampleEnv 0 [(ka, .node 1), (kb, .data (.int 1)), (kc, .node 1)] c04W).2.omap 0 =
    (([(ka, .node 1), (kb, .data (.int 1)), (kc, .node 1)] : List (Key × Val)).take n).foldl
      (fun m kv => m.set kv.1 kv.2) (c04W.omap 0) :=
  (c04_contents_partial sampleEnv 0 [(ka, .node 1), (kb, .data (.int 1)), (kc, .node 1)] (w := c04W)
    (reachable_after ..).wf (by decide) (by decide) (by decide)).imp fun _ h => ⟨h.1, h.2.1⟩

example : ∃ pre kv post, ([(.str "p-a".toList, .node 1), (kb, .node 1)] : List (Key × Val)) = pre ++ kv :: post ∧
    MapsSame (execAll sampleEnv (setOps 0 pre) c04A).2
      (mupdate sampleEnv 0 [(.str "p-a".toList, .node 1), (kb, .node 1)] c04A).2 :=
  have h : (mupdate sampleEnv 0 [(.str "p-a".toList, .node 1), (kb, .node 1)] c04A).1 =
      .error (.key (.msg "key does not match prefix")) := by decide +kernel
  let ⟨pre, kv, post, h1, _, _, h4⟩ := c04_held_partial sampleEnv 0 [(.str "p-a".toList, .node 1), (kb, .node 1)]
    (w := c04A) (reachable_after ..).wf (by decide) (Prod.ext h rfl)
  ⟨pre, kv, post, h1, h4⟩

example : ∃ pre post, ([(ka, .node 1), (kb, .data (.int 1))] : List (Key × Val)) = pre ++ post ∧
    ∀ r ∈ (execAll sampleEnv (setOps 0 pre) c04W).1, r = .ok .unit :=
  let ⟨pre, post, h, hr, _⟩ := c04_prefix sampleEnv 0 [(ka, .node 1), (kb, .data (.int 1))] c04W
  ⟨pre, post, h, hr⟩

end Verif
