import Verif.Lemmas.ChildInv
import Verif.Lemmas.OMap
import Verif.Sample

/-!
# C05 Only nodes become children unless explicitly allowed

For every program, every history of API calls and every node whose class has
`NodeChildValidate` (anywhere in its stack) and does not allow other values: each
child is a node.  If `NodeChildValidate` is the leftmost behavior, as in all shipped
classes, classes and other values are refused with the two `ValueError`s and without
any effect.
-/

namespace Verif

/-- A class that only takes nodes. -/
def OnlyNodes (c : ClassDef) : Prop := Bhv.nodeChildValidate ∈ c.bhvs ∧ c.allowNonNode = false

/-- Children and classes are what they were. -/
def ChK (w w' : World) : Prop :=
  WF w → WF w' ∧ ChSame w w' ∧ ∀ p, (w'.objs p).cls = (w.objs p).cls

theorem chk_pre : PreR ChK :=
  ⟨fun w hw => ⟨hw, ChSame.refl w, fun _ => rfl⟩, fun h h' hw =>
    let a := h hw; let b := h' a.1
    ⟨b.1, a.2.1.trans b.2.1, fun p => (b.2.2 p).trans (a.2.2 p)⟩⟩

theorem chk_of_quiet {α : Type} {m : M α} (h : Pres Quiet m) : Pres ChK m := fun w hw =>
  ⟨(h w hw).1, (h w hw).2.children, fun p => ((h w hw).2.obj p).cls⟩

theorem chk_notify (e : Event) : Pres ChK (notify e) := fun _ hw =>
  ⟨hw.setLog _, fun _ => rfl, fun _ => rfl⟩

theorem chk_nsPut (o : Oid) (k : Key) (v : Val) : Pres ChK (nsPut o k v) :=
  pres_bind chk_pre (chk_of_quiet (nodespacesRef_quiet o)) fun r => fun _ hw =>
    ⟨hw.setNspace r (Od.nodup_keys_set (hw.nNd r) _ _), fun _ => rfl, fun _ => rfl⟩

/-- A plain value does not get past `NodeChildValidate`. -/
theorem setPipe_data (E : Env) (o : Oid) (d : Data) {bs : List Bhv}
    (hb : Bhv.nodeChildValidate ∈ bs) (k : Key) {w : World} (hw : WF w)
    (ha : (clsOf E w o).allowNonNode = false) : ChK w (setPipe E bs o k (.data d) w).2 := by
  induction bs generalizing k w with
  | nil => cases hb
  | cons b r ih =>
    have step : ∀ {k' : Key} {w1 : World}, b ≠ .nodeChildValidate → ChK w w1 →
        ChK w (setPipe E r o k' (.data d) w1).2 := by
      intro k' w1 hne h1
      refine chk_pre.trans h1 (ih ?_ k' (h1 hw).1 ?_)
      · rcases List.mem_cons.mp hb with h | h
        · exact absurd h.symm hne
        · exact h
      · have := (h1 hw).2.2 o
        unfold clsOf at ha ⊢
        rw [this]; exact ha
    cases b
    case nodeChildValidate =>
      simp only [setPipe, validateSet, M.bind_apply, M.getW_apply, ha, Val.isNode]
      split
      · exact chk_pre.refl w
      · exact chk_pre.refl w
    case nodespaces =>
      simp only [setPipe]
      unfold nodespacesSet
      cases k with
      | str s =>
        simp only
        split
        · cases d <;> first
            | exact chk_nsPut o _ _ w
            | exact chk_pre.refl w
        · exact step (by simp) (chk_pre.refl w)
      | _ => exact chk_pre.refl w
    case lifecycle =>
      have h1 := step (k' := k) (w1 := w) (by simp) (chk_pre.refl w)
      simp only [setPipe, lifecycleSet, M.bind_apply]
      generalize setPipe E r o k (.data d) w = x at h1
      rcases x with ⟨e | u, w1⟩
      · exact h1
      · simp only [getO_apply]
        split
        · exact h1
        · exact chk_pre.trans h1 (chk_notify _ w1)
    case attributesLifecycle =>
      have h1 := step (k' := k) (w1 := w) (by simp) (chk_pre.refl w)
      simp only [setPipe, M.bind_apply]
      generalize setPipe E r o k (.data d) w = x at h1
      rcases x with ⟨e | u, w1⟩
      · exact h1
      · exact chk_pre.trans h1 (pres_notifyModified chk_pre (fun _ => chk_notify _) o w1)
    case cache =>
      have h1 := chk_of_quiet (cacheDrop_quiet o k) w
      simp only [setPipe, M.bind_apply]
      rcases hx : cacheDrop o k w with ⟨e | u, w1⟩
      · rw [hx] at h1; exact h1
      · rw [hx] at h1; exact step (by simp) h1
    case alias =>
      have hid := unaliasKey_id E o k w
      simp only [setPipe, M.bind_apply]
      rcases hx : unaliasKey E o k w with ⟨e | u, w1⟩
      · rw [hx] at hid; simp only at hid; subst hid; exact chk_pre.refl _
      · rw [hx] at hid; simp only at hid; subst hid
        have h1 := step (k' := u) (w1 := w1) (by simp) (chk_pre.refl _)
        simp only [rekey, M.catchIf_apply]
        generalize setPipe E r o u (.data d) w1 = x at h1
        rcases x with ⟨e | u, w2⟩
        · simp only; split
          · exact h1
          · exact h1
        · exact h1
    all_goals exact step (by simp) (chk_pre.refl w)

/-- All values of a dictionary are nodes, if the class wants that. -/
def NodesOnly (c : ClassDef) (d : Od Key Val) : Prop :=
  OnlyNodes c → ∀ v ∈ d.vals, v.isNode = true

theorem mem_vals_set {d : Od Key Val} {k : Key} {v x : Val} (h : x ∈ (d.set k v).vals) :
    x = v ∨ x ∈ d.vals := by
  induction d with
  | nil => simp [Od.set, Od.vals] at h; exact .inl h
  | cons a r ih =>
    obtain ⟨k', v'⟩ := a
    simp only [Od.set] at h
    split at h
    · simp only [Od.vals, List.map_cons, List.mem_cons] at h ⊢
      rcases h with h | h
      · exact .inl h
      · exact .inr (.inr h)
    · simp only [Od.vals, List.map_cons, List.mem_cons] at h ⊢
      rcases h with h | h
      · exact .inr (.inl h)
      · rcases ih h with h | h
        · exact .inl h
        · exact .inr (.inr h)

theorem mem_vals_del {d : Od Key Val} {k : Key} {x : Val} (h : x ∈ (d.del k).vals) :
    x ∈ d.vals := by
  induction d with
  | nil => exact h
  | cons a r ih =>
    obtain ⟨k', v'⟩ := a
    simp only [Od.del] at h
    split at h
    · exact List.mem_cons_of_mem _ h
    · simp only [Od.vals, List.map_cons, List.mem_cons] at h ⊢
      exact h.imp id ih

theorem mem_vals_before {d : Od Key Val} {r k : Key} {v x : Val}
    (h : x ∈ (d.insertBefore r k v).vals) : x = v ∨ x ∈ d.vals := by
  induction d with
  | nil => exact .inr h
  | cons a t ih =>
    obtain ⟨k', v'⟩ := a
    simp only [Od.insertBefore] at h
    split at h
    · simpa [Od.vals] using h
    · simp only [Od.vals, List.map_cons, List.mem_cons] at h ⊢
      rcases h with h | h
      · exact .inr (.inl h)
      · exact (ih h).imp id .inr

theorem mem_vals_after {d : Od Key Val} {r k : Key} {v x : Val}
    (h : x ∈ (d.insertAfter r k v).vals) : x = v ∨ x ∈ d.vals := by
  induction d with
  | nil => exact .inr h
  | cons a t ih =>
    obtain ⟨k', v'⟩ := a
    simp only [Od.insertAfter] at h
    split at h
    · simp only [Od.vals, List.map_cons, List.mem_cons] at h ⊢
      rcases h with h | h | h
      · exact .inr (.inl h)
      · exact .inl h
      · exact .inr (.inr h)
    · simp only [Od.vals, List.map_cons, List.mem_cons] at h ⊢
      rcases h with h | h
      · exact .inr (.inl h)
      · exact (ih h).imp id .inr

theorem mem_vals_swap {d : Od Key Val} {a b : Key} {x : Val} (h : x ∈ (d.swap a b).vals) :
    x ∈ d.vals := by
  unfold Od.swap at h
  split at h
  · rename_i va vb ha hb
    have h1 : va ∈ d.vals := List.mem_map.mpr ⟨_, Od.get?_some_mem ha, rfl⟩
    have h2 : vb ∈ d.vals := List.mem_map.mpr ⟨_, Od.get?_some_mem hb, rfl⟩
    simp only [Od.vals, List.map_map, List.mem_map, Function.comp] at h
    obtain ⟨kv, hkv, rfl⟩ := h
    split
    · exact h2
    · split
      · exact h1
      · exact List.mem_map.mpr ⟨kv, hkv, rfl⟩
  · exact h

theorem nodesOnly_rules (E : Env) : ChRules E NodesOnly where
  nil _ _ _ h := by cases h
  del _ _ _ h hc v hv := h hc v (mem_vals_del hv)
  before _ _ _ _ _ h hc v hv := by
    rcases mem_vals_before hv with rfl | hv
    · rfl
    · exact h hc v hv
  after _ _ _ _ _ h hc v hv := by
    rcases mem_vals_after hv with rfl | hv
    · rfl
    · exact h hc v hv
  swap _ _ _ _ h hc v hv := h hc v (mem_vals_swap hv)
  set o k v w hw hi := by
    have hout := setitem_out E o k v hw
    by_cases hv : v.isNode = true ∨ ¬ OnlyNodes (clsOf E w o)
    · have hset : ∀ {w' : World}, (∀ p, (w'.objs p).cls = (w.objs p).cls) → ∀ {d},
          ChildSet w w' o v d → ChI E NodesOnly w' := by
        intro w' hc d h p
        have hp := hi p
        have hcls : clsOf E w' p = clsOf E w p := congrArg E.cls (hc p)
        rw [hcls]
        rcases d with _ | (j | j)
        · exact h.elim
        · rw [h p]
          split
          · rename_i e; subst e
            intro ho x hx
            rcases hv with hv | hv
            · rcases mem_vals_set hx with rfl | hx
              · exact hv
              · exact hp ho x hx
            · exact absurd ho hv
          · exact hp
        · rw [h p]; exact hp
      rcases hx : (setitem E o k v w).1 with e | u
      · rcases hout.err e hx with h | ⟨_, _, h⟩
        · exact hi.of_same h hout.cls
        · exact hset hout.cls h
      · exact hset hout.cls (hout.ok hx)
    · have h1 : ¬ v.isNode = true := fun h => hv (.inl h)
      have h2 : OnlyNodes (clsOf E w o) := Classical.byContradiction fun h => hv (.inr h)
      cases v with
      | node c => exact absurd rfl h1
      | data d =>
        have := setPipe_data E o d h2.1 k hw h2.2 hw
        exact hi.of_same this.2.1 this.2.2

/-- After every history of API calls the children of nodes that only take nodes
are nodes. -/
theorem c05_children (E : Env) {w : World} (hr : Reachable E w) (o : Oid)
    (ho : OnlyNodes (clsOf E w o)) (k : Key) (v : Val) (h : (w.omap o).val k = some v) :
    ∃ c, v = .node c := by
  have hv : v ∈ (w.children o).vals := List.mem_map.mpr ⟨(k, v), Od.get?_some_mem h, rfl⟩
  have := (nodesOnly_rules E).reachable hr o ho v hv
  cases v with
  | node c => exact ⟨c, rfl⟩
  | data d => cases this

/-- One assignment of anything else stores nothing as child of any node, whatever
the position of `NodeChildValidate`. -/
theorem c05_no_effect (E : Env) {w : World} (hw : WF w) (o : Oid)
    (ho : OnlyNodes (clsOf E w o)) (k : Key) (d : Data) (p : Oid) :
    (setitem E o k (.data d) w).2.omap p = w.omap p := by
  have := (setPipe_data E o d ho.1 k hw ho.2 hw).2.1 p
  show Od.toMap _ = Od.toMap _
  exact congrArg Od.toMap this

/-- With `NodeChildValidate` leftmost: the value is refused with `ValueError`
before anything else happens. -/
theorem c05_refused (E : Env) (w : World) (o : Oid) (k : Key) (d : Data) {r : List Bhv}
    (hb : (clsOf E w o).bhvs = .nodeChildValidate :: r) (ha : (clsOf E w o).allowNonNode = false) :
    setitem E o k (.data d) w =
      (.error (.value (match d with
        | .cls _ => "It isn't allowed to use classes as values."
        | _ => "Non-node childs are not allowed.")), w) := by
  have : setitem E o k (.data d) w = setPipe E (.nodeChildValidate :: r) o k (.data d) w := by
    show setPipe E (clsOf E w o).bhvs o k (.data d) w = _
    rw [hb]
  rw [this]
  simp only [setPipe, validateSet, M.bind_apply, M.getW_apply, ha, Val.isNode]
  cases d <;> simp [Val.isClass]

/-! A reachable heap with a node that only takes nodes, that has children, and on
which attempts to store other things were made. -/

/-- Two plain nodes and a `Node`; plain values and a class were offered to them. -/
def c05W : World := after sampleEnv
  [.new 0 (.str ['r']) none, .new 1 .none none, .set 0 ka (.node 1),
   .set 0 kb (.data (.int 3)), .update 1 [(ka, .data (.cls ['A'])), (kb, .node 0)],
   .setdefault 0 kc (.data .none), .new 2 .none none, .new 2 .none none, .set 2 ka (.node 3)]

example : Reachable sampleEnv c05W ∧ OnlyNodes (clsOf sampleEnv c05W 0) ∧
    OnlyNodes (clsOf sampleEnv c05W 2) ∧ (c05W.omap 0).keys = [ka] ∧ (c05W.omap 2).keys = [ka] :=
  ⟨reachable_after .., ⟨by decide +kernel, rfl⟩, ⟨by decide +kernel, rfl⟩, rfl, rfl⟩

/-- A class whose values are not restricted does store other values: the
restriction in the theorems is needed. -/
example : ((after sampleEnv [.new 3 .none none, .set 0 ka (.data (.int 3))]).omap 0).val ka =
    some (.data (.int 3)) := rfl

/-- `c05_children`, `c05_no_effect` and `c05_refused` there. -/
example : (∀ v, (c05W.omap 0).val ka = some v → ∃ c, v = .node c) ∧
    (setitem sampleEnv 2 ka (.data (.int 3)) c05W).2.omap 2 = c05W.omap 2 ∧
    setitem sampleEnv 0 ka (.data (.int 3)) c05W = (.error (.value "Non-node childs are not allowed."), c05W) :=
  ⟨c05_children sampleEnv (reachable_after ..) 0 ⟨by decide +kernel, rfl⟩ ka,
    c05_no_effect sampleEnv (reachable_after ..).wf 2 ⟨by decide +kernel, rfl⟩ ka (.int 3) 2,
    c05_refused sampleEnv c05W 0 ka (.int 3) rfl rfl⟩

end Verif
