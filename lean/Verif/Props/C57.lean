import Verif.Lemmas.Construct
import Verif.Sample

/-!
# C57 Fixed children are read-only

For every program (child factories included), every class with `FixedChildren` and
every history of operations.
-/

namespace Verif

variable {E : Env}

/-- The fixed children of existing nodes stay. -/
def FixKept (w w' : World) : Prop :=
  WF w → WF w' ∧ w.nobj ≤ w'.nobj ∧ ∀ p, p < w.nobj → (w'.objs p).fixed = (w.objs p).fixed

theorem fixKept_pre : PreR FixKept :=
  ⟨fun _ hw => ⟨hw, Nat.le_refl _, fun _ _ => rfl⟩, fun h h' hw => by
    obtain ⟨a, b, c⟩ := h hw
    obtain ⟨a', b', c'⟩ := h' a
    exact ⟨a', Nat.le_trans b b', fun p hp => (c' p (Nat.lt_of_lt_of_le hp b)).trans (c p hp)⟩⟩

theorem fixKept_keep {α : Type} {m : M α} (h : Pres Keep m) : Pres FixKept m := fun w hw =>
  ⟨(h w).wf hw, Nat.le_of_eq (h w).nobj.symm, fun p _ => (h w).fixed p⟩

theorem fixKept_quiet (w w' : World) (h : Quiet w w') : FixKept w w' := fun hw =>
  ⟨(h hw).1, Nat.le_of_eq (h hw).2.nobj.symm, fun p _ => ((h hw).2.obj p).fixed⟩

theorem fixKept_api (E : Env) : ApiBase E FixKept where
  pre := fixKept_pre
  quiet _ _ h := fixKept_quiet _ _ h.1
  fbGuard := fbGuard_of_quiet fixKept_pre fixKept_quiet
  hidden _ _ h hw := ⟨h.wf hw, Nat.le_of_eq h.nobj.symm, fun p _ => h.fixed p⟩
  setitem o k v := fixKept_keep (keep_setitem E o k v)
  delEnd o k := by
    refine fixKept_keep (pres_bind keep_pre (pres_getW keep_pre) fun w => ?_)
    refine pres_ite keep_pre (pres_raise keep_pre _) (pres_ite keep_pre ?_ (pres_raise keep_pre _))
    exact pres_bind keep_pre (keep_storageRef E o) fun r => pres_bind keep_pre (pres_getW keep_pre)
      fun w => pres_ite keep_pre (keep_setStores r (fun w => (w.stores r).del k) fun w hw =>
        Od.nodup_keys_del (hw.sNd r) k) (pres_raise keep_pre _)
  nsDrop o k := by
    refine fixKept_keep (pres_bind keep_pre (keep_nodespacesRef o) fun r => ?_)
    exact pres_bind keep_pre (pres_getW keep_pre)
      fun w => pres_ite keep_pre (keep_setNspaces r (fun w => (w.nspaces r).del k) fun w hw =>
        Od.nodup_keys_del (hw.nNd r) k) (pres_raise keep_pre _)
  attrsPut r a := fixKept_keep (keep_setNspaces r (fun w => (w.nspaces r).set attrsKey (.node a))
    fun w hw => Od.nodup_keys_set (hw.nNd r) _ _)
  insert b o ref new c := by
    intro w hw
    have hg := grow_storageInsert E b o ref new (.node c) w
    refine ⟨hg.wf hw, hg.nobj, fun p _ => ?_⟩
    have hq := keep_storageRef E o w
    simp only [storageInsert, M.bind_apply, M.getW_apply]
    rcases hr : storageRef E o w with ⟨e | r, w1⟩
    · rw [hr] at hq; exact hq.fixed p
    · rw [hr] at hq
      simp only
      repeat' split
      all_goals exact hq.fixed p
  swap o a b := by
    intro w hw
    have hg := grow_swapNodes E o a b w
    refine ⟨hg.wf hw, hg.nobj, fun p _ => ?_⟩
    have hq := keep_storageRef E o w
    simp only [swapNodes, M.bind_apply, M.getW_apply]
    rcases hr : storageRef E o w with ⟨e | r, w1⟩
    · rw [hr] at hq; exact hq.fixed p
    · rw [hr] at hq
      simp only
      repeat' split
      all_goals exact hq.fixed p
  volatile o k := by
    refine fixKept_keep (pres_bind keep_pre (keep_storageRef E o) fun r => ?_)
    refine pres_ite keep_pre (keep_setStores r (fun _ => []) fun _ _ => by simp [Od.keys]) ?_
    refine pres_bind keep_pre (pres_bind keep_pre (keep_iter E o) fun _ =>
      pres_bind keep_pre (pres_endIter keep_pre _) fun _ => pres_pure keep_pre _) fun ks => ?_
    exact pres_ite keep_pre (keep_setStores r (fun w => (w.stores r).del k) fun w hw =>
        Od.nodup_keys_del (hw.sNd r) k) (pres_raise keep_pre _)
  newNode c n p w hw := by
    obtain ⟨b1, -, b3, -⟩ := newNode_builds E c n p hw
    exact ⟨b1, b3.nobj, b3.fixed⟩

/-- A class whose items come from `FixedChildren`; keys are not translated, intercepted
or cached. -/
structure FixedClass (c : ClassDef) : Prop where
  fixed : Bhv.fixedChildren ∈ c.bhvs
  plain : ∀ b ∈ c.bhvs, b ≠ .alias ∧ b ≠ .nodespaces ∧ b ≠ .cache
  keys : (c.fixed.map Prod.fst).Nodup

theorem FixedAs.keys {w : World} {o : Oid} {l : List (Key × ClassId)} {d : Od Key Val}
    (h : FixedAs w o l d) : d.keys = l.map Prod.fst := by
  induction h with
  | nil => rfl
  | cons _ _ _ ih => simp only [Od.keys, List.map_cons, List.cons.injEq, true_and] at ih ⊢; exact ih

/-- C57: a node just made has exactly the declared children, in order, each of its class
and located at its key. -/
theorem c57_made {w w' : World} (hw : WF w) {c : ClassId} (hc : FixedClass (E.cls c)) {name : Key}
    {parent : Option Oid} {o : Oid} (h : newNode E c name parent w = (.ok o, w')) :
    FixedAs w' o (E.cls c).fixed (w'.objs o).fixed ∧ (w'.objs o).fixed.keys = (E.cls c).fixed.map Prod.fst := by
  obtain ⟨h1, h2, h3⟩ := newNode_constructed hw h fun _ => hc.keys
  have hcl : ((alloc c w).2.objs o).cls = c := by rw [h1]; simp [alloc]
  have := h3.fixed hc.fixed (by rw [hcl]; exact hc.keys)
  rw [hcl] at this
  exact ⟨this.1, this.1.keys⟩

/-- C57: no history adds, removes or replaces one. -/
theorem c57_kept {w : World} (hw : WF w) {o : Oid} (ho : o < w.nobj) (ops : List Op) :
    ((execAll E ops w).2.objs o).fixed = (w.objs o).fixed :=
  ((fixKept_api E).execAll ops w hw).2.2 o ho

theorem FixedClass.contains {w : World} {o : Oid} (h : FixedClass (clsOf E w o)) :
    (bhvsOf E w o).contains .fixedChildren = true := List.contains_iff_mem.mpr h.fixed

/-- C57: reading a declared key returns the fixed child and changes nothing. -/
theorem c57_read {w : World} {o : Oid} (h : FixedClass (clsOf E w o)) {k : Key} {v : Val}
    (hv : (w.objs o).fixed.get? k = some v) : getitem E o k w = (.ok v, w) := by
  show getPipe E (fbHandler E) (clsOf E w o).bhvs o k w = _
  have hp := h.plain
  revert hp
  generalize (clsOf E w o).bhvs = bs
  intro hp
  induction bs with
  | nil =>
    simp only [getPipe, getEnd, M.bind_apply, M.getW_apply, h.contains, if_true, lookup, hv]
    rfl
  | cons b r ih =>
    have ih := ih fun b hb => hp b (List.mem_cons_of_mem _ hb)
    have hb := hp b List.mem_cons_self
    cases b
    case alias => exact absurd rfl hb.1
    case nodespaces => exact absurd rfl hb.2.1
    case cache => exact absurd rfl hb.2.2
    case fallback => simp only [getPipe, M.catchIf_apply, ih]
    case childFactory => simp only [getPipe, childFactoryGet, M.catchIf_apply, ih]
    all_goals exact ih

/-- C57: iterating yields the declared keys in order. -/
theorem c57_keys {w : World} {o : Oid} (h : FixedClass (clsOf E w o)) :
    mkeys E o w = (.ok (w.objs o).fixed.keys, w) := by
  have : iter E o w = (.ok ((w.objs o).fixed.keys, none), w) := by
    show iterPipe E (clsOf E w o).bhvs o w = _
    have hp := h.plain
    revert hp
    generalize (clsOf E w o).bhvs = bs
    intro hp
    induction bs with
    | nil => simp only [iterPipe, iterEnd, h.contains, if_true]
    | cons b r ih =>
      have ih := ih fun b hb => hp b (List.mem_cons_of_mem _ hb)
      have hb := hp b List.mem_cons_self
      cases b
      case alias => exact absurd rfl hb.1
      all_goals exact ih
  simp only [mkeys, M.bind_apply, this, endIter, M.pure_apply]

/-- Item writes on `o`, an instance of class `c`, do not return. -/
def Fails (o : Oid) (c : ClassId) {α : Type} (m : M α) : Prop :=
  ∀ w : World, o < w.nobj → (w.objs o).cls = c → ∃ e, (m w).1 = .error e

section
variable {o : Oid} {c : ClassId} {α β : Type}

theorem fails_then {m : M α} {f : α → M β} (hm : Pres Grow m) (hf : ∀ a, Fails o c (f a)) :
    Fails o c (m >>= f) := by
  intro w ho hc
  have hg := hm w
  simp only [M.bind_apply]
  rcases h : m w with ⟨e | a, w1⟩
  · exact ⟨e, rfl⟩
  · rw [h] at hg
    exact hf a w1 (Nat.lt_of_lt_of_le ho hg.nobj) ((hg.cls o ho).trans hc)

theorem fails_first {m : M α} {f : α → M β} (hm : Fails o c m) : Fails o c (m >>= f) := by
  intro w ho hc
  obtain ⟨e, he⟩ := hm w ho hc
  simp only [M.bind_apply]
  rcases h : m w with ⟨e | a, w1⟩
  · exact ⟨e, rfl⟩
  · rw [h] at he; exact nomatch he

theorem fails_catch {p : Exc → Bool} {m : M α} {h : Exc → M α} (hm : Fails o c m)
    (hh : ∀ e w, ∃ e', (h e w).1 = .error e') : Fails o c (M.catchIf p m h) := by
  intro w ho hc
  obtain ⟨e, he⟩ := hm w ho hc
  simp only [M.catchIf_apply]
  rcases hx : m w with ⟨e' | a, w1⟩
  · simp only
    split
    · exact hh e' w1
    · exact ⟨e', rfl⟩
  · rw [hx] at he; exact nomatch he

theorem fails_raise (e : Exc) : Fails o c (M.raise e : M α) := fun _ _ _ => ⟨e, rfl⟩

theorem fails_ite {q : Prop} [Decidable q] {m m' : M α} (h : Fails o c m) (h' : Fails o c m') :
    Fails o c (if q then m else m') := by split <;> assumption

end

theorem fails_setEnd {o : Oid} {c : ClassId} (hc : Bhv.fixedChildren ∈ (E.cls c).bhvs) (k : Key)
    (v : Val) : Fails o c (setEnd E o k v) := by
  intro w _ h
  have : (bhvsOf E w o).contains .fixedChildren = true := by
    show ((E.cls (w.objs o).cls).bhvs).contains .fixedChildren = true
    rw [h]; exact List.contains_iff_mem.mpr hc
  simp only [setEnd, M.bind_apply, M.getW_apply, this, if_true]
  exact ⟨_, rfl⟩

theorem fails_delEnd {o : Oid} {c : ClassId} (hc : Bhv.fixedChildren ∈ (E.cls c).bhvs) (k : Key) :
    Fails o c (delEnd E o k) := by
  intro w _ h
  have : (bhvsOf E w o).contains .fixedChildren = true := by
    show ((E.cls (w.objs o).cls).bhvs).contains .fixedChildren = true
    rw [h]; exact List.contains_iff_mem.mpr hc
  simp only [delEnd, M.bind_apply, M.getW_apply, this, if_true]
  exact ⟨_, rfl⟩

theorem fails_setPipe {o : Oid} {c : ClassId} (hc : Bhv.fixedChildren ∈ (E.cls c).bhvs)
    (bs : List Bhv) (hb : Bhv.nodespaces ∉ bs) (k : Key) (v : Val) :
    Fails o c (setPipe E bs o k v) := by
  induction bs generalizing k v with
  | nil => exact fails_setEnd hc k v
  | cons b r ih =>
    have ih := ih fun h => hb (List.mem_cons_of_mem _ h)
    cases b
    case nodespaces => exact absurd List.mem_cons_self hb
    case nodeChildValidate =>
      exact fails_then (pres_getW grow_pre) fun _ =>
        fails_ite (fails_raise _) (fails_ite (fails_raise _) (ih k v))
    case adopt =>
      cases v with
      | data d => exact ih k _
      | node x =>
        exact fails_then (pres_getO grow_pre x) fun _ => fails_then (grow_setName x k) fun _ =>
          fails_then (grow_setParent x _) fun _ => fails_catch (ih k _) fun e w => ⟨e, rfl⟩
    case reference =>
      cases v with
      | data d => exact ih k _
      | node x =>
        exact fails_then (grow_of_keep (keep_referenceCheck E o x)) fun _ =>
          fails_then (grow_of_keep (keep_referenceMerge o x)) fun _ => ih k _
    case lifecycle => exact fails_first (ih k v)
    case attributesLifecycle => exact fails_first (ih k v)
    case cache => exact fails_then (grow_of_keep (keep_cacheDrop o k)) fun _ => ih k v
    case alias =>
      exact fails_then (pres_of_id grow_pre (unaliasKey_id E o k)) fun u =>
        fails_catch (ih u v) fun e w => ⟨_, rfl⟩
    all_goals exact ih k v

theorem fails_delPipe {o : Oid} {c : ClassId} (hc : Bhv.fixedChildren ∈ (E.cls c).bhvs)
    (bs : List Bhv) (hb : Bhv.nodespaces ∉ bs) (k : Key) : Fails o c (delPipe E bs o k) := by
  induction bs generalizing k with
  | nil => exact fails_delEnd hc k
  | cons b r ih =>
    have ih := ih fun h => hb (List.mem_cons_of_mem _ h)
    cases b
    case nodespaces => exact absurd List.mem_cons_self hb
    case reference =>
      exact fails_then (grow_getitem E o k) fun v =>
        fails_then ((grow_delPrims E o).unindexed v) fun _ => ih k
    case lifecycle => exact fails_then (grow_getitem E o k) fun v => fails_first (ih k)
    case attributesLifecycle => exact fails_first (ih k)
    case cache => exact fails_then (grow_of_keep (keep_cacheDrop o k)) fun _ => ih k
    case alias =>
      exact fails_then (pres_of_id grow_pre (unaliasKey_id E o k)) fun u =>
        fails_catch (ih u) fun e w => ⟨_, rfl⟩
    all_goals exact ih k

/-- C57: every assignment and deletion of an item is refused. -/
theorem c57_refused {w : World} {o : Oid} (ho : o < w.nobj) (h : FixedClass (clsOf E w o)) (k : Key)
    (v : Val) : (∃ e, (setitem E o k v w).1 = .error e) ∧ ∃ e, (delitem E o k w).1 = .error e :=
  have hn : Bhv.nodespaces ∉ bhvsOf E w o := fun hm => (h.plain _ hm).2.1 rfl
  ⟨fails_setPipe h.fixed _ hn k v w ho rfl, fails_delPipe h.fixed _ hn k w ho rfl⟩

/-! ### Instances -/

theorem fixedClass_fixedNode : FixedClass fixedNode := ⟨by decide, by decide, by decide⟩

/-- A node with two fixed children; assignment, deletion and detach are tried. -/
def c57Ops : List Op := [.new 11 .none none, .new 0 .none none, .set 0 ka (.node 3), .del 0 kb,
  .detach 0 ka, .clear 0, .set 3 ka (.node 1)]

example : (getitem sampleEnv 0 ka (after sampleEnv c57Ops)).1 = .ok (.node 1) ∧
    ((after sampleEnv (c57Ops.take 1)).objs 0).fixed.get? ka = some (.node 1) := by
  have h0 : ((after sampleEnv (c57Ops.take 1)).objs 0).fixed.get? ka = some (.node 1) := by
    decide +kernel
  have h1 := c57_kept (E := sampleEnv) (reachable_after sampleEnv (c57Ops.take 1)).wf (o := 0)
    (by decide +kernel) (c57Ops.drop 1)
  have hc : FixedClass (clsOf sampleEnv (after sampleEnv c57Ops) 0) := by
    have : (clsOf sampleEnv (after sampleEnv c57Ops) 0) = fixedNode := rfl
    rw [this]; exact fixedClass_fixedNode
  exact ⟨by rw [c57_read hc (show ((after sampleEnv c57Ops).objs 0).fixed.get? ka = some (.node 1) from
    (congrArg (Od.get? · ka) h1).trans h0)], h0⟩

end Verif
