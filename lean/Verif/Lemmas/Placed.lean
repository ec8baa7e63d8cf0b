import Verif.Model.Relocate
import Verif.Spec.View

/-! Operations that do not look at locations. -/

namespace Verif

/-- The heap with other locations. -/
def World.placed (w : World) (f : Oid → Key × Option Oid) : World :=
  { w with objs := fun o => { w.objs o with name := (f o).1, parent := (f o).2 } }

/-- Run with other locations, a computation gives the same result and the same heap but for locations. -/
def LocFree {α : Type} (m : M α) : Prop := ∀ w f, ∃ g, m (w.placed f) = ((m w).1, (m w).2.placed g)

theorem placed_loc (w : World) : w.placed w.loc = w := rfl

theorem placed_placed (w : World) (f g : Oid → Key × Option Oid) : (w.placed f).placed g = w.placed g := rfl

/-- Objects with other locations. -/
def placedObjs (objs : Oid → Obj) (f : Oid → Key × Option Oid) : Oid → Obj :=
  fun o => { objs o with name := (f o).1, parent := (f o).2 }

/-- Writing an object among objects with other locations. -/
theorem placedObjs_upd (objs : Oid → Obj) (f : Oid → Key × Option Oid) (o : Oid) (b b' : Obj)
    (h : b' = { b with name := b'.name, parent := b'.parent }) :
    upd (placedObjs objs f) o b' = placedObjs (upd objs o b) (upd f o (b'.name, b'.parent)) := by
  funext q
  simp only [upd, placedObjs]
  split
  · exact h
  · rfl

theorem lf_pure {α : Type} (a : α) : LocFree (pure a : M α) := fun _ f => ⟨f, rfl⟩

theorem lf_raise {α : Type} (e : Exc) : LocFree (M.raise e : M α) := fun _ f => ⟨f, rfl⟩

theorem lf_ofExcept {α : Type} (x : Except Exc α) : LocFree (M.ofExcept x) := fun _ f => ⟨f, rfl⟩

/-- Two computations that differ in locations only. -/
def LocAlike {α : Type} (m m' : M α) : Prop := ∀ w f, ∃ g, m' (w.placed f) = ((m w).1, (m w).2.placed g)

theorem la_bind {α β : Type} {m m' : M α} {k k' : α → M β} (hm : LocAlike m m') (hk : ∀ a, LocAlike (k a) (k' a)) :
    LocAlike (m >>= k) (m' >>= k') := fun w f => by
  obtain ⟨g, hg⟩ := hm w f
  rcases h : m w with ⟨e | a, w1⟩
  · rw [h] at hg
    exact ⟨g, by simp only [M.bind_apply, hg, h]⟩
  · rw [h] at hg
    obtain ⟨g', hg'⟩ := hk a w1 g
    exact ⟨g', by simp only [M.bind_apply, hg, h, hg']⟩

theorem la_catch {α : Type} {p : Exc → Bool} {m m' : M α} {k k' : Exc → M α} (hm : LocAlike m m')
    (hk : ∀ e, LocAlike (k e) (k' e)) : LocAlike (M.catchIf p m k) (M.catchIf p m' k') := fun w f => by
  obtain ⟨g, hg⟩ := hm w f
  rcases h : m w with ⟨e | a, w1⟩
  · rw [h] at hg
    obtain ⟨g', hg'⟩ := hk e w1 g
    by_cases hp : p e = true
    · exact ⟨g', by simp only [M.catchIf_apply, hg, h, hp, if_true, hg']⟩
    · exact ⟨g, by simp only [M.catchIf_apply, hg, h, hp]; rfl⟩
  · rw [h] at hg
    exact ⟨g, by simp only [M.catchIf_apply, hg, h]⟩

theorem lf_bind {α β : Type} {m : M α} {k : α → M β} (hm : LocFree m) (hk : ∀ a, LocFree (k a)) :
    LocFree (m >>= k) := la_bind hm hk

theorem lf_catch {α : Type} {p : Exc → Bool} {m : M α} {k : Exc → M α} (hm : LocFree m) (hk : ∀ e, LocFree (k e)) :
    LocFree (M.catchIf p m k) := la_catch hm hk

/-- What depends on the heap, but not on locations. -/
theorem lf_dep {α : Type} {m : World → M α} (hm : ∀ w, LocFree (m w)) (he : ∀ w f, m (w.placed f) = m w) :
    LocFree (fun w => m w w) := fun w f => by
  obtain ⟨g, hg⟩ := hm w w f
  exact ⟨g, by simp only [he, hg]⟩

theorem lf_getW {α : Type} {k : World → M α} (hk : ∀ w, LocFree (k w)) (he : ∀ w f, k (w.placed f) = k w) :
    LocFree (M.getW >>= k) := lf_dep (m := k) hk he

theorem lf_getO {α : Type} {o : Oid} {k : Obj → M α} (hk : ∀ b, LocFree (k b))
    (he : ∀ b n p, k { b with name := n, parent := p } = k b) : LocFree (getO o >>= k) :=
  lf_dep (m := fun w => k (w.objs o)) (fun w => hk _) fun _ _ => he _ _ _

theorem lf_modify {h : World → World} (he : ∀ w f, ∃ g, h (w.placed f) = (h w).placed g) : LocFree (M.modifyW h) :=
  fun w f => by
    obtain ⟨g, hg⟩ := he w f
    exact ⟨g, by simp only [M.modifyW_apply, hg]⟩

theorem lf_modO {o : Oid} {h : Obj → Obj}
    (he : ∀ b n p, ∃ n' p', h { b with name := n, parent := p } = { h b with name := n', parent := p' }) :
    LocFree (modO o h) := lf_modify fun w f => by
  obtain ⟨n, p, hp⟩ := he (w.objs o) (f o).1 (f o).2
  refine ⟨_, congrArg (fun x => ({ w with objs := x } : World)) (placedObjs_upd w.objs f o (h (w.objs o)) _ ?_)⟩
  have hp : h ((w.placed f).objs o) = { h (w.objs o) with name := n, parent := p } := hp
  rw [hp]

/-! ### The dictionaries -/

theorem lf_storageRef (E : Env) (o : Oid) : LocFree (storageRef E o) := fun w f => by
  unfold storageRef
  simp only [show bhvsOf E (w.placed f) o = bhvsOf E w o from rfl,
    show ((w.placed f).objs o).storage = (w.objs o).storage from rfl]
  split
  · exact ⟨f, rfl⟩
  · exact ⟨f, rfl⟩
  · split
    · exact ⟨f, rfl⟩
    · exact ⟨_, congrArg (fun x => ((.ok w.nstore, { w with
        objs := x, stores := upd w.stores w.nstore [], nstore := w.nstore + 1 }) : Except Exc Ref × World))
        (placedObjs_upd w.objs f o { w.objs o with storage := some w.nstore } _ rfl)⟩

theorem lf_cacheRef (o : Oid) : LocFree (cacheRef o) := fun w f => by
  unfold cacheRef
  simp only [show ((w.placed f).objs o).cache = (w.objs o).cache from rfl]
  split
  · exact ⟨f, rfl⟩
  · exact ⟨_, congrArg (fun x => ((.ok w.ncache, { w with
      objs := x, caches := upd w.caches w.ncache [], ncache := w.ncache + 1 }) : Except Exc Ref × World))
      (placedObjs_upd w.objs f o { w.objs o with cache := some w.ncache } _ rfl)⟩

theorem lf_nodespacesRef (o : Oid) : LocFree (nodespacesRef o) := fun w f => by
  unfold nodespacesRef
  simp only [show ((w.placed f).objs o).nodespaces = (w.objs o).nodespaces from rfl]
  split
  · exact ⟨f, rfl⟩
  · exact ⟨_, congrArg (fun x => ((.ok w.nnspace, { w with
      objs := x, nspaces := upd w.nspaces w.nnspace [(childrenKey, .node o)], nnspace := w.nnspace + 1 }) :
      Except Exc Ref × World)) (placedObjs_upd w.objs f o { w.objs o with nodespaces := some w.nnspace } _ rfl)⟩

theorem lf_indexRef (o : Oid) : LocFree (indexRef o) := fun w f => by
  unfold indexRef
  simp only [show ((w.placed f).objs o).index = (w.objs o).index from rfl]
  split <;> exact ⟨f, rfl⟩

theorem lf_notify (e : Event) : LocFree (notify e) := fun _ f => ⟨f, rfl⟩

/-- Writing a dictionary, the counter or the log. -/
theorem lf_write {h : World → World} (he : ∀ w f, h (w.placed f) = (h w).placed f) : LocFree (M.modifyW h) :=
  lf_modify fun w f => ⟨f, he w f⟩

theorem la_modO {o : Oid} {h h' : Obj → Obj}
    (he : ∀ b n p, ∃ n' p', h' { b with name := n, parent := p } = { h b with name := n', parent := p' }) :
    LocAlike (modO o h) (modO o h') := fun w f => by
  obtain ⟨n, p, hp⟩ := he (w.objs o) (f o).1 (f o).2
  refine ⟨_, congrArg (fun x => ((.ok (), { w with objs := x }) : Except Exc Unit × World))
    (placedObjs_upd w.objs f o (h (w.objs o)) _ ?_)⟩
  have hp : h' ((w.placed f).objs o) = { h (w.objs o) with name := n, parent := p } := hp
  rw [hp]

theorem lf_name (o : Oid) (k : Key) : LocFree (modO o fun ob => { ob with name := k }) :=
  lf_modO fun _ _ p => ⟨k, p, rfl⟩

theorem lf_parent (o : Oid) (q : Option Oid) : LocFree (modO o fun ob => { ob with parent := q }) :=
  lf_modO fun _ n _ => ⟨n, q, rfl⟩

/-! ### Items -/

theorem lf_iterEnd (E : Env) (o : Oid) : LocFree (iterEnd E o) := fun w f => by
  unfold iterEnd
  simp only [show bhvsOf E (w.placed f) o = bhvsOf E w o from rfl, show clsOf E (w.placed f) o = clsOf E w o from rfl,
    show ((w.placed f).objs o).fixed = (w.objs o).fixed from rfl]
  split
  · exact ⟨f, rfl⟩
  · split
    · exact ⟨f, rfl⟩
    · obtain ⟨g, hg⟩ := lf_storageRef E o w f
      rcases h : storageRef E o w with ⟨e | r, w1⟩
      · rw [h] at hg; rw [hg]; exact ⟨g, rfl⟩
      · rw [h] at hg; rw [hg]; exact ⟨g, rfl⟩
    · exact ⟨f, rfl⟩

theorem lf_iterPipe (E : Env) (bs : List Bhv) (o : Oid) : LocFree (iterPipe E bs o) := by
  induction bs with
  | nil => exact lf_iterEnd E o
  | cons b r ih =>
    by_cases h : b = .alias
    · subst h
      exact lf_bind ih fun _ => lf_getW (fun _ => lf_pure _) fun _ _ => rfl
    · have : iterPipe E (b :: r) o = iterPipe E r o := by cases b <;> first | rfl | exact absurd rfl h
      rw [this]; exact ih

theorem lf_iter (E : Env) (o : Oid) : LocFree (iter E o) :=
  lf_dep (m := fun w => iterPipe E (bhvsOf E w o) o) (fun _ => lf_iterPipe E _ o) fun _ _ => rfl

theorem lf_adoptSet {next : Key → Val → M Unit} (hn : ∀ k v, LocFree (next k v)) (o : Oid) (k : Key) (v : Val) :
    LocFree (adoptSet next o k v) := by
  cases v with
  | data d => exact hn k _
  | node c =>
    -- what was read before is only written back
    have key : ∀ ob ob' : Obj, LocAlike
        (do
          modO c fun ob => { ob with name := k }
          modO c fun ob => { ob with parent := some o }
          M.catchIf Exc.isAKV (next k (.node c)) fun e => do
            modO c fun x => { x with name := ob.name }
            modO c fun x => { x with parent := ob.parent }
            M.raise e)
        (do
          modO c fun ob => { ob with name := k }
          modO c fun ob => { ob with parent := some o }
          M.catchIf Exc.isAKV (next k (.node c)) fun e => do
            modO c fun x => { x with name := ob'.name }
            modO c fun x => { x with parent := ob'.parent }
            M.raise e) := fun ob ob' =>
      la_bind (lf_name c k) fun _ => la_bind (lf_parent c _) fun _ => la_catch (hn k _) fun e =>
        la_bind (la_modO fun _ _ p => ⟨_, p, rfl⟩) fun _ => la_bind (la_modO fun _ n _ => ⟨n, _, rfl⟩) fun _ => lf_raise e
    exact fun w f => key (w.objs c) ((w.placed f).objs c) w f

theorem lf_ite {α : Type} {p : Prop} [Decidable p] {m m' : M α} (h : LocFree m) (h' : LocFree m') :
    LocFree (if p then m else m') := by split <;> assumption

theorem lf_nodespacesSet {next : Key → Val → M Unit} (hn : ∀ k v, LocFree (next k v)) (o : Oid) (k : Key) (v : Val) :
    LocFree (nodespacesSet next o k v) := by
  have put : ∀ k v, LocFree (do
      let r ← nodespacesRef o
      M.modifyW fun w => { w with nspaces := upd w.nspaces r ((w.nspaces r).set k v) }) := fun k v =>
    lf_bind (lf_nodespacesRef o) fun _ => lf_write fun _ _ => rfl
  unfold nodespacesSet
  split
  · refine lf_ite ?_ (hn _ _)
    split
    · exact lf_bind (lf_name _ _) fun _ => lf_bind (lf_parent _ _) fun _ => put _ _
    · exact put _ _
    · exact put _ _
    · exact lf_raise _
  · exact lf_raise _

theorem lf_validateSet (E : Env) {next : Key → Val → M Unit} (hn : ∀ k v, LocFree (next k v)) (o : Oid) (k : Key) (v : Val) :
    LocFree (validateSet E next o k v) :=
  lf_getW (fun _ => lf_ite (lf_raise _) (lf_ite (lf_raise _) (hn k v))) fun _ _ => rfl

theorem lf_referenceSet (E : Env) {next : Key → Val → M Unit} (hn : ∀ k v, LocFree (next k v)) (o : Oid) (k : Key) (v : Val) :
    LocFree (referenceSet E next o k v) := by
  cases v with
  | data d => exact hn k _
  | node c =>
    refine lf_bind ?_ fun _ => lf_bind ?_ fun _ => hn k _
    · refine lf_bind (lf_iter E c) fun it => ?_
      split
      · exact lf_pure _
      · exact lf_raise _
      · exact lf_bind (lf_indexRef o) fun _ => lf_bind (lf_indexRef c) fun _ =>
          lf_getW (fun _ => lf_ite (lf_raise _) (lf_pure _)) fun _ _ => rfl
    · exact lf_bind (lf_indexRef o) fun _ => lf_bind (lf_indexRef c) fun _ =>
        lf_bind (lf_write fun _ _ => rfl) fun _ => lf_modO fun _ n p => ⟨n, p, rfl⟩

theorem lf_lifecycleSet {next : Key → Val → M Unit} (hn : ∀ k v, LocFree (next k v)) (o : Oid) (k : Key) (v : Val) :
    LocFree (lifecycleSet next o k v) :=
  lf_bind (hn k v) fun _ => lf_getO (fun _ => lf_ite (lf_pure _) (lf_notify _)) fun _ _ _ => rfl

theorem lf_cacheDrop (o : Oid) (k : Key) : LocFree (cacheDrop o k) :=
  lf_bind (lf_cacheRef o) fun _ => lf_write fun _ _ => rfl

theorem lf_unaliasKey (E : Env) (o : Oid) (k : Key) : LocFree (unaliasKey E o k) := fun w f => by
  unfold unaliasKey
  simp only [show clsOf E (w.placed f) o = clsOf E w o from rfl]
  split
  · exact ⟨f, rfl⟩
  · split <;> exact ⟨f, rfl⟩

theorem lf_rekey {α : Type} (k : Key) {m : M α} (h : LocFree m) : LocFree (rekey k m) := lf_catch h fun _ => lf_raise _

theorem lf_setEnd (E : Env) (o : Oid) (k : Key) (v : Val) : LocFree (setEnd E o k v) :=
  lf_getW (fun _ => lf_ite (lf_raise _) (lf_ite (lf_bind (lf_storageRef E o) fun _ => lf_write fun _ _ => rfl) (lf_raise _)))
    fun _ _ => rfl

theorem lf_setPipe (E : Env) (bs : List Bhv) (hb : Bhv.attributesLifecycle ∉ bs) (o : Oid) (k : Key) (v : Val) :
    LocFree (setPipe E bs o k v) := by
  induction bs generalizing k v with
  | nil => exact lf_setEnd E o k v
  | cons b r ih =>
    have ih := ih fun h => hb (List.mem_cons_of_mem _ h)
    cases b
    case nodeChildValidate => exact lf_validateSet E ih o k v
    case nodespaces => exact lf_nodespacesSet ih o k v
    case adopt => exact lf_adoptSet ih o k v
    case reference => exact lf_referenceSet E ih o k v
    case lifecycle => exact lf_lifecycleSet ih o k v
    case attributesLifecycle => exact absurd List.mem_cons_self hb
    case cache => exact lf_bind (lf_cacheDrop o k) fun _ => ih k v
    case alias => exact lf_bind (lf_unaliasKey E o k) fun u => lf_rekey k (ih u v)
    all_goals exact ih k v

/-- Programs in which no behavior looks at locations. -/
def Unplaced (E : Env) : Prop := ∀ c, Bhv.fallback ∉ (E.cls c).bhvs ∧ Bhv.attributesLifecycle ∉ (E.cls c).bhvs

section
variable {E : Env} (hE : Unplaced E)
include hE

theorem lf_setitem (o : Oid) (k : Key) (v : Val) : LocFree (setitem E o k v) :=
  lf_dep (m := fun w => setPipe E (bhvsOf E w o) o k v) (fun _ => lf_setPipe E _ (hE _).2 o k v) fun _ _ => rfl

omit hE in
theorem lf_alloc (c : ClassId) : LocFree (alloc c) := fun w f =>
  ⟨_, congrArg (fun x => ((.ok w.nobj, { w with objs := x, nobj := w.nobj + 1 }) : Except Exc Oid × World))
    (placedObjs_upd w.objs f w.nobj { cls := c } _ rfl)⟩

omit hE in
theorem lf_freshUuid : LocFree freshUuid := fun _ f => ⟨f, rfl⟩

omit hE in
theorem lf_setUuidRef (o : Oid) (u : Option Nat) : LocFree (setUuidRef o u) :=
  lf_bind (lf_indexRef o) fun _ => lf_getW (fun _ => lf_ite (lf_raise _)
    (lf_bind (lf_write fun _ _ => rfl) fun _ => lf_modO fun _ n p => ⟨n, p, rfl⟩)) fun _ _ => rfl

omit hE in
theorem lf_referenceInit (o : Oid) : LocFree (referenceInit o) :=
  lf_bind (lf_modify fun w f => ⟨_, congrArg (fun x => ({ w with
      objs := x, idxs := upd w.idxs w.nidx [], nidx := w.nidx + 1 } : World))
      (placedObjs_upd w.objs f o { w.objs o with index := some w.nidx } _ rfl)⟩) fun _ =>
    lf_bind lf_freshUuid fun _ => lf_setUuidRef o _

omit hE in
theorem lf_fixedLoop (E : Env) {mk : ClassId → M Oid} (hm : ∀ c, LocFree (mk c)) (o : Oid) (l : List (Key × ClassId)) :
    LocFree (initPipe.loop mk o l) := by
  induction l with
  | nil => exact lf_pure _
  | cons x r ih =>
    exact lf_bind (hm _) fun _ => lf_bind (lf_name _ _) fun _ => lf_bind (lf_parent _ _) fun _ =>
      lf_bind (lf_modO fun _ n p => ⟨n, p, rfl⟩) fun _ => ih

omit hE in
theorem lf_initPipe (E : Env) {mk : ClassId → M Oid} (hm : ∀ c, LocFree (mk c)) (all bs : List Bhv) (o : Oid) (name : Key)
    (parent : Option Oid) : LocFree (initPipe E mk all bs o name parent) := by
  induction bs with
  | nil => exact lf_ite (lf_bind (lf_name _ _) fun _ => lf_parent _ _) (lf_pure _)
  | cons b r ih =>
    cases b
    case reference => exact lf_bind (lf_referenceInit o) fun _ => ih
    case lifecycle => exact lf_bind ih fun _ => lf_notify _
    case uuidAware =>
      exact lf_bind ih fun _ => lf_bind lf_freshUuid fun _ => lf_ite (lf_setUuidRef _ _) (lf_modO fun _ n p => ⟨n, p, rfl⟩)
    case fixedChildren =>
      exact lf_bind ih fun _ => lf_bind (lf_modO fun _ n p => ⟨n, p, rfl⟩) fun _ =>
        lf_getW (fun _ => lf_fixedLoop E hm o _) fun _ _ => rfl
    all_goals exact ih

omit hE in
theorem lf_newNodeN (E : Env) (n : Nat) (c : ClassId) (name : Key) (parent : Option Oid) :
    LocFree (newNodeN E n c name parent) := by
  induction n generalizing c name parent with
  | zero => exact lf_raise _
  | succ n ih =>
    unfold newNodeN
    exact lf_bind (lf_alloc c) fun o => lf_bind (lf_initPipe E (fun _ => ih _ _ _) _ _ o name parent) fun _ => lf_pure _

omit hE in
theorem lf_newNode (E : Env) (c : ClassId) (name : Key) (parent : Option Oid) : LocFree (newNode E c name parent) :=
  lf_ite (lf_newNodeN E _ c name parent) (lf_raise _)

omit hE in
theorem lf_getEnd (E : Env) (o : Oid) (k : Key) : LocFree (getEnd E o k) :=
  lf_getW (fun _ => lf_ite (lf_ofExcept _) (lf_ite (lf_bind (lf_storageRef E o) fun _ =>
    lf_getW (fun _ => lf_ofExcept _) fun _ _ => rfl) (lf_raise _))) fun _ _ => rfl

omit hE in
theorem lf_nodespacesGet {next : Key → M Val} (hn : ∀ k, LocFree (next k)) (o : Oid) (k : Key) :
    LocFree (nodespacesGet next o k) := by
  unfold nodespacesGet
  split
  · exact lf_ite (lf_bind (lf_nodespacesRef o) fun _ => lf_getW (fun _ => lf_ofExcept _) fun _ _ => rfl) (hn _)
  · exact hn _

omit hE in
theorem lf_cacheGet {next : Key → M Val} (hn : ∀ k, LocFree (next k)) (o : Oid) (k : Key) :
    LocFree (cacheGet next o k) := by
  refine lf_bind (lf_cacheRef o) fun r => lf_getW (fun w => ?_) fun _ _ => rfl
  split
  · exact lf_pure _
  · exact lf_bind (hn k) fun _ => lf_bind (lf_write fun _ _ => rfl) fun _ => lf_getW (fun _ => lf_ofExcept _) fun _ _ => rfl

theorem lf_childFactoryGet {next : Key → M Val} (hn : ∀ k, LocFree (next k)) (o : Oid) (k : Key) :
    LocFree (childFactoryGet E next o k) := by
  refine lf_catch (hn k) fun _ => lf_getW (fun w => ?_) fun _ _ => rfl
  split
  · exact lf_raise _
  · exact lf_bind (lf_newNode E _ _ _) fun _ => lf_bind (lf_setitem hE o k _) fun _ => lf_pure _

theorem lf_getPipe (fb : Oid → Key → Exc → M Val) (bs : List Bhv) (hb : Bhv.fallback ∉ bs) (o : Oid) (k : Key) :
    LocFree (getPipe E fb bs o k) := by
  induction bs generalizing k with
  | nil => exact lf_getEnd E o k
  | cons b r ih =>
    have ih := ih fun h => hb (List.mem_cons_of_mem _ h)
    cases b
    case nodespaces => exact lf_nodespacesGet ih o k
    case fallback => exact absurd List.mem_cons_self hb
    case cache => exact lf_cacheGet ih o k
    case alias => exact lf_bind (lf_unaliasKey E o k) fun u => lf_rekey k (ih u)
    case childFactory => exact lf_childFactoryGet hE ih o k
    all_goals exact ih k

theorem lf_getitem (o : Oid) (k : Key) : LocFree (getitem E o k) :=
  lf_dep (m := fun w => getPipe E (fbHandler E) (bhvsOf E w o) o k) (fun _ => lf_getPipe hE _ _ (hE _).1 o k) fun _ _ => rfl

theorem lf_toDeleteLoop {rec : Oid → M (List Nat)} (hr : ∀ o, LocFree (rec o)) (o : Oid) (l : List Key) :
    LocFree (toDeleteLoop E rec o l) := by
  induction l with
  | nil => exact lf_pure _
  | cons k r ih =>
    refine lf_bind (lf_catch (lf_bind (lf_getitem hE o k) fun v => ?_) fun _ => lf_pure _) fun _ => lf_bind ih fun _ => lf_pure _
    cases v with
    | data d => exact lf_raise _
    | node c => exact lf_getW (fun _ => lf_ite (hr c) (lf_raise _)) fun _ _ => rfl

theorem lf_toDelete (n : Nat) (o : Oid) : LocFree (toDelete E n o) := by
  induction n generalizing o with
  | zero => exact lf_raise _
  | succ n ih =>
    refine lf_getO (fun b => ?_) fun _ _ _ => rfl
    split
    · exact lf_raise _
    · refine lf_bind (lf_iter E o) fun it => lf_bind (lf_toDeleteLoop hE ih o _) fun _ => ?_
      split
      · exact lf_raise _
      · exact lf_pure _

omit hE in
theorem lf_indexDelete (o : Oid) (l : List Nat) : LocFree (indexDelete o l) := by
  induction l with
  | nil => exact lf_pure _
  | cons u r ih =>
    exact lf_bind (lf_indexRef o) fun _ => lf_getW (fun _ => lf_ite (lf_bind (lf_write fun _ _ => rfl) fun _ => ih)
      (lf_raise _)) fun _ _ => rfl

theorem lf_referenceUnindex (o : Oid) (v : Val) : LocFree (referenceUnindex E o v) := by
  cases v with
  | data d => exact lf_pure _
  | node c =>
    exact lf_getW (fun _ => lf_ite (lf_bind (lf_toDelete hE _ c) fun _ => lf_indexDelete o _) (lf_pure _)) fun _ _ => rfl

omit hE in
theorem lf_nodespacesDel {next : Key → M Unit} (hn : ∀ k, LocFree (next k)) (o : Oid) (k : Key) :
    LocFree (nodespacesDel next o k) := by
  unfold nodespacesDel
  split
  · exact lf_ite (lf_bind (lf_nodespacesRef o) fun _ => lf_getW (fun _ => lf_ite (lf_write fun _ _ => rfl) (lf_raise _))
      fun _ _ => rfl) (hn _)
  · exact lf_raise _

omit hE in
theorem lf_delEnd (E : Env) (o : Oid) (k : Key) : LocFree (delEnd E o k) :=
  lf_getW (fun _ => lf_ite (lf_raise _) (lf_ite (lf_bind (lf_storageRef E o) fun _ =>
    lf_getW (fun _ => lf_ite (lf_write fun _ _ => rfl) (lf_raise _)) fun _ _ => rfl) (lf_raise _))) fun _ _ => rfl

theorem lf_delPipe (bs : List Bhv) (hb : Bhv.attributesLifecycle ∉ bs) (o : Oid) (k : Key) :
    LocFree (delPipe E bs o k) := by
  induction bs generalizing k with
  | nil => exact lf_delEnd E o k
  | cons b r ih =>
    have ih := ih fun h => hb (List.mem_cons_of_mem _ h)
    cases b
    case nodespaces => exact lf_nodespacesDel ih o k
    case reference =>
      exact lf_bind (lf_getitem hE o k) fun _ => lf_bind (lf_referenceUnindex hE o _) fun _ => ih k
    case lifecycle =>
      exact lf_bind (lf_getitem hE o k) fun _ => lf_bind (ih k) fun _ =>
        lf_getO (fun _ => lf_ite (lf_pure _) (lf_notify _)) fun _ _ _ => rfl
    case attributesLifecycle => exact absurd List.mem_cons_self hb
    case cache => exact lf_bind (lf_cacheDrop o k) fun _ => ih k
    case alias => exact lf_bind (lf_unaliasKey E o k) fun u => lf_rekey k (ih u)
    all_goals exact ih k

theorem lf_delitem (o : Oid) (k : Key) : LocFree (delitem E o k) :=
  lf_dep (m := fun w => delPipe E (bhvsOf E w o) o k) (fun _ => lf_delPipe hE _ (hE _).2 o k) fun _ _ => rfl

/-! ### The rest of the API -/

omit hE in
theorem lf_forM' {α β : Type} {f : α → M β} (hf : ∀ a, LocFree (f a)) (l : List α) : LocFree (forM' f l) := by
  induction l with
  | nil => exact lf_pure _
  | cons a r ih => exact lf_bind (hf a) fun _ => lf_bind ih fun _ => lf_pure _

omit hE in
theorem lf_forU {α : Type} {f : α → M Unit} (hf : ∀ a, LocFree (f a)) (l : List α) : LocFree (forU f l) := by
  induction l with
  | nil => exact lf_pure _
  | cons a r ih => exact lf_bind (hf a) fun _ => ih

omit hE in
theorem lf_endIter (e : Option Exc) : LocFree (endIter e) := by
  cases e
  · exact lf_pure _
  · exact lf_raise _

omit hE in
theorem lf_mkeys (E : Env) (o : Oid) : LocFree (mkeys E o) :=
  lf_bind (lf_iter E o) fun _ => lf_bind (lf_endIter _) fun _ => lf_pure _

theorem lf_mvalues (o : Oid) : LocFree (mvalues E o) :=
  lf_bind (lf_iter E o) fun _ => lf_bind (lf_forM' (lf_getitem hE o) _) fun _ => lf_bind (lf_endIter _) fun _ => lf_pure _

theorem lf_indexNodes (n : Nat) (o : Oid) : LocFree (indexNodes E n o) := by
  induction n generalizing o with
  | zero => exact lf_raise _
  | succ n ih =>
    refine lf_bind (lf_mvalues hE o) fun _ => lf_forU (fun v => ?_) _
    cases v with
    | data d => exact lf_pure _
    | node c =>
      refine lf_getW (fun w => lf_ite ?_ (lf_pure _)) fun _ _ => rfl
      split
      · exact lf_raise _
      · exact lf_bind (lf_indexRef o) fun _ => lf_bind (lf_write fun _ _ => rfl) fun _ =>
          lf_bind (lf_modO fun _ n p => ⟨n, p, rfl⟩) fun _ => lf_ite (ih c) (lf_raise _)

theorem lf_referenceDetach (v : Val) : LocFree (referenceDetach E v) := by
  cases v with
  | data d => exact lf_raise _
  | node c =>
    refine lf_getW (fun w => lf_ite ?_ (lf_raise _)) fun _ _ => rfl
    split
    · exact lf_raise _
    · rename_i u _
      exact lf_bind (lf_modify fun w f => ⟨_, congrArg (fun x => ({ w with
          objs := x, idxs := upd w.idxs w.nidx [(some u, c)], nidx := w.nidx + 1 } : World))
          (placedObjs_upd w.objs f c { w.objs c with index := some w.nidx } _ rfl)⟩) fun _ =>
        lf_ite (lf_indexNodes hE _ c) (lf_raise _)

theorem lf_detachPipe (bs : List Bhv) (o : Oid) (k : Key) : LocFree (detachPipe E bs o k) := by
  induction bs with
  | nil => exact lf_bind (lf_getitem hE o k) fun _ => lf_bind (lf_delitem hE o k) fun _ => lf_pure _
  | cons b r ih =>
    cases b
    case reference => exact lf_bind ih fun _ => lf_bind (lf_referenceDetach hE _) fun _ => lf_pure _
    case lifecycle =>
      exact lf_bind (lf_modO fun _ n p => ⟨n, p, rfl⟩) fun _ => lf_bind ih fun _ =>
        lf_bind (lf_modO fun _ n p => ⟨n, p, rfl⟩) fun _ => lf_bind (lf_notify _) fun _ => lf_pure _
    all_goals exact ih

theorem lf_invalidatePipe (all bs : List Bhv) (o : Oid) (k : Key) : LocFree (invalidatePipe E all bs o k) := by
  induction bs generalizing k with
  | nil =>
    unfold invalidatePipe
    split
    · exact lf_ite (lf_bind (lf_mkeys E o) fun _ => lf_forU (lf_delitem hE o) _) (lf_delitem hE o k)
    · exact lf_bind (lf_storageRef E o) fun _ => lf_ite (lf_write fun _ _ => rfl) (lf_bind (lf_mkeys E o) fun _ =>
        lf_ite (lf_write fun _ _ => rfl) (lf_raise _))
    · exact lf_raise _
  | cons b r ih =>
    cases b
    case cache =>
      exact lf_ite (lf_bind (lf_cacheRef o) fun _ => lf_getW (fun _ => lf_bind (lf_write fun _ _ => rfl) fun _ => ih _)
        fun _ _ => rfl) (lf_bind (lf_cacheDrop o k) fun _ => ih k)
    all_goals exact ih k

theorem lf_attrs (o : Oid) : LocFree (attrs E o) := by
  refine lf_getW (fun w => lf_ite (lf_bind (lf_nodespacesRef o) fun r => lf_getW (fun w => ?_) fun _ _ => rfl) (lf_raise _))
    fun _ _ => rfl
  split
  · exact lf_pure _
  · exact lf_raise _
  · exact lf_bind (lf_newNode E _ _ _) fun _ => lf_bind (lf_write fun _ _ => rfl) fun _ => lf_pure _

/-- Operations that are not given a place by the names of nodes. -/
def Op.byName : Op → Bool
  | .insertBefore .. | .insertAfter .. | .insertFirst .. | .insertLast .. | .swap .. => true
  | _ => false

theorem lf_exec (op : Op) (h : op.byName = false) : LocFree (exec E op) := by
  cases op
  case new => exact lf_bind (lf_newNode E _ _ _) fun _ => lf_pure _
  case get => exact lf_bind (lf_getitem hE _ _) fun _ => lf_pure _
  case set => exact lf_bind (lf_setitem hE _ _ _) fun _ => lf_pure _
  case del => exact lf_bind (lf_delitem hE _ _) fun _ => lf_pure _
  case getD => exact lf_bind (lf_catch (lf_getitem hE _ _) fun _ => lf_pure _) fun _ => lf_pure _
  case contains =>
    exact lf_bind (lf_catch (lf_bind (lf_getitem hE _ _) fun _ => lf_pure _) fun _ => lf_pure _) fun _ => lf_pure _
  case keys => exact lf_bind (lf_mkeys E _) fun _ => lf_pure _
  case values => exact lf_bind (lf_mvalues hE _) fun _ => lf_pure _
  case items =>
    exact lf_bind (lf_bind (lf_iter E _) fun _ => lf_bind (lf_forM' (fun _ => lf_bind (lf_getitem hE _ _) fun _ => lf_pure _) _)
      fun _ => lf_bind (lf_endIter _) fun _ => lf_pure _) fun _ => lf_pure _
  case len => exact lf_bind (lf_bind (lf_mkeys E _) fun _ => lf_pure _) fun _ => lf_pure _
  case setdefault =>
    exact lf_bind (lf_catch (lf_getitem hE _ _) fun _ => lf_bind (lf_setitem hE _ _ _) fun _ => lf_pure _) fun _ => lf_pure _
  case pop o k d =>
    refine lf_bind (lf_catch (lf_bind (lf_getitem hE _ _) fun _ => lf_bind (lf_delitem hE _ _) fun _ => lf_pure _) fun _ => ?_)
      fun _ => lf_pure _
    cases d
    · exact lf_raise _
    · exact lf_pure _
  case popitem =>
    refine lf_bind (lf_bind (lf_mkeys E _) fun ks => ?_) fun _ => lf_pure _
    split
    · exact lf_raise _
    · exact lf_bind (lf_getitem hE _ _) fun _ => lf_bind (lf_delitem hE _ _) fun _ => lf_pure _
  case update => exact lf_bind (lf_forU (fun _ => lf_setitem hE _ _ _) _) fun _ => lf_pure _
  case clear => exact lf_bind (lf_bind (lf_mkeys E _) fun _ => lf_forU (lf_delitem hE _) _) fun _ => lf_pure _
  case detach o k =>
    exact lf_bind (lf_dep (m := fun w => detachPipe E (bhvsOf E w o) o k) (fun _ => lf_detachPipe hE _ o k) fun _ _ => rfl)
      fun _ => lf_pure _
  case invalidate o k =>
    exact lf_bind (lf_dep (m := fun w => invalidatePipe E (bhvsOf E w o) (bhvsOf E w o) o k)
      (fun _ => lf_invalidatePipe hE _ _ o k) fun _ _ => rfl) fun _ => lf_pure _
  case attrs => exact lf_bind (lf_attrs hE _) fun _ => lf_pure _
  case setUuid => exact lf_bind (lf_setUuidRef _ _) fun _ => lf_pure _
  case setFallbackKey => exact lf_bind (lf_modO fun _ n p => ⟨n, p, rfl⟩) fun _ => lf_pure _
  all_goals cases h

end

end Verif
