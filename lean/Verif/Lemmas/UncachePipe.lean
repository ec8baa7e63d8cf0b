import Verif.Lemmas.Whose

/-! Item access with and without caches. -/

namespace Verif

/-! ### Where the cache stands -/

theorem belowCache_left {pre : List Bhv} (h : Bhv.cache ∈ pre) (l : List Bhv) :
    ∃ t, belowCache (pre ++ l) = t ++ l := by
  induction pre with
  | nil => cases h
  | cons b r ih =>
    by_cases hb : b = .cache
    · subst hb; exact ⟨r, rfl⟩
    · have hr : Bhv.cache ∈ r := (List.mem_cons.mp h).resolve_left fun e => hb e.symm
      obtain ⟨t, ht⟩ := ih hr
      refine ⟨t, ?_⟩
      rw [← ht]
      cases b <;> first | exact absurd rfl hb | rfl

theorem belowCache_right {pre : List Bhv} (h : Bhv.cache ∉ pre) (l : List Bhv) :
    belowCache (pre ++ .cache :: l) = l := by
  induction pre with
  | nil => rfl
  | cons b r ih =>
    have ih := ih fun hm => h (List.mem_cons_of_mem _ hm)
    have hb : b ≠ .cache := fun e => h (e ▸ List.mem_cons_self)
    cases b <;> first | exact absurd rfl hb | exact ih

section
variable {c : ClassDef} (hc : CacheSafe c)
include hc

theorem CacheSafe.tail {pre r : List Bhv} (h : c.bhvs = pre ++ .cache :: r) : belowCache c.bhvs = r := by
  rw [h]
  refine belowCache_right (fun hm => ?_) r
  have := hc.once
  rw [h, List.nodup_append] at this
  exact this.2.2 _ hm _ List.mem_cons_self rfl

/-- Behaviors that are not settled stand to the left of the cache. -/
theorem CacheSafe.left {pre r : List Bhv} {b : Bhv} (h : c.bhvs = pre ++ b :: r) (hb : b.settled = false)
    (hm : Bhv.cache ∈ c.bhvs) (hbc : b ≠ .cache) : Bhv.cache ∈ r := by
  rw [h] at hm
  rcases List.mem_append.mp hm with hp | hp
  · obtain ⟨t, ht⟩ := belowCache_left hp (b :: r)
    have := hc.below b (by rw [h, ht]; exact List.mem_append_right _ List.mem_cons_self)
    rw [hb] at this; cases this
  · exact (List.mem_cons.mp hp).resolve_left fun e => hbc e.symm

/-- A behavior to the left of the cache does not stand to its right as well. -/
theorem CacheSafe.apart {pre r : List Bhv} {b : Bhv} (h : c.bhvs = pre ++ b :: r) (hm : Bhv.cache ∈ r) :
    b ∉ belowCache c.bhvs := by
  obtain ⟨s, t, e⟩ := List.append_of_mem hm
  have h' : c.bhvs = (pre ++ b :: s) ++ .cache :: t := by rw [h, e]; simp
  rw [hc.tail h']
  intro hb
  have := hc.once
  rw [h', List.nodup_append] at this
  exact this.2.2 b (by simp) b (List.mem_cons_of_mem _ hb) rfl

end

theorem mem_of_belowCache {l : List Bhv} {b : Bhv} (h : b ∈ belowCache l) : b ∈ l := by
  induction l with
  | nil => exact h
  | cons a r ih =>
    by_cases ha : a = .cache
    · subst ha; exact List.mem_cons_of_mem _ h
    · refine List.mem_cons_of_mem _ (ih ?_)
      cases a <;> first | exact absurd rfl ha | exact h

theorem unc_settled {r : List Bhv} (h : ∀ b ∈ r, b.settled = true) : unc r = r := by
  refine List.filter_eq_self.mpr fun b hb => ?_
  have := h b hb
  cases b <;> first | rfl | cases this

/-! ### `__getitem__` below the cache -/

/-- What is left of `__getitem__` below the cache. -/
def belowGet (E : Env) (ns : Bool) (o : Oid) (k : Key) : M Val :=
  if (ns && reservedKey k) = true then do
    let r ← nodespacesRef o
    let w ← M.getW
    M.ofExcept (lookup (w.nspaces r) k)
  else getEnd E o k

theorem eqv_belowGet (E : Env) (ns : Bool) (o : Oid) (k : Key) :
    Eqv (belowGet E ns o k) (belowGet E.uncached ns o k) := by
  unfold belowGet
  exact eqv_ite (eqv_bind (eqv_nodespacesRef o) fun r => eqv_getW fun _ => eqv_ofExcept _) (eqv_getEnd E o k)

theorem mute_belowGet (E : Env) (ns : Bool) (o : Oid) (k : Key) : Pres Mute (belowGet E ns o k) := by
  unfold belowGet
  exact pres_ite mute_pre (pres_bind mute_pre (mute_nodespacesRef o) fun _ =>
    pres_bind mute_pre (pres_getW mute_pre) fun _ => pres_ofExcept mute_pre _) (mute_getEnd E o k)

theorem isStorage_any {bs : List Bhv} (h : hasStorage { bhvs := bs } = true) : bs.any Bhv.isStorage = true := by
  unfold hasStorage storageKind at h
  cases hf : bs.find? Bhv.isStorage with
  | none => simp only [hf] at h; cases h
  | some b =>
    rw [List.any_eq_true]
    exact ⟨b, List.mem_of_find?_eq_some hf, List.find?_some hf⟩

/-- A value that can be found is found without touching anything. -/
theorem belowGet_found {E : Env} {w : World} {o : Oid} {k : Key} {v : Val}
    (h : w.found E o k = some v) :
    belowGet E ((belowCache (clsOf E w o).bhvs).contains .nodespaces) o k w = (.ok v, w) := by
  unfold World.found at h
  unfold belowGet
  split at h
  · rename_i hn
    rw [if_pos hn]
    split at h
    · rename_i hs
      obtain ⟨r, hr⟩ := Option.isSome_iff_exists.mp hs
      rw [nsview_eq hr] at h
      have : nodespacesRef o w = (.ok r, w) := by simp only [nodespacesRef, hr]
      simp only [M.bind_apply, this, M.getW_apply, M.ofExcept_apply, lookup, h]
    · cases h
  · rename_i hn
    rw [if_neg hn]
    by_cases hf : (clsOf E w o).bhvs.contains .fixedChildren = true
    · rw [if_pos hf] at h
      have h1 : (bhvsOf E w o).contains .fixedChildren = true := hf
      simp only [getEnd, M.bind_apply, M.getW_apply, h1, if_true, M.ofExcept_apply, lookup, h]
    rw [if_neg hf] at h
    split at h
    · rename_i hs
      have h1 : (bhvsOf E w o).contains .fixedChildren = false := by
        simpa [bhvsOf] using hf
      have h2 : (bhvsOf E w o).any Bhv.isStorage = true := isStorage_any hs
      cases hr : (w.objs o).storage with
      | none => simp only [World.children, hr] at h; cases h
      | some r =>
        have h3 : storageRef E o w = (.ok r, w) := by
          unfold hasStorage at hs
          unfold storageRef
          show (match storageKind (clsOf E w o).bhvs with
            | none => _
            | some .storage => _
            | some _ => _) = _
          cases hk : storageKind (clsOf E w o).bhvs with
          | none => rw [hk] at hs; cases hs
          | some b =>
            rw [hk] at hs
            cases b <;> first | cases hs; done | simp only [hr]
        rw [children_eq hr] at h
        simp only [getEnd, M.bind_apply, M.getW_apply, h1, h2, if_true, h3, M.ofExcept_apply, lookup, h,
          Bool.false_eq_true, if_false]
    · cases h

/-- A value that was read can be found. -/
theorem belowGet_ok {E : Env} {w w' : World} {o : Oid} {k : Key} {v : Val}
    (h : belowGet E ((belowCache (clsOf E w o).bhvs).contains .nodespaces) o k w = (.ok v, w')) :
    w'.found E o k = some v := by
  have hm := mute_belowGet E ((belowCache (clsOf E w o).bhvs).contains .nodespaces) o k w
  rw [h] at hm
  unfold World.found
  rw [hm.clsOf]
  unfold belowGet at h
  split at h
  · rename_i hn
    rw [if_pos hn]
    obtain ⟨r, w1, hx⟩ := nodespacesRef_isOk o w
    simp only [M.bind_apply, hx, M.getW_apply, M.ofExcept_apply, lookup] at h
    have hr := nodespacesRef_ok hx
    cases hg : (w1.nspaces r).get? k with
    | none => rw [hg] at h; cases h
    | some u =>
      rw [hg] at h
      injection h with h1 h2
      injection h1 with h1
      subst h1; subst h2
      rw [nsview_eq hr, hr]; exact hg
  · rename_i hn
    rw [if_neg hn]
    by_cases hf : (clsOf E w o).bhvs.contains .fixedChildren = true
    · rw [if_pos hf]
      have h1 : (bhvsOf E w o).contains .fixedChildren = true := hf
      simp only [getEnd, M.bind_apply, M.getW_apply, h1, if_true, M.ofExcept_apply, lookup] at h
      cases hg : (w.objs o).fixed.get? k with
      | none => rw [hg] at h; cases h
      | some u =>
        rw [hg] at h
        injection h with h1 h2
        injection h1 with h1
        subst h1; subst h2
        exact hg
    rw [if_neg hf]
    have h1 : (bhvsOf E w o).contains .fixedChildren = false := by simpa [bhvsOf] using hf
    simp only [getEnd, M.bind_apply, M.getW_apply, h1, Bool.false_eq_true, if_false] at h
    split at h
    · simp only [M.bind_apply] at h
      rcases hx : storageRef E o w with ⟨e | r, w1⟩
      · rw [hx] at h; cases h
      · rw [hx] at h
        simp only [M.getW_apply, M.ofExcept_apply, lookup] at h
        have hr := storageRef_ok hx
        have hs : hasStorage (clsOf E w o) = true := by
          unfold storageRef at hx
          unfold hasStorage
          cases hk : storageKind (bhvsOf E w o) with
          | none => rw [hk] at hx; cases hx
          | some b =>
            have hk' : storageKind (clsOf E w o).bhvs = some b := hk
            rw [hk']
            cases b <;> first | rfl | (rw [hk] at hx; cases hx)
        rw [if_pos hs]
        cases hg : (w1.stores r).get? k with
        | none => rw [hg] at h; cases h
        | some u =>
          rw [hg] at h
          injection h with h1 h2
          injection h1 with h1
          subst h1; subst h2
          rw [children_eq hr]; exact hg
    · cases h

/-! ### Assignments made by `ChildFactory` -/

/-- The value is where an assignment to `o[k]` on the stack `l` puts it. -/
def Landed (E : Env) (o : Oid) (l : List Bhv) (k : Key) (v : Val) (w : World) : Prop :=
  if (l.contains .nodespaces && reservedKey k) = true then
    (w.objs o).nodespaces.isSome ∧ (w.nsview o).get? k = some v
  else (clsOf E w o).bhvs.contains .fixedChildren = false ∧ hasStorage (clsOf E w o) = true ∧
    (w.children o).get? k = some v

theorem Landed.mute {E : Env} {o : Oid} {l : List Bhv} {k : Key} {v : Val} {w w' : World} (hw : WF w)
    (hm : Mute w w') (h : Landed E o l k v w) : Landed E o l k v w' := by
  unfold Landed at h ⊢
  rw [hm.clsOf, hm.nsview hw, hm.children hw]
  split
  · rename_i hc; rw [if_pos hc] at h; exact ⟨hm.spaces o h.1, h.2⟩
  · rename_i hc; rw [if_neg hc] at h; exact h

theorem Landed.skip {E : Env} {o : Oid} {b : Bhv} {l : List Bhv} {k : Key} {v : Val} {w : World}
    (hb : b ≠ .nodespaces) (h : Landed E o l k v w) : Landed E o (b :: l) k v w := by
  unfold Landed at h ⊢
  have : (b :: l).contains .nodespaces = l.contains .nodespaces := by
    rw [List.contains_cons]
    have : (Bhv.nodespaces == b) = false := by simpa using fun e => hb e.symm
    rw [this, Bool.false_or]
  rw [this]; exact h

theorem Landed.plain {E : Env} {o : Oid} {b : Bhv} {l : List Bhv} {k : Key} {v : Val} {w : World}
    (hk : reservedKey k = false) (h : Landed E o l k v w) : Landed E o (b :: l) k v w := by
  unfold Landed at h ⊢
  rw [hk, Bool.and_false] at h ⊢; exact h

theorem landed_setEnd {E : Env} {o : Oid} {k : Key} {v : Val} {w w' : World} (hw : WF w)
    (h : setEnd E o k v w = (.ok (), w')) : Landed E o [] k v w' := by
  unfold Landed
  rw [if_neg (by simp)]
  simp only [setEnd, M.bind_apply, M.getW_apply] at h
  split at h
  · cases h
  · rename_i hf
    have hf : (clsOf E w o).bhvs.contains .fixedChildren = false := by simpa [bhvsOf] using hf
    split at h
    · simp only [M.bind_apply] at h
      have hk := keep_storageRef E o w
      rcases hx : storageRef E o w with ⟨e | r, w1⟩
      · rw [hx] at h; cases h
      · rw [hx] at h hk
        simp only [M.modifyW_apply] at h
        have hr := storageRef_ok hx
        have hs : hasStorage (clsOf E w o) = true := by
          unfold storageRef at hx
          unfold hasStorage
          cases hk : storageKind (bhvsOf E w o) with
          | none => rw [hk] at hx; cases hx
          | some b =>
            have hk' : storageKind (clsOf E w o).bhvs = some b := hk
            rw [hk']
            cases b <;> first | rfl | (rw [hk] at hx; cases hx)
        have hc : clsOf E w1 o = clsOf E w o := congrArg E.cls (hk.cls o)
        injection h with _ h2
        subst h2
        refine ⟨?_, ?_, ?_⟩
        · show (clsOf E w1 o).bhvs.contains .fixedChildren = false
          rw [hc]; exact hf
        · show hasStorage (clsOf E w1 o) = true
          rw [hc]; exact hs
        · rw [children_setStore (hk.wf hw) hr, if_pos rfl, Od.get?_set, if_pos rfl]
    · cases h

theorem landed_nsPut {E : Env} {o : Oid} {k : Key} {v : Val} {w w' : World} {l : List Bhv}
    (hk : reservedKey k = true) (h : nsPut o k v w = (.ok (), w')) : Landed E o (.nodespaces :: l) k v w' := by
  unfold Landed
  rw [if_pos (by rw [hk]; rfl)]
  obtain ⟨r, w1, hx⟩ := nodespacesRef_isOk o w
  simp only [nsPut, M.bind_apply, hx, M.modifyW_apply] at h
  have hr := nodespacesRef_ok hx
  injection h with _ h2
  subst h2
  refine ⟨?_, ?_⟩
  · show (w1.objs o).nodespaces.isSome
    rw [hr]; rfl
  · simp only [World.nsview, hr, upd_same, Od.get?_set, if_true]

/-- A successful assignment puts the value where it belongs. -/
theorem landed_setPipe {E : Env} {o : Oid} {v : Val} (l : List Bhv) (ha : Bhv.alias ∉ l) (k : Key) {w w' : World}
    (hw : WF w) (h : setPipe E l o k v w = (.ok (), w')) : Landed E o l k v w' := by
  induction l generalizing k w w' with
  | nil => exact landed_setEnd hw h
  | cons b r ih =>
    have hr : Bhv.alias ∉ r := fun hm => ha (List.mem_cons_of_mem _ hm)
    cases b
    case nodeChildValidate =>
      simp only [setPipe, validateSet, M.bind_apply, M.getW_apply] at h
      split at h
      · cases h
      · split at h
        · cases h
        · exact (ih hr k hw h).skip (by decide)
    case nodespaces =>
      have h : nodespacesSet (setPipe E r o) o k v w = (.ok (), w') := h
      cases k with
      | str s =>
        unfold nodespacesSet at h
        dsimp only at h
        split at h
        · rename_i hs
          cases v with
          | node c =>
            simp only [M.bind_apply, modO_apply] at h
            exact landed_nsPut (k := .str s) hs h
          | data d => cases d <;> first | cases h; done | exact landed_nsPut (k := .str s) hs h
        · rename_i hs
          have hs' : reserved s = false := by simpa using hs
          exact (ih hr _ hw h).plain hs'
      | _ => cases h
    case adopt =>
      have h : adoptSet (setPipe E r o) o k v w = (.ok (), w') := h
      cases v with
      | data d => exact (ih hr k hw h).skip (by decide)
      | node c =>
        simp only [adoptSet, M.bind_apply, getO_apply, M.catchIf_apply] at h
        have h1 := (keep_setName c k w).wf hw
        have h2 := (keep_setParent c (some o) _).wf h1
        rcases hx : setPipe E r o k (.node c) (modO c (fun ob => { ob with parent := some o })
          (modO c (fun ob => { ob with name := k }) w).2).2 with ⟨e | u, w2⟩
        · simp only [modO_apply] at h hx
          rw [hx] at h
          simp only at h
          split at h <;> cases h
        · simp only [modO_apply] at h
          have hx' := hx
          simp only [modO_apply] at hx'
          rw [hx'] at h
          injection h with _ h3
          subst h3
          exact (ih hr k h2 hx).skip (by decide)
    case reference =>
      have h : referenceSet E (setPipe E r o) o k v w = (.ok (), w') := h
      cases v with
      | data d => exact (ih hr k hw h).skip (by decide)
      | node c =>
        simp only [referenceSet, M.bind_apply] at h
        have h1 := (keep_referenceCheck E o c w).wf hw
        rcases hx : referenceCheck E o c w with ⟨e | u, w1⟩
        · rw [hx] at h; cases h
        · rw [hx] at h h1
          have h2 := (keep_referenceMerge o c w1).wf h1
          simp only at h
          rcases hy : referenceMerge o c w1 with ⟨e | u, w2⟩
          · rw [hy] at h; cases h
          · rw [hy] at h h2
            exact (ih hr k h2 h).skip (by decide)
    case lifecycle =>
      simp only [setPipe, lifecycleSet, M.bind_apply] at h
      rcases hx : setPipe E r o k v w with ⟨e | u, w1⟩
      · rw [hx] at h; cases h
      · rw [hx] at h
        have h1 := (keep_setPipe E r o k v w).wf hw
        rw [hx] at h1
        have hl := (ih hr k hw hx).skip (b := .lifecycle) (by decide)
        simp only [getO_apply] at h
        split at h
        · injection h with _ h; subst h; exact hl
        · have hm := mute_of_hidden (hidden_notify (.added v o k)) w1
          rw [h] at hm
          exact hl.mute h1 hm
    case attributesLifecycle =>
      simp only [setPipe, M.bind_apply] at h
      rcases hx : setPipe E r o k v w with ⟨e | u, w1⟩
      · rw [hx] at h; cases h
      · rw [hx] at h
        have h1 := (keep_setPipe E r o k v w).wf hw
        rw [hx] at h1
        have hm := mute_notifyModified E o w1
        dsimp only at h
        rw [h] at hm
        exact ((ih hr k hw hx).skip (b := .attributesLifecycle) (by decide)).mute h1 hm
    case cache =>
      simp only [setPipe, M.bind_apply] at h
      have h1 := (keep_cacheDrop o k w).wf hw
      rcases hx : cacheDrop o k w with ⟨e | u, w1⟩
      · rw [hx] at h; cases h
      · rw [hx] at h h1
        exact (ih hr k h1 h).skip (by decide)
    case alias => exact absurd List.mem_cons_self ha
    all_goals exact (ih hr k hw h).skip (by decide)

/-! ### `__getitem__` below the cache, with the factory -/

/-- A value that can be found is read without touching anything. -/
theorem getPipe_found {E : Env} (fb : Oid → Key → Exc → M Val) {w : World} {o : Oid} {k : Key} {v : Val}
    (h : w.found E o k = some v) {l : List Bhv}
    (hl : ∀ b ∈ l, b.settled = true) (hsub : ∀ b ∈ l, b ∈ belowCache (clsOf E w o).bhvs)
    (hn : ((belowCache (clsOf E w o).bhvs).contains .nodespaces && reservedKey k) = true → Bhv.nodespaces ∈ l) :
    getPipe E fb l o k w = (.ok v, w) := by
  induction l with
  | nil =>
    have := belowGet_found h
    unfold belowGet at this
    rw [if_neg fun e => nomatch hn e] at this
    exact this
  | cons b r ih =>
    have hb := hl b List.mem_cons_self
    have ih := ih (fun b hb => hl b (List.mem_cons_of_mem _ hb)) fun b hb => hsub b (List.mem_cons_of_mem _ hb)
    have next : b ≠ .nodespaces → getPipe E fb r o k w = (.ok v, w) := fun hne => ih fun e =>
      (List.mem_cons.mp (hn e)).resolve_left fun e => hne e.symm
    cases b
    case nodespaces =>
      show nodespacesGet _ o k w = _
      have hc : (belowCache (clsOf E w o).bhvs).contains .nodespaces = true :=
        List.contains_iff_mem.mpr (hsub _ List.mem_cons_self)
      rcases hk : reservedKey k with _ | _
      · have ih := ih fun e => by rw [hk, Bool.and_false] at e; cases e
        cases k with
        | str s =>
          have hs : reserved s = false := hk
          simp only [nodespacesGet, hs]; exact ih
        | _ => exact ih
      · have := belowGet_found h
        unfold belowGet at this
        rw [if_pos (by rw [hc, hk]; rfl)] at this
        cases k with
        | str s =>
          have hs : reserved s = true := hk
          simp only [nodespacesGet, hs, if_true]; exact this
        | _ => cases hk
    case childFactory =>
      show childFactoryGet E _ o k w = _
      simp only [childFactoryGet, M.catchIf_apply, next (by decide)]
    all_goals first
      | exact next (by decide)
      | cases hb

theorem getPipe_anyFb (E : Env) (fb fb' : Oid → Key → Exc → M Val) {l : List Bhv}
    (hl : ∀ b ∈ l, b.settled = true) (o : Oid) : getPipe E fb l o = getPipe E fb' l o := by
  induction l with
  | nil => rfl
  | cons b r ih =>
    have hb := hl b List.mem_cons_self
    have ih := ih fun b hb => hl b (List.mem_cons_of_mem _ hb)
    funext k
    cases b <;> first | cases hb; done | simp only [getPipe, ih]

theorem grow_getPipe_settled (E : Env) (fb : Oid → Key → Exc → M Val) {l : List Bhv}
    (hl : ∀ b ∈ l, b.settled = true) (o : Oid) (k : Key) : Pres Grow (getPipe E fb l o k) := by
  rw [getPipe_anyFb E fb (fun _ _ e => M.raise e) hl]
  exact grow_getPipe E (fun _ _ _ => pres_raise grow_pre _) l o k

/-- A value that was read can be found, if the node is still of the class it was. -/
theorem getPipe_ok {E : Env} (hE : ∀ c, CacheSafe (E.cls c)) (fb : Oid → Key → Exc → M Val) {w w' : World}
    (hw : WF w) {o : Oid} {k : Key} {v : Val}
    (hcl : clsOf E w' o = clsOf E w o) {l : List Bhv}
    (hl : ∀ b ∈ l, b.settled = true) (hsub : ∀ b ∈ l, b ∈ belowCache (clsOf E w o).bhvs)
    (hn : ((belowCache (clsOf E w o).bhvs).contains .nodespaces && reservedKey k) = true → Bhv.nodespaces ∈ l)
    (hk : Bhv.childFactory ∈ belowCache (clsOf E w o).bhvs →
      ((clsOf E w o).bhvs.contains .nodespaces && reservedKey k) = true →
      Bhv.nodespaces ∈ belowCache (clsOf E w o).bhvs)
    (h : getPipe E fb l o k w = (.ok v, w')) : w'.found E o k = some v := by
  induction l with
  | nil =>
    refine belowGet_ok (w := w) ?_
    unfold belowGet
    rw [if_neg fun e => nomatch hn e]
    exact h
  | cons b r ih =>
    have hb := hl b List.mem_cons_self
    have ih := ih (fun b hb => hl b (List.mem_cons_of_mem _ hb)) fun b hb => hsub b (List.mem_cons_of_mem _ hb)
    have next : b ≠ .nodespaces → getPipe E fb r o k w = (.ok v, w') → w'.found E o k = some v := fun hne =>
      ih fun e => (List.mem_cons.mp (hn e)).resolve_left fun e => hne e.symm
    cases b
    case nodespaces =>
      have h : nodespacesGet (getPipe E fb r o) o k w = (.ok v, w') := h
      have hc : (belowCache (clsOf E w o).bhvs).contains .nodespaces = true :=
        List.contains_iff_mem.mpr (hsub _ List.mem_cons_self)
      rcases hk : reservedKey k with _ | _
      · have ih := ih fun e => by rw [hk, Bool.and_false] at e; cases e
        cases k with
        | str s =>
          have hs : reserved s = false := hk
          simp only [nodespacesGet, hs] at h; exact ih h
        | _ => exact ih h
      · refine belowGet_ok (w := w) ?_
        unfold belowGet
        rw [if_pos (by rw [hc, hk]; rfl)]
        cases k with
        | str s =>
          have hs : reserved s = true := hk
          simp only [nodespacesGet, hs, if_true] at h; exact h
        | _ => cases hk
    case childFactory =>
      have h : childFactoryGet E (getPipe E fb r o) o k w = (.ok v, w') := h
      have hfac : Bhv.childFactory ∈ belowCache (clsOf E w o).bhvs := hsub _ List.mem_cons_self
      simp only [childFactoryGet, M.catchIf_apply] at h
      have hg := grow_getPipe_settled E fb (fun b hb => hl b (List.mem_cons_of_mem _ hb)) o k w
      rcases hx : getPipe E fb r o k w with ⟨e | u, w1⟩
      · rw [hx] at h hg
        simp only at h
        split at h
        · simp only [M.bind_apply, M.getW_apply] at h
          cases hc : (clsOf E w1 o).factories.get? k with
          | none => rw [hc] at h; cases h
          | some c =>
            rw [hc] at h
            simp only [M.bind_apply] at h
            have h2 := (grow_newNode E c .none none w1).wf (hg.wf hw)
            rcases hy : newNode E c .none none w1 with ⟨e | d, w2⟩
            · rw [hy] at h; cases h
            · rw [hy] at h h2
              simp only at h
              have h3 := keep_setitem E o k (.node d) w2
              rcases hz : setitem E o k (.node d) w2 with ⟨e | u, w3⟩
              · rw [hz] at h; cases h
              · rw [hz] at h h3
                injection h with h4 h5
                injection h4 with h4
                subst h4; subst h5
                have hc2 : clsOf E w2 o = clsOf E w o := by
                  rw [← hcl]; exact (congrArg E.cls (h3.cls o)).symm
                have hz : setPipe E (clsOf E w2 o).bhvs o k (.node d) w2 = (.ok (), w3) := hz
                rw [hc2] at hz
                have hl := landed_setPipe (clsOf E w o).bhvs ((hE (w.objs o).cls).noAlias hfac) k h2 hz
                unfold Landed at hl
                unfold World.found
                rw [hcl] at hl ⊢
                by_cases hr : ((clsOf E w o).bhvs.contains .nodespaces && reservedKey k) = true
                · rw [if_pos hr] at hl
                  have hr' : ((belowCache (clsOf E w o).bhvs).contains .nodespaces && reservedKey k) = true := by
                    rw [List.contains_iff_mem.mpr (hk hfac hr)]
                    simp only [Bool.and_eq_true] at hr
                    rw [hr.2]; rfl
                  rw [if_pos hr', if_pos hl.1]; exact hl.2
                · rw [if_neg hr] at hl
                  have hr' : ¬((belowCache (clsOf E w o).bhvs).contains .nodespaces && reservedKey k) = true := by
                    intro e
                    apply hr
                    simp only [Bool.and_eq_true] at e ⊢
                    exact ⟨List.contains_iff_mem.mpr (mem_of_belowCache (List.contains_iff_mem.mp e.1)), e.2⟩
                  rw [if_neg hr', if_neg (by rw [hl.1]; exact Bool.false_ne_true), if_pos hl.2.1]; exact hl.2.2
        · cases h
      · rw [hx] at h
        injection h with h1 h2
        injection h1 with h1
        subst h1; subst h2
        exact next (by decide) hx
    all_goals first
      | exact next (by decide) h
      | cases hb

/-- `Cache.__getitem__` does what the behaviors below it do. -/
theorem rel_cacheGet {E : Env} {next next' : Key → M Val} {w : World} (hw : Fresh E w) {o : Oid}
    (hc : Bhv.cache ∈ (clsOf E w o).bhvs) (k : Key)
    (hrel : ∀ w1, Mute w w1 → Fresh E w1 → CRelAt E (next k) (next' k) w1)
    (hhit : ∀ w1 v, Mute w w1 → w1.found E o k = some v → next k w1 = (.ok v, w1))
    (hmiss : ∀ w1 w2 v, Mute w w1 → Fresh E w1 → next k w1 = (.ok v, w2) → clsOf E w2 o = clsOf E w o →
      w2.found E o k = some v)
    (hwho : ∀ r c, Pres (WhoseR r o c) (next k)) :
    CRelAt E (cacheGet next o k) (next' k) w := by
  obtain ⟨r, w1, hx⟩ := cacheRef_isOk o w
  have hm := mute_cacheRef o w
  have hu := uncache_cacheRef o w
  rw [hx] at hm hu
  have h1 := hm.fresh (E := E) hw
  have hr := cacheRef_ok hx
  have hcl : clsOf E w1 o = clsOf E w o := hm.clsOf o
  obtain ⟨he, hf2⟩ := hrel w1 hm h1
  dsimp only at hu
  rw [hu] at he
  cases hg : (w1.caches r).get? k with
  | some v =>
    have h2 : w1.found E o k = some v := h1.coh o k v (by rw [hcl]; exact hc) (by rw [cached_eq hr]; exact hg)
    have h3 := hhit w1 v hm h2
    have h4 : cacheGet next o k w = (.ok v, w1) := by
      simp only [cacheGet, M.bind_apply, hx, M.getW_apply, hg, M.pure_apply]
    refine ⟨?_, ?_⟩
    · rw [h4, he, h3]
    · rw [h4]; exact h1
  | none =>
    have hwh := hwho r (w1.objs o).cls w1 ⟨h1.wf.cLt hr, fun p hp => by
      have := h1.wf.cInj hp hr
      subst this
      exact ⟨rfl, rfl⟩⟩
    rcases hy : next k w1 with ⟨e | v, w2⟩
    · rw [hy] at hf2 he
      have h4 : cacheGet next o k w = (.error e, w2) := by
        simp only [cacheGet, M.bind_apply, hx, M.getW_apply, hg, hy]
      exact ⟨by rw [h4, he], by rw [h4]; exact hf2⟩
    · rw [hy] at hf2 he hwh
      have h4 : cacheGet next o k w = (.ok v, { w2 with caches := upd w2.caches r ((w2.caches r).set k v) }) := by
        simp only [cacheGet, M.bind_apply, hx, M.getW_apply, hg, hy, M.modifyW_apply, M.ofExcept_apply, lookup,
          upd_same, Od.get?_set, if_true]
      refine ⟨?_, ?_⟩
      · rw [h4, he]; rfl
      · rw [h4]
        by_cases hr2 : (w2.objs o).cache = some r
        · have hc2 : clsOf E w2 o = clsOf E w o := by
            rw [← hcl]; exact congrArg E.cls (hwh.only o hr2).2
          have hv := hmiss w1 w2 v hm h1 hy hc2
          refine hf2.setCache hr2 (Od.nodup_keys_set (hf2.wf.cNd _) _ _) fun j u hj => ?_
          rw [Od.get?_set] at hj
          split at hj
          · rename_i e; subst e; injection hj with hj; subst hj; exact hv
          · refine hf2.coh o j u ?_ (by rw [cached_eq hr2]; exact hj)
            rw [hc2]; exact hc
        · refine ⟨hf2.wf.setCache r (Od.nodup_keys_set (hf2.wf.cNd _) _ _), fun p j u hcp hj => ?_⟩
          refine hf2.coh p j u hcp ?_
          have : World.cached { w2 with caches := upd w2.caches r ((w2.caches r).set k v) } p = w2.cached p := by
            unfold World.cached
            dsimp only
            cases hq : (w2.objs p).cache with
            | none => rfl
            | some q =>
              have hne : q ≠ r := fun e => by
                subst e
                have := (hwh.only p hq).1
                subst this
                exact hr2 hq
              exact upd_other _ _ hne
          rw [this] at hj; exact hj

end Verif
