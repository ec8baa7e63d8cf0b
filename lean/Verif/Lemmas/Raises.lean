import Verif.Lemmas.DelOutcome

/-! Which exceptions a computation can raise, under an invariant it keeps. -/

namespace Verif

/-- From states satisfying `I`, `m` keeps `I` and raises only exceptions in `P`. -/
def Only (I : World → Prop) (P : Exc → Prop) {α : Type} (m : M α) : Prop :=
  ∀ w, I w → I (m w).2 ∧ ∀ e, (m w).1 = .error e → P e

section
variable {I : World → Prop} {P : Exc → Prop} {α β : Type}

theorem only_pure (a : α) : Only I P (pure a : M α) := fun _ h => ⟨h, fun _ h' => nomatch h'⟩

theorem only_raise {e : Exc} (h : P e) : Only I P (M.raise e : M α) := fun _ hi =>
  ⟨hi, fun _ h' => by injection h' with h'; exact h' ▸ h⟩

theorem only_getW : Only I P M.getW := fun _ h => ⟨h, fun _ h' => nomatch h'⟩

theorem only_getO (o : Oid) : Only I P (getO o) := fun _ h => ⟨h, fun _ h' => nomatch h'⟩

theorem only_bind {m : M α} {f : α → M β} (hm : Only I P m) (hf : ∀ a, Only I P (f a)) :
    Only I P (m >>= f) := by
  intro w hw
  have h1 := hm w hw
  simp only [M.bind_apply]
  rcases h : m w with ⟨e | a, w1⟩
  · rw [h] at h1; exact ⟨h1.1, fun e' h' => by injection h' with h'; exact h' ▸ h1.2 e rfl⟩
  · rw [h] at h1; exact hf a w1 h1.1

theorem only_getW_bind {f : World → M β} (hf : ∀ w, I w → Only I P (f w)) :
    Only I P (M.getW >>= f) := fun w hw => hf w hw w hw

theorem only_catchIf {p : Exc → Bool} {m : M α} {h : Exc → M α} (hm : Only I P m)
    (hh : ∀ e, P e → Only I P (h e)) : Only I P (M.catchIf p m h) := by
  intro w hw
  have h1 := hm w hw
  simp only [M.catchIf_apply]
  rcases hx : m w with ⟨e | a, w1⟩
  · rw [hx] at h1
    simp only
    split
    · exact hh e (h1.2 e rfl) w1 h1.1
    · exact ⟨h1.1, fun e' h' => by injection h' with h'; exact h' ▸ h1.2 e rfl⟩
  · rw [hx] at h1; exact ⟨h1.1, fun _ h' => nomatch h'⟩

theorem only_ite {c : Prop} [Decidable c] {m m' : M α} (h : c → Only I P m) (h' : ¬c → Only I P m') :
    Only I P (if c then m else m') := by
  by_cases hc : c
  · rw [if_pos hc]; exact h hc
  · rw [if_neg hc]; exact h' hc

theorem only_modify {f : World → World} (h : ∀ w, I w → I (f w)) : Only I P (M.modifyW f) :=
  fun w hw => ⟨h w hw, fun _ h' => nomatch h'⟩

theorem only_forU {f : α → M Unit} (h : ∀ a, Only I P (f a)) (l : List α) : Only I P (forU f l) := by
  induction l with
  | nil => exact only_pure _
  | cons a r ih => exact only_bind (h a) fun _ => ih

theorem only_forM' {f : α → M β} (h : ∀ a, Only I P (f a)) (l : List α) :
    Only I P (forM' f l) := by
  induction l with
  | nil => exact only_pure _
  | cons a r ih => exact only_bind (h a) fun _ => only_bind ih fun _ => only_pure _

theorem Only.mono {P' : Exc → Prop} {m : M α} (h : Only I P m) (hp : ∀ e, P e → P' e) :
    Only I P' m := fun w hw => ⟨(h w hw).1, fun e he => hp e ((h w hw).2 e he)⟩

end

/-! ### The classes of all nodes as invariant -/

/-- The class of each node. -/
def Cls (f : Oid → ClassId) (w : World) : Prop := ∀ p, (w.objs p).cls = f p

theorem Cls.clsOf {f : Oid → ClassId} {w : World} (h : Cls f w) (E : Env) (p : Oid) :
    clsOf E w p = E.cls (f p) := congrArg E.cls (h p)

theorem cls_self (w : World) : Cls (fun p => (w.objs p).cls) w := fun _ => rfl

section
variable {f : Oid → ClassId} {P : Exc → Prop}

theorem only_modO (o : Oid) (g : Obj → Obj) (hg : ∀ b, (g b).cls = b.cls) :
    Only (Cls f) P (modO o g) :=
  only_modify fun w hw p => (proj_upd Obj.cls w.objs o _ (hg _) p).trans (hw p)

theorem only_notify (e : Event) : Only (Cls f) P (notify e) := only_modify fun _ hw => hw

theorem only_cacheRef (o : Oid) : Only (Cls f) P (cacheRef o) := by
  intro w hw
  unfold cacheRef
  split
  · exact ⟨hw, fun _ h => nomatch h⟩
  · exact ⟨fun p => (proj_upd Obj.cls w.objs o _ (by rfl) p).trans (hw p), fun _ h => nomatch h⟩

theorem only_nodespacesRef (o : Oid) : Only (Cls f) P (nodespacesRef o) := by
  intro w hw
  unfold nodespacesRef
  split
  · exact ⟨hw, fun _ h => nomatch h⟩
  · exact ⟨fun p => (proj_upd Obj.cls w.objs o _ (by rfl) p).trans (hw p), fun _ h => nomatch h⟩

theorem only_cacheDrop (o : Oid) (k : Key) : Only (Cls f) P (cacheDrop o k) :=
  only_bind (only_cacheRef o) fun _ => only_modify fun _ hw => hw

theorem only_indexRef (o : Oid) (h : P .attr) : Only (Cls f) P (indexRef o) := by
  intro w hw
  unfold indexRef
  split
  · exact ⟨hw, fun _ h => nomatch h⟩
  · exact ⟨hw, fun e h' => by injection h' with h'; exact h' ▸ h⟩

theorem only_notifyModified (E : Env) (o : Oid) (h : P .attr) :
    Only (Cls f) P (notifyModified E o) := by
  refine only_bind only_getW fun w => ?_
  split
  · exact only_raise h
  · refine only_ite (fun _ => only_ite (fun _ => only_pure _) fun _ => only_notify _)
      fun _ => only_raise h

theorem only_referenceMerge (o c : Oid) (h : P .attr) : Only (Cls f) P (referenceMerge o c) :=
  only_bind (only_indexRef o h) fun _ => only_bind (only_indexRef c h) fun _ =>
    only_bind (only_modify fun _ hw => hw) fun _ => only_modO c _ fun _ => rfl

end

/-! ### Classes with a storage that exists -/

/-- A class with a concrete storage as the endpoint of item access. -/
structure Stores (cd : ClassDef) : Prop where
  kind : ∃ b, storageKind cd.bhvs = some b ∧ b ≠ .storage
  noFixed : Bhv.fixedChildren ∉ cd.bhvs

/-- A class with a concrete storage whose keys are not translated, intercepted or
made up by factories. -/
structure Concrete (cd : ClassDef) : Prop where
  kind : ∃ b, storageKind cd.bhvs = some b ∧ b ≠ .storage
  noFixed : Bhv.fixedChildren ∉ cd.bhvs
  noAlias : Bhv.alias ∉ cd.bhvs
  noFactory : Bhv.childFactory ∉ cd.bhvs

theorem Concrete.stores {cd : ClassDef} (h : Concrete cd) : Stores cd := ⟨h.kind, h.noFixed⟩

theorem Stores.any {cd : ClassDef} (h : Stores cd) : cd.bhvs.any Bhv.isStorage = true := by
  obtain ⟨b, hb, -⟩ := h.kind
  have hb' : cd.bhvs.find? Bhv.isStorage = some b := hb
  exact List.any_eq_true.2 ⟨b, List.mem_of_find?_eq_some hb', List.find?_some hb'⟩

theorem Stores.fixed {cd : ClassDef} (h : Stores cd) :
    cd.bhvs.contains .fixedChildren = false := by
  simpa using h.noFixed

theorem Stores.storageRef {E : Env} {o : Oid} {w : World} (h : Stores (clsOf E w o)) :
    ∃ r w', storageRef E o w = (.ok r, w') := by
  obtain ⟨b, hb, hs⟩ := h.kind
  unfold Verif.storageRef
  simp only [bhvsOf, hb]
  cases b <;> first | exact absurd rfl hs | skip
  all_goals (cases (w.objs o).storage <;> exact ⟨_, _, rfl⟩)

theorem Concrete.any {cd : ClassDef} (h : Concrete cd) : cd.bhvs.any Bhv.isStorage = true :=
  h.stores.any

theorem Concrete.fixed {cd : ClassDef} (h : Concrete cd) :
    cd.bhvs.contains .fixedChildren = false := h.stores.fixed

theorem Concrete.storageRef {E : Env} {o : Oid} {w : World} (h : Concrete (clsOf E w o)) :
    ∃ r w', storageRef E o w = (.ok r, w') := h.stores.storageRef

theorem iterPipe_noAlias (E : Env) (o : Oid) {bs : List Bhv} (h : Bhv.alias ∉ bs) :
    iterPipe E bs o = iterEnd E o := by
  induction bs with
  | nil => rfl
  | cons b r ih =>
    have := ih fun h' => h (List.mem_cons_of_mem _ h')
    cases b
    case alias => exact absurd List.mem_cons_self h
    all_goals exact this

theorem find_storage {l : List Bhv} (hl : Bhv.childFactory ∉ l) :
    (l.find? fun b => b.isStorage || b == .childFactory) = l.find? Bhv.isStorage := by
  induction l with
  | nil => rfl
  | cons b r ih =>
    have ih := ih fun h => hl (List.mem_cons_of_mem _ h)
    have hb : b ≠ .childFactory := fun e => hl (e ▸ List.mem_cons_self)
    have hb' : (b == Bhv.childFactory) = false := beq_eq_false_iff_ne.2 hb
    rw [List.find?_cons, List.find?_cons, ih, hb', Bool.or_false]

/-- Iterating over a concrete class is reading the keys of the storage. -/
theorem Concrete.iter {E : Env} {o : Oid} {w : World} (h : Concrete (clsOf E w o)) :
    ∃ r w', Verif.storageRef E o w = (.ok r, w') ∧
      Verif.iter E o w = (.ok ((w'.stores r).keys, none), w') := by
  obtain ⟨r, w', hr⟩ := h.storageRef
  refine ⟨r, w', hr, ?_⟩
  show iterPipe E (clsOf E w o).bhvs o w = _
  rw [iterPipe_noAlias E o h.noAlias]
  unfold iterEnd
  obtain ⟨b, hb, -⟩ := h.kind
  have hb' : (clsOf E w o).bhvs.find? Bhv.isStorage = some b := hb
  have hbs : b.isStorage = true := List.find?_some hb'
  simp only [bhvsOf, h.fixed, find_storage h.noFactory, Bool.false_eq_true, if_false, hb']
  cases b <;> first | exact absurd hbs (by decide) | simp only [hr]

theorem storageRef_cls (E : Env) (o : Oid) {f : Oid → ClassId} {w : World} (hw : Cls f w) :
    Cls f (storageRef E o w).2 := by
  unfold storageRef
  split
  · exact hw
  · exact hw
  · split
    · exact hw
    · exact fun p => (proj_upd Obj.cls w.objs o _ (by rfl) p).trans (hw p)

section
variable {f : Oid → ClassId} {P : Exc → Prop} {E : Env}

theorem only_storageRef {o : Oid} (h : Concrete (E.cls (f o))) :
    Only (Cls f) P (storageRef E o) := by
  intro w hw
  obtain ⟨r, w', hr⟩ := Concrete.storageRef (E := E) (o := o) (w := w) (by rw [hw.clsOf]; exact h)
  refine ⟨storageRef_cls E o hw, ?_⟩
  rw [hr]; exact fun _ h => nomatch h

theorem only_iter {o : Oid} (h : Concrete (E.cls (f o))) {β : Type} {g : Iter → M β}
    (hg : ∀ ks, Only (Cls f) P (g (ks, none))) : Only (Cls f) P (iter E o >>= g) := by
  intro w hw
  obtain ⟨r, w', hr, hi⟩ := Concrete.iter (E := E) (o := o) (w := w) (by rw [hw.clsOf]; exact h)
  have := storageRef_cls E o hw
  rw [hr] at this
  simp only [M.bind_apply, hi]
  exact hg _ w' this

theorem only_referenceCheck {o c : Oid} (h : Concrete (E.cls (f c))) (ha : P .attr)
    (hv : P (.value "Node with uuid already exists")) :
    Only (Cls f) P (referenceCheck E o c) := by
  refine only_iter h fun ks => ?_
  cases ks with
  | nil => exact only_pure _
  | cons a t =>
    refine only_bind (only_indexRef o ha) fun _ => only_bind (only_indexRef c ha) fun _ =>
      only_bind only_getW fun w => only_ite (fun _ => only_raise hv) fun _ => only_pure _

theorem only_setEnd {o : Oid} (h : Concrete (E.cls (f o))) (k : Key) (v : Val) :
    Only (Cls f) P (setEnd E o k v) := by
  refine only_getW_bind fun w hw => ?_
  have e : bhvsOf E w o = (E.cls (f o)).bhvs := congrArg ClassDef.bhvs (hw.clsOf E o)
  rw [e, h.fixed, h.any]
  simp only [Bool.false_eq_true, if_false, if_true]
  exact only_bind (only_storageRef h) fun _ => only_modify fun _ hw => hw

theorem only_delEnd {o : Oid} (h : Concrete (E.cls (f o))) (k : Key) (hk : P (.key (.key k))) :
    Only (Cls f) P (delEnd E o k) := by
  refine only_getW_bind fun w hw => ?_
  have e : bhvsOf E w o = (E.cls (f o)).bhvs := congrArg ClassDef.bhvs (hw.clsOf E o)
  rw [e, h.fixed, h.any]
  simp only [Bool.false_eq_true, if_false, if_true]
  exact only_bind (only_storageRef h) fun _ => only_bind only_getW fun _ =>
    only_ite (fun _ => only_modify fun _ hw => hw) fun _ => only_raise hk

end

/-- Keys that are not bytes. -/
def Key.NotBytes : Key → Prop
  | .bytes _ => False
  | _ => True

/-- Every exception of an assignment on a concrete class is one of those `Adopt`
handles. -/
theorem only_setPipe {E : Env} {f : Oid → ClassId} (bs : List Bhv) (o : Oid) (k : Key) (v : Val)
    (hc : Concrete (E.cls (f o))) (hv : ∀ c, v = .node c → Bhv.reference ∈ bs → Concrete (E.cls (f c)))
    (hk : k.NotBytes ∨ Bhv.nodespaces ∉ bs) (ha : Bhv.alias ∉ bs) :
    Only (Cls f) (fun e => e.isAKV = true) (setPipe E bs o k v) := by
  induction bs with
  | nil => exact only_setEnd hc k v
  | cons b r ih =>
    have ih := ih (fun c e h => hv c e (List.mem_cons_of_mem _ h))
      (hk.imp id fun h h' => h (List.mem_cons_of_mem _ h')) fun h => ha (List.mem_cons_of_mem _ h)
    cases b
    case alias => exact absurd List.mem_cons_self ha
    case nodespaces =>
      cases k with
      | str s =>
        refine only_ite (fun _ => ?_) fun _ => ih
        cases v with
        | node c =>
          exact only_bind (only_modO c _ fun _ => rfl) fun _ =>
            only_bind (only_modO c _ fun _ => rfl) fun _ =>
            only_bind (only_nodespacesRef o) fun _ => only_modify fun _ hw => hw
        | data d =>
          cases d <;> first
            | exact only_raise rfl
            | exact only_bind (only_nodespacesRef o) fun _ => only_modify fun _ hw => hw
      | bytes b => exact (hk.elim id fun h => absurd List.mem_cons_self h).elim
      | none => exact only_raise rfl
      | int i => exact only_raise rfl
    case nodeChildValidate =>
      exact only_bind only_getW fun w => only_ite (fun _ => only_raise rfl) fun _ =>
        only_ite (fun _ => only_raise rfl) fun _ => ih
    case adopt =>
      cases v with
      | data d => exact ih
      | node c =>
        exact only_bind (only_getO c) fun old => only_bind (only_modO c _ fun _ => rfl) fun _ =>
          only_bind (only_modO c _ fun _ => rfl) fun _ => only_catchIf ih fun e he =>
            only_bind (only_modO c _ fun _ => rfl) fun _ =>
            only_bind (only_modO c _ fun _ => rfl) fun _ => only_raise he
    case reference =>
      cases v with
      | data d => exact ih
      | node c =>
        exact only_bind (only_referenceCheck (hv c rfl List.mem_cons_self) rfl rfl) fun _ =>
          only_bind (only_referenceMerge o c rfl) fun _ => ih
    case lifecycle =>
      exact only_bind ih fun _ => only_bind (only_getO o) fun _ =>
        only_ite (fun _ => only_pure _) fun _ => only_notify _
    case attributesLifecycle => exact only_bind ih fun _ => only_notifyModified E o rfl
    case cache => exact only_bind (only_cacheDrop o k) fun _ => ih
    all_goals exact ih

end Verif
