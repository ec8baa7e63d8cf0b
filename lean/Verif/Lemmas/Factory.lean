import Verif.Spec.Factory
import Verif.Lemmas.Decode

/-! `ChildFactory`. -/

namespace Verif

variable {E : Env}

theorem FactoryClass.looks {c : ClassDef} (h : FactoryClass E c) {k : Key} (hk : KeyFor c k) : Looks c k :=
  ⟨h.store.stores, h.store.not (by decide), hk⟩

theorem FactoryClass.mem {c : ClassDef} (h : FactoryClass E c) : Bhv.childFactory ∈ c.bhvs :=
  List.mem_of_find?_eq_some h.first

/-- The listed keys are the keys, and asking for them changes nothing. -/
theorem iter_factory {o : Oid} {w : World} (h : FactoryClass E (clsOf E w o)) :
    iter E o w = (.ok ((clsOf E w o).factories.keys, none), w) := by
  have he : iterEnd E o w = (.ok ((clsOf E w o).factories.keys, none), w) := by
    unfold iterEnd
    simp only
    rw [show (bhvsOf E w o).contains .fixedChildren = false from h.store.stores.fixed,
      show (bhvsOf E w o).find? (fun b => b.isStorage || b == .childFactory) = _ from h.first]
    rfl
  have hp : ∀ bs : List Bhv, Bhv.alias ∉ bs → iterPipe E bs o w = iterEnd E o w := by
    intro bs
    induction bs with
    | nil => intro _; rfl
    | cons b r ih =>
      intro hb
      have := ih fun hm => hb (List.mem_cons_of_mem _ hm)
      cases b
      case alias => exact absurd List.mem_cons_self hb
      all_goals exact this
  exact (hp _ (h.store.not (by decide))).trans he

/-- What the first read of a listed key does. -/
structure Created (E : Env) (o : Oid) (k : Key) (c : ClassId) (w w' : World) : Prop where
  wf : WF w'
  lt : w.nobj < w'.nobj
  children : w'.children o = w.children o ++ [(k, .node w.nobj)]
  other : ∀ p, p < w.nobj → p ≠ o → w'.children p = w.children p
  nsattr : ∀ p, p < w.nobj → (w'.nsview p).get? attrsKey = (w.nsview p).get? attrsKey
  cls : ∀ p, p < w.nobj → (w'.objs p).cls = (w.objs p).cls
  loc : ∀ p, p < w.nobj → w'.loc p = w.loc p
  index : IxKeep w w'
  newCls : (w'.objs w.nobj).cls = c
  newEmpty : w'.children w.nobj = []
  newLoc : Bhv.adopt ∈ (clsOf E w o).bhvs → w'.loc w.nobj = (k, some o)

theorem childFactoryGet_make {next : Key → M Val} {o : Oid} {k : Key} {w w1 : World} {e : Exc}
    (hE : 0 < E.depth) (h : FactoryClass E (clsOf E w o)) (hw : WF w) (ho : o < w.nobj)
    (hi : Bhv.reference ∈ (clsOf E w o).bhvs → (w.objs o).index.isSome = true)
    (hn : next k w = (.error e, w1)) (he : e.isKey = true) (hs : Same w w1) (hw1 : WF w1)
    (hk : k ∉ (w.children o).keys) {c : ClassId} (hc : (clsOf E w o).factories.get? k = some c) :
    ∃ w', childFactoryGet E next o k w = (.ok (.node w.nobj), w') ∧ Created E o k c w w' := by
  have hcl1 : clsOf E w1 o = clsOf E w o := congrArg E.cls (hs.obj o).cls
  obtain ⟨hx, href⟩ := h.makes k c hc
  obtain ⟨w2, e2, m2⟩ := newNode_tree (E := E) (c := c) (name := .none) (parent := none) hE (.inl ⟨rfl, rfl⟩) hx hw1
  rw [hs.nobj] at e2
  have mOld := m2.old
  have mEmpty := m2.empty
  have mCls := m2.cls
  have mLt := m2.lt
  have mIdx := m2.indexed
  rw [hs.nobj] at mOld mEmpty mCls mLt mIdx
  have hcl2 : clsOf E w2 o = clsOf E w o := by rw [(mOld o ho).clsOf, hcl1]
  have hkf : KeyFor (clsOf E w o) k := h.keys k (Od.mem_keys_of_get? hc)
  obtain ⟨w3, e3, s3, l3⟩ := setitem_tree (E := E) (o := o) (k := k) (v := .node w.nobj) m2.wf
    (by rw [hcl2]; exact h.store.take) (by rw [hcl2]; exact hkf) rfl (Nat.lt_trans ho mLt)
    (fun c' hc' hr => by
      injection hc' with hc'
      subst hc'
      rw [hcl2] at hr
      refine ⟨m2.index.keep o (by rw [hs.nobj]; exact ho) (by rw [(hs.obj o).index]; exact hi hr), mLt,
        mIdx (href hr).1, ?_, mEmpty⟩
      show Concrete (E.cls (w2.objs w.nobj).cls)
      rw [mCls]
      exact ⟨(href hr).2.1, hx, fun hm => (href hr).2.2 _ hm (by decide), fun hm => (href hr).2.2 _ hm (by decide)⟩)
  refine ⟨w3, ?_, ?_⟩
  · simp only [childFactoryGet, M.catchIf_apply, hn, he, if_true, M.bind_apply, M.getW_apply, hcl1, hc, e2, e3]
    rfl
  have hch : w2.children o = w.children o := ((mOld o ho).children).trans (hs.children o)
  have hne : w.nobj ≠ o := Nat.ne_of_gt ho
  refine ⟨s3.wf, by rw [s3.nobj]; exact mLt, ?_, ?_, ?_, ?_, ?_, ?_, ?_, ?_, ?_⟩
  · rw [s3.children, if_pos rfl, hch, Ser.Od.set_append hk]
  · intro p hp hpo
    rw [s3.children, if_neg hpo, (mOld p hp).children, hs.children]
  · intro p hp
    rw [s3.nsview, (mOld p hp).attr, hs.nsview]
  · intro p hp
    rw [s3.cls, (mOld p hp).cls, (hs.obj p).cls]
  · intro p hp
    rw [s3.loc p (by simp; omega), (mOld p hp).loc, Same.loc hs]
  · refine ⟨by rw [s3.nobj]; exact Nat.le_of_lt mLt, fun p hp hpi => s3.index.keep p (Nat.lt_trans hp mLt)
      (m2.index.keep p (by rw [hs.nobj]; exact hp) (by rw [(hs.obj p).index]; exact hpi))⟩
  · rw [s3.cls]; exact mCls
  · rw [s3.children, if_neg hne]; exact mEmpty
  · intro ha
    exact l3 (by rw [hcl2]; exact ha) _ rfl

/-- The first read. -/
theorem getitem_make {o : Oid} {k : Key} {w : World} (hE : 0 < E.depth) (h : FactoryClass E (clsOf E w o))
    (hw : WF w) (ho : o < w.nobj)
    (hi : Bhv.reference ∈ (clsOf E w o).bhvs → (w.objs o).index.isSome = true)
    (hk : k ∉ (w.children o).keys) {c : ClassId} (hc : (clsOf E w o).factories.get? k = some c) :
    ∃ w', getitem E o k w = (.ok (.node w.nobj), w') ∧ Created E o k c w w' := by
  have hkf : KeyFor (clsOf E w o) k := h.keys k (Od.mem_keys_of_get? hc)
  have main : ∀ bs : List Bhv, (∀ b ∈ bs, b ∈ (clsOf E w o).bhvs) → Bhv.childFactory ∈ bs →
      ∃ w', getPipe E (fbHandler E) bs o k w = (.ok (.node w.nobj), w') ∧ Created E o k c w w' := by
    intro bs
    induction bs with
    | nil => intro _ hm; cases hm
    | cons b r ih =>
      intro hsub hm
      have hsub' : ∀ b ∈ r, b ∈ (clsOf E w o).bhvs := fun b hb => hsub b (List.mem_cons_of_mem _ hb)
      have hb := hsub b List.mem_cons_self
      have ih' : b ≠ .childFactory → _ := fun hne => ih hsub' (by
        rcases List.mem_cons.mp hm with e | e
        · exact absurd e.symm hne
        · exact e)
      cases b
      case nodespaces =>
        obtain ⟨s, rfl, hs⟩ := hkf hb
        simp only [getPipe, nodespacesGet, not_reserved hs, Bool.false_eq_true, if_false]
        exact ih' (by decide)
      case childFactory =>
        by_cases hr : Bhv.childFactory ∈ r
        · obtain ⟨w', e1, e2⟩ := ih hsub' hr
          refine ⟨w', ?_, e2⟩
          simp only [getPipe, childFactoryGet, M.catchIf_apply, e1]
        · obtain ⟨w1, e1, r1⟩ := getPipe_look (E := E) (S := (· = o)) (fbHandler E) (bs := r)
            (fun hm => h.store.not (by decide) (hsub' _ hm)) (k := k) (o := o)
            (fun hm => hkf (hsub' _ hm)) hw
            (.inr ⟨hr, fun hm => h.noFallback (hsub' _ hm)⟩) h.store.coh rfl h.store.stores
            (fun hm => hsub' _ hm)
          have hnone : (w.children o).get? k = none := (Od.get?_eq_none_iff _ _).mpr hk
          simp only [lookup, hnone] at e1
          exact childFactoryGet_make hE h hw ho hi e1 rfl r1.same r1.wf hk hc
      case fallback => exact absurd hb h.noFallback
      all_goals first
        | exact absurd hb (h.store.not (by decide))
        | exact ih' (by decide)
  exact main _ (fun _ hb => hb) h.mem

theorem Created.clsOf {o : Oid} {k : Key} {c : ClassId} {w w' : World} (h : Created E o k c w w') {p : Oid}
    (hp : p < w.nobj) : Verif.clsOf E w' p = Verif.clsOf E w p := congrArg E.cls (h.cls p hp)

/-! ### Deleting -/

/-- What deleting an item does. -/
structure Dropped (o : Oid) (k : Key) (w w' : World) : Prop where
  wf : WF w'
  children : ∀ p, w'.children p = if p = o then (w.children o).del k else w.children p
  cls : ∀ p, (w'.objs p).cls = (w.objs p).cls
  nobj : w'.nobj = w.nobj
  index : ∀ p, (w.objs p).index.isSome = true → (w'.objs p).index.isSome = true

theorem delEnd_tree {o : Oid} {k : Key} {w : World} (hw : WF w) (hc : Stores (clsOf E w o))
    (hk : k ∈ (w.children o).keys) : ∃ w', delEnd E o k w = (.ok (), w') ∧ Dropped o k w w' := by
  obtain ⟨r, w1, hr⟩ := hc.storageRef
  have hq := storageRef_quiet E o w hw
  have hro := storageRef_ok hr
  rw [hr] at hq
  have hch := hq.2.children o
  have hhas : (w1.stores r).has k = true := by
    rw [← children_eq hro, hch]
    exact (Od.has_iff _ _).mpr hk
  refine ⟨{ w1 with stores := upd w1.stores r ((w1.stores r).del k) }, ?_, ?_⟩
  · simp only [delEnd, M.bind_apply, M.getW_apply]
    rw [show (bhvsOf E w o).contains .fixedChildren = false from hc.fixed,
      show (bhvsOf E w o).any Bhv.isStorage = true from hc.any]
    simp only [Bool.false_eq_true, if_false, if_true, M.bind_apply, hr, M.getW_apply, hhas,
      M.modifyW_apply]
  · refine ⟨hq.1.setStore r (Od.nodup_keys_del (hq.1.sNd r) k), fun p => ?_, fun p => (hq.2.obj p).cls, hq.2.nobj,
      fun p hp => by rw [show _ = (w1.objs p).index from rfl, (hq.2.obj p).index]; exact hp⟩
    rw [children_setStore hq.1 hro, ← children_eq hro, hch]
    split
    · rfl
    · exact hq.2.children p

theorem Dropped.log {o : Oid} {k : Key} {w w' : World} (h : Dropped o k w w') (e : Event) :
    Dropped o k w (notify e w').2 := ⟨h.wf.setLog _, h.children, h.cls, h.nobj, h.index⟩

theorem delitem_tree {o : Oid} {k : Key} {w : World} (hw : WF w) (hc : StoreClass (clsOf E w o))
    (hr : Bhv.reference ∉ (clsOf E w o).bhvs) (hkf : KeyFor (clsOf E w o) k)
    (hk : k ∈ (w.children o).keys) : ∃ w', delitem E o k w = (.ok (), w') ∧ Dropped o k w w' := by
  have main : ∀ (bs : List Bhv) (w1 : World), WF w1 → Same w w1 → (∀ b ∈ bs, b ∈ (clsOf E w o).bhvs) →
      ∃ w', delPipe E bs o k w1 = (.ok (), w') ∧ Dropped o k w w' := by
    intro bs
    induction bs with
    | nil =>
      intro w1 hw1 hs _
      obtain ⟨w', e1, e2⟩ := delEnd_tree (E := E) (o := o) (k := k) hw1
        (by rw [show clsOf E w1 o = clsOf E w o from congrArg E.cls (hs.obj o).cls]; exact hc.stores)
        (by rw [hs.children]; exact hk)
      exact ⟨w', e1, e2.wf, fun p => by rw [e2.children, hs.children, hs.children],
        fun p => (e2.cls p).trans (hs.obj p).cls, e2.nobj.trans hs.nobj,
        fun p hp => e2.index p (by rw [(hs.obj p).index]; exact hp)⟩
    | cons b r ih =>
      intro w1 hw1 hs hsub
      have hb := hsub b List.mem_cons_self
      have hsub' : ∀ b ∈ r, b ∈ (clsOf E w o).bhvs := fun b hb => hsub b (List.mem_cons_of_mem _ hb)
      have base := ih w1 hw1 hs hsub'
      cases b
      case nodespaces =>
        obtain ⟨s, rfl, hs⟩ := hkf hb
        simp only [delPipe, nodespacesDel, not_reserved hs, Bool.false_eq_true, if_false]
        exact base
      case reference => exact absurd hb hr
      case lifecycle =>
        have hcl : clsOf E w1 o = clsOf E w o := congrArg E.cls (hs.obj o).cls
        obtain ⟨v, hv⟩ := Od.get?_of_mem_keys hk
        obtain ⟨w2, e2, r2⟩ := getitem_hit (E := E) (S := (· = o)) (o := o) (k := k) (w := w1) (v := v)
          (by rw [hcl]; exact ⟨hc.stores, hc.not (by decide), hkf⟩) hw1
          (by apply StoreClass.coh; rw [hcl]; exact hc) rfl (by rw [hs.children]; exact hv)
        obtain ⟨w3, e3, d3⟩ := ih w2 r2.wf (hs.trans r2.same) hsub'
        simp only [delPipe, lifecycleDel, M.bind_apply, e2, e3, getO_apply]
        split
        · exact ⟨w3, rfl, d3⟩
        · exact ⟨_, rfl, d3.log _⟩
      all_goals first
        | exact absurd hb (hc.not (by decide))
        | exact base
  exact main _ w hw (.refl w) fun _ hb => hb

end Verif
