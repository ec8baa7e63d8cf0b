import Verif.Spec.Shape
import Verif.Lemmas.Reference
import Verif.Lemmas.RefInv
import Verif.Lemmas.OMap

/-! Building trees: new nodes, assigning them, attributes. -/

namespace Verif

variable {E : Env}

theorem ReadClass.not {c : ClassDef} (h : ReadClass c) {b : Bhv} (hb : b ∈ [Bhv.alias, .cache,
    .childFactory, .fixedChildren, .attributesLifecycle]) : b ∉ c.bhvs := fun hm => h.plain b hm hb

theorem ReadClass.concrete {c : ClassDef} (h : ReadClass c) : Concrete c :=
  ⟨h.kind, h.not (by decide), h.not (by decide), h.not (by decide)⟩

theorem StoreClass.not {c : ClassDef} (h : StoreClass c) {b : Bhv} (hb : b ∈ [Bhv.alias, .cache,
    .fixedChildren, .attributesLifecycle]) : b ∉ c.bhvs := fun hm => h.plain b hm hb

theorem StoreClass.stores {c : ClassDef} (h : StoreClass c) : Stores c := ⟨h.kind, h.not (by decide)⟩

theorem TakeClass.not {c : ClassDef} (h : TakeClass c) {b : Bhv} (hb : b ∈ [Bhv.alias,
    .fixedChildren, .attributesLifecycle]) : b ∉ c.bhvs := fun hm => h.plain b hm hb

theorem TakeClass.stores {c : ClassDef} (h : TakeClass c) : Stores c := ⟨h.kind, h.not (by decide)⟩

theorem ReadClass.store {c : ClassDef} (h : ReadClass c) : StoreClass c :=
  ⟨h.kind, fun b hb hm => h.plain b hb (by
    simp only [List.mem_cons, List.not_mem_nil, or_false] at hm ⊢
    rcases hm with e | e | e | e <;> simp [e])⟩

theorem StoreClass.coh {w : World} {o : Oid} (h : StoreClass (clsOf E w o)) : Coh E (· = o) w := by
  intro p hp hc
  subst hp
  exact absurd hc (h.not (by decide))

theorem coh_none {w : World} : Coh E (fun _ => False) w := fun _ h => h.elim

theorem ReadClass.coh {w : World} {o : Oid} (h : ReadClass (clsOf E w o)) : Coh E (· = o) w := by
  intro p hp hc
  subst hp
  exact absurd hc (h.not (by decide))

/-! ### Frames -/

/-- A node looks the same in both heaps. -/
structure Agree (w w' : World) (p : Oid) : Prop where
  children : w'.children p = w.children p
  attr : (w'.nsview p).get? attrsKey = (w.nsview p).get? attrsKey
  cls : (w'.objs p).cls = (w.objs p).cls
  loc : w'.loc p = w.loc p

theorem Agree.refl (w : World) (p : Oid) : Agree w w p := ⟨rfl, rfl, rfl, rfl⟩

theorem Agree.trans {a b c : World} {p : Oid} (h : Agree a b p) (h' : Agree b c p) : Agree a c p :=
  ⟨h'.children.trans h.children, h'.attr.trans h.attr, h'.cls.trans h.cls, h'.loc.trans h.loc⟩

theorem Agree.clsOf {w w' : World} {p : Oid} (h : Agree w w' p) : Verif.clsOf E w' p = Verif.clsOf E w p :=
  congrArg E.cls h.cls

theorem Agree.name {w w' : World} {p : Oid} (h : Agree w w' p) : (w'.objs p).name = (w.objs p).name :=
  congrArg Prod.fst h.loc

theorem Agree.parent {w w' : World} {p : Oid} (h : Agree w w' p) : (w'.objs p).parent = (w.objs p).parent :=
  congrArg Prod.snd h.loc

theorem Agree.omap {w w' : World} {p : Oid} (h : Agree w w' p) : w'.omap p = w.omap p :=
  congrArg Od.toMap h.children

theorem HasAttrs.agree {P : Oid → Prop} {w w' : World} {o : Oid} {at' : List (Str × Data)}
    (h : HasAttrs E P w o at') (ho : Agree w w' o) (hP : ∀ p, P p → Agree w w' p) : HasAttrs E P w' o at' := by
  unfold HasAttrs at h ⊢
  rw [show (w'.nmap o).val attrsKey = (w.nmap o).val attrsKey from ho.attr]
  cases hv : (w.nmap o).val attrsKey with
  | none => rw [hv] at h; exact h
  | some v =>
    rw [hv] at h
    cases v with
    | data d => exact h
    | node a =>
      obtain ⟨h1, h2, h3⟩ := h
      exact ⟨h1, by rw [ho.clsOf, (hP a h1).cls]; exact h2, by rw [(hP a h1).omap]; exact h3⟩

mutual
/-- The shape depends on the nodes of the tree only. -/
theorem Shape.agree {P : Oid → Prop} {w w' : World} (hP : ∀ p, P p → Agree w w' p) :
    ∀ (t : NTree) (o : Oid), Shape E P w t o → Shape E P w' t o
  | .mk c name at' kids, o, h => by
    obtain ⟨h1, h2, h3, h4, h5⟩ := h
    have ho := hP o h1
    refine ⟨h1, ho.cls.trans h2, ho.name.trans h3, ?_, ?_⟩
    · split
      · rename_i hb
        rw [if_pos hb] at h4
        exact h4.agree ho hP
      · rename_i hb
        rw [if_neg hb] at h4
        exact h4
    · rw [ho.omap]
      exact Shapes.agree hP kids o _ h5
theorem Shapes.agree {P : Oid → Prop} {w w' : World} (hP : ∀ p, P p → Agree w w' p) :
    ∀ (ts : List NTree) (o : Oid) (l : List (Key × Val)), Shapes E P w o ts l → Shapes E P w' o ts l
  | [], _, _, h => h
  | t :: ts, o, _, ⟨c, r, h1, h2, h3, h4⟩ => by
    refine ⟨c, r, h1, ?_, Shape.agree hP t c h3, Shapes.agree hP ts o r h4⟩
    have : P c := by
      cases t; exact h3.1
    exact (hP c this).parent.trans h2
end

mutual
/-- Larger sets of nodes. -/
theorem Shape.mono {P Q : Oid → Prop} {w : World} (hP : ∀ p, P p → Q p) :
    ∀ (t : NTree) (o : Oid), Shape E P w t o → Shape E Q w t o
  | .mk c name at' kids, o, h => by
    obtain ⟨h1, h2, h3, h4, h5⟩ := h
    refine ⟨hP o h1, h2, h3, ?_, Shapes.mono hP kids o _ h5⟩
    split
    · rename_i hb
      rw [if_pos hb] at h4
      unfold HasAttrs at h4 ⊢
      cases hv : (w.nmap o).val attrsKey with
      | none => rw [hv] at h4; exact h4
      | some v =>
        rw [hv] at h4
        cases v with
        | data d => exact h4
        | node a => exact ⟨hP a h4.1, h4.2⟩
    · rename_i hb
      rw [if_neg hb] at h4
      exact h4
theorem Shapes.mono {P Q : Oid → Prop} {w : World} (hP : ∀ p, P p → Q p) :
    ∀ (ts : List NTree) (o : Oid) (l : List (Key × Val)), Shapes E P w o ts l → Shapes E Q w o ts l
  | [], _, _, h => h
  | t :: ts, o, _, ⟨c, r, h1, h2, h3, h4⟩ =>
    ⟨c, r, h1, h2, Shape.mono hP t c h3, Shapes.mono hP ts o r h4⟩
end

/-! ### Assignment -/

/-- Indexes of `Reference` nodes stay. -/
structure IxKeep (w w' : World) : Prop where
  le : w.nobj ≤ w'.nobj
  keep : ∀ p, p < w.nobj → (w.objs p).index.isSome = true → (w'.objs p).index.isSome = true

theorem IxKeep.refl (w : World) : IxKeep w w := ⟨Nat.le_refl _, fun _ _ h => h⟩

theorem IxKeep.trans {a b c : World} (h : IxKeep a b) (h' : IxKeep b c) : IxKeep a c :=
  ⟨Nat.le_trans h.le h'.le, fun p hp hi => h'.keep p (Nat.lt_of_lt_of_le hp h.le) (h.keep p hp hi)⟩

/-- What happens before something is stored: only the node assigned is touched. -/
structure Near (v : Val) (w w' : World) : Prop where
  wf : WF w'
  children : ∀ p, w'.children p = w.children p
  nsview : ∀ p, w'.nsview p = w.nsview p
  cls : ∀ p, (w'.objs p).cls = (w.objs p).cls
  nobj : w'.nobj = w.nobj
  loc : ∀ p, v ≠ .node p → w'.loc p = w.loc p
  index : IxKeep w w'

/-- What storing does: the same, and the children of `o` change. -/
structure Stored (o : Oid) (k : Key) (v : Val) (w w' : World) : Prop where
  wf : WF w'
  children : ∀ p, w'.children p = if p = o then (w.children o).set k v else w.children p
  nsview : ∀ p, w'.nsview p = w.nsview p
  cls : ∀ p, (w'.objs p).cls = (w.objs p).cls
  nobj : w'.nobj = w.nobj
  loc : ∀ p, v ≠ .node p → w'.loc p = w.loc p
  index : IxKeep w w'

theorem Near.refl {v : Val} {w : World} (hw : WF w) : Near v w w :=
  ⟨hw, fun _ => rfl, fun _ => rfl, fun _ => rfl, rfl, fun _ _ => rfl, ⟨Nat.le_refl _, fun _ _ h => h⟩⟩

theorem Near.trans {v : Val} {a b c : World} (h : Near v a b) (h' : Near v b c) : Near v a c :=
  ⟨h'.wf, fun p => (h'.children p).trans (h.children p), fun p => (h'.nsview p).trans (h.nsview p),
    fun p => (h'.cls p).trans (h.cls p), h'.nobj.trans h.nobj,
    fun p hp => (h'.loc p hp).trans (h.loc p hp), h.index.trans h'.index⟩

theorem Near.stored {v : Val} {o : Oid} {k : Key} {a b c : World} (h : Near v a b) (h' : Stored o k v b c) :
    Stored o k v a c :=
  ⟨h'.wf, fun p => by rw [h'.children, h.children, h.children], fun p => (h'.nsview p).trans (h.nsview p),
    fun p => (h'.cls p).trans (h.cls p), h'.nobj.trans h.nobj,
    fun p hp => (h'.loc p hp).trans (h.loc p hp), h.index.trans h'.index⟩

theorem Stored.near {v : Val} {o : Oid} {k : Key} {a b c : World} (h : Stored o k v a b) (h' : Near v b c) :
    Stored o k v a c :=
  ⟨h'.wf, fun p => (h'.children p).trans (h.children p), fun p => (h'.nsview p).trans (h.nsview p),
    fun p => (h'.cls p).trans (h.cls p), h'.nobj.trans h.nobj,
    fun p hp => (h'.loc p hp).trans (h.loc p hp), h.index.trans h'.index⟩

theorem Near.clsOf {v : Val} {w w' : World} (h : Near v w w') (p : Oid) :
    Verif.clsOf E w' p = Verif.clsOf E w p := congrArg E.cls (h.cls p)

theorem near_same {v : Val} {w w' : World} (hw : WF w') (h : Same w w') : Near v w w' :=
  ⟨hw, h.children, h.nsview, fun p => (h.obj p).cls, h.nobj, fun p _ => Same.loc h p,
    ⟨Nat.le_of_eq h.nobj.symm, fun p _ hp => by rw [(h.obj p).index]; exact hp⟩⟩

theorem near_notify {v : Val} (e : Event) {w : World} (hw : WF w) : Near v w (notify e w).2 :=
  ⟨hw.setLog _, fun _ => rfl, fun _ => rfl, fun _ => rfl, rfl, fun _ _ => rfl, ⟨Nat.le_refl _, fun _ _ h => h⟩⟩

theorem near_modO {c : Oid} (f : Obj → Obj) {w : World} (hw : WF w) (hs : ∀ b, (f b).storage = b.storage)
    (hc : ∀ b, (f b).cache = b.cache) (hn : ∀ b, (f b).nodespaces = b.nodespaces)
    (hi : ∀ b, (f b).index = b.index) (hcl : ∀ b, (f b).cls = b.cls) :
    Near (.node c) w (modO c f w).2 where
  wf := hw.modO c f (hs _) (hc _) (hn _) fun r hr => hw.iLt ((hi _).symm.trans hr)
  children := children_modO c f (hs _)
  nsview := nsview_modO c f (hn _)
  cls := proj_upd Obj.cls w.objs c _ (hcl _)
  nobj := rfl
  loc p hp := by
    have hne : p ≠ c := fun e => hp (by rw [e])
    simp [World.loc, upd, hne]
  index := ⟨Nat.le_refl _, fun p _ hp => by
    rw [show ((modO c f w).2.objs p).index = (w.objs p).index from proj_upd Obj.index w.objs c _ (hi _) p]
    exact hp⟩

theorem setEnd_tree {o : Oid} {k : Key} {v : Val} {w : World} (hw : WF w)
    (hc : Stores (clsOf E w o)) : ∃ w', setEnd E o k v w = (.ok (), w') ∧ Stored o k v w w' := by
  obtain ⟨r, w1, hr⟩ := hc.storageRef
  have hq := storageRef_quiet E o w hw
  have hro := storageRef_ok hr
  rw [hr] at hq
  refine ⟨{ w1 with stores := upd w1.stores r ((w1.stores r).set k v) }, ?_, ?_⟩
  · simp only [setEnd, M.bind_apply, M.getW_apply]
    rw [show (bhvsOf E w o).contains .fixedChildren = false from hc.fixed,
      show (bhvsOf E w o).any Bhv.isStorage = true from hc.any]
    simp only [Bool.false_eq_true, if_false, if_true, M.bind_apply, hr, M.getW_apply,
      M.modifyW_apply]
  · have hn : Near v w w1 := near_same hq.1 hq.2
    refine hn.stored ⟨hq.1.setStore r (Od.nodup_keys_set (hq.1.sNd r) k v), fun p => by
      rw [children_setStore hq.1 hro, ← children_eq hro], fun _ => rfl, fun _ => rfl, rfl, fun _ _ => rfl,
      ⟨Nat.le_refl _, fun _ _ h => h⟩⟩

/-- A node that can be given to a node with `Reference`: it has an index, and no children. -/
structure Leaf (E : Env) (w : World) (c : Oid) : Prop where
  lt : c < w.nobj
  index : (w.objs c).index.isSome = true
  concrete : Concrete (clsOf E w c)
  empty : w.children c = []

theorem referenceSteps {o c : Oid} {w : World} (hw : WF w) (hlt : o < w.nobj)
    (ho : (w.objs o).index.isSome = true) (hc : Leaf E w c) : ∃ w1 w2, referenceCheck E o c w = (.ok (), w1) ∧
      referenceMerge o c w1 = (.ok (), w2) ∧ Near (.node c) w w2 := by
  obtain ⟨w1, h1, h2⟩ := iter_open (E := E) (S := fun _ => False) hc.concrete hw coh_none
  have hn1 : Near (.node c) w w1 := near_same h2.wf h2.same
  refine ⟨w1, ?_⟩
  have e1 : referenceCheck E o c w = (.ok (), w1) := by
    simp only [referenceCheck, M.bind_apply, h1, hc.empty]
    rfl
  obtain ⟨si, hs⟩ := Option.isSome_iff_exists.mp (hn1.index.keep o hlt ho)
  obtain ⟨vi, hv⟩ := Option.isSome_iff_exists.mp (hn1.index.keep c hc.lt hc.index)
  obtain ⟨w2, h3, h4⟩ := referenceMerge_ok (o := o) (c := c) h2.wf hs hv
  have h5 := hidden_referenceMerge o c w1
  rw [h3] at h5
  refine ⟨w2, e1, h3, hn1.trans ⟨h4.wf, h4.children, h5.nsview, h4.cls, h4.nobj, fun p _ => h5.loc p,
    Nat.le_of_eq h4.nobj.symm, ?_⟩⟩
  intro p _ hp
  rw [h4.index p]
  simp only [upd]
  split
  · rfl
  · exact hp

theorem setPipe_tree {bs : List Bhv} {o : Oid} {k : Key} {v : Val} {w0 w : World} (h0 : Near v w0 w)
    (hc : TakeClass (clsOf E w0 o)) (hk : KeyFor (clsOf E w0 o) k)
    (hsub : ∀ b ∈ bs, b ∈ (clsOf E w0 o).bhvs) (hv : refuses (clsOf E w0 o) v = none)
    (ho : o < w0.nobj)
    (hr : ∀ c, v = .node c → Bhv.reference ∈ bs → (w0.objs o).index.isSome = true ∧ Leaf E w0 c) :
    ∃ w', setPipe E bs o k v w = (.ok (), w') ∧ Stored o k v w0 w' := by
  have hcl : clsOf E w o = clsOf E w0 o := h0.clsOf o
  induction bs generalizing w with
  | nil =>
    obtain ⟨w', h1, h2⟩ := setEnd_tree (E := E) (o := o) (k := k) (v := v) h0.wf
      (by rw [hcl]; exact hc.stores)
    exact ⟨w', h1, h0.stored h2⟩
  | cons b r ih =>
    have ih' : ∀ {w1}, Near v w0 w1 → _ := fun {w1} h1 => ih h1
      (fun b hb => hsub b (List.mem_cons_of_mem _ hb)) (fun c e h => hr c e (List.mem_cons_of_mem _ h))
      (h1.clsOf o)
    have hb := hsub b List.mem_cons_self
    have base := ih' h0
    cases b
    case nodeChildValidate =>
      simp only [setPipe]
      rw [validateSet_ok (by rw [hcl]; exact hb) (by rw [hcl]; exact hv)]
      exact base
    case nodespaces =>
      obtain ⟨s, rfl, hs⟩ := hk hb
      simp only [setPipe, nodespacesSet, not_reserved hs, Bool.false_eq_true, if_false]
      exact base
    case cache =>
      obtain ⟨w1, e1, -⟩ := cacheDrop_cached (o := o) (k := k) h0.wf
      have hq := cacheDrop_quiet o k w h0.wf
      rw [e1] at hq
      obtain ⟨w2, f1, f2⟩ := ih' (h0.trans (near_same hq.1 hq.2))
      exact ⟨w2, by simp only [setPipe, M.bind_apply, e1]; exact f1, f2⟩
    case adopt =>
      cases v with
      | data d => exact base
      | node c =>
        have h1 : Near (.node c) w _ := near_modO (c := c) (fun ob => { ob with name := k }) h0.wf
          (fun _ => rfl) (fun _ => rfl) (fun _ => rfl) (fun _ => rfl) (fun _ => rfl)
        have h2 := h1.trans (near_modO (c := c) (fun ob => { ob with parent := some o }) h1.wf
          (fun _ => rfl) (fun _ => rfl) (fun _ => rfl) (fun _ => rfl) (fun _ => rfl))
        obtain ⟨w2, e1, e2⟩ := ih' (h0.trans h2)
        refine ⟨w2, ?_, e2⟩
        simp only [setPipe, adoptSet, M.bind_apply, getO_apply, M.catchIf_apply]
        simp only [modO_apply] at e1 ⊢
        rw [e1]
    case reference =>
      cases v with
      | data d => exact base
      | node c =>
        obtain ⟨h1, h2⟩ := hr c rfl List.mem_cons_self
        obtain ⟨w1, w2, e1, e2, e3⟩ := referenceSteps (E := E) (o := o) (c := c) h0.wf
          (by rw [h0.nobj]; exact ho) (h0.index.keep o ho h1)
          ⟨by rw [h0.nobj]; exact h2.lt, h0.index.keep c h2.lt h2.index, by rw [h0.clsOf]; exact h2.concrete, (h0.children c).trans h2.empty⟩
        obtain ⟨w3, f1, f2⟩ := ih' (h0.trans e3)
        refine ⟨w3, ?_, f2⟩
        simp only [setPipe, referenceSet, M.bind_apply, e1, e2]
        exact f1
    case lifecycle =>
      obtain ⟨w2, e1, e2⟩ := base
      simp only [setPipe, lifecycleSet, M.bind_apply, e1, getO_apply]
      split
      · exact ⟨w2, rfl, e2⟩
      · exact ⟨_, rfl, e2.near (near_notify _ e2.wf)⟩
    all_goals first
      | exact absurd hb (hc.not (by decide))
      | exact base

theorem locName_adopt (al : Option Aliaser) {bs : List Bhv} {k : Key} (ha : Bhv.alias ∉ bs)
    (hb : Bhv.adopt ∈ bs) (hk : Bhv.nodespaces ∈ bs → ∃ s, k = .str s ∧ ¬ Reserved s) :
    locName al bs k = some k := by
  induction bs with
  | nil => cases hb
  | cons b r ih =>
    have ha' : Bhv.alias ∉ r := fun h => ha (List.mem_cons_of_mem _ h)
    have ih' := fun h => ih ha' h fun h => hk (List.mem_cons_of_mem _ h)
    cases b
    case alias => exact absurd List.mem_cons_self ha
    case nodespaces =>
      obtain ⟨s, rfl, hs⟩ := hk List.mem_cons_self
      simp only [locName, if_neg hs]
      exact ih' (by simpa using hb)
    case adopt =>
      simp only [locName]
      rcases locName_noAlias al ha' k with h | h <;> simp [h]
    all_goals exact ih' (by simpa using hb)

/-- Assigning something that is not refused. -/
theorem setitem_tree {o : Oid} {k : Key} {v : Val} {w : World} (hw : WF w)
    (hc : TakeClass (clsOf E w o)) (hk : KeyFor (clsOf E w o) k) (hv : refuses (clsOf E w o) v = none)
    (ho : o < w.nobj) (hr : ∀ c, v = .node c → Bhv.reference ∈ (clsOf E w o).bhvs →
      (w.objs o).index.isSome = true ∧ Leaf E w c) :
    ∃ w', setitem E o k v w = (.ok (), w') ∧ Stored o k v w w' ∧
      (Bhv.adopt ∈ (clsOf E w o).bhvs → ∀ c, v = .node c → w'.loc c = (k, some o)) := by
  obtain ⟨w', h1, h2⟩ := setPipe_tree (bs := (clsOf E w o).bhvs) (Near.refl (v := v) hw) hc hk
    (fun _ h => h) hv ho hr
  have h1' : setitem E o k v w = (.ok (), w') := h1
  refine ⟨w', h1', h2, fun ha c hvc => ?_⟩
  have hl := (setitem_loc E o k v hw).ok (by rw [h1'])
  rw [h1', show locName (clsOf E w o).aliaser (bhvsOf E w o) k = some k from
    locName_adopt _ (hc.not (by decide)) ha hk] at hl
  have := hl c
  rw [if_pos hvc] at this
  exact this

/-! ### New nodes -/

/-- The node has an index with nothing but itself in it. -/
def OwnIdx (o : Oid) (w : World) : Prop := ∃ r, (w.objs o).index = some r ∧ ∀ kv ∈ w.idxs r, kv.2 = o

theorem OwnIdx.isSome {o : Oid} {w : World} (h : OwnIdx o w) : (w.objs o).index.isSome = true := by
  obtain ⟨r, hr, _⟩ := h; rw [hr]; rfl

theorem referenceInit_tree (o : Oid) (w : World) : ∃ w', referenceInit o w = (.ok (), w') ∧ IxKeep w w' ∧
    OwnIdx o w' := by
  have e : referenceInit o w = (.ok (), { w with
      objs := upd w.objs o { w.objs o with index := some w.nidx, uuid := some w.nuuid }
      idxs := upd w.idxs w.nidx [(iuuid (some w.nuuid), o)]
      nuuid := w.nuuid + 1
      nidx := w.nidx + 1 }) := by
    simp only [referenceInit, M.bind_apply, M.modifyW_apply, freshUuid, setUuidRef, indexRef,
      upd_same, M.getW_apply, Od.get?, Option.any_none, Bool.false_eq_true, if_false, modO_apply,
      upd_upd]
    rfl
  refine ⟨_, e, ⟨Nat.le_refl _, fun p _ hp => ?_⟩, w.nidx, by simp, fun kv hkv => ?_⟩
  · by_cases e : p = o
    · subst e; simp
    · simp only [upd_other _ _ e]; exact hp
  · simp only [upd_same, List.mem_singleton] at hkv
    rw [hkv]

/-- A new uuid for a node that has its index to itself. -/
theorem setUuidRef_tree {o : Oid} {w : World} (u : Option Nat) (h : OwnIdx o w) :
    ∃ w', setUuidRef o u w = (.ok (), w') ∧ IxKeep w w' ∧ OwnIdx o w' := by
  obtain ⟨r, hr, hv⟩ := h
  have hnot : (((w.idxs r).get? (iuuid u)).any fun x => decide (x ≠ o)) = false := by
    cases hg : (w.idxs r).get? (iuuid u) with
    | none => rfl
    | some x => simp [show x = o from hv _ (Od.get?_some_mem hg)]
  refine ⟨{ w with
      objs := upd w.objs o { w.objs o with uuid := u }
      idxs := upd w.idxs r (((w.idxs r).del (iuuid (w.objs o).uuid)).set (iuuid u) o) },
    ?_, ⟨Nat.le_refl _, fun p _ hp => ?_⟩, r, ?_, fun kv hkv => ?_⟩
  · simp only [setUuidRef, M.bind_apply, indexRef, hr, M.getW_apply, hnot, Bool.false_eq_true, if_false,
      M.modifyW_apply, modO_apply]
  · show (upd w.objs o { w.objs o with uuid := u } p).index.isSome = true
    rw [proj_upd Obj.index w.objs o _ (by rfl)]; exact hp
  · show (upd w.objs o { w.objs o with uuid := u } o).index = some r
    rw [upd_same]; exact hr
  · simp only [upd_same] at hkv
    rcases Od.mem_of_set hkv with e | hkv
    · rw [e]
    · exact hv _ (Od.mem_of_del hkv)

theorem ixKeep_modO (o : Oid) (f : Obj → Obj) (hi : ∀ b, (f b).index = b.index) (w : World) :
    IxKeep w (modO o f w).2 := ⟨Nat.le_refl _, fun p _ hp => by
  rw [show ((modO o f w).2.objs p).index = (w.objs p).index from proj_upd Obj.index w.objs o _ (hi _) p]
  exact hp⟩

theorem initPipe_tree (mk : ClassId → M Oid) {all bs : List Bhv} {o : Oid} {name : Key}
    {parent : Option Oid} {w : World} (ho : o < w.nobj) (hx : Bhv.fixedChildren ∉ bs)
    (hall : Bhv.reference ∈ all → Bhv.reference ∈ bs ∨ OwnIdx o w) :
    ∃ w', initPipe E mk all bs o name parent w = (.ok (), w') ∧ IxKeep w w' ∧
      (Bhv.reference ∈ bs ∨ OwnIdx o w → OwnIdx o w') := by
  have own : ∀ {w : World} (f : Obj → Obj), (∀ b, (f b).index = b.index) → OwnIdx o w → OwnIdx o (modO o f w).2 := by
    intro w f hf ⟨r, hr, hv⟩
    refine ⟨r, ?_, hv⟩
    show (upd w.objs o (f (w.objs o)) o).index = some r
    rw [upd_same, hf]; exact hr
  induction bs generalizing w with
  | nil =>
    simp only [initPipe]
    split
    · refine ⟨_, rfl, (ixKeep_modO o (fun ob => { ob with name := name }) (fun _ => rfl) w).trans
        (ixKeep_modO o (fun ob => { ob with parent := parent }) (fun _ => rfl) _), fun h => ?_⟩
      exact own (fun ob => { ob with parent := parent }) (fun _ => rfl)
        (own (fun ob => { ob with name := name }) (fun _ => rfl) (h.resolve_left nofun))
    · exact ⟨w, rfl, .refl w, fun h => h.resolve_left nofun⟩
  | cons b r ih =>
    have ih' := fun {w} h => ih (w := w) h (fun h => hx (List.mem_cons_of_mem _ h))
    have skip : ∀ {b : Bhv} {w : World}, b ≠ .reference → Bhv.reference ∈ b :: r ∨ OwnIdx o w →
        Bhv.reference ∈ r ∨ OwnIdx o w := fun hb h =>
      h.imp_left fun hm => (List.mem_cons.mp hm).resolve_left fun e => hb e.symm
    have base := fun h => ih' ho (fun hm => skip (b := b) h (hall hm))
    cases b
    case reference =>
      obtain ⟨w1, e1, e2, e3⟩ := referenceInit_tree o w
      have ho1 := Nat.lt_of_lt_of_le ho e2.le
      obtain ⟨w2, f1, f2, f3⟩ := ih' ho1 fun _ => .inr e3
      simp only [initPipe, M.bind_apply, e1]
      exact ⟨w2, f1, e2.trans f2, fun _ => f3 (.inr e3)⟩
    case lifecycle =>
      obtain ⟨w', e1, e2, e3⟩ := base (by decide)
      simp only [initPipe, M.bind_apply, e1]
      exact ⟨_, rfl, ⟨e2.le, e2.keep⟩, fun h => e3 (skip (by decide) h)⟩
    case uuidAware =>
      obtain ⟨w', e1, e2, e3⟩ := base (by decide)
      simp only [initPipe, M.bind_apply, e1, freshUuid]
      split
      · rename_i hr
        have ho3 : OwnIdx o w' := e3 (skip (by decide) (hall (List.contains_iff_mem.mp hr)))
        obtain ⟨w2, f1, f2, f3⟩ := setUuidRef_tree (w := { w' with nuuid := w'.nuuid + 1 }) (some w'.nuuid) ho3
        exact ⟨w2, f1, ⟨Nat.le_trans e2.le f2.le, fun p hp hi =>
          f2.keep p (Nat.lt_of_lt_of_le hp e2.le) (e2.keep p hp hi)⟩, fun _ => f3⟩
      · have h := ixKeep_modO o (fun ob => { ob with uuid := some w'.nuuid }) (fun _ => rfl)
          { w' with nuuid := w'.nuuid + 1 }
        refine ⟨_, rfl, ⟨e2.le, fun p hp hi => h.keep p (Nat.lt_of_lt_of_le hp e2.le) (e2.keep p hp hi)⟩,
          fun hm => ?_⟩
        exact own (w := { w' with nuuid := w'.nuuid + 1 }) (fun ob => { ob with uuid := some w'.nuuid }) (fun _ => rfl)
          (e3 (skip (by decide) hm))
    case fixedChildren => exact absurd List.mem_cons_self hx
    all_goals
      obtain ⟨w', e1, e2, e3⟩ := base (by decide)
      exact ⟨w', e1, e2, fun h => e3 (skip (by decide) h)⟩

/-- What calling a class makes. -/
structure Made (E : Env) (c : ClassId) (name : Key) (parent : Option Oid) (w w' : World) : Prop where
  wf : WF w'
  lt : w.nobj < w'.nobj
  old : ∀ p, p < w.nobj → Agree w w' p
  index : IxKeep w w'
  empty : w'.children w.nobj = []
  cls : (w'.objs w.nobj).cls = c
  nsview : w'.nsview w.nobj = [(childrenKey, .node w.nobj)]
  indexed : Bhv.reference ∈ (E.cls c).bhvs → (w'.objs w.nobj).index.isSome = true
  spaces : ∀ p, p < w.nobj → (w'.objs p).nodespaces = (w.objs p).nodespaces
  loc : Bhv.defaultInit ∈ (E.cls c).bhvs → w'.loc w.nobj = (name, parent)

/-- Calling a class without `FixedChildren`. -/
theorem newNode_tree {c : ClassId} {name : Key} {parent : Option Oid} {w : World} (hE : 0 < E.depth)
    (ha : (E.cls c).Accepts name parent) (hx : Bhv.fixedChildren ∉ (E.cls c).bhvs) (hw : WF w) :
    ∃ w', newNode E c name parent w = (.ok w.nobj, w') ∧ Made E c name parent w w' := by
  have hb := newNode_builds E c name parent hw
  have hix : IxKeep w (alloc c w).2 := ⟨Nat.le_succ _, fun p hlt hp => by
    simp only [alloc, upd]
    rw [if_neg (by omega)]
    exact hp⟩
  have hok : ∃ w', newNode E c name parent w = (.ok w.nobj, w') ∧ IxKeep w w' ∧
      (Bhv.reference ∈ (E.cls c).bhvs → (w'.objs w.nobj).index.isSome = true) := by
    rw [newNode_accepts ha]
    cases hd : E.depth with
    | zero => omega
    | succ n =>
      obtain ⟨w', e1, e2, e3⟩ := initPipe_tree (E := E) (fun c' => newNodeN E n c' .none none)
        (all := (E.cls c).bhvs) (bs := (E.cls c).bhvs) (name := name) (parent := parent)
        (w := (alloc c w).2) (o := w.nobj) (Nat.lt_succ_self _) hx .inl
      refine ⟨w', ?_, hix.trans e2, fun h => (e3 (.inl h)).isSome⟩
      simp only [newNodeN, M.bind_apply]
      rw [show alloc c w = (.ok w.nobj, (alloc c w).2) from rfl]
      simp only [e1]
      rfl
  obtain ⟨w', h1, h2, h3⟩ := hok
  have hn : Bhv.fixedChildren ∈ (E.cls c).bhvs → ((E.cls c).fixed.map Prod.fst).Nodup := fun h => absurd h hx
  have hcn := newNode_constructed hw h1 hn
  have hns := newNode_nsview hn hw h1
  rw [h1] at hb
  obtain ⟨b1, b2, b3, b4⟩ := hb
  exact ⟨w', h1, b1, (b4 _ rfl).2, fun p hp => ⟨b3.children p hp, by rw [b3.nsview p hp], b3.cls p hp, b3.loc p hp⟩,
    h2, (b2 _ (Nat.le_refl _) (b4 _ rfl).2).1, hcn.2.1, hns, h3, b3.spaces, hcn.2.2.loc⟩

/-! ### Attributes -/

/-- Reading, which may create attributes that were not there. -/
structure Grows (E : Env) (w w' : World) : Prop where
  wf : WF w'
  index : IxKeep w w'
  children : ∀ p, p < w.nobj → w'.children p = w.children p
  cls : ∀ p, p < w.nobj → (w'.objs p).cls = (w.objs p).cls
  loc : ∀ p, p < w.nobj → w'.loc p = w.loc p
  attr : ∀ p, p < w.nobj → (w'.nsview p).get? attrsKey = (w.nsview p).get? attrsKey ∨
    ((w.nsview p).get? attrsKey = none ∧ ∃ a, (w'.nsview p).get? attrsKey = some (.node a) ∧
      w.nobj ≤ a ∧ a < w'.nobj ∧ w'.children a = [] ∧ (w'.objs a).cls = (clsOf E w p).attrsFactory)

theorem Grows.same {w w' : World} (hw : WF w') (h : Same w w') : Grows E w w' :=
  ⟨hw, ⟨Nat.le_of_eq h.nobj.symm, fun p _ hp => by rw [(h.obj p).index]; exact hp⟩, fun p _ => h.children p,
    fun p _ => (h.obj p).cls, fun p _ => Same.loc h p, fun p _ => .inl (by rw [h.nsview])⟩

theorem Grows.clsOf {w w' : World} (h : Grows E w w') {p : Oid} (hp : p < w.nobj) :
    Verif.clsOf E w' p = Verif.clsOf E w p := congrArg E.cls (h.cls p hp)

theorem Grows.trans {a b c : World} (h : Grows E a b) (h' : Grows E b c) : Grows E a c := by
  have hl : ∀ {p}, p < a.nobj → p < b.nobj := fun hp => Nat.lt_of_lt_of_le hp h.index.le
  refine ⟨h'.wf, h.index.trans h'.index, fun p hp => (h'.children p (hl hp)).trans (h.children p hp),
    fun p hp => (h'.cls p (hl hp)).trans (h.cls p hp), fun p hp => (h'.loc p (hl hp)).trans (h.loc p hp),
    fun p hp => ?_⟩
  rcases h.attr p hp with e | ⟨e, x, e1, e2, e3, e4, e5⟩
  · rcases h'.attr p (hl hp) with f | ⟨f, y, f1, f2, f3, f4, f5⟩
    · exact .inl (f.trans e)
    · exact .inr ⟨e ▸ f, y, f1, Nat.le_trans h.index.le f2, f3, f4, by rw [f5, h.clsOf hp]⟩
  · rcases h'.attr p (hl hp) with f | ⟨f, -⟩
    · exact .inr ⟨e, x, f.trans e1, e2, Nat.lt_of_lt_of_le e3 h'.index.le, (h'.children x e3).trans e4,
        (h'.cls x e3).trans e5⟩
    · rw [e1] at f; cases f

theorem HasAttrs.grows_from {w w' : World} {b o : Oid} {at' : List (Str × Data)} (hg : Grows E w w')
    (ho : o < w.nobj) (hb : b ≤ w.nobj) (h : HasAttrs E (fun p => b ≤ p ∧ p < w.nobj) w o at') :
    HasAttrs E (fun p => b ≤ p ∧ p < w'.nobj) w' o at' := by
  unfold HasAttrs at h ⊢
  rcases hg.attr o ho with e | ⟨e, a, e1, e2, e3, e4, e5⟩
  · rw [show (w'.nmap o).val attrsKey = (w.nmap o).val attrsKey from e]
    cases hv : (w.nmap o).val attrsKey with
    | none => rw [hv] at h; exact h
    | some v =>
      rw [hv] at h
      cases v with
      | data d => exact h
      | node a =>
        obtain ⟨⟨h0, h1⟩, h2, h3⟩ := h
        exact ⟨⟨h0, Nat.lt_of_lt_of_le h1 hg.index.le⟩, by rw [hg.clsOf ho, hg.cls a h1]; exact h2, by
          rw [show w'.omap a = w.omap a from congrArg Od.toMap (hg.children a h1)]; exact h3⟩
  · rw [show (w.nmap o).val attrsKey = none from e] at h
    rw [show (w'.nmap o).val attrsKey = some (.node a) from e1]
    refine ⟨⟨Nat.le_trans hb e2, e3⟩, by rw [hg.clsOf ho]; exact e5, ?_⟩
    rw [show w'.omap a = Od.toMap [] from congrArg Od.toMap e4]
    simp only at h
    subst h; rfl

theorem HasAttrs.mono {P Q : Oid → Prop} {w : World} {o : Oid} {at' : List (Str × Data)}
    (hP : ∀ p, P p → Q p) (h : HasAttrs E P w o at') : HasAttrs E Q w o at' := by
  unfold HasAttrs at h ⊢
  cases hv : (w.nmap o).val attrsKey with
  | none => rw [hv] at h; exact h
  | some v =>
    rw [hv] at h
    cases v with
    | data d => exact h
    | node a => exact ⟨hP a h.1, h.2⟩

theorem HasAttrs.grows {w w' : World} {o : Oid} {at' : List (Str × Data)} (hg : Grows E w w')
    (ho : o < w.nobj) (h : HasAttrs E (· < w.nobj) w o at') : HasAttrs E (· < w'.nobj) w' o at' :=
  (HasAttrs.grows_from (b := 0) hg ho (Nat.zero_le _) (h.mono fun _ hp => ⟨Nat.zero_le _, hp⟩)).mono
    fun _ hp => hp.2

mutual
/-- Reading keeps shapes. -/
theorem Shape.grows {w w' : World} (hg : Grows E w w') :
    ∀ (t : NTree) (o : Oid), Shape E (· < w.nobj) w t o → Shape E (· < w'.nobj) w' t o
  | .mk c name at' kids, o, h => by
    obtain ⟨h1, h2, h3, h4, h5⟩ := h
    refine ⟨Nat.lt_of_lt_of_le h1 hg.index.le, (hg.cls o h1).trans h2,
      (congrArg Prod.fst (hg.loc o h1)).trans h3, ?_, ?_⟩
    · split
      · rename_i hb
        rw [if_pos hb] at h4
        exact h4.grows hg h1
      · rename_i hb
        rw [if_neg hb] at h4
        exact h4
    · rw [show w'.omap o = w.omap o from congrArg Od.toMap (hg.children o h1)]
      exact Shapes.grows hg kids o _ h5
theorem Shapes.grows {w w' : World} (hg : Grows E w w') :
    ∀ (ts : List NTree) (o : Oid) (l : List (Key × Val)), Shapes E (· < w.nobj) w o ts l →
      Shapes E (· < w'.nobj) w' o ts l
  | [], _, _, h => h
  | t :: ts, o, _, ⟨c, r, h1, h2, h3, h4⟩ => by
    refine ⟨c, r, h1, ?_, Shape.grows hg t c h3, Shapes.grows hg ts o r h4⟩
    have : c < w.nobj := by
      cases t; exact h3.1
    exact (congrArg Prod.snd (hg.loc c this)).trans h2
end

/-- `node.attrs`: what is there, or a new one. -/
theorem attrs_tree {o : Oid} {w : World} (hw : WF w) (ho : o < w.nobj) (hE : 0 < E.depth)
    (ht : Bhv.attributes ∈ (clsOf E w o).bhvs) (hn : Bhv.nodespaces ∈ (clsOf E w o).bhvs)
    (hl : (E.cls (clsOf E w o).attrsFactory).Located)
    (hx : Bhv.fixedChildren ∉ (E.cls (clsOf E w o).attrsFactory).bhvs)
    (hd : ∀ d, (w.nsview o).get? attrsKey ≠ some (.data d))
    (hb : ∀ a, (w.nsview o).get? attrsKey = some (.node a) → a < w.nobj) :
    ∃ a w', attrs E o w = (.ok a, w') ∧ Grows E w w' ∧ (w'.nsview o).get? attrsKey = some (.node a) ∧
      a < w'.nobj ∧ (∀ p, p < w.nobj → p ≠ o → Agree w w' p) ∧
      ((w.nsview o).get? attrsKey = some (.node a) ∧ w'.nobj = w.nobj ∨
        (w.nsview o).get? attrsKey = none ∧ w.nobj ≤ a ∧ w'.children a = [] ∧
        (w'.objs a).cls = (clsOf E w o).attrsFactory) := by
  obtain ⟨r, w1, h1⟩ := nodespacesRef_isOk o w
  have hq := nodespacesRef_quiet o w hw
  have hr := nodespacesRef_ok h1
  rw [h1] at hq
  obtain ⟨hw1, hs⟩ := hq
  have hview : (w.nsview o).get? attrsKey = (w1.nspaces r).get? attrsKey := by
    rw [← hs.nsview o, nsview_eq hr]
  have hg1 : Grows E w w1 := .same hw1 hs
  have hag : ∀ p, Agree w w1 p := fun p => ⟨hs.children p, by rw [hs.nsview], (hs.obj p).cls, Same.loc hs p⟩
  have hc1 : clsOf E w1 o = clsOf E w o := hg1.clsOf ho
  unfold attrs
  simp only [M.bind_apply, M.getW_apply]
  rw [if_pos (show ((bhvsOf E w o).contains .attributes && (bhvsOf E w o).contains .nodespaces) = true from by
    rw [Bool.and_eq_true]; exact ⟨List.contains_iff_mem.mpr ht, List.contains_iff_mem.mpr hn⟩)]
  simp only [M.bind_apply, h1, M.getW_apply]
  cases hv : (w1.nspaces r).get? attrsKey with
  | some v =>
    cases v with
    | data d => exact absurd (hview.trans hv) (hd d)
    | node a =>
      have ha := hview.trans hv
      refine ⟨a, w1, rfl, hg1, by rw [hs.nsview]; exact ha, by rw [hs.nobj]; exact hb a ha,
        fun p _ _ => hag p, .inl ⟨ha, hs.nobj⟩⟩
  | none =>
    obtain ⟨w2, h2, hm⟩ := newNode_tree (E := E) (c := (clsOf E w1 o).attrsFactory) (name := attrsKey)
      (parent := some o) hE (by rw [hc1]; exact .inr hl) (by rw [hc1]; exact hx) hw1
    have ho1 : o < w1.nobj := by rw [hs.nobj]; exact ho
    have hr2 : (w2.objs o).nodespaces = some r := (hm.spaces o ho1).trans hr
    simp only [M.bind_apply, h2, M.modifyW_apply, M.pure_apply]
    have hw3 := hm.wf.setNspace r (Od.nodup_keys_set (hm.wf.nNd r) attrsKey (.node w1.nobj))
    have hns := nsview_setNspace hm.wf hr2 ((w2.nspaces r).set attrsKey (.node w1.nobj))
    have hget : (World.nsview { w2 with
          nspaces := upd w2.nspaces r ((w2.nspaces r).set attrsKey (.node w1.nobj)) } o).get? attrsKey =
        some (.node w1.nobj) := by
      rw [hns, if_pos rfl, Od.get?_set, if_pos rfl]
    have hle : w.nobj ≤ w1.nobj := Nat.le_of_eq hs.nobj.symm
    have hag2 : ∀ p, p < w.nobj → p ≠ o → Agree w { w2 with
          nspaces := upd w2.nspaces r ((w2.nspaces r).set attrsKey (.node w1.nobj)) } p := fun p hp hne => by
      have := (hag p).trans (hm.old p (Nat.lt_of_lt_of_le hp hle))
      exact ⟨this.children, by rw [hns, if_neg hne]; exact this.attr, this.cls, this.loc⟩
    have hcls : (w2.objs w1.nobj).cls = (clsOf E w o).attrsFactory := by rw [hm.cls, hc1]
    have hall : ∀ p, p < w.nobj → Agree w w2 p := fun p hp =>
      (hag p).trans (hm.old p (Nat.lt_of_lt_of_le hp hle))
    refine ⟨w1.nobj, _, rfl, ⟨hw3, hg1.index.trans ⟨hm.index.le, hm.index.keep⟩,
      fun p hp => (hall p hp).children, fun p hp => (hall p hp).cls, fun p hp => (hall p hp).loc,
      fun p hp => ?_⟩, hget, hm.lt, hag2, .inr ⟨hview.trans hv, hle, hm.empty, hcls⟩⟩
    by_cases e : p = o
    · subst e
      exact .inr ⟨hview.trans hv, _, hget, hle, hm.lt, hm.empty, hcls⟩
    · exact .inl (hag2 p hp e).attr

end Verif
