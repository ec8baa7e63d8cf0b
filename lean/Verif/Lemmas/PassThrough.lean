import Verif.Spec.Mapping
import Verif.Lemmas.Raises
import Verif.Lemmas.ApiGeneric

/-! Item access of classes assembled from pass-through behaviors. -/

namespace Verif

theorem find_storageKind {bs : List Bhv} (hp : ∀ b ∈ bs, b.passes = true)
    (hs : Bhv.dictStorage ∈ bs ∨ Bhv.odictStorage ∈ bs) :
    ∃ b, storageKind bs = some b ∧ b ≠ .storage := by
  have hany : ∃ b ∈ bs, b.isStorage = true := by
    rcases hs with h | h
    · exact ⟨_, h, rfl⟩
    · exact ⟨_, h, rfl⟩
  cases hf : storageKind bs with
  | none =>
    obtain ⟨b, hb, h⟩ := hany
    have := List.find?_eq_none.mp hf b hb
    exact absurd h this
  | some b =>
    refine ⟨b, rfl, fun e => ?_⟩
    have := hp b (List.mem_of_find?_eq_some hf)
    rw [e] at this; cases this

theorem MapClass.concrete {c : ClassDef} (h : MapClass c) : Concrete c where
  kind := find_storageKind h.passes h.stores
  noFixed hm := by have := h.passes _ hm; cases this
  noAlias hm := by have := h.passes _ hm; cases this
  noFactory hm := by have := h.passes _ hm; cases this

/-- In the nodes of `S` with `Cache`, cached values are children. -/
def Coh (E : Env) (S : Oid → Prop) (w : World) : Prop := ∀ p, S p →
  Bhv.cache ∈ (clsOf E w p).bhvs →
  ∀ k v, (w.cached p).get? k = some v → (w.children p).get? k = some v

/-- Children, caches and classes as they were. -/
structure Vis (w w' : World) : Prop where
  wf : WF w'
  children : ∀ p, w'.children p = w.children p
  cached : ∀ p, w'.cached p = w.cached p
  cls : ∀ p, (w'.objs p).cls = (w.objs p).cls
  nobj : w'.nobj = w.nobj

theorem Vis.refl {w : World} (h : WF w) : Vis w w :=
  ⟨h, fun _ => rfl, fun _ => rfl, fun _ => rfl, rfl⟩

theorem Vis.trans {a b c : World} (h : Vis a b) (h' : Vis b c) : Vis a c :=
  ⟨h'.wf, fun p => (h'.children p).trans (h.children p), fun p => (h'.cached p).trans (h.cached p),
   fun p => (h'.cls p).trans (h.cls p), h'.nobj.trans h.nobj⟩

theorem Hidden.vis {w w' : World} (h : Hidden w w') (hw : WF w) : Vis w w' :=
  ⟨h.wf hw, h.children, h.cached, h.cls, h.nobj⟩

theorem vis_storageRef (E : Env) (o : Oid) {w : World} (hw : WF w) :
    Vis w (storageRef E o w).2 :=
  ⟨(storageRef_quiet E o w hw).1, (storageRef_quiet E o w hw).2.children,
   storageRef_cached E o w, fun p => ((storageRef_quiet E o w hw).2.obj p).cls,
   (storageRef_quiet E o w hw).2.nobj⟩

theorem vis_cacheRef (o : Oid) {w : World} (hw : WF w) : Vis w (cacheRef o w).2 :=
  ⟨(cacheRef_quiet o w hw).1, (cacheRef_quiet o w hw).2.children,
   cacheRef_cached hw o, fun p => ((cacheRef_quiet o w hw).2.obj p).cls,
   (cacheRef_quiet o w hw).2.nobj⟩

theorem vis_nodespacesRef (o : Oid) {w : World} (hw : WF w) : Vis w (nodespacesRef o w).2 :=
  ⟨(nodespacesRef_quiet o w hw).1, (nodespacesRef_quiet o w hw).2.children,
   nodespacesRef_cached o w, fun p => ((nodespacesRef_quiet o w hw).2.obj p).cls,
   (nodespacesRef_quiet o w hw).2.nobj⟩

theorem vis_modO (o : Oid) (f : Obj → Obj) (h1 : ∀ b, (f b).cls = b.cls)
    (hs : ∀ b, (f b).storage = b.storage) (hc : ∀ b, (f b).cache = b.cache)
    (hn : ∀ b, (f b).nodespaces = b.nodespaces) (hi : ∀ b, (f b).index = b.index)
    {w : World} (hw : WF w) : Vis w (modO o f w).2 :=
  ⟨hw.modO o f (hs _) (hc _) (hn _) fun _ hr => hw.iLt ((hi _).symm.trans hr),
   children_modO o f (hs _), cached_modO o f (hc _), fun p => proj_upd Obj.cls w.objs o _ (h1 _) p, rfl⟩

theorem vis_name (c : Oid) (k : Key) {w : World} (hw : WF w) :
    Vis w (modO c (fun ob => { ob with name := k }) w).2 :=
  vis_modO c (fun ob => { ob with name := k }) (fun _ => rfl) (fun _ => rfl) (fun _ => rfl) (fun _ => rfl) (fun _ => rfl) hw

theorem vis_parent (c : Oid) (p : Option Oid) {w : World} (hw : WF w) :
    Vis w (modO c (fun ob => { ob with parent := p }) w).2 :=
  vis_modO c (fun ob => { ob with parent := p }) (fun _ => rfl) (fun _ => rfl) (fun _ => rfl) (fun _ => rfl) (fun _ => rfl) hw

theorem vis_notify (e : Event) {w : World} (hw : WF w) : Vis w (notify e w).2 :=
  (hidden_notify e w).vis hw

section
variable {E : Env} {S : Oid → Prop}

theorem Vis.clsOf {w w' : World} (h : Vis w w') (p : Oid) : clsOf E w' p = clsOf E w p :=
  congrArg E.cls (h.cls p)

theorem Coh.vis {w w' : World} (hc : Coh E S w) (h : Vis w w') : Coh E S w' := fun p => by
  rw [h.clsOf, h.cached, h.children]; exact hc p

/-- The cache reference of a node stays. -/
def CacheKeep (w w' : World) : Prop :=
  ∀ p r, (w.objs p).cache = some r → (w'.objs p).cache = some r

theorem cacheKeep_storageRef (o : Oid) (w : World) : CacheKeep w (storageRef E o w).2 := by
  unfold storageRef
  split
  · exact fun _ _ h => h
  · exact fun _ _ h => h
  · split
    · exact fun _ _ h => h
    · intro p r h; exact (proj_upd Obj.cache w.objs o _ (by rfl) p).trans h

theorem cacheKeep_cacheRef (o : Oid) (w : World) : CacheKeep w (cacheRef o w).2 := by
  unfold cacheRef
  split
  · exact fun _ _ h => h
  · rename_i hs
    intro p r h
    by_cases e : p = o
    · subst e; rw [hs] at h; cases h
    · simp only [upd, e, if_false]; exact h

/-- What a read does to the heap. -/
structure ReadOut (E : Env) (S : Oid → Prop) (w w' : World) : Prop where
  wf : WF w'
  same : Same w w'
  coh : Coh E S w'
  keep : CacheKeep w w'

theorem ReadOut.refl {w : World} (hw : WF w) (hc : Coh E S w) : ReadOut E S w w :=
  ⟨hw, Same.refl w, hc, fun _ _ h => h⟩

theorem ReadOut.trans {a b c : World} (h : ReadOut E S a b) (h' : ReadOut E S b c) : ReadOut E S a c :=
  ⟨h'.wf, h.same.trans h'.same, h'.coh, fun p r x => h'.keep p r (h.keep p r x)⟩

theorem ReadOut.clsOf {w w' : World} (h : ReadOut E S w w') (p : Oid) :
    Verif.clsOf E w' p = Verif.clsOf E w p := congrArg E.cls (h.same.obj p).cls

/-- A plain key: not taken out by `Nodespaces`. -/
def Plain (bs : List Bhv) (k : Key) : Prop := Bhv.nodespaces ∈ bs → ∃ s, k = .str s ∧ ¬ Reserved s

theorem Plain.tail {b : Bhv} {r : List Bhv} {k : Key} (h : Plain (b :: r) k) : Plain r k :=
  fun hm => h (List.mem_cons_of_mem _ hm)

theorem not_reserved {s : Str} (h : ¬ Reserved s) : reserved s = false := by
  cases hr : reserved s
  · rfl
  · exact absurd ((reserved_iff s).mp hr) h

theorem getEnd_pt {o : Oid} {k : Key} {w : World} (hw : WF w) (hcoh : Coh E S w)
    (hc : Stores (clsOf E w o)) :
    ∃ w', getEnd E o k w = (lookup (w.children o) k, w') ∧ ReadOut E S w w' := by
  obtain ⟨r, w1, hr⟩ := hc.storageRef
  have hv := vis_storageRef E o hw
  have hq := storageRef_quiet E o w hw
  have hk := cacheKeep_storageRef (E := E) o w
  rw [hr] at hv hq hk
  refine ⟨w1, ?_, hq.1, hq.2, hcoh.vis hv, hk⟩
  simp only [getEnd, M.bind_apply, M.getW_apply]
  rw [show (bhvsOf E w o).contains .fixedChildren = false from hc.fixed,
      show (bhvsOf E w o).any Bhv.isStorage = true from hc.any]
  simp only [Bool.false_eq_true, if_false, if_true, M.bind_apply, hr, M.getW_apply,
    M.ofExcept_apply, M.modifyW_apply]
  rw [← hq.2.children o, children_eq (storageRef_ok hr)]

/-- Reading an item is looking it up among the children. -/
theorem getPipe_pt (fb : Oid → Key → Exc → M Val) {bs : List Bhv}
    (hb : ∀ b ∈ bs, b.passes = true) {o : Oid} {k : Key} (hk : Plain bs k) {w : World} (hw : WF w)
    (hcoh : Coh E S w) (hS : S o) (hc : Stores (clsOf E w o))
    (hca : Bhv.cache ∈ bs → Bhv.cache ∈ (clsOf E w o).bhvs) :
    ∃ w', getPipe E fb bs o k w = (lookup (w.children o) k, w') ∧ ReadOut E S w w' := by
  induction bs generalizing w with
  | nil => exact getEnd_pt hw hcoh hc
  | cons b r ih =>
    have hb' : ∀ b ∈ r, b.passes = true := fun x h => hb x (List.mem_cons_of_mem _ h)
    have hca' : Bhv.cache ∈ r → Bhv.cache ∈ (clsOf E w o).bhvs :=
      fun h => hca (List.mem_cons_of_mem _ h)
    have hbp := hb b List.mem_cons_self
    cases b
    case nodespaces =>
      obtain ⟨s, rfl, hs⟩ := hk List.mem_cons_self
      simp only [getPipe, nodespacesGet, not_reserved hs, Bool.false_eq_true, if_false]
      exact ih hb' hk.tail hw hcoh hc hca'
    case cache =>
      obtain ⟨rc, w1, hr⟩ := cacheRef_isOk o w
      have hv := vis_cacheRef o hw
      have hq := cacheRef_quiet o w hw
      have hkp := cacheKeep_cacheRef o w
      have hro := cacheRef_ok hr
      rw [hr] at hv hq hkp
      have h1 : ReadOut E S w w1 := ⟨hq.1, hq.2, hcoh.vis hv, hkp⟩
      simp only [getPipe, cacheGet, M.bind_apply, hr, M.getW_apply]
      rw [← cached_eq hro, hv.cached]
      cases hg : (w.cached o).get? k with
      | some v =>
        refine ⟨w1, ?_, h1⟩
        have := hcoh o hS (hca List.mem_cons_self) k v hg
        simp [lookup, this]
      | none =>
        obtain ⟨w2, h2, hro2⟩ := ih (w := w1) hb' hk.tail h1.wf h1.coh (h1.clsOf o ▸ hc)
          (h1.clsOf o ▸ hca')
        rw [h1.same.children o] at h2
        simp only [M.bind_apply, h2]
        cases hl : lookup (w.children o) k with
        | error e => exact ⟨w2, rfl, h1.trans hro2⟩
        | ok v =>
          have hro2' := hro2.keep o rc hro
          have hch : (w.children o).get? k = some v := by
            unfold lookup at hl
            split at hl
            · rename_i h; injection hl with hl; exact hl ▸ h
            · cases hl
          refine ⟨_, ?_, h1.trans (hro2.trans (c := { w2 with
            caches := upd w2.caches rc ((w2.caches rc).set k v) }) ?_)⟩
          · simp [lookup, Od.get?_set]
          · have hq3 := setCache_quiet (w := w2) rc ((w2.caches rc).set k v)
              (fun h => Od.nodup_keys_set (h.cNd rc) _ _) hro2.wf
            refine ⟨hq3.1, hq3.2, ?_, fun _ _ h => h⟩
            intro p hSp hcp j x hj
            have hp := hro2.coh p hSp hcp
            rw [cached_setCache hro2.wf hro2'] at hj
            show (w2.children p).get? j = some x
            by_cases e : p = o
            · subst e
              simp only [if_true] at hj
              rw [← cached_eq hro2', Od.get?_set] at hj
              split at hj
              · rename_i e2; injection hj with hj; subst hj; subst e2
                rw [(h1.trans hro2).same.children]; exact hch
              · exact hp j x hj
            · simp only [e, if_false] at hj; exact hp j x hj
    case alias => cases hbp
    case childFactory => cases hbp
    case fallback => cases hbp
    all_goals exact ih hb' hk.tail hw hcoh hc hca'

/-- The state of a write in progress: the caches agree with the children, and the
key is no longer cached once the remaining pipeline has no cache. -/
structure Mid (E : Env) (S : Oid → Prop) (bs : List Bhv) (o : Oid) (k : Key) (w : World) : Prop where
  wf : WF w
  coh : Coh E S w
  con : Stores (clsOf E w o)
  mem : S o
  drop : Bhv.cache ∈ (clsOf E w o).bhvs → Bhv.cache ∈ bs ∨ (w.cached o).get? k = none

theorem Mid.vis {bs : List Bhv} {o : Oid} {k : Key} {w w' : World} (h : Mid E S bs o k w)
    (hv : Vis w w') : Mid E S bs o k w' :=
  ⟨hv.wf, h.coh.vis hv, hv.clsOf o ▸ h.con, h.mem, by rw [hv.cached, hv.clsOf]; exact h.drop⟩

theorem Mid.tail {b : Bhv} {bs : List Bhv} {o : Oid} {k : Key} {w : World}
    (h : Mid E S (b :: bs) o k w) (hb : b ≠ .cache) : Mid E S bs o k w :=
  ⟨h.wf, h.coh, h.con, h.mem, fun hf => (h.drop hf).imp (fun h => by
    rcases List.mem_cons.mp h with h | h
    · exact absurd h.symm hb
    · exact h) id⟩

theorem cacheDrop_cached {o : Oid} {k : Key} {w : World} (hw : WF w) :
    ∃ w', cacheDrop o k w = (.ok (), w') ∧ WF w' ∧ (∀ p, w'.children p = w.children p) ∧
      (∀ p, (w'.objs p).cls = (w.objs p).cls) ∧ w'.nobj = w.nobj ∧
      ∀ p, w'.cached p = if p = o then (w.cached o).del k else w.cached p := by
  obtain ⟨r, w1, hr⟩ := cacheRef_isOk o w
  have hv := vis_cacheRef o hw
  have hro := cacheRef_ok hr
  rw [hr] at hv
  refine ⟨{ w1 with caches := upd w1.caches r ((w1.caches r).del k) }, ?_, ?_, ?_, ?_, hv.nobj, ?_⟩
  · simp only [cacheDrop, M.bind_apply, hr, M.modifyW_apply]
  · exact hv.wf.setCache r (Od.nodup_keys_del (hv.wf.cNd r) k)
  · exact hv.children
  · exact hv.cls
  · intro p
    rw [cached_setCache hv.wf hro, ← hv.cached o, cached_eq hro, hv.cached p]

theorem Mid.cacheDrop {bs : List Bhv} {o : Oid} {k : Key} {w : World}
    (h : Mid E S (.cache :: bs) o k w) :
    ∃ w', cacheDrop o k w = (.ok (), w') ∧ Mid E S bs o k w' ∧
      (∀ p, w'.children p = w.children p) ∧ (∀ p, (w'.objs p).cls = (w.objs p).cls) ∧
      w'.nobj = w.nobj := by
  obtain ⟨w', hx, hw', hch, hcls, hno, hca⟩ := cacheDrop_cached (o := o) (k := k) h.wf
  have hco : ∀ p, clsOf E w' p = clsOf E w p := fun p => congrArg E.cls (hcls p)
  refine ⟨w', hx, ⟨hw', fun p hSp hcp j x hj => ?_, hco o ▸ h.con, h.mem, fun _ => .inr ?_⟩, hch, hcls,
    hno⟩
  · rw [hco] at hcp
    rw [hca] at hj
    rw [hch]
    have hp := h.coh p hSp hcp
    by_cases e : p = o
    · subst e
      simp only [if_true] at hj
      rw [Od.get?_del (h.wf.cached_nodup p)] at hj
      split at hj
      · cases hj
      · exact hp j x hj
    · simp only [e, if_false] at hj; exact hp j x hj
  · rw [hca, if_pos rfl, Od.get?_del (h.wf.cached_nodup o), if_pos rfl]

theorem Mid.drop_nil {o : Oid} {k : Key} {w : World} (h : Mid E S [] o k w)
    (hc : Bhv.cache ∈ (clsOf E w o).bhvs) : (w.cached o).get? k = none := by
  rcases h.drop hc with h | h
  · cases h
  · exact h

theorem setEnd_pt {o : Oid} {k : Key} {v : Val} {w : World} (h : Mid E S [] o k w) :
    ∃ w', setEnd E o k v w = (.ok (), w') ∧ Coh E S w' := by
  obtain ⟨r, w1, hr⟩ := h.con.storageRef
  have hv := vis_storageRef E o h.wf
  have hro := storageRef_ok hr
  rw [hr] at hv
  refine ⟨{ w1 with stores := upd w1.stores r ((w1.stores r).set k v) }, ?_, ?_⟩
  · simp only [setEnd, M.bind_apply, M.getW_apply]
    rw [show (bhvsOf E w o).contains .fixedChildren = false from h.con.fixed,
      show (bhvsOf E w o).any Bhv.isStorage = true from h.con.any]
    simp only [Bool.false_eq_true, if_false, if_true, M.bind_apply, hr, M.getW_apply,
      M.ofExcept_apply, M.modifyW_apply]
  · intro p hSp hcp j x hj
    have hp := (h.coh.vis hv) p hSp hcp
    rw [children_setStore hv.wf hro]
    by_cases e : p = o
    · subst e
      simp only [if_true]
      have hj' : (w1.cached p).get? j = some x := hj
      have hne : j ≠ k := by
        intro e; subst e
        rw [hv.cached, h.drop_nil (hv.clsOf p ▸ hcp)] at hj'; cases hj'
      rw [Od.get?_set, if_neg hne, ← children_eq hro]
      exact hp j x hj'
    · simp only [e, if_false]; exact hp j x hj

/-- The outcome of an assignment. -/
def setRes (c : ClassDef) (bs : List Bhv) : Val → Except Exc Unit
  | .node _ => .ok ()
  | .data d =>
    if Bhv.nodeChildValidate ∈ bs ∧ c.allowNonNode = false then
      .error (.value (match d with
        | .cls _ => "It isn't allowed to use classes as values."
        | _ => "Non-node childs are not allowed."))
    else .ok ()

theorem setRes_cons {c : ClassDef} {b : Bhv} {r : List Bhv} (v : Val)
    (hb : b ≠ .nodeChildValidate) : setRes c (b :: r) v = setRes c r v := by
  cases v with
  | node _ => rfl
  | data d =>
    have : Bhv.nodeChildValidate ∈ b :: r ↔ Bhv.nodeChildValidate ∈ r := by
      simp [hb.symm]
    simp [setRes, this]

/-- Assigning an item succeeds, or is refused by `NodeChildValidate`. -/
theorem setPipe_pt {bs : List Bhv} (hb : ∀ b ∈ bs, b.passes = true) {o : Oid} {k : Key} {v : Val}
    (hk : Plain bs k) {w : World} (h : Mid E S bs o k w) :
    ∃ w', setPipe E bs o k v w = (setRes (clsOf E w o) bs v, w') ∧ Coh E S w' ∧ WF w' := by
  suffices H : ∃ w', setPipe E bs o k v w = (setRes (clsOf E w o) bs v, w') ∧ Coh E S w' by
    obtain ⟨w', h1, h2⟩ := H
    have := (keep_setPipe E bs o k v w).wf h.wf
    rw [h1] at this
    exact ⟨w', h1, h2, this⟩
  induction bs generalizing w with
  | nil =>
    obtain ⟨w', h1, h2⟩ := setEnd_pt (v := v) h
    refine ⟨w', ?_, h2⟩
    rw [setPipe, h1]
    cases v <;> simp [setRes]
  | cons b r ih =>
    have hb' : ∀ b ∈ r, b.passes = true := fun x h => hb x (List.mem_cons_of_mem _ h)
    have hbp := hb b List.mem_cons_self
    have ih' := fun {w : World} (h : Mid E S r o k w) => ih hb' hk.tail h
    cases b
    case nodeChildValidate =>
      simp only [setPipe, validateSet, M.bind_apply, M.getW_apply]
      obtain ⟨w', h1, h2⟩ := ih' (h.tail (by simp))
      cases v with
      | node c =>
        refine ⟨w', ?_, h2⟩
        simp only [Val.isClass, Val.isNode, Bool.and_false, Bool.not_true, Bool.false_eq_true,
          if_false, h1, setRes]
      | data d =>
        cases ha : (clsOf E w o).allowNonNode
        · refine ⟨w, ?_, h.coh⟩
          cases d <;> simp [Val.isClass, Val.isNode, setRes, ha]
        · refine ⟨w', ?_, h2⟩
          simp only [Bool.not_true, Bool.false_and, Bool.false_eq_true, if_false, h1]
          simp [setRes, ha]
    case nodespaces =>
      obtain ⟨s, rfl, hs⟩ := hk List.mem_cons_self
      simp only [setPipe, nodespacesSet, not_reserved hs, Bool.false_eq_true, if_false]
      rw [setRes_cons v (by simp)]
      exact ih' (h.tail (by simp))
    case adopt =>
      rw [setRes_cons v (by simp)]
      cases v with
      | data d => exact ih' (h.tail (by simp))
      | node c =>
        simp only [setPipe, adoptSet, M.bind_apply, getO_apply, modO_apply, M.catchIf_apply]
        have v1 := vis_name c k h.wf
        have v2 := vis_parent c (some o) v1.wf
        have hm := (h.tail (by simp)).vis (v1.trans v2)
        simp only [modO_apply] at hm
        obtain ⟨w', h1, h2⟩ := ih' hm
        rw [h1]
        exact ⟨w', rfl, h2⟩
    case lifecycle =>
      rw [setRes_cons v (by simp)]
      obtain ⟨w', h1, h2⟩ := ih' (h.tail (by simp))
      have hw' : WF w' := by
        have := (keep_setPipe E r o k v w).wf h.wf
        rwa [h1] at this
      simp only [setPipe, lifecycleSet, M.bind_apply, h1]
      cases hs : setRes (clsOf E w o) r v with
      | error e => exact ⟨w', rfl, h2⟩
      | ok u =>
        simp only [getO_apply]
        split
        · exact ⟨w', rfl, h2⟩
        · exact ⟨_, rfl, h2.vis (vis_notify _ hw')⟩
    case cache =>
      rw [setRes_cons v (by simp)]
      obtain ⟨w1, hx, hm, hch, hcls, hno⟩ := h.cacheDrop
      obtain ⟨w', h1, h2⟩ := ih' hm
      refine ⟨w', ?_, h2⟩
      simp only [setPipe, M.bind_apply, hx, h1]
      rw [show clsOf E w1 o = clsOf E w o from congrArg E.cls (hcls o)]
    case alias => cases hbp
    case reference => cases hbp
    case attributesLifecycle => cases hbp
    all_goals
      rw [setRes_cons v (by simp)]
      exact ih' (h.tail (by simp))

/-- What a deletion does to the heap. -/
structure DelP (E : Env) (S : Oid → Prop) (o : Oid) (k : Key) (w w' : World) : Prop where
  wf : WF w'
  coh : Coh E S w'
  cls : ∀ p, (w'.objs p).cls = (w.objs p).cls
  nobj : w'.nobj = w.nobj
  children : ∀ p, w'.children p =
    if p = o ∧ k ∈ (w.children o).keys then (w.children o).del k else w.children p

theorem DelP.pre {o : Oid} {k : Key} {w w1 w' : World} (h : DelP E S o k w1 w')
    (hch : ∀ p, w1.children p = w.children p) (hcls : ∀ p, (w1.objs p).cls = (w.objs p).cls)
    (hno : w1.nobj = w.nobj) : DelP E S o k w w' :=
  ⟨h.wf, h.coh, fun p => (h.cls p).trans (hcls p), h.nobj.trans hno, fun p => by
    rw [h.children, hch, hch]⟩

theorem DelP.post {o : Oid} {k : Key} {w w1 w' : World} (h : DelP E S o k w w1) (hv : Vis w1 w') :
    DelP E S o k w w' :=
  ⟨hv.wf, h.coh.vis hv, fun p => (hv.cls p).trans (h.cls p), hv.nobj.trans h.nobj, fun p => by
    rw [hv.children, h.children]⟩

theorem DelP.miss {o : Oid} {k : Key} {w w' : World} (hk : k ∉ (w.children o).keys)
    (hv : Vis w w') (hc : Coh E S w') : DelP E S o k w w' :=
  ⟨hv.wf, hc, hv.cls, hv.nobj, fun p => by rw [hv.children, if_neg fun h => hk h.2]⟩

theorem delEnd_pt {o : Oid} {k : Key} {w : World} (h : Mid E S [] o k w) :
    ∃ w', delEnd E o k w =
        (if k ∈ (w.children o).keys then .ok () else .error (.key (.key k)), w') ∧
      DelP E S o k w w' := by
  obtain ⟨r, w1, hr⟩ := h.con.storageRef
  have hv := vis_storageRef E o h.wf
  have hro := storageRef_ok hr
  rw [hr] at hv
  simp only [delEnd, M.bind_apply, M.getW_apply]
  rw [show (bhvsOf E w o).contains .fixedChildren = false from h.con.fixed,
      show (bhvsOf E w o).any Bhv.isStorage = true from h.con.any]
  simp only [Bool.false_eq_true, if_false, if_true, M.bind_apply, hr, M.getW_apply]
  by_cases hm : k ∈ (w.children o).keys
  · have : (w1.stores r).has k = true := by
      rw [Od.has_iff, ← children_eq hro, hv.children]; exact hm
    simp only [this, if_true, M.modifyW_apply, hm]
    refine ⟨_, rfl, hv.wf.setStore r (Od.nodup_keys_del (hv.wf.sNd r) k), ?_, hv.cls,
      hv.nobj, fun p => ?_⟩
    · intro p hSp hcp j x hj
      have hp := (h.coh.vis hv) p hSp hcp
      rw [children_setStore hv.wf hro]
      by_cases e : p = o
      · subst e
        simp only [if_true]
        have hj' : (w1.cached p).get? j = some x := hj
        have hne : j ≠ k := by
          intro e; subst e
          rw [hv.cached, h.drop_nil (hv.clsOf p ▸ hcp)] at hj'; cases hj'
        rw [Od.get?_del (hv.wf.sNd r), if_neg hne, ← children_eq hro]
        exact hp j x hj'
      · simp only [e, if_false]; exact hp j x hj
    · rw [children_setStore hv.wf hro, ← children_eq hro, hv.children, hv.children]
      simp [hm]
  · have : (w1.stores r).has k = false := by
      rw [Od.has_eq_false_iff, ← children_eq hro, hv.children]; exact hm
    simp only [this, Bool.false_eq_true, if_false, hm, M.raise_apply]
    exact ⟨w1, rfl, DelP.miss hm hv (h.coh.vis hv)⟩

theorem lookup_eq (d : Od Key Val) (k : Key) :
    (∃ v, d.get? k = some v ∧ lookup d k = .ok v ∧ k ∈ d.keys) ∨
    (d.get? k = none ∧ lookup d k = .error (.key (.key k)) ∧ k ∉ d.keys) := by
  cases h : d.get? k with
  | some v => exact .inl ⟨v, rfl, by simp [lookup, h], Od.mem_keys_of_get? h⟩
  | none => exact .inr ⟨rfl, by simp [lookup, h], (Od.get?_eq_none_iff d k).mp h⟩

/-- Deleting an item succeeds exactly if it is there. -/
theorem delPipe_pt {bs : List Bhv} (hb : ∀ b ∈ bs, b.passes = true) (hl : CacheLast bs)
    {o : Oid} {k : Key} (hk : Plain bs k) {w : World} (h : Mid E S bs o k w)
    (hfull : Bhv.lifecycle ∈ bs → MapClass (clsOf E w o) ∧ Plain (clsOf E w o).bhvs k)
    (hcb : Bhv.lifecycle ∈ bs → Bhv.cache ∈ (clsOf E w o).bhvs → Bhv.cache ∈ bs) :
    ∃ w', delPipe E bs o k w =
        (if k ∈ (w.children o).keys then .ok () else .error (.key (.key k)), w') ∧
      DelP E S o k w w' := by
  induction bs generalizing w with
  | nil =>
    exact delEnd_pt h
  | cons b r ih =>
    have hb' : ∀ b ∈ r, b.passes = true := fun x h => hb x (List.mem_cons_of_mem _ h)
    have hbp := hb b List.mem_cons_self
    have hfull' : Bhv.lifecycle ∈ r → MapClass (clsOf E w o) ∧ Plain (clsOf E w o).bhvs k :=
      fun h => hfull (List.mem_cons_of_mem _ h)
    have hcb' : b ≠ .cache → Bhv.lifecycle ∈ r → Bhv.cache ∈ (clsOf E w o).bhvs → Bhv.cache ∈ r := by
      intro hn h1 h2
      rcases List.mem_cons.mp (hcb (List.mem_cons_of_mem _ h1) h2) with h | h
      · exact absurd h.symm hn
      · exact h
    cases b
    case nodespaces =>
      obtain ⟨s, rfl, hs⟩ := hk List.mem_cons_self
      simp only [delPipe, nodespacesDel, not_reserved hs, Bool.false_eq_true, if_false]
      exact ih hb' hl.2 hk.tail (h.tail (by simp)) hfull' (hcb' (by simp))
    case lifecycle =>
      obtain ⟨hmc, hkf⟩ := hfull List.mem_cons_self
      obtain ⟨w1, hg, hro⟩ := getPipe_pt (E := E) (fbHandler E) hmc.passes hkf h.wf h.coh h.mem h.con id
      have hg' : getitem E o k w = (lookup (w.children o) k, w1) := hg
      have hpre : ∀ {w2 : World}, DelP E S o k w1 w2 → DelP E S o k w w2 := fun h =>
        h.pre hro.same.children (fun p => (hro.same.obj p).cls) hro.same.nobj
      simp only [delPipe, lifecycleDel, M.bind_apply, hg']
      rcases lookup_eq (w.children o) k with ⟨v, -, h2, h3⟩ | ⟨-, h2, h3⟩
      · simp only [h2]
        have hm : Mid E S r o k w1 := by
          refine ⟨hro.wf, hro.coh, hro.clsOf o ▸ h.con, h.mem, fun hfc => ?_⟩
          rw [hro.clsOf] at hfc
          rcases List.mem_cons.mp (hcb List.mem_cons_self hfc) with h | h
          · cases h
          · exact .inl h
        obtain ⟨w2, h4, h5⟩ := ih hb' hl.2 hk.tail hm (hro.clsOf o ▸ hfull')
          (hro.clsOf o ▸ hcb' (by simp))
        rw [hro.same.children, if_pos h3] at h4
        simp only [h4, getO_apply, h3, if_true]
        split
        · exact ⟨w2, rfl, hpre h5⟩
        · exact ⟨_, rfl, (hpre h5).post (vis_notify _ h5.wf)⟩
      · simp only [h2, h3, if_false]
        refine ⟨w1, rfl, hro.wf, hro.coh, fun p => (hro.same.obj p).cls, hro.same.nobj, fun p => ?_⟩
        rw [hro.same.children, if_neg fun h => h3 h.2]
    case cache =>
      obtain ⟨w1, hx, hm, hch, hcls, hno⟩ := h.cacheDrop
      have hco : clsOf E w1 o = clsOf E w o := congrArg E.cls (hcls o)
      obtain ⟨w', h1, h2⟩ := ih hb' hl.2 hk.tail hm (hco ▸ hfull')
        (fun h => absurd h (hl.1 rfl))
      refine ⟨w', ?_, h2.pre hch hcls hno⟩
      simp only [delPipe, M.bind_apply, hx, h1, hch]
    case alias => cases hbp
    case reference => cases hbp
    case attributesLifecycle => cases hbp
    all_goals exact ih hb' hl.2 hk.tail (h.tail (by simp)) hfull' (hcb' (by simp))

theorem dest_plain (al : Option Aliaser) {bs : List Bhv} (hb : ∀ b ∈ bs, b.passes = true) {k : Key}
    (hk : Plain bs k) : dest al bs k = some (.child k) := by
  induction bs with
  | nil => rfl
  | cons b r ih =>
    have ih := ih (fun x h => hb x (List.mem_cons_of_mem _ h)) hk.tail
    have hbp := hb b List.mem_cons_self
    cases b
    case nodespaces =>
      obtain ⟨s, rfl, hs⟩ := hk List.mem_cons_self
      simp only [dest, hs, if_false]; exact ih
    case alias => cases hbp
    all_goals exact ih

/-- What an assignment does to the heap. -/
structure SetP (E : Env) (S : Oid → Prop) (o : Oid) (k : Key) (v : Val) (w w' : World) : Prop where
  wf : WF w'
  coh : Coh E S w'
  keep : Keep w w'
  children : ∀ p, w'.children p =
    if p = o ∧ refuses (clsOf E w o) v = none then (w.children o).set k v else w.children p

theorem setRes_eq (c : ClassDef) (v : Val) : setRes c c.bhvs v =
    match refuses c v with
    | some m => .error (.value m)
    | none => .ok () := by
  cases v with
  | node n => rfl
  | data d => simp only [setRes, refuses]; split <;> rfl

section
variable {o : Oid} {w : World} (hmc : MapClass (clsOf E w o)) (hw : WF w) (hcoh : Coh E S w)
  (hS : S o)
include hmc hw hcoh hS

theorem getitem_pt {k : Key} (hk : KeyFor (clsOf E w o) k) :
    ∃ w', getitem E o k w = (lookup (w.children o) k, w') ∧ ReadOut E S w w' :=
  getPipe_pt (E := E) (fbHandler E) hmc.passes hk hw hcoh hS hmc.concrete.stores id

theorem setitem_pt {k : Key} (v : Val) (hk : KeyFor (clsOf E w o) k) :
    ∃ w', setitem E o k v w = ((match refuses (clsOf E w o) v with
        | some m => .error (.value m)
        | none => .ok ()), w') ∧ SetP E S o k v w w' := by
  have hm : Mid E S (clsOf E w o).bhvs o k w
    := ⟨hw, hcoh, hmc.concrete.stores, hS, .inl⟩
  obtain ⟨w', h1, h2, h3⟩ := setPipe_pt (v := v) hmc.passes hk hm
  have h1' : setitem E o k v w = (setRes (clsOf E w o) (clsOf E w o).bhvs v, w') := h1
  have hout := setitem_out E o k v hw
  have hkeep := keep_setitem E o k v w
  rw [h1'] at hout hkeep
  rw [setRes_eq] at hout h1'
  refine ⟨w', h1', h3, h2, hkeep, fun p => ?_⟩
  have hd : dest (clsOf E w o).aliaser (bhvsOf E w o) k = some (.child k) :=
    dest_plain _ hmc.passes hk
  cases hr : refuses (clsOf E w o) v with
  | none =>
    simp only [hr] at hout
    have := hout.ok rfl
    rw [hd] at this
    rw [this p]; simp
  | some m =>
    simp only [hr] at hout
    rcases hout.err _ rfl with h | ⟨h, -⟩
    · rw [h p]; simp
    · have := hmc.passes _ h; cases this

theorem delitem_pt {k : Key} (hk : KeyFor (clsOf E w o) k) :
    ∃ w', delitem E o k w =
        (if k ∈ (w.children o).keys then .ok () else .error (.key (.key k)), w') ∧
      DelP E S o k w w' := by
  have hm : Mid E S (clsOf E w o).bhvs o k w
    := ⟨hw, hcoh, hmc.concrete.stores, hS, .inl⟩
  exact delPipe_pt hmc.passes hmc.cacheLast hk hm (fun _ => ⟨hmc, hk⟩) (fun _ h => h)

omit hS in
theorem mkeys_pt : ∃ w', mkeys E o w = (.ok (w.children o).keys, w') ∧ ReadOut E S w w' := by
  obtain ⟨r, w', hr, hi⟩ := hmc.concrete.iter
  have hq := storageRef_quiet E o w hw
  have hv := vis_storageRef E o hw
  have hk := cacheKeep_storageRef (E := E) o w
  rw [hr] at hq hv hk
  refine ⟨w', ?_, hq.1, hq.2, hcoh.vis hv, hk⟩
  simp only [mkeys, M.bind_apply, hi, endIter, M.pure_apply]
  rw [← hq.2.children o, children_eq (storageRef_ok hr)]

end
end
end Verif
