import Verif.Lemmas.Grow

/-! Relations respected by the building blocks are respected by every operation
of the API. -/

namespace Verif

/-- Writes to an index dictionary, to `_index`, the uuid, `_notify_suppress`,
uuid counter or log: everything no mapping shows. -/
structure Hidden (w w' : World) : Prop where
  wf : WF w → WF w'
  children : ∀ o, w'.children o = w.children o
  nsview : ∀ o, w'.nsview o = w.nsview o
  cached : ∀ o, w'.cached o = w.cached o
  loc : LocSame w w'
  cls : ∀ o, (w'.objs o).cls = (w.objs o).cls
  fixed : ∀ o, (w'.objs o).fixed = (w.objs o).fixed
  nobj : w'.nobj = w.nobj
  fb : w'.fb = w.fb
  refs : ∀ o, ((w'.objs o).storage = none ↔ (w.objs o).storage = none)
  spaces : ∀ o, (w'.objs o).nodespaces = (w.objs o).nodespaces

theorem hidden_pre : PreR Hidden :=
  ⟨fun w => ⟨fun h => h, fun _ => rfl, fun _ => rfl, fun _ => rfl, LocSame.refl w, fun _ => rfl,
    fun _ => rfl, rfl, rfl, fun _ => Iff.rfl, fun _ => rfl⟩, fun h h' =>
    ⟨fun x => h'.wf (h.wf x), fun o => (h'.children o).trans (h.children o),
     fun o => (h'.nsview o).trans (h.nsview o), fun o => (h'.cached o).trans (h.cached o),
     h.loc.trans h'.loc, fun o => (h'.cls o).trans (h.cls o), fun o => (h'.fixed o).trans (h.fixed o),
     h'.nobj.trans h.nobj, h'.fb.trans h.fb, fun o => (h'.refs o).trans (h.refs o),
     fun o => (h'.spaces o).trans (h.spaces o)⟩⟩

theorem hidden_modO (o : Oid) (f : Obj → Obj) (h1 : ∀ b, (f b).cls = b.cls)
    (hs : ∀ b, (f b).storage = b.storage) (hc : ∀ b, (f b).cache = b.cache)
    (hn : ∀ b, (f b).nodespaces = b.nodespaces) (hi : ∀ b, (f b).index = b.index)
    (hnm : ∀ b, (f b).name = b.name) (hp : ∀ b, (f b).parent = b.parent)
    (hf : ∀ b, (f b).fixed = b.fixed) : Pres Hidden (modO o f) := fun w =>
  ⟨fun hw => hw.modO o f (hs _) (hc _) (hn _) fun r hr => hw.iLt ((hi _).symm.trans hr),
   children_modO o f (hs _), nsview_modO o f (hn _), cached_modO o f (hc _),
   fun p => by
     simp only [World.loc, modO_apply]
     rw [proj_upd Obj.name w.objs o _ (hnm _), proj_upd Obj.parent w.objs o _ (hp _)],
   fun p => proj_upd Obj.cls w.objs o _ (h1 _) p, fun p => proj_upd Obj.fixed w.objs o _ (hf _) p,
   rfl, rfl, fun p => by
     show (upd w.objs o (f (w.objs o)) p).storage = none ↔ _
     rw [proj_upd Obj.storage w.objs o _ (hs _)],
   fun p => proj_upd Obj.nodespaces w.objs o _ (hn _) p⟩

theorem hidden_setFallbackKey (o : Oid) (k : Key) :
    Pres Hidden (modO o fun ob => { ob with fallbackKey := some k }) :=
  hidden_modO o _ (fun _ => rfl) (fun _ => rfl) (fun _ => rfl) (fun _ => rfl) (fun _ => rfl)
    (fun _ => rfl) (fun _ => rfl) (fun _ => rfl)

theorem hidden_setIndex (c : Oid) (si : Ref) (w : World) (h : WF w → si < w.nidx) :
    Hidden w (modO c (fun ob => { ob with index := some si }) w).2 :=
  ⟨fun hw => hw.modO c (fun ob => { ob with index := some si }) rfl rfl rfl fun r hr => by
     injection hr with hr; subst hr; exact h hw,
   children_modO c (fun ob => { ob with index := some si }) rfl,
   nsview_modO c (fun ob => { ob with index := some si }) rfl,
   cached_modO c (fun ob => { ob with index := some si }) rfl,
   fun p => by
     simp only [World.loc, modO_apply]
     rw [proj_upd Obj.name w.objs c _ (by rfl), proj_upd Obj.parent w.objs c _ (by rfl)],
   fun p => proj_upd Obj.cls w.objs c _ (by rfl) p, fun p => proj_upd Obj.fixed w.objs c _ (by rfl) p,
   rfl, rfl, fun p => by
     show (upd w.objs c _ p).storage = none ↔ _
     rw [proj_upd Obj.storage w.objs c _ (by rfl)],
   fun p => proj_upd Obj.nodespaces w.objs c _ (by rfl) p⟩

theorem hidden_setIdxs (r : Ref) (f : World → Od (Option Nat) Oid)
    (hf : ∀ w, WF w → (f w).keys.Nodup) :
    Pres Hidden (M.modifyW fun w => { w with idxs := upd w.idxs r (f w) }) := fun w =>
  ⟨fun hw => hw.setIdx r (hf w hw), fun _ => rfl, fun _ => rfl, fun _ => rfl, fun _ => rfl,
   fun _ => rfl, fun _ => rfl, rfl, rfl, fun _ => Iff.rfl, fun _ => rfl⟩

theorem hidden_newIdx (o : Oid) (d : World → Od (Option Nat) Oid) (hd : ∀ w, (d w).keys.Nodup) :
    Pres Hidden (M.modifyW fun w =>
      { w with
        objs := upd w.objs o { w.objs o with index := some w.nidx }
        idxs := upd w.idxs w.nidx (d w)
        nidx := w.nidx + 1 }) := by
  intro w
  have hs : ∀ p, (upd w.objs o { w.objs o with index := some w.nidx } p).storage = (w.objs p).storage :=
    proj_upd Obj.storage w.objs o _ rfl
  have hn : ∀ p, (upd w.objs o { w.objs o with index := some w.nidx } p).nodespaces = (w.objs p).nodespaces :=
    proj_upd Obj.nodespaces w.objs o _ rfl
  have hc : ∀ p, (upd w.objs o { w.objs o with index := some w.nidx } p).cache = (w.objs p).cache :=
    proj_upd Obj.cache w.objs o _ rfl
  refine ⟨(grow_newIdx o d hd w).wf, fun p => ?_, fun p => ?_, fun p => ?_, fun p => ?_,
    fun p => proj_upd Obj.cls w.objs o _ (by rfl) p,
    fun p => proj_upd Obj.fixed w.objs o _ (by rfl) p, rfl, rfl, fun p => ?_, hn⟩
  · simp only [World.children, M.modifyW_apply, hs]
  · simp only [World.nsview, M.modifyW_apply, hn]
  · simp only [World.cached, M.modifyW_apply, hc]
  · simp only [World.loc, M.modifyW_apply]
    rw [proj_upd Obj.name w.objs o _ (by rfl), proj_upd Obj.parent w.objs o _ (by rfl)]
  · simp only [M.modifyW_apply, hs]

theorem hidden_freshUuid : Pres Hidden freshUuid := fun _ =>
  ⟨fun hw => ⟨hw.s, hw.c, hw.n, hw.iLt, hw.sNd, hw.cNd, hw.nNd, hw.iNd⟩, fun _ => rfl,
   fun _ => rfl, fun _ => rfl, fun _ => rfl, fun _ => rfl, fun _ => rfl, rfl, rfl,
   fun _ => Iff.rfl, fun _ => rfl⟩

theorem hidden_notify (e : Event) : Pres Hidden (notify e) := fun _ =>
  ⟨fun hw => hw.setLog _, fun _ => rfl, fun _ => rfl, fun _ => rfl, fun _ => rfl, fun _ => rfl,
   fun _ => rfl, rfl, rfl, fun _ => Iff.rfl, fun _ => rfl⟩

theorem hidden_referenceMerge (o c : Oid) : Pres Hidden (referenceMerge o c) := by
  intro w
  simp only [referenceMerge, M.bind_apply]
  rcases h : indexRef o w with ⟨_ | si, w1⟩
  · have := indexRef_id o w; rw [h] at this; simp only at this; subst this
    exact hidden_pre.refl _
  · obtain ⟨e1, hsi⟩ := indexRef_ok h
    subst e1
    simp only
    rcases h2 : indexRef c w1 with ⟨_ | vi, w2⟩
    · have := indexRef_id c w1; rw [h2] at this; simp only at this; subst this
      exact hidden_pre.refl _
    · obtain ⟨e2, hvi⟩ := indexRef_ok h2
      subst e2
      simp only [M.modifyW_apply]
      refine hidden_pre.trans (hidden_setIdxs si (fun w => (w.idxs si).update (w.idxs vi))
        (fun w hw => Od.nodup_keys_update (hw.iNd si)) w2) ?_
      exact hidden_setIndex c si _ fun hw => hw.iLt (o := o) hsi

theorem hidden_setUuidRef (o : Oid) (u : Option Nat) : Pres Hidden (setUuidRef o u) := by
  refine pres_bind hidden_pre (pres_of_id hidden_pre (indexRef_id o)) fun r => ?_
  refine pres_bind hidden_pre (pres_getW hidden_pre) fun w => ?_
  refine pres_ite hidden_pre (pres_raise hidden_pre _) ?_
  refine pres_bind hidden_pre (hidden_setIdxs r
    (fun w => ((w.idxs r).del (iuuid (w.objs o).uuid)).set (iuuid u) o) fun w hw => ?_) fun _ => ?_
  · exact Od.nodup_keys_set (Od.nodup_keys_del (hw.iNd r) _) _ _
  · exact hidden_modO o _ (fun _ => rfl) (fun _ => rfl) (fun _ => rfl) (fun _ => rfl)
      (fun _ => rfl) (fun _ => rfl) (fun _ => rfl) (fun _ => rfl)

theorem hidden_referenceInit (o : Oid) : Pres Hidden (referenceInit o) :=
  pres_bind hidden_pre (hidden_newIdx o (fun _ => []) fun _ => by simp [Od.keys]) fun _ =>
    pres_bind hidden_pre hidden_freshUuid fun u => hidden_setUuidRef o (some u)

theorem hidden_indexDelete (o : Oid) (us : List Nat) : Pres Hidden (indexDelete o us) := by
  induction us with
  | nil => exact pres_pure hidden_pre _
  | cons u r ih =>
    refine pres_bind hidden_pre (pres_of_id hidden_pre (indexRef_id _)) fun i => ?_
    refine pres_bind hidden_pre (pres_getW hidden_pre) fun w => ?_
    refine pres_ite hidden_pre ?_ (pres_raise hidden_pre _)
    exact pres_bind hidden_pre (hidden_setIdxs i (fun w => (w.idxs i).del (some u)) fun w hw =>
      Od.nodup_keys_del (hw.iNd i) _) fun _ => ih

theorem hidden_indexPut {R : World → World → Prop} (hR : PreR R)
    (hh : ∀ w w', Hidden w w' → R w w') (o c : Oid) (u : Nat) {β : Type} {f : Unit → M β}
    (hf : Pres R (f ())) :
    Pres R (do
      let i ← indexRef o
      M.modifyW fun w => { w with idxs := upd w.idxs i ((w.idxs i).set (some u) c) }
      modO c fun ob => { ob with index := some i }
      f ()) := by
  intro w
  simp only [M.bind_apply]
  rcases h : indexRef o w with ⟨_ | si, w1⟩
  · have := indexRef_id o w; rw [h] at this; simp only at this; subst this; exact hR.refl _
  · obtain ⟨e1, hsi⟩ := indexRef_ok h
    subst e1
    simp only [M.modifyW_apply, modO_apply]
    have k1 := hidden_setIdxs si (fun w => (w.idxs si).set (some u) c)
        (fun w hw => Od.nodup_keys_set (hw.iNd si) _ _) w1
    have k2 := hidden_setIndex c si { w1 with idxs := upd w1.idxs si ((w1.idxs si).set (some u) c) }
      fun hw => hw.iLt (o := o) hsi
    exact hR.trans (hh _ _ k1) (hR.trans (hh _ _ k2) (hf _))

/-- `R` is respected by everything the API is made of. -/
structure ApiPrims (E : Env) (R : World → World → Prop) : Prop where
  pre : PreR R
  quiet : ∀ w w', Quiet w w' → R w w'
  hidden : ∀ w w', Hidden w w' → R w w'
  setitem : ∀ o k v, Pres R (setitem E o k v)
  delEnd : ∀ o k, Pres R (delEnd E o k)
  nsDrop : ∀ o k, Pres R (nsDrop o k)
  attrsPut : ∀ r a, Pres R (M.modifyW fun w =>
    { w with nspaces := upd w.nspaces r ((w.nspaces r).set attrsKey (.node a)) })
  insert : ∀ b o r n c, Pres R (storageInsert E b o r n (.node c))
  swap : ∀ o a b, Pres R (swapNodes E o a b)
  volatile : ∀ o k, Pres R (invalidateVolatile E o k)
  name : ∀ c k, Pres R (modO c fun ob => { ob with name := k })
  parent : ∀ c p, Pres R (modO c fun ob => { ob with parent := p })
  fixed : ∀ c (f : Od Key Val → Od Key Val), Pres R (modO c fun ob => { ob with fixed := f ob.fixed })
  alloc : ∀ c, Pres R (alloc c)

/-- `R` is respected by what calling a class consists of. -/
structure NewPrims (R : World → World → Prop) : Prop where
  pre : PreR R
  alloc : ∀ c, Pres R (alloc c)
  name : ∀ c k, Pres R (modO c fun ob => { ob with name := k })
  parent : ∀ c p, Pres R (modO c fun ob => { ob with parent := p })
  fixed : ∀ c (f : Od Key Val → Od Key Val), Pres R (modO c fun ob => { ob with fixed := f ob.fixed })
  init : ∀ o, Pres R (referenceInit o)
  notify : ∀ e, Pres R (notify e)
  fresh : Pres R freshUuid
  uuidRef : ∀ o u, Pres R (setUuidRef o u)
  uuid : ∀ o u, Pres R (modO o fun ob => { ob with uuid := some u })

section
variable {E : Env} {R : World → World → Prop} (h : NewPrims R)
include h

theorem NewPrims.fixedLoop {mk : ClassId → M Oid} (hmk : ∀ c, Pres R (mk c)) (o : Oid)
    (l : List (Key × ClassId)) : Pres R (initPipe.loop mk o l) := by
  have hR := h.pre
  induction l with
  | nil => exact pres_pure hR _
  | cons a t ih =>
    obtain ⟨k, c⟩ := a
    refine pres_bind hR (hmk c) fun child => ?_
    refine pres_bind hR (h.name _ _) fun _ => ?_
    refine pres_bind hR (h.parent _ _) fun _ => ?_
    exact pres_bind hR (h.fixed o fun d => d.set k (.node child)) fun _ => ih

theorem NewPrims.initPipe {mk : ClassId → M Oid} (hmk : ∀ c, Pres R (mk c))
    (all bs : List Bhv) (o : Oid) (name : Key) (parent : Option Oid) :
    Pres R (initPipe E mk all bs o name parent) := by
  have hR := h.pre
  induction bs with
  | nil =>
    unfold Verif.initPipe
    refine pres_ite hR ?_ (pres_pure hR _)
    exact pres_bind hR (h.name _ _) fun _ => h.parent _ _
  | cons b r ih =>
    cases b
    case reference => exact pres_bind hR (h.init o) fun _ => ih
    case lifecycle => exact pres_bind hR ih fun _ => h.notify _
    case uuidAware =>
      exact pres_bind hR ih fun _ => pres_bind hR h.fresh fun u =>
        pres_ite hR (h.uuidRef o _) (h.uuid o _)
    case fixedChildren =>
      refine pres_bind hR ih fun _ => ?_
      refine pres_bind hR (h.fixed o fun _ => []) fun _ => ?_
      exact pres_bind hR (pres_getW hR) fun w => h.fixedLoop hmk o _
    all_goals exact ih

theorem NewPrims.newNodeN (n : Nat) (c : ClassId) (name : Key) (parent : Option Oid) :
    Pres R (newNodeN E n c name parent) := by
  have hR := h.pre
  induction n generalizing c name parent with
  | zero => exact pres_raise hR _
  | succ n ih =>
    refine pres_bind hR (h.alloc c) fun o => ?_
    exact pres_bind hR (h.initPipe (fun c' => ih c' .none none) _ _ o name parent)
      fun _ => pres_pure hR _

theorem NewPrims.newNode (c : ClassId) (name : Key) (parent : Option Oid) :
    Pres R (newNode E c name parent) := by
  rcases newNode_cases E c name parent with e | e
  · rw [e]; exact h.newNodeN _ c name parent
  · rw [e]; exact pres_raise h.pre _

end

section
variable {E : Env} {R : World → World → Prop} (h : ApiPrims E R)
include h

theorem ApiPrims.ofQuiet {α : Type} {m : M α} (hm : Pres Quiet m) : Pres R m := fun w =>
  h.quiet _ _ (hm w)

theorem ApiPrims.ofHidden {α : Type} {m : M α} (hm : Pres Hidden m) : Pres R m := fun w =>
  h.hidden _ _ (hm w)

theorem ApiPrims.new : NewPrims R where
  pre := h.pre
  alloc := h.alloc
  name := h.name
  parent := h.parent
  fixed := h.fixed
  init o := h.ofHidden (hidden_referenceInit o)
  notify e := h.ofHidden (hidden_notify e)
  fresh := h.ofHidden hidden_freshUuid
  uuidRef o u := h.ofHidden (hidden_setUuidRef o u)
  uuid o _ := h.ofHidden (hidden_modO o _ (fun _ => rfl) (fun _ => rfl) (fun _ => rfl) (fun _ => rfl)
    (fun _ => rfl) (fun _ => rfl) (fun _ => rfl) (fun _ => rfl))

theorem ApiPrims.newNode (c : ClassId) (name : Key) (parent : Option Oid) : Pres R (newNode E c name parent) :=
  h.new.newNode c name parent

end

/-- Quiet, and the fallback counter is the same. -/
def QuietF (w w' : World) : Prop := Quiet w w' ∧ w'.fb = w.fb

theorem quietF_pre : PreR QuietF :=
  ⟨fun w => ⟨Quiet.refl w, rfl⟩, fun h h' => ⟨h.1.trans h'.1, h'.2.trans h.2⟩⟩

theorem storageRef_quietF (E : Env) (o : Oid) : Pres QuietF (storageRef E o) := fun w =>
  ⟨storageRef_quiet E o w, storageRef_fb E o w⟩

theorem nodespacesRef_quietF (o : Oid) : Pres QuietF (nodespacesRef o) := fun w =>
  ⟨nodespacesRef_quiet o w, nodespacesRef_fb o w⟩

theorem cacheRef_quietF (o : Oid) : Pres QuietF (cacheRef o) := fun w =>
  ⟨cacheRef_quiet o w, cacheRef_fb o w⟩

theorem setCache_quietF {w : World} (r : Ref) (d : Od Key Val) (hd : WF w → d.keys.Nodup) :
    QuietF w { w with caches := upd w.caches r d } := ⟨setCache_quiet r d hd, rfl⟩

theorem cacheDrop_quietF (o : Oid) (k : Key) : Pres QuietF (cacheDrop o k) :=
  pres_bind quietF_pre (cacheRef_quietF o) fun _ => pres_modifyW fun _ =>
    setCache_quietF _ _ fun hw => Od.nodup_keys_del (hw.cNd _) _

theorem getEnd_quietF (E : Env) (o : Oid) (k : Key) : Pres QuietF (getEnd E o k) := by
  refine pres_bind quietF_pre (pres_getW quietF_pre) fun w => ?_
  refine pres_ite quietF_pre (pres_ofExcept quietF_pre _) ?_
  refine pres_ite quietF_pre ?_ (pres_raise quietF_pre _)
  exact pres_bind quietF_pre (storageRef_quietF E o) fun _ =>
    pres_bind quietF_pre (pres_getW quietF_pre) fun _ => pres_ofExcept quietF_pre _

theorem iterEnd_quietF (E : Env) (o : Oid) : Pres QuietF (iterEnd E o) := by
  intro w
  have h := storageRef_quietF E o w
  simp only [iterEnd]
  split
  · exact quietF_pre.refl w
  · split
    · exact quietF_pre.refl w
    · revert h
      rcases storageRef E o w with ⟨_ | _, w'⟩ <;> exact id
    · exact quietF_pre.refl w

theorem iterPipe_quietF (E : Env) (bs : List Bhv) (o : Oid) : Pres QuietF (iterPipe E bs o) := by
  induction bs with
  | nil => exact iterEnd_quietF E o
  | cons b r ih =>
    cases b
    case alias =>
      exact pres_bind quietF_pre ih fun _ =>
        pres_bind quietF_pre (pres_getW quietF_pre) fun _ => pres_pure quietF_pre _
    all_goals exact ih

theorem iter_quietF (E : Env) (o : Oid) : Pres QuietF (iter E o) := fun w =>
  iterPipe_quietF E _ o w

theorem mkeys_quietF (E : Env) (o : Oid) : Pres QuietF (mkeys E o) :=
  pres_bind quietF_pre (iter_quietF E o) fun _ =>
    pres_bind quietF_pre (pres_endIter quietF_pre _) fun _ => pres_pure quietF_pre _

theorem fbGuard_of_quiet {R : World → World → Prop} (hR : PreR R)
    (hq : ∀ w w', Quiet w w' → R w w') {α : Type} {body : Int → M α} (hb : ∀ n, Pres R (body n)) :
    Pres R (fbGuard body) := by
  intro w
  unfold Verif.fbGuard
  split
  · exact hR.refl w
  · dsimp only
    exact hR.trans (hR.trans (hq _ _ (setFb_quiet w _)) (hb _ _)) (hq _ _ (setFb_quiet _ _))

/-- `R` is respected by the building blocks of the API, construction being one of them. -/
structure ApiBase (E : Env) (R : World → World → Prop) : Prop where
  pre : PreR R
  quiet : ∀ w w', QuietF w w' → R w w'
  fbGuard : ∀ {α : Type} {body : Int → M α}, (∀ n, Pres R (body n)) → Pres R (fbGuard body)
  hidden : ∀ w w', Hidden w w' → R w w'
  setitem : ∀ o k v, Pres R (setitem E o k v)
  delEnd : ∀ o k, Pres R (delEnd E o k)
  nsDrop : ∀ o k, Pres R (nsDrop o k)
  attrsPut : ∀ r a, Pres R (M.modifyW fun w =>
    { w with nspaces := upd w.nspaces r ((w.nspaces r).set attrsKey (.node a)) })
  insert : ∀ b o r n c, Pres R (storageInsert E b o r n (.node c))
  swap : ∀ o a b, Pres R (swapNodes E o a b)
  volatile : ∀ o k, Pres R (invalidateVolatile E o k)
  newNode : ∀ c n p, Pres R (newNode E c n p)

theorem ApiPrims.base {E : Env} {R : World → World → Prop} (h : ApiPrims E R) : ApiBase E R :=
  ⟨h.pre, fun _ _ hq => h.quiet _ _ hq.1, fbGuard_of_quiet h.pre h.quiet, h.hidden, h.setitem, h.delEnd, h.nsDrop, h.attrsPut, h.insert, h.swap,
    h.volatile, h.newNode⟩

/-- `self._index[int(u)] = c; c._index = self._index`, as in `indexNodesStep`. -/
def indexPut (o c : Oid) (u : Nat) : M Unit := do
  let i ← indexRef o
  M.modifyW fun w => { w with idxs := upd w.idxs i ((w.idxs i).set (some u) c) }
  modO c fun ob => { ob with index := some i }

/-- `c._index = {int(u): c}`, as in `referenceDetach`. -/
def indexOwn (c : Oid) (u : Nat) : M Unit := M.modifyW fun w =>
  { w with
    objs := upd w.objs c { w.objs c with index := some w.nidx }
    idxs := upd w.idxs w.nidx [(some u, c)]
    nidx := w.nidx + 1 }

/-- `R` is respected by the steps of a read that no view shows. -/
structure ReadSteps (E : Env) (R : World → World → Prop) : Prop where
  getEnd : ∀ o k, Pres R (getEnd E o k)
  iter : ∀ o, Pres R (iter E o)
  spaceRef : ∀ o, Pres R (nodespacesRef o)
  cacheRef : ∀ o, Pres R (cacheRef o)
  cachePut : ∀ r k v, Pres R (M.modifyW fun w => { w with caches := upd w.caches r ((w.caches r).set k v) })
  cacheWipe : ∀ r, Pres R (M.modifyW fun w => { w with caches := upd w.caches r [] })
  cacheDrop : ∀ o k, Pres R (cacheDrop o k)

theorem readSteps_of_quiet {E : Env} {R : World → World → Prop} (hq : ∀ w w', QuietF w w' → R w w') :
    ReadSteps E R where
  getEnd o k w := hq _ _ (getEnd_quietF E o k w)
  iter o w := hq _ _ (iter_quietF E o w)
  spaceRef o w := hq _ _ (nodespacesRef_quietF o w)
  cacheRef o w := hq _ _ (cacheRef_quietF o w)
  cachePut r k v := pres_modifyW fun _ => hq _ _ (setCache_quietF _ _ fun hw => Od.nodup_keys_set (hw.cNd _) _ _)
  cacheWipe r := pres_modifyW fun _ => hq _ _ (setCache_quietF r [] fun _ => by simp [Od.keys])
  cacheDrop o k w := hq _ _ (cacheDrop_quietF o k w)

/-- What a child factory does: make a node and assign it. -/
def makeAt (E : Env) (o : Oid) (c : ClassId) (n : Key) (p : Option Oid) (k : Key) : M Unit := do
  let child ← newNode E c n p
  setitem E o k (.node child)

theorem pres_makeAt {E : Env} {R : World → World → Prop} (hR : PreR R) {o : Oid}
    (hn : ∀ c n p, Pres R (newNode E c n p)) (hs : ∀ k v, Pres R (setitem E o k v)) (c : ClassId) (n : Key)
    (p : Option Oid) (k : Key) : Pres R (makeAt E o c n p k) :=
  pres_bind hR (hn c n p) fun _ => hs k _

/-- `R` is respected by what reading an item consists of: steps that cannot be seen, and what the child
factories do. -/
structure ReadPrims (E : Env) (R : World → World → Prop) : Prop where
  pre : PreR R
  steps : ReadSteps E R
  fbGuard : ∀ {α : Type} {body : Int → M α}, (∀ n, Pres R (body n)) → Pres R (fbGuard body)
  make : ∀ o w, Bhv.childFactory ∈ (clsOf E w o).bhvs → (∀ c n p k, Pres R (makeAt E o c n p k)) ∨ ∀ w', R w w'

section
variable {E : Env} {R : World → World → Prop} (h : ReadPrims E R)
include h

theorem ReadPrims.getPipe {fb : Oid → Key → Exc → M Val}
    (hfb : ∀ o k e, Pres R (fb o k e)) (bs : List Bhv) (o : Oid)
    (hs : Bhv.childFactory ∈ bs → ∀ c n p k, Pres R (makeAt E o c n p k)) (k : Key) :
    Pres R (getPipe E fb bs o k) := by
  have hR := h.pre
  induction bs generalizing k with
  | nil => exact h.steps.getEnd o k
  | cons b r ih =>
    have ih := ih fun hm => hs (List.mem_cons_of_mem _ hm)
    cases b
    case nodespaces =>
      show Pres R (nodespacesGet _ o k)
      unfold nodespacesGet
      split
      · split
        · exact pres_bind hR (h.steps.spaceRef o) fun _ =>
            pres_bind hR (pres_getW hR) fun _ => pres_ofExcept hR _
        · exact ih _
      · exact ih _
    case fallback => exact pres_catchIf hR (ih k) fun e => hfb o k e
    case cache =>
      refine pres_bind hR (h.steps.cacheRef o) fun r => ?_
      refine pres_bind hR (pres_getW hR) fun w => ?_
      split
      · exact pres_pure hR _
      · refine pres_bind hR (ih k) fun v => ?_
        refine pres_bind hR (h.steps.cachePut r k v) fun _ => ?_
        exact pres_bind hR (pres_getW hR) fun _ => pres_ofExcept hR _
    case alias =>
      exact pres_bind hR (pres_of_id hR (unaliasKey_id E o k)) fun u =>
        pres_catchIf hR (ih u) fun _ => pres_raise hR _
    case childFactory =>
      refine pres_catchIf hR (ih k) fun _ => ?_
      refine pres_bind hR (pres_getW hR) fun w => ?_
      split
      · exact pres_raise hR _
      · rename_i cls _
        intro v
        have hm := hs List.mem_cons_self cls .none none k v
        unfold makeAt at hm
        simp only [M.bind_apply] at hm ⊢
        rcases hn : newNode E cls .none none v with ⟨e | child, w1⟩
        · rw [hn] at hm; exact hm
        · rw [hn] at hm
          simp only at hm ⊢
          rcases hx : Verif.setitem E o k (.node child) w1 with ⟨e | u, w2⟩ <;> rw [hx] at hm <;> exact hm
    all_goals exact ih k

theorem ReadPrims.getPipe_own {fb : Oid → Key → Exc → M Val} (hfb : ∀ o k e, Pres R (fb o k e)) (o : Oid) (k : Key)
    (w : World) : R w (Verif.getPipe E fb (clsOf E w o).bhvs o k w).2 := by
  by_cases hc : Bhv.childFactory ∈ (clsOf E w o).bhvs
  · rcases h.make o w hc with hs | hs
    · exact h.getPipe hfb _ o (fun _ => hs) k w
    · exact hs _
  · exact h.getPipe hfb _ o (fun hm => absurd hm hc) k w

theorem ReadPrims.getitem0 (o : Oid) (k : Key) : Pres R (getitem0 E o k) := fun w =>
  h.getPipe_own (fun _ _ _ => h.fbGuard fun _ =>
    pres_ite h.pre (pres_raise h.pre _) (pres_raise h.pre _)) o k w

theorem ReadPrims.fbChild (v : Val) (k : Key) : Pres R (fbChild E v k) := by
  have hR := h.pre
  unfold Verif.fbChild
  split
  · exact pres_catchIf hR (pres_bind hR (h.getitem0 _ _) fun _ =>
      pres_pure hR _) fun _ => pres_pure hR _
  · exact pres_raise hR _
  · exact pres_raise hR _

theorem ReadPrims.fbWalk (p : List Key) (v : Val) : Pres R (fbWalk E p v) := by
  have hR := h.pre
  induction p generalizing v with
  | nil => exact pres_pure hR _
  | cons k r ih =>
    refine pres_bind hR (h.fbChild v k) fun nxt => ?_
    split
    · exact ih _
    · exact pres_pure hR _
    · exact pres_raise hR _

theorem ReadPrims.toRoot (n : Nat) (o : Oid) (p : List Key)
    (vis : List Oid) : Pres R (toRoot E n o p vis) := by
  have hR := h.pre
  induction n generalizing o vis with
  | zero => exact pres_raise hR _
  | succ n ih =>
    refine pres_bind hR (pres_getW hR) fun w => ?_
    split
    · exact pres_pure hR _
    · split
      · exact pres_ite hR (pres_bind hR (h.getitem0 _ _) fun _ => pres_raise hR _) (ih _ _)
      · split
        · exact ih _ _
        · refine pres_bind hR (h.getitem0 _ _) fun start => ?_
          split
          · exact pres_raise hR _
          · refine pres_bind hR (pres_of_id hR (path_id _)) fun sp => ?_
            refine pres_bind hR (h.fbWalk _ _) fun res => ?_
            split
            · exact pres_pure hR _
            · exact ih _ _

theorem ReadPrims.fbHandler (o : Oid) (k : Key) (e : Exc) : Pres R (fbHandler E o k e) := by
  have hR := h.pre
  refine h.fbGuard fun n => ?_
  refine pres_ite hR (pres_raise hR _) ?_
  refine pres_bind hR (pres_of_id hR (path_id _)) fun p => ?_
  refine pres_bind hR (pres_getW hR) fun w => ?_
  refine pres_bind hR (h.toRoot _ _ _ _) fun v => ?_
  split
  · exact pres_pure hR _
  · exact pres_raise hR _

theorem ReadPrims.getitem (o : Oid) (k : Key) : Pres R (getitem E o k) := fun w =>
  h.getPipe_own h.fbHandler o k w

end

/-- `R` is respected by the building blocks of the API; an index gets no uuid but that of the node it
belongs to. -/
structure ApiFine (E : Env) (R : World → World → Prop) : Prop where
  pre : PreR R
  steps : ReadSteps E R
  fbGuard : ∀ {α : Type} {body : Int → M α}, (∀ n, Pres R (body n)) → Pres R (fbGuard body)
  setitem : ∀ o k v, Pres R (setitem E o k v)
  delEnd : ∀ o k, Pres R (delEnd E o k)
  nsDrop : ∀ o k, Pres R (nsDrop o k)
  attrsPut : ∀ r a, Pres R (M.modifyW fun w =>
    { w with nspaces := upd w.nspaces r ((w.nspaces r).set attrsKey (.node a)) })
  insert : ∀ b o r n c, Pres R (storageInsert E b o r n (.node c))
  swap : ∀ o a b, Pres R (swapNodes E o a b)
  volatile : ∀ o k, Pres R (invalidateVolatile E o k)
  newNode : ∀ c n p, Pres R (newNode E c n p)
  notify : ∀ e, Pres R (notify e)
  unindex : ∀ o us, Pres R (indexDelete o us)
  indexPut : ∀ o c u w, (w.objs c).uuid = some u → R w (indexPut o c u w).2
  indexOwn : ∀ c u w, (w.objs c).uuid = some u → R w (indexOwn c u w).2
  suppress : ∀ o b, Pres R (modO o fun ob => { ob with suppress := b })
  fallbackKey : ∀ o k, Pres R (modO o fun ob => { ob with fallbackKey := some k })

theorem ApiBase.fine {E : Env} {R : World → World → Prop} (h : ApiBase E R) : ApiFine E R where
  pre := h.pre
  steps := readSteps_of_quiet h.quiet
  fbGuard := h.fbGuard
  setitem := h.setitem
  delEnd := h.delEnd
  nsDrop := h.nsDrop
  attrsPut := h.attrsPut
  insert := h.insert
  swap := h.swap
  volatile := h.volatile
  newNode := h.newNode
  notify e w := h.hidden _ _ (hidden_notify e w)
  unindex o us w := h.hidden _ _ (hidden_indexDelete o us w)
  indexPut o c u w _ := hidden_indexPut h.pre h.hidden o c u (f := fun _ => pure ()) (pres_pure h.pre _) w
  indexOwn c u w _ := h.hidden _ _ (hidden_newIdx c (fun _ => [(some u, c)]) (fun _ => by simp [Od.keys]) w)
  suppress o b w := h.hidden _ _ (hidden_modO o (fun ob => { ob with suppress := b }) (fun _ => rfl) (fun _ => rfl) (fun _ => rfl) (fun _ => rfl)
    (fun _ => rfl) (fun _ => rfl) (fun _ => rfl) (fun _ => rfl) w)
  fallbackKey o k w := h.hidden _ _ (hidden_setFallbackKey o k w)

/-- The node a changing operation of the API is called on. -/
def Op.writes : Op → Option Oid
  | .set o _ _ | .del o _ | .setdefault o _ _ | .pop o _ _ | .popitem o | .update o _ | .clear o | .detach o _
  | .invalidate o _ | .insertBefore o _ _ | .insertAfter o _ _ | .insertFirst o _ | .insertLast o _ | .swap o _ _
  | .attrs o => some o
  | .new .. | .get .. | .getD .. | .contains .. | .keys .. | .values .. | .items .. | .len .. | .setUuid ..
  | .setFallbackKey .. => none

/-- The values an operation is given to store. -/
def Op.given : Op → List Val
  | .set _ _ v | .setdefault _ _ v => [v]
  | .update _ kvs => kvs.map Prod.snd
  | .insertBefore _ n _ | .insertAfter _ n _ | .insertFirst _ n | .insertLast _ n => [.node n]
  | _ => []

/-- `R` is respected by the building blocks of the API called on the nodes `T` with the values `V`, and of reading
any node. -/
structure ApiAt (E : Env) (T : Oid → Prop) (V : Val → Prop) (R : World → World → Prop) : Prop where
  pre : PreR R
  steps : ReadSteps E R
  fbGuard : ∀ {α : Type} {body : Int → M α}, (∀ n, Pres R (body n)) → Pres R (fbGuard body)
  make : ∀ o w, Bhv.childFactory ∈ (clsOf E w o).bhvs → (∀ c n p k, Pres R (makeAt E o c n p k)) ∨ ∀ w', R w w'
  setitem : ∀ o, T o → ∀ k v, V v → Pres R (setitem E o k v)
  delEnd : ∀ o, T o → ∀ k, Pres R (delEnd E o k)
  nsDrop : ∀ o, T o → ∀ k, Pres R (nsDrop o k)
  attrs : ∀ o, T o → Pres R (attrs E o)
  insert : ∀ b o, T o → ∀ r n c, Pres R (storageInsert E b o r n (.node c))
  swap : ∀ o, T o → ∀ a b, Pres R (swapNodes E o a b)
  volatile : ∀ o, T o → ∀ k, Pres R (invalidateVolatile E o k)
  newNode : ∀ c n p, Pres R (newNode E c n p)
  notify : ∀ e, Pres R (notify e)
  unindex : ∀ o us, Pres R (indexDelete o us)
  indexPut : ∀ o c u w, (w.objs c).uuid = some u → R w (indexPut o c u w).2
  indexOwn : ∀ c u w, (w.objs c).uuid = some u → R w (indexOwn c u w).2
  suppress : ∀ o b, Pres R (modO o fun ob => { ob with suppress := b })
  fallbackKey : ∀ o k, Pres R (modO o fun ob => { ob with fallbackKey := some k })

section
variable {E : Env} {T : Oid → Prop} {V : Val → Prop} {R : World → World → Prop} (h : ApiAt E T V R)
include h

theorem ApiAt.read : ReadPrims E R :=
  ⟨h.pre, h.steps, h.fbGuard, h.make⟩

theorem ApiAt.getitem (o : Oid) (k : Key) : Pres R (getitem E o k) := h.read.getitem o k

theorem ApiAt.iter (o : Oid) : Pres R (iter E o) := h.steps.iter o

theorem ApiAt.mkeys (o : Oid) : Pres R (mkeys E o) :=
  pres_bind h.pre (h.iter o) fun _ => pres_bind h.pre (pres_endIter h.pre _) fun _ => pres_pure h.pre _

theorem ApiAt.mvalues (o : Oid) : Pres R (mvalues E o) :=
  pres_bind h.pre (h.iter o) fun _ =>
    pres_bind h.pre (pres_forM' h.pre (h.getitem o) _) fun _ =>
      pres_bind h.pre (pres_endIter h.pre _) fun _ => pres_pure h.pre _

theorem ApiAt.delPrims (o : Oid) (ht : T o) : DelPrims E R o where
  pre := h.pre
  getitem := h.getitem
  iter := h.iter
  delEnd := h.delEnd o ht
  nsDrop := h.nsDrop o ht
  cacheDrop k := h.steps.cacheDrop o k
  unindex us := h.unindex o us
  notify e := h.notify e

theorem ApiAt.delitem (o : Oid) (ht : T o) (k : Key) : Pres R (delitem E o k) := (h.delPrims o ht).delitem k

theorem ApiAt.indexNodes (n : Nat) (o : Oid) : Pres R (indexNodes E n o) := by
  have hR := h.pre
  induction n generalizing o with
  | zero => exact pres_raise hR _
  | succ n ih =>
    refine pres_bind hR (h.mvalues o) fun vs => pres_forU hR (fun v => ?_) vs
    unfold indexNodesStep
    split
    · exact pres_pure hR _
    · rename_i c
      intro w
      simp only [M.bind_apply, M.getW_apply]
      split
      · cases hu : (w.objs c).uuid with
        | none => exact hR.refl w
        | some u =>
          have hp := h.indexPut o c u w hu
          simp only [Verif.indexPut, M.bind_apply] at hp ⊢
          rcases hi : indexRef o w with ⟨e | i, w1⟩
          · rw [hi] at hp; exact hp
          · rw [hi] at hp
            refine hR.trans hp ?_
            show R _ ((if (bhvsOf E w c).contains .reference = true
              then Verif.indexNodes E n c else M.raise .attr) _).2
            exact pres_ite hR (ih c) (pres_raise hR _) _
      · exact hR.refl w

theorem ApiAt.referenceDetach (v : Val) : Pres R (referenceDetach E v) := by
  have hR := h.pre
  unfold Verif.referenceDetach
  split
  · exact pres_raise hR _
  · rename_i c
    intro w
    simp only [M.bind_apply, M.getW_apply]
    split
    · cases hu : (w.objs c).uuid with
      | none => exact hR.refl w
      | some u =>
        refine hR.trans (h.indexOwn c u w hu) ?_
        show R _ ((if (bhvsOf E w c).contains .reference = true
          then Verif.indexNodes E (w.nobj + 1) c else M.raise .attr) _).2
        exact pres_ite hR (h.indexNodes _ _) (pres_raise hR _) _
    · exact hR.refl w

theorem ApiAt.detachPipe (bs : List Bhv) (o : Oid) (ht : T o) (k : Key) :
    Pres R (detachPipe E bs o k) := by
  have hR := h.pre
  induction bs with
  | nil =>
    exact pres_bind hR (h.getitem o k) fun _ =>
      pres_bind hR (h.delitem o ht k) fun _ => pres_pure hR _
  | cons b r ih =>
    cases b
    case reference =>
      exact pres_bind hR ih fun v =>
        pres_bind hR (h.referenceDetach v) fun _ => pres_pure hR _
    case lifecycle =>
      refine pres_bind hR (h.suppress o _) fun _ => ?_
      refine pres_bind hR ih fun v => ?_
      refine pres_bind hR (h.suppress o _) fun _ => ?_
      exact pres_bind hR (h.notify _) fun _ => pres_pure hR _
    all_goals exact ih

theorem ApiAt.detach (o : Oid) (ht : T o) (k : Key) : Pres R (detach E o k) := fun w =>
  h.detachPipe _ o ht k w

theorem ApiAt.invalidatePipe (all bs : List Bhv) (o : Oid) (ht : T o) (k : Key) :
    Pres R (invalidatePipe E all bs o k) := by
  have hR := h.pre
  induction bs generalizing k with
  | nil =>
    unfold Verif.invalidatePipe
    split
    · unfold invalidateDel
      refine pres_ite hR ?_ (h.delitem o ht k)
      exact pres_bind hR (h.mkeys o) fun ks => pres_forU hR (h.delitem o ht) ks
    · exact h.volatile o ht k
    · exact pres_raise hR _
  | cons b r ih =>
    cases b
    case cache =>
      show Pres R (if k = .none then _ else _)
      refine pres_ite hR ?_ ?_
      · refine pres_bind hR (h.steps.cacheRef o) fun c => ?_
        refine pres_bind hR (pres_getW hR) fun w => ?_
        exact pres_bind hR (h.steps.cacheWipe c) fun _ => ih _
      · exact pres_bind hR (h.steps.cacheDrop o k) fun _ => ih k
    all_goals exact ih k

theorem ApiAt.validateInsertion (o n : Oid) : Pres R (validateInsertion E o n) := by
  have hR := h.pre
  refine pres_bind hR (pres_getW hR) fun w => ?_
  refine pres_ite hR (pres_raise hR _) ?_
  refine pres_ite hR ?_ (pres_ite hR (pres_raise hR _) (pres_pure hR _))
  refine pres_ite hR ?_ (pres_raise hR _)
  split
  · exact pres_raise hR _
  · refine pres_bind hR (pres_of_id hR (indexRef_id _)) fun i => ?_
    exact pres_ite hR (pres_raise hR _) (pres_pure hR _)

theorem ApiAt.insertAt (before : Bool) (o : Oid) (ht : T o) (n ref : Oid) (hv : V (.node n)) : Pres R (insertAt E before o n ref) :=
  pres_bind h.pre (h.validateInsertion o n) fun _ =>
    pres_bind h.pre (pres_getW h.pre) fun _ =>
      pres_bind h.pre (h.insert _ _ ht _ _ _) fun _ => h.setitem _ ht _ _ hv

theorem ApiAt.insertEnd (first : Bool) (o : Oid) (ht : T o) (n : Oid) (hv : V (.node n)) : Pres R (insertEnd E first o n) := by
  have hR := h.pre
  refine pres_bind hR (h.mkeys o) fun ks => ?_
  split
  · exact pres_bind hR (pres_getW hR) fun _ => h.setitem _ ht _ _ hv
  · refine pres_bind hR (h.getitem _ _) fun v => ?_
    split
    · exact h.insertAt _ _ ht _ _ hv
    · exact pres_bind hR (h.validateInsertion o n) fun _ => pres_raise hR _

/-- Every operation of the API on such nodes, apart from assigning a uuid. -/
theorem ApiAt.exec (op : Op) (ht : ∀ o, op.writes = some o → T o) (hv : ∀ v ∈ op.given, V v)
    (hu : ∀ o u, op = .setUuid o u → Pres R (setUuidRef o u)) :
    Pres R (exec E op) := by
  have hR := h.pre
  have hr : ∀ {α : Type} {m : M α} (f : α → Res), Pres R m →
      Pres R (do let x ← m; pure (f x)) := fun f h =>
    pres_bind hR h fun _ => pres_pure hR _
  cases op
  case new c n p => exact hr _ (h.newNode c n p)
  case get o k => exact hr _ (h.getitem o k)
  case set o k v => exact hr (fun _ => .unit) (h.setitem o (ht o rfl) k v (hv v List.mem_cons_self))
  case del o k => exact hr (fun _ => .unit) (h.delitem o (ht o rfl) k)
  case getD o k d =>
    exact hr _ (pres_catchIf hR (h.getitem o k) fun _ => pres_pure hR _)
  case contains o k =>
    exact hr _ (pres_catchIf hR (pres_bind hR (h.getitem o k) fun _ =>
      pres_pure hR _) fun _ => pres_pure hR _)
  case keys o => exact hr _ (h.mkeys o)
  case values o => exact hr _ (h.mvalues o)
  case items o =>
    exact hr _ (pres_bind hR (h.iter o) fun _ =>
      pres_bind hR (pres_forM' hR (fun k => pres_bind hR (h.getitem o k)
        fun _ => pres_pure hR _) _) fun _ =>
        pres_bind hR (pres_endIter hR _) fun _ => pres_pure hR _)
  case len o => exact hr _ (pres_bind hR (h.mkeys o) fun _ => pres_pure hR _)
  case setdefault o k v =>
    exact hr _ (pres_catchIf hR (h.getitem o k) fun _ =>
      pres_bind hR (h.setitem o (ht o rfl) k v (hv v List.mem_cons_self)) fun _ => pres_pure hR _)
  case pop o k d =>
    refine hr _ (pres_catchIf hR (pres_bind hR (h.getitem o k) fun _ =>
      pres_bind hR (h.delitem o (ht o rfl) k) fun _ => pres_pure hR _) fun e => ?_)
    split
    · exact pres_raise hR _
    · exact pres_pure hR _
  case popitem o =>
    refine hr (fun kv : Key × Val => .item kv.1 kv.2) (pres_bind hR (h.mkeys o) fun ks => ?_)
    split
    · exact pres_raise hR _
    · exact pres_bind hR (h.getitem o _) fun _ =>
        pres_bind hR (h.delitem o (ht o rfl) _) fun _ => pres_pure hR _
  case update o kvs =>
    refine hr (fun _ => .unit) ?_
    show Pres R (mupdate E o kvs)
    unfold mupdate
    have hs : ∀ kv ∈ kvs, Pres R (Verif.setitem E o kv.1 kv.2) := fun kv hm =>
      h.setitem o (ht o rfl) kv.1 kv.2 (hv kv.2 (List.mem_map_of_mem hm))
    clear hv ht hu
    induction kvs with
    | nil => exact pres_pure hR _
    | cons kv r ih =>
      exact pres_bind hR (hs kv List.mem_cons_self) fun _ => ih fun x hx => hs x (List.mem_cons_of_mem _ hx)
  case clear o =>
    exact hr (fun _ => .unit) (pres_bind hR (h.mkeys o) fun ks =>
      pres_forU hR (h.delitem o (ht o rfl)) ks)
  case detach o k => exact hr _ (h.detach o (ht o rfl) k)
  case invalidate o k =>
    exact hr (fun _ => .unit) fun w => h.invalidatePipe _ _ o (ht o rfl) k w
  case insertBefore o n r => exact hr (fun _ => .unit) (h.insertAt _ o (ht o rfl) n r (hv _ List.mem_cons_self))
  case insertAfter o n r => exact hr (fun _ => .unit) (h.insertAt _ o (ht o rfl) n r (hv _ List.mem_cons_self))
  case insertFirst o n => exact hr (fun _ => .unit) (h.insertEnd _ o (ht o rfl) n (hv _ List.mem_cons_self))
  case insertLast o n => exact hr (fun _ => .unit) (h.insertEnd _ o (ht o rfl) n (hv _ List.mem_cons_self))
  case swap o a b => exact hr (fun _ => .unit) (h.swap o (ht o rfl) a b)
  case attrs o => exact hr (fun a => .val (.node a)) (h.attrs o (ht o rfl))
  case setUuid o u => exact hr (fun _ => .unit) (hu o u rfl)
  case setFallbackKey o k =>
    exact hr (fun _ => .unit) (h.fallbackKey o k)

end

theorem ApiAt.execAll {E : Env} {T : Oid → Prop} {V : Val → Prop} {R : World → World → Prop} (h : ApiAt E T V R)
    (hu : ∀ o u, Pres R (setUuidRef o u)) {ops : List Op} (ht : ∀ op ∈ ops, ∀ o, op.writes = some o → T o)
    (hv : ∀ op ∈ ops, ∀ v ∈ op.given, V v) (w : World) :
    R w (execAll E ops w).2 := by
  induction ops generalizing w with
  | nil => exact h.pre.refl w
  | cons op r ih =>
    exact h.pre.trans (h.exec op (ht op List.mem_cons_self) (hv op List.mem_cons_self) (fun o u _ => hu o u) w)
      (ih (fun op hm => ht op (List.mem_cons_of_mem _ hm)) (fun op hm => hv op (List.mem_cons_of_mem _ hm)) _)

theorem ApiFine.attrs {E : Env} {R : World → World → Prop} (h : ApiFine E R) (o : Oid) : Pres R (attrs E o) := by
  have hR := h.pre
  refine pres_bind hR (pres_getW hR) fun w => ?_
  refine pres_ite hR ?_ (pres_raise hR _)
  refine pres_bind hR (h.steps.spaceRef o) fun r => ?_
  refine pres_bind hR (pres_getW hR) fun w => ?_
  split
  · exact pres_pure hR _
  · exact pres_raise hR _
  · refine pres_bind hR (h.newNode _ _ _) fun a => ?_
    exact pres_bind hR (h.attrsPut r a) fun _ => pres_pure hR _

theorem ApiFine.everywhere {E : Env} {R : World → World → Prop} (h : ApiFine E R) : ApiAt E (fun _ => True) (fun _ => True) R where
  pre := h.pre
  steps := h.steps
  fbGuard := h.fbGuard
  make o _ _ := .inl (pres_makeAt h.pre h.newNode (h.setitem o))
  setitem o _ k v _ := h.setitem o k v
  delEnd o _ := h.delEnd o
  nsDrop o _ := h.nsDrop o
  attrs o _ := h.attrs o
  insert b o _ := h.insert b o
  swap o _ := h.swap o
  volatile o _ := h.volatile o
  newNode := h.newNode
  notify := h.notify
  unindex := h.unindex
  indexPut := h.indexPut
  indexOwn := h.indexOwn
  suppress := h.suppress
  fallbackKey := h.fallbackKey

/-- Every operation of the API, apart from assigning a uuid. -/
theorem ApiFine.exec {E : Env} {R : World → World → Prop} (h : ApiFine E R) (op : Op)
    (hu : ∀ o u, op = .setUuid o u → Pres R (setUuidRef o u)) : Pres R (exec E op) :=
  h.everywhere.exec op (fun _ _ => trivial) (fun _ _ => trivial) hu

theorem ApiBase.exec {E : Env} {R : World → World → Prop} (h : ApiBase E R) (op : Op) :
    Pres R (exec E op) :=
  h.fine.exec op fun o u _ w => h.hidden _ _ (hidden_setUuidRef o u w)

theorem ApiBase.execAll {E : Env} {R : World → World → Prop} (h : ApiBase E R) (ops : List Op) (w : World) :
    R w (execAll E ops w).2 := by
  induction ops generalizing w with
  | nil => exact h.pre.refl w
  | cons op r ih => exact h.pre.trans (h.exec op w) (ih _)

theorem ApiPrims.exec {E : Env} {R : World → World → Prop} (h : ApiPrims E R) (op : Op) :
    Pres R (exec E op) := h.base.exec op

theorem ApiPrims.execAll {E : Env} {R : World → World → Prop} (h : ApiPrims E R) (ops : List Op)
    (w : World) : R w (execAll E ops w).2 := h.base.execAll ops w

end Verif
