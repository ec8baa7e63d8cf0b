import Verif.Lemmas.Read
import Verif.Lemmas.OMap

/-! What `node[k] = v` leaves alone, for every stack. -/

namespace Verif

/-- Attributes no assignment touches, and well-formedness. -/
structure Keep (w w' : World) : Prop where
  cls : ∀ o, (w'.objs o).cls = (w.objs o).cls
  uuid : ∀ o, (w'.objs o).uuid = (w.objs o).uuid
  suppress : ∀ o, (w'.objs o).suppress = (w.objs o).suppress
  fixed : ∀ o, (w'.objs o).fixed = (w.objs o).fixed
  nobj : w'.nobj = w.nobj
  nuuid : w'.nuuid = w.nuuid
  nidx : w'.nidx = w.nidx
  wf : WF w → WF w'

theorem Keep.refl (w : World) : Keep w w :=
  ⟨fun _ => rfl, fun _ => rfl, fun _ => rfl, fun _ => rfl, rfl, rfl, rfl, fun h => h⟩

theorem Keep.trans {a b c : World} (h : Keep a b) (h' : Keep b c) : Keep a c :=
  ⟨fun o => (h'.cls o).trans (h.cls o), fun o => (h'.uuid o).trans (h.uuid o),
   fun o => (h'.suppress o).trans (h.suppress o), fun o => (h'.fixed o).trans (h.fixed o),
   h'.nobj.trans h.nobj, h'.nuuid.trans h.nuuid, h'.nidx.trans h.nidx, fun x => h'.wf (h.wf x)⟩

theorem keep_pre : PreR Keep := ⟨Keep.refl, Keep.trans⟩

theorem keep_storageRef (E : Env) (o : Oid) : Pres Keep (storageRef E o) := by
  intro w
  have hq := storageRef_quiet E o w
  refine ⟨?_, ?_, ?_, ?_, ?_, ?_, ?_, fun h => (hq h).1⟩
  all_goals
    unfold storageRef
    split
    · intros; rfl
    · intros; rfl
    · split
      · intros; rfl
      · first
        | rfl
        | (intro p; dsimp only; by_cases hp : p = o
           · subst hp; simp
           · simp [upd, hp])

theorem keep_cacheRef (o : Oid) : Pres Keep (cacheRef o) := by
  intro w
  have hq := cacheRef_quiet o w
  refine ⟨?_, ?_, ?_, ?_, ?_, ?_, ?_, fun h => (hq h).1⟩
  all_goals
    unfold cacheRef
    split
    · intros; rfl
    · first
      | rfl
      | (intro p; dsimp only; by_cases hp : p = o
         · subst hp; simp
         · simp [upd, hp])

theorem keep_nodespacesRef (o : Oid) : Pres Keep (nodespacesRef o) := by
  intro w
  have hq := nodespacesRef_quiet o w
  refine ⟨?_, ?_, ?_, ?_, ?_, ?_, ?_, fun h => (hq h).1⟩
  all_goals
    unfold nodespacesRef
    split
    · intros; rfl
    · first
      | rfl
      | (intro p; dsimp only; by_cases hp : p = o
         · subst hp; simp
         · simp [upd, hp])

theorem keep_iterEnd (E : Env) (o : Oid) : Pres Keep (iterEnd E o) := by
  intro w
  unfold iterEnd
  dsimp only
  split
  · exact Keep.refl w
  · split
    · exact Keep.refl w
    · have := keep_storageRef E o w
      split
      · rename_i h; rw [h] at this; exact this
      · rename_i h; rw [h] at this; exact this
    · exact Keep.refl w

theorem keep_iter (E : Env) (o : Oid) : Pres Keep (iter E o) := by
  intro w
  show Keep w (iterPipe E (bhvsOf E w o) o w).2
  generalize bhvsOf E w o = bs
  suffices h : Pres Keep (iterPipe E bs o) from h w
  induction bs with
  | nil => exact keep_iterEnd E o
  | cons b r ih =>
    cases b <;> first
      | exact ih
      | exact pres_bind keep_pre ih fun _ => pres_bind keep_pre (pres_getW keep_pre) fun _ =>
          pres_pure keep_pre _

/-- Writing name, parent or index. -/
theorem keep_modO (o : Oid) (f : Obj → Obj) (h1 : ∀ b, (f b).cls = b.cls)
    (h2 : ∀ b, (f b).uuid = b.uuid) (h3 : ∀ b, (f b).suppress = b.suppress)
    (h4 : ∀ b, (f b).fixed = b.fixed) (hs : ∀ b, (f b).storage = b.storage)
    (hc : ∀ b, (f b).cache = b.cache) (hn : ∀ b, (f b).nodespaces = b.nodespaces)
    (hi : ∀ b, (f b).index = b.index) : Pres Keep (modO o f) := by
  intro w
  refine ⟨fun p => proj_upd Obj.cls w.objs o _ (h1 _) p, fun p => proj_upd Obj.uuid w.objs o _ (h2 _) p,
    fun p => proj_upd Obj.suppress w.objs o _ (h3 _) p, fun p => proj_upd Obj.fixed w.objs o _ (h4 _) p,
    rfl, rfl, rfl, fun hw => hw.modO o f (hs _) (hc _) (hn _) fun r hr => hw.iLt ((hi _).symm.trans hr)⟩

theorem keep_setName (o : Oid) (k : Key) : Pres Keep (modO o fun ob => { ob with name := k }) :=
  keep_modO o _ (fun _ => rfl) (fun _ => rfl) (fun _ => rfl) (fun _ => rfl) (fun _ => rfl)
    (fun _ => rfl) (fun _ => rfl) (fun _ => rfl)

theorem keep_setParent (o : Oid) (p : Option Oid) :
    Pres Keep (modO o fun ob => { ob with parent := p }) :=
  keep_modO o _ (fun _ => rfl) (fun _ => rfl) (fun _ => rfl) (fun _ => rfl) (fun _ => rfl)
    (fun _ => rfl) (fun _ => rfl) (fun _ => rfl)

theorem keep_setStores (r : Ref) (f : World → Od Key Val) (hf : ∀ w, WF w → (f w).keys.Nodup) :
    Pres Keep (M.modifyW fun w => { w with stores := upd w.stores r (f w) }) := fun w =>
  ⟨fun _ => rfl, fun _ => rfl, fun _ => rfl, fun _ => rfl, rfl, rfl, rfl,
   fun hw => hw.setStore r (hf w hw)⟩

theorem keep_setCaches (r : Ref) (f : World → Od Key Val) (hf : ∀ w, WF w → (f w).keys.Nodup) :
    Pres Keep (M.modifyW fun w => { w with caches := upd w.caches r (f w) }) := fun w =>
  ⟨fun _ => rfl, fun _ => rfl, fun _ => rfl, fun _ => rfl, rfl, rfl, rfl,
   fun hw => hw.setCache r (hf w hw)⟩

theorem keep_setNspaces (r : Ref) (f : World → Od Key Val) (hf : ∀ w, WF w → (f w).keys.Nodup) :
    Pres Keep (M.modifyW fun w => { w with nspaces := upd w.nspaces r (f w) }) := fun w =>
  ⟨fun _ => rfl, fun _ => rfl, fun _ => rfl, fun _ => rfl, rfl, rfl, rfl,
   fun hw => hw.setNspace r (hf w hw)⟩

theorem keep_setIdxs (r : Ref) (f : World → Od (Option Nat) Oid)
    (hf : ∀ w, WF w → (f w).keys.Nodup) :
    Pres Keep (M.modifyW fun w => { w with idxs := upd w.idxs r (f w) }) := fun w =>
  ⟨fun _ => rfl, fun _ => rfl, fun _ => rfl, fun _ => rfl, rfl, rfl, rfl,
   fun hw => hw.setIdx r (hf w hw)⟩

theorem keep_notify (e : Event) : Pres Keep (notify e) := fun _ =>
  ⟨fun _ => rfl, fun _ => rfl, fun _ => rfl, fun _ => rfl, rfl, rfl, rfl, fun hw => hw.setLog _⟩

theorem keep_notifyModified (E : Env) (o : Oid) : Pres Keep (notifyModified E o) := by
  refine pres_bind keep_pre (pres_getW keep_pre) fun w => ?_
  split
  · exact pres_raise keep_pre _
  · split
    · split
      · exact pres_pure keep_pre _
      · exact keep_notify _
    · exact pres_raise keep_pre _

theorem keep_cacheDrop (o : Oid) (k : Key) : Pres Keep (cacheDrop o k) :=
  pres_bind keep_pre (keep_cacheRef o) fun r =>
    keep_setCaches r (fun w => (w.caches r).del k) fun _ hw => Od.nodup_keys_del (hw.cNd r) k

/-- `val._index = self._index`. -/
theorem keep_setIndex (c : Oid) (si : Ref) (w : World) (h : WF w → si < w.nidx) :
    Keep w (modO c (fun ob => { ob with index := some si }) w).2 :=
  ⟨fun p => proj_upd Obj.cls w.objs c _ (by rfl) p, fun p => proj_upd Obj.uuid w.objs c _ (by rfl) p,
   fun p => proj_upd Obj.suppress w.objs c _ (by rfl) p, fun p => proj_upd Obj.fixed w.objs c _ (by rfl) p,
   rfl, rfl, rfl, fun hw => hw.modO c (fun ob => { ob with index := some si }) rfl rfl rfl fun r hr => by
     injection hr with hr; subst hr; exact h hw⟩

theorem indexRef_ok {o r : Nat} {w w' : World} (h : indexRef o w = (.ok r, w')) :
    w' = w ∧ (w.objs o).index = some r := by
  unfold indexRef at h
  split at h
  · rename_i hs; injection h with h1 h2; injection h1 with h1; subst h1; exact ⟨h2.symm, hs⟩
  · simp at h

theorem keep_referenceMerge (o c : Oid) : Pres Keep (referenceMerge o c) := by
  intro w
  simp only [referenceMerge, M.bind_apply]
  rcases h : indexRef o w with ⟨_ | si, w1⟩
  · have := indexRef_id o w; rw [h] at this; simp only at this; subst this; exact Keep.refl _
  · obtain ⟨e1, hsi⟩ := indexRef_ok h
    subst e1
    simp only
    rcases h2 : indexRef c w1 with ⟨_ | vi, w2⟩
    · have := indexRef_id c w1; rw [h2] at this; simp only at this; subst this; exact Keep.refl _
    · obtain ⟨e2, hvi⟩ := indexRef_ok h2
      subst e2
      simp only [M.modifyW_apply]
      refine Keep.trans (keep_setIdxs si (fun w => (w.idxs si).update (w.idxs vi))
        (fun w hw => Od.nodup_keys_update (hw.iNd si)) w2) ?_
      exact keep_setIndex c si _ fun hw => hw.iLt (o := o) hsi

theorem keep_referenceCheck (E : Env) (o c : Oid) : Pres Keep (referenceCheck E o c) := by
  refine pres_bind keep_pre (keep_iter E c) fun it => ?_
  split
  · exact pres_pure keep_pre _
  · exact pres_raise keep_pre _
  · refine pres_bind keep_pre (pres_of_id keep_pre (indexRef_id _)) fun _ => ?_
    refine pres_bind keep_pre (pres_of_id keep_pre (indexRef_id _)) fun _ => ?_
    refine pres_bind keep_pre (pres_getW keep_pre) fun _ => ?_
    exact pres_ite keep_pre (pres_raise keep_pre _) (pres_pure keep_pre _)

theorem keep_setEnd (E : Env) (o : Oid) (k : Key) (v : Val) : Pres Keep (setEnd E o k v) := by
  refine pres_bind keep_pre (pres_getW keep_pre) fun w => ?_
  refine pres_ite keep_pre (pres_raise keep_pre _) ?_
  refine pres_ite keep_pre ?_ (pres_raise keep_pre _)
  exact pres_bind keep_pre (keep_storageRef E o) fun r =>
    keep_setStores r (fun w => (w.stores r).set k v) fun _ hw => Od.nodup_keys_set (hw.sNd r) k v

theorem keep_nodespacesSet {next : Key → Val → M Unit} (hn : ∀ k v, Pres Keep (next k v))
    (o : Oid) (k : Key) (v : Val) : Pres Keep (nodespacesSet next o k v) := by
  have hns : Pres Keep (do
      let r ← nodespacesRef o
      M.modifyW fun w => { w with nspaces := upd w.nspaces r ((w.nspaces r).set k v) }) :=
    pres_bind keep_pre (keep_nodespacesRef o) fun r =>
      keep_setNspaces r (fun w => (w.nspaces r).set k v) fun _ hw => Od.nodup_keys_set (hw.nNd r) _ _
  unfold nodespacesSet
  split
  · split
    · split
      · exact pres_bind keep_pre (keep_setName _ _) fun _ =>
          pres_bind keep_pre (keep_setParent _ _) fun _ => hns
      · exact hns
      · exact hns
      · exact pres_raise keep_pre _
    · exact hn _ _
  · exact pres_raise keep_pre _

theorem keep_adoptSet {next : Key → Val → M Unit} (hn : ∀ k v, Pres Keep (next k v))
    (o : Oid) (k : Key) (v : Val) : Pres Keep (adoptSet next o k v) := by
  unfold adoptSet
  split
  · exact hn _ _
  · refine pres_bind keep_pre (pres_getO keep_pre _) fun old => ?_
    refine pres_bind keep_pre (keep_setName _ _) fun _ => ?_
    refine pres_bind keep_pre (keep_setParent _ _) fun _ => ?_
    refine pres_catchIf keep_pre (hn _ _) fun e => ?_
    exact pres_bind keep_pre (keep_setName _ _) fun _ =>
      pres_bind keep_pre (keep_setParent _ _) fun _ => pres_raise keep_pre _

theorem keep_setPipe (E : Env) (bs : List Bhv) (o : Oid) (k : Key) (v : Val) :
    Pres Keep (setPipe E bs o k v) := by
  induction bs generalizing k v with
  | nil => exact keep_setEnd E o k v
  | cons b r ih =>
    cases b
    case nodeChildValidate =>
      refine pres_bind keep_pre (pres_getW keep_pre) fun w => ?_
      exact pres_ite keep_pre (pres_raise keep_pre _)
        (pres_ite keep_pre (pres_raise keep_pre _) (ih k v))
    case nodespaces => exact keep_nodespacesSet ih o k v
    case adopt => exact keep_adoptSet ih o k v
    case reference =>
      show Pres Keep (referenceSet E (setPipe E r o) o k v)
      cases v with
      | data d => exact ih k _
      | node c =>
        exact pres_bind keep_pre (keep_referenceCheck E o c) fun _ =>
          pres_bind keep_pre (keep_referenceMerge o c) fun _ => ih k _
    case lifecycle =>
      refine pres_bind keep_pre (ih k v) fun _ => ?_
      refine pres_bind keep_pre (pres_getO keep_pre _) fun ob => ?_
      exact pres_ite keep_pre (pres_pure keep_pre _) (keep_notify _)
    case attributesLifecycle =>
      exact pres_bind keep_pre (ih k v) fun _ => keep_notifyModified E o
    case cache => exact pres_bind keep_pre (keep_cacheDrop o k) fun _ => ih k v
    case alias =>
      exact pres_bind keep_pre (pres_of_id keep_pre (unaliasKey_id E o k)) fun u =>
        pres_catchIf keep_pre (ih u v) fun _ => pres_raise keep_pre _
    all_goals exact ih k v

theorem keep_setitem (E : Env) (o : Oid) (k : Key) (v : Val) : Pres Keep (setitem E o k v) :=
  fun w => keep_setPipe E _ o k v w

end Verif
