import Verif.Lemmas.ApiGeneric
import Verif.Lemmas.DelOutcome

/-! Invariants that speak about class and children of each node separately. -/

namespace Verif

/-- `J` holds of class and children of every node. -/
def ChI (E : Env) (J : ClassDef → Od Key Val → Prop) (w : World) : Prop :=
  ∀ p, J (clsOf E w p) (w.children p)

/-- `J` is respected by removing, ordering and inserting nodes. -/
structure ChRules (E : Env) (J : ClassDef → Od Key Val → Prop) : Prop where
  nil : ∀ c, J c []
  del : ∀ c d k, J c d → J c (d.del k)
  before : ∀ c d r k n, J c d → J c (d.insertBefore r k (.node n))
  after : ∀ c d r k n, J c d → J c (d.insertAfter r k (.node n))
  swap : ∀ c d a b, J c d → J c (d.swap a b)
  set : ∀ o k v w, WF w → ChI E J w → ChI E J (setitem E o k v w).2

/-- Well-formedness and `J` are kept. -/
def ChR (E : Env) (J : ClassDef → Od Key Val → Prop) (w w' : World) : Prop :=
  WF w → WF w' ∧ (ChI E J w → ChI E J w')

theorem ChI.of_same {E : Env} {J : ClassDef → Od Key Val → Prop} {w w' : World}
    (hc : ∀ p, w'.children p = w.children p) (hk : ∀ p, (w'.objs p).cls = (w.objs p).cls)
    (h : ChI E J w) : ChI E J w' := fun p => by
  have := h p
  simp only [clsOf] at this ⊢
  rw [hc p, hk p]; exact this

section
variable {E : Env} {J : ClassDef → Od Key Val → Prop}

theorem chr_pre : PreR (ChR E J) :=
  ⟨fun _ hw => ⟨hw, id⟩, fun h h' hw =>
    ⟨(h' (h hw).1).1, fun x => (h' (h hw).1).2 ((h hw).2 x)⟩⟩

/-- Replacing the contents of the storage of `o`. -/
theorem ChI.setStore {w : World} (hw : WF w) {o r : Nat} (hr : (w.objs o).storage = some r)
    {d : Od Key Val} (hd : J (clsOf E w o) (w.children o) → J (clsOf E w o) d) (h : ChI E J w) :
    ChI E J { w with stores := upd w.stores r d } := by
  intro p
  have hc : clsOf E { w with stores := upd w.stores r d } p = clsOf E w p := rfl
  rw [hc, children_setStore hw hr]
  split
  · rename_i e; subst e; exact hd (h p)
  · exact h p

theorem chr_quiet {w w' : World} (h : Quiet w w') : ChR E J w w' := fun hw =>
  ⟨(h hw).1, fun x => x.of_same (h hw).2.children fun p => ((h hw).2.obj p).cls⟩

theorem chr_hidden {w w' : World} (h : Hidden w w') : ChR E J w w' := fun hw =>
  ⟨h.wf hw, fun x => x.of_same h.children h.cls⟩

theorem chr_modO (o : Oid) (f : Obj → Obj) (h1 : ∀ b, (f b).cls = b.cls)
    (hs : ∀ b, (f b).storage = b.storage) (hc : ∀ b, (f b).cache = b.cache)
    (hn : ∀ b, (f b).nodespaces = b.nodespaces) (hi : ∀ b, (f b).index = b.index) :
    Pres (ChR E J) (modO o f) := fun w hw =>
  ⟨hw.modO o f (hs _) (hc _) (hn _) fun r hr => hw.iLt ((hi _).symm.trans hr),
   fun x => x.of_same (children_modO o f (hs _)) fun p => proj_upd Obj.cls w.objs o _ (h1 _) p⟩

/-- An existing storage stays the storage. -/
def StoKeep (w w' : World) : Prop :=
  ∀ o r, (w.objs o).storage = some r → (w'.objs o).storage = some r

theorem stoKeep_pre : PreR StoKeep := ⟨fun _ _ _ h => h, fun h h' o r x => h' o r (h o r x)⟩

theorem stoKeep_storageRef (E : Env) (o : Oid) : Pres StoKeep (storageRef E o) := by
  intro w
  unfold storageRef
  split
  · exact stoKeep_pre.refl w
  · exact stoKeep_pre.refl w
  · split
    · exact stoKeep_pre.refl w
    · rename_i hs
      intro p r hp
      by_cases e : p = o
      · subst e; rw [hs] at hp; cases hp
      · simp only [upd, e, if_false]; exact hp

theorem stoKeep_iter (E : Env) (o : Oid) : Pres StoKeep (iter E o) := by
  suffices h : ∀ bs, Pres StoKeep (iterPipe E bs o) from fun w => h _ w
  intro bs
  induction bs with
  | nil =>
    intro w
    simp only [iterPipe, iterEnd]
    split
    · exact stoKeep_pre.refl w
    · split
      · exact stoKeep_pre.refl w
      · have := stoKeep_storageRef E o w
        split
        · rename_i h; rw [h] at this; exact this
        · rename_i h; rw [h] at this; exact this
      · exact stoKeep_pre.refl w
  | cons b r ih =>
    cases b <;> first
      | exact ih
      | exact pres_bind stoKeep_pre ih fun _ => pres_bind stoKeep_pre (pres_getW stoKeep_pre)
          fun _ => pres_pure stoKeep_pre _

theorem stoKeep_mkeys (E : Env) (o : Oid) : Pres StoKeep (mkeys E o) :=
  pres_bind stoKeep_pre (stoKeep_iter E o) fun _ =>
    pres_bind stoKeep_pre (pres_endIter stoKeep_pre _) fun _ => pres_pure stoKeep_pre _

theorem ChRules.prims (h : ChRules E J) : ApiPrims E (ChR E J) where
  pre := chr_pre
  quiet _ _ := chr_quiet
  hidden _ _ := chr_hidden
  setitem o k v w hw := ⟨(setitem_out E o k v hw).wf, h.set o k v w hw⟩
  delEnd o k := by
    intro w hw
    have hq := storageRef_quiet E o w hw
    simp only [delEnd, M.bind_apply, M.getW_apply]
    split
    · exact ⟨hw, id⟩
    · split
      · simp only [M.bind_apply]
        rcases hr : storageRef E o w with ⟨e | r, w1⟩
        · rw [hr] at hq; exact chr_quiet (fun _ => hq) hw
        · rw [hr] at hq
          have hs := storageRef_ok hr
          have hc := chr_quiet (E := E) (J := J) (fun _ => hq) hw
          simp only [M.getW_apply]
          split
          · refine ⟨hc.1.setStore r (Od.nodup_keys_del (hc.1.sNd r) _), fun x => ?_⟩
            refine (hc.2 x).setStore hc.1 hs fun hj => ?_
            rw [children_eq hs] at hj
            exact h.del _ _ k hj
          · exact hc
      · exact ⟨hw, id⟩
  nsDrop o k := by
    refine pres_bind chr_pre (fun w => chr_quiet (nodespacesRef_quiet o w)) fun r => ?_
    refine pres_bind chr_pre (pres_getW chr_pre) fun w => ?_
    refine pres_ite chr_pre (fun w hw => ?_) (pres_raise chr_pre _)
    exact ⟨hw.setNspace r (Od.nodup_keys_del (hw.nNd r) _), fun x => x.of_same (fun _ => rfl) fun _ => rfl⟩
  attrsPut r a := fun w hw =>
    ⟨hw.setNspace r (Od.nodup_keys_set (hw.nNd r) _ _), fun x => x.of_same (fun _ => rfl) fun _ => rfl⟩
  insert b o ref new c := by
    intro w hw
    have hg := grow_storageInsert E b o ref new (.node c) w
    refine ⟨hg.wf hw, fun x => ?_⟩
    clear hg
    have hq := storageRef_quiet E o w hw
    simp only [storageInsert, M.bind_apply, M.getW_apply]
    rcases hr : storageRef E o w with ⟨e | r, w1⟩
    · rw [hr] at hq; exact (chr_quiet (fun _ => hq) hw).2 x
    · rw [hr] at hq
      have hs := storageRef_ok hr
      have hc := chr_quiet (E := E) (J := J) (fun _ => hq) hw
      simp only
      split
      · split
        · split
          · exact hc.2 x
          · refine (hc.2 x).setStore hc.1 hs fun hj => ?_
            rw [children_eq hs] at hj
            split
            · exact h.before _ _ _ _ _ hj
            · exact h.after _ _ _ _ _ hj
        · exact hc.2 x
      · exact hc.2 x
  swap o a b := by
    intro w hw
    have hg := grow_swapNodes E o a b w
    refine ⟨hg.wf hw, fun x => ?_⟩
    clear hg
    have hq := storageRef_quiet E o w hw
    simp only [swapNodes, M.bind_apply, M.getW_apply]
    rcases hr : storageRef E o w with ⟨e | r, w1⟩
    · rw [hr] at hq; exact (chr_quiet (fun _ => hq) hw).2 x
    · rw [hr] at hq
      have hs := storageRef_ok hr
      have hc := chr_quiet (E := E) (J := J) (fun _ => hq) hw
      simp only
      split
      · split
        · exact hc.2 x
        · split
          · split
            · refine (hc.2 x).setStore hc.1 hs fun hj => ?_
              rw [children_eq hs] at hj
              exact h.swap _ _ _ _ hj
            · exact hc.2 x
          · exact hc.2 x
      · exact hc.2 x
  volatile o k := by
    intro w hw
    have hq := storageRef_quiet E o w hw
    simp only [invalidateVolatile, M.bind_apply]
    rcases hr : storageRef E o w with ⟨e | r, w1⟩
    · rw [hr] at hq; exact chr_quiet (fun _ => hq) hw
    · rw [hr] at hq
      have hs := storageRef_ok hr
      have hc := chr_quiet (E := E) (J := J) (fun _ => hq) hw
      simp only
      split
      · exact ⟨hc.1.setStore r (by simp [Od.keys]), fun x =>
          (hc.2 x).setStore hc.1 hs fun _ => h.nil _⟩
      · simp only [M.bind_apply]
        have hk := mkeys_quiet E o w1 hc.1
        rcases hx : mkeys E o w1 with ⟨e | ks, w2⟩
        · rw [hx] at hk
          have := chr_quiet (E := E) (J := J) (fun _ => hk) hc.1
          exact ⟨this.1, fun x => this.2 (hc.2 x)⟩
        · rw [hx] at hk
          have hk' := chr_quiet (E := E) (J := J) (fun _ => hk) hc.1
          simp only
          split
          · have hs2 : (w2.objs o).storage = some r := by
              have := stoKeep_mkeys E o w1 o r hs
              rw [hx] at this; exact this
            refine ⟨hk'.1.setStore r (Od.nodup_keys_del (hk'.1.sNd r) _), fun x => ?_⟩
            refine (hk'.2 (hc.2 x)).setStore hk'.1 hs2 fun hj => ?_
            rw [children_eq hs2] at hj
            exact h.del _ _ k hj
          · exact ⟨hk'.1, fun x => hk'.2 (hc.2 x)⟩
  name c k := chr_modO c _ (fun _ => rfl) (fun _ => rfl) (fun _ => rfl) (fun _ => rfl) fun _ => rfl
  parent c p := chr_modO c _ (fun _ => rfl) (fun _ => rfl) (fun _ => rfl) (fun _ => rfl) fun _ => rfl
  fixed c f := chr_modO c _ (fun _ => rfl) (fun _ => rfl) (fun _ => rfl) (fun _ => rfl) fun _ => rfl
  alloc c := by
    intro w hw
    refine ⟨(grow_alloc c w).wf hw, fun x p => ?_⟩
    by_cases hp : p = w.nobj
    · subst hp
      have : (alloc c w).2.children w.nobj = [] := by simp [alloc, World.children]
      rw [this]; exact h.nil _
    · have h1 : (alloc c w).2.objs p = w.objs p := upd_other _ _ hp
      have h2 : (alloc c w).2.children p = w.children p := by
        simp only [World.children, h1]; rfl
      have := x p
      simp only [clsOf, h1, h2] at this ⊢
      exact this

/-- Such an invariant holds after every history. -/
theorem ChRules.reachable (h : ChRules E J) {w : World} (hr : Reachable E w) : ChI E J w := by
  obtain ⟨ops, rfl⟩ := hr
  exact (h.prims.execAll ops {} WF.empty).2 fun p => h.nil _

theorem ChRules.step (h : ChRules E J) (op : Op) {w : World} (hw : WF w) (hi : ChI E J w) :
    ChI E J (exec E op w).2 := (h.prims.exec op w hw).2 hi

end
end Verif
