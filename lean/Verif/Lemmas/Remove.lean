import Verif.Lemmas.ApiGeneric
import Verif.Lemmas.OdOrder
import Verif.Lemmas.ChildInv

/-! Operations that read, remove and reorder. -/

namespace Verif

/-- `R` is respected by reads and by changes that no view shows. -/
structure IdlePrims (E : Env) (R : World → World → Prop) : Prop where
  noFactory : NoFactory E
  pre : PreR R
  quiet : ∀ w w', Quiet w w' → R w w'
  hidden : ∀ w w', Hidden w w' → R w w'

section
variable {E : Env} {R : World → World → Prop} (h : IdlePrims E R)
include h

theorem IdlePrims.ofQuiet {α : Type} {m : M α} (hm : Pres Quiet m) : Pres R m := fun w =>
  h.quiet _ _ (hm w)

theorem IdlePrims.ofHidden {α : Type} {m : M α} (hm : Pres Hidden m) : Pres R m := fun w =>
  h.hidden _ _ (hm w)

theorem IdlePrims.indexNodes (n : Nat) (o : Oid) : Pres R (indexNodes E n o) := by
  have hR := h.pre
  induction n generalizing o with
  | zero => exact pres_raise hR _
  | succ n ih =>
    refine pres_bind hR (h.ofQuiet (mvalues_quiet h.noFactory o)) fun vs =>
      pres_forU hR (fun v => ?_) vs
    unfold indexNodesStep
    split
    · exact pres_pure hR _
    · rename_i c
      refine pres_bind hR (pres_getW hR) fun w => ?_
      refine pres_ite hR ?_ (pres_pure hR _)
      split
      · exact pres_raise hR _
      · exact hidden_indexPut hR h.hidden o c _
          (f := fun _ => if (bhvsOf E w c).contains .reference = true
          then Verif.indexNodes E n c else M.raise .attr)
          (pres_ite hR (ih c) (pres_raise hR _))

theorem IdlePrims.referenceDetach (v : Val) : Pres R (referenceDetach E v) := by
  have hR := h.pre
  unfold Verif.referenceDetach
  split
  · exact pres_raise hR _
  · rename_i c
    refine pres_bind hR (pres_getW hR) fun w => ?_
    refine pres_ite hR ?_ (pres_raise hR _)
    split
    · exact pres_raise hR _
    · rename_i u _
      refine pres_bind hR (h.ofHidden (hidden_newIdx c (fun _ => [(some u, c)]) fun _ => by
        simp [Od.keys])) fun _ => ?_
      exact pres_ite hR (h.indexNodes _ _) (pres_raise hR _)

theorem IdlePrims.suppress (o : Oid) (b : Bool) :
    Pres R (modO o fun ob => { ob with suppress := b }) :=
  h.ofHidden (hidden_modO o _ (fun _ => rfl) (fun _ => rfl) (fun _ => rfl) (fun _ => rfl)
    (fun _ => rfl) (fun _ => rfl) (fun _ => rfl) (fun _ => rfl))

end

/-- `R` is respected by everything that reading, removing and reordering is made
of. -/
structure RemPrims (E : Env) (R : World → World → Prop) : Prop where
  noFactory : NoFactory E
  pre : PreR R
  quiet : ∀ w w', Quiet w w' → R w w'
  hidden : ∀ w w', Hidden w w' → R w w'
  delEnd : ∀ o k, Pres R (delEnd E o k)
  nsDrop : ∀ o k, Pres R (nsDrop o k)
  swap : ∀ o a b, Pres R (swapNodes E o a b)
  volatile : ∀ o k, Pres R (invalidateVolatile E o k)

/-- Operations that create nothing and assign nothing. -/
def Op.removes : Op → Bool
  | .get .. | .del .. | .getD .. | .contains .. | .keys .. | .values .. | .items .. | .len ..
  | .pop .. | .popitem .. | .clear .. | .detach .. | .invalidate .. | .swap .. | .setUuid ..
  | .setFallbackKey .. => true
  | _ => false

section
variable {E : Env} {R : World → World → Prop} (h : RemPrims E R)
include h

theorem RemPrims.ofQuiet {α : Type} {m : M α} (hm : Pres Quiet m) : Pres R m := fun w =>
  h.quiet _ _ (hm w)

theorem RemPrims.ofHidden {α : Type} {m : M α} (hm : Pres Hidden m) : Pres R m := fun w =>
  h.hidden _ _ (hm w)

theorem RemPrims.getitem (o : Oid) (k : Key) : Pres R (getitem E o k) :=
  h.ofQuiet (getitem_quiet h.noFactory o k)

theorem RemPrims.mkeys (o : Oid) : Pres R (mkeys E o) := h.ofQuiet (mkeys_quiet E o)

theorem RemPrims.delPrims (o : Oid) : DelPrims E R o where
  pre := h.pre
  getitem := h.getitem
  iter p := h.ofQuiet (iter_quiet E p)
  delEnd := h.delEnd o
  nsDrop := h.nsDrop o
  cacheDrop k := h.ofQuiet (cacheDrop_quiet o k)
  unindex us := h.ofHidden (hidden_indexDelete o us)
  notify e := h.ofHidden (hidden_notify e)

theorem RemPrims.delitem (o : Oid) (k : Key) : Pres R (delitem E o k) := (h.delPrims o).delitem k

theorem RemPrims.idle : IdlePrims E R := ⟨h.noFactory, h.pre, h.quiet, h.hidden⟩

theorem RemPrims.referenceDetach (v : Val) : Pres R (referenceDetach E v) := h.idle.referenceDetach v

theorem RemPrims.suppress (o : Oid) (b : Bool) :
    Pres R (modO o fun ob => { ob with suppress := b }) := h.idle.suppress o b

theorem RemPrims.detachPipe (bs : List Bhv) (o : Oid) (k : Key) :
    Pres R (detachPipe E bs o k) := by
  have hR := h.pre
  induction bs with
  | nil =>
    exact pres_bind hR (h.getitem o k) fun _ =>
      pres_bind hR (h.delitem o k) fun _ => pres_pure hR _
  | cons b r ih =>
    cases b
    case reference =>
      exact pres_bind hR ih fun v =>
        pres_bind hR (h.referenceDetach v) fun _ => pres_pure hR _
    case lifecycle =>
      refine pres_bind hR (h.suppress o _) fun _ => ?_
      refine pres_bind hR ih fun v => ?_
      refine pres_bind hR (h.suppress o _) fun _ => ?_
      exact pres_bind hR (h.ofHidden (hidden_notify _)) fun _ => pres_pure hR _
    all_goals exact ih

theorem RemPrims.detach (o : Oid) (k : Key) : Pres R (detach E o k) := fun w =>
  h.detachPipe _ o k w

theorem RemPrims.invalidatePipe (all bs : List Bhv) (o : Oid) (k : Key) :
    Pres R (invalidatePipe E all bs o k) := by
  have hR := h.pre
  induction bs generalizing k with
  | nil =>
    unfold Verif.invalidatePipe
    split
    · unfold invalidateDel
      refine pres_ite hR ?_ (h.delitem o k)
      exact pres_bind hR (h.mkeys o) fun ks => pres_forU hR (h.delitem o) ks
    · exact h.volatile o k
    · exact pres_raise hR _
  | cons b r ih =>
    cases b
    case cache =>
      show Pres R (if k = .none then _ else _)
      refine pres_ite hR ?_ ?_
      · refine pres_bind hR (h.ofQuiet (cacheRef_quiet o)) fun c => ?_
        refine pres_bind hR (pres_getW hR) fun w => ?_
        exact pres_bind hR (pres_modifyW fun w => h.quiet _ _ (setCache_quiet c [] fun _ => by
          simp [Od.keys])) fun _ => ih _
      · exact pres_bind hR (h.ofQuiet (cacheDrop_quiet o k)) fun _ => ih k
    all_goals exact ih k

/-- Every such operation. -/
theorem RemPrims.exec {op : Op} (hop : op.removes = true) : Pres R (exec E op) := by
  have hR := h.pre
  have hE := h.noFactory
  have hr : ∀ {α : Type} {m : M α} (f : α → Res), Pres R m →
      Pres R (do let x ← m; pure (f x)) := fun f h =>
    pres_bind hR h fun _ => pres_pure hR _
  cases op
  case get o k => exact hr _ (h.getitem o k)
  case del o k => exact hr (fun _ => .unit) (h.delitem o k)
  case getD o k d => exact hr _ (h.ofQuiet (mget_quiet hE o k d))
  case contains o k => exact hr _ (h.ofQuiet (mcontains_quiet hE o k))
  case keys o => exact hr _ (h.mkeys o)
  case values o => exact hr _ (h.ofQuiet (mvalues_quiet hE o))
  case items o => exact hr _ (h.ofQuiet (mitems_quiet hE o))
  case len o => exact hr _ (h.ofQuiet (mlen_quiet E o))
  case pop o k d =>
    refine hr _ (pres_catchIf hR (pres_bind hR (h.getitem o k) fun _ =>
      pres_bind hR (h.delitem o k) fun _ => pres_pure hR _) fun e => ?_)
    split
    · exact pres_raise hR _
    · exact pres_pure hR _
  case popitem o =>
    refine hr (fun kv : Key × Val => .item kv.1 kv.2) (pres_bind hR (h.mkeys o) fun ks => ?_)
    split
    · exact pres_raise hR _
    · exact pres_bind hR (h.getitem o _) fun _ =>
        pres_bind hR (h.delitem o _) fun _ => pres_pure hR _
  case clear o =>
    exact hr (fun _ => .unit) (pres_bind hR (h.mkeys o) fun ks =>
      pres_forU hR (h.delitem o) ks)
  case detach o k => exact hr _ (h.detach o k)
  case invalidate o k =>
    exact hr (fun _ => .unit) fun w => h.invalidatePipe _ _ o k w
  case swap o a b => exact hr (fun _ => .unit) (h.swap o a b)
  case setUuid o u => exact hr (fun _ => .unit) (h.ofHidden (hidden_setUuidRef o u))
  case setFallbackKey o k => exact hr (fun _ => .unit) (h.ofHidden (hidden_setFallbackKey o k))
  all_goals exact absurd hop Bool.false_ne_true

end

/-- Locations and classes are kept; children are kept or removed. -/
structure Shrink (w w' : World) : Prop where
  loc : LocSame w w'
  cls : ∀ p, (w'.objs p).cls = (w.objs p).cls
  nobj : w'.nobj = w.nobj
  sub : ∀ p k v, (w'.children p).get? k = some v → (w.children p).get? k = some v

/-- Well-formed heaps shrink. -/
def ShrinkR (w w' : World) : Prop := WF w → WF w' ∧ Shrink w w'

theorem Shrink.refl (w : World) : Shrink w w := ⟨LocSame.refl w, fun _ => rfl, rfl, fun _ _ _ h => h⟩

theorem Shrink.trans {a b c : World} (h : Shrink a b) (h' : Shrink b c) : Shrink a c :=
  ⟨h.loc.trans h'.loc, fun p => (h'.cls p).trans (h.cls p), h'.nobj.trans h.nobj,
    fun p k v x => h.sub p k v (h'.sub p k v x)⟩

theorem shrink_pre : PreR ShrinkR :=
  ⟨fun w hw => ⟨hw, Shrink.refl w⟩, fun h h' hw =>
    ⟨(h' (h hw).1).1, (h hw).2.trans (h' (h hw).1).2⟩⟩

theorem shrink_quiet {w w' : World} (h : Quiet w w') : ShrinkR w w' := fun hw =>
  ⟨(h hw).1, (h hw).2.loc, fun p => ((h hw).2.obj p).cls, (h hw).2.nobj, fun p k v x => by
    rw [(h hw).2.children] at x; exact x⟩

theorem shrink_hidden {w w' : World} (h : Hidden w w') : ShrinkR w w' := fun hw =>
  ⟨h.wf hw, h.loc, h.cls, h.nobj, fun p k v x => by rw [h.children] at x; exact x⟩

/-- Replacing the contents of the storage of `o` by a part of it. -/
theorem shrink_setStore {w : World} (hw : WF w) {o r : Nat} (hr : (w.objs o).storage = some r)
    {d : Od Key Val} (hd : d.keys.Nodup)
    (hs : ∀ k v, d.get? k = some v → (w.stores r).get? k = some v) :
    WF { w with stores := upd w.stores r d } ∧ Shrink w { w with stores := upd w.stores r d } := by
  refine ⟨hw.setStore r hd, fun _ => rfl, fun _ => rfl, rfl, fun p k v x => ?_⟩
  rw [children_setStore hw hr] at x
  split at x
  · rename_i e; subst e; rw [children_eq hr]; exact hs k v x
  · exact x

theorem get?_del_sub {d : Od Key Val} (hd : d.keys.Nodup) {j k : Key} {v : Val}
    (h : (d.del j).get? k = some v) : d.get? k = some v := by
  rw [Od.get?_del hd] at h
  split at h
  · cases h
  · exact h

theorem shrink_delEnd (E : Env) (o : Oid) (k : Key) : Pres ShrinkR (Verif.delEnd E o k) := by
  intro w hw
  have hq := storageRef_quiet E o w hw
  simp only [Verif.delEnd, M.bind_apply, M.getW_apply]
  split
  · exact ⟨hw, Shrink.refl w⟩
  · split
    · simp only [M.bind_apply]
      rcases hr : storageRef E o w with ⟨e | r, w1⟩
      · rw [hr] at hq; exact shrink_quiet (fun _ => hq) hw
      · rw [hr] at hq
        have hs := storageRef_ok hr
        have hc := shrink_quiet (fun _ => hq) hw
        simp only [M.getW_apply]
        split
        · have := shrink_setStore hc.1 hs (Od.nodup_keys_del (hc.1.sNd r) k)
            fun j v => get?_del_sub (hc.1.sNd r)
          exact ⟨this.1, hc.2.trans this.2⟩
        · exact hc
    · exact ⟨hw, Shrink.refl w⟩

theorem shrink_nsDrop (o : Oid) (k : Key) : Pres ShrinkR (nsDrop o k) := by
  refine pres_bind shrink_pre (fun w => shrink_quiet (nodespacesRef_quiet o w)) fun r => ?_
  refine pres_bind shrink_pre (pres_getW shrink_pre) fun w => ?_
  refine pres_ite shrink_pre (fun w hw => ?_) (pres_raise shrink_pre _)
  exact ⟨hw.setNspace r (Od.nodup_keys_del (hw.nNd r) _), fun _ => rfl, fun _ => rfl, rfl,
    fun _ _ _ x => x⟩

theorem shrink_swap (E : Env) (o a b : Oid) : Pres ShrinkR (swapNodes E o a b) := by
  intro w hw
  have hq := storageRef_quiet E o w hw
  simp only [swapNodes, M.bind_apply, M.getW_apply]
  rcases hr : storageRef E o w with ⟨e | r, w1⟩
  · rw [hr] at hq; exact shrink_quiet (fun _ => hq) hw
  · rw [hr] at hq
    have hs := storageRef_ok hr
    have hc := shrink_quiet (fun _ => hq) hw
    simp only
    split
    · split
      · exact hc
      · split
        · split
          · have := shrink_setStore hc.1 hs (Od.nodup_swap (hc.1.sNd r) (w1.objs a).name
              (w1.objs b).name) fun j v x => by rwa [Od.get?_swap (hc.1.sNd r)] at x
            exact ⟨this.1, hc.2.trans this.2⟩
          · exact hc
        · exact hc
    · exact hc

theorem shrink_volatile (E : Env) (o : Oid) (k) : Pres ShrinkR (invalidateVolatile E o k) := by
  intro w hw
  have hq := storageRef_quiet E o w hw
  simp only [invalidateVolatile, M.bind_apply]
  rcases hr : storageRef E o w with ⟨e | r, w1⟩
  · rw [hr] at hq; exact shrink_quiet (fun _ => hq) hw
  · rw [hr] at hq
    have hs := storageRef_ok hr
    have hc := shrink_quiet (fun _ => hq) hw
    simp only
    split
    · have := shrink_setStore hc.1 hs (d := []) (by simp [Od.keys]) fun j v x => nomatch x
      exact ⟨this.1, hc.2.trans this.2⟩
    · simp only [M.bind_apply]
      have hk := mkeys_quiet E o w1 hc.1
      rcases hx : mkeys E o w1 with ⟨e | ks, w2⟩
      · rw [hx] at hk
        have := shrink_quiet (fun _ => hk) hc.1
        exact ⟨this.1, hc.2.trans this.2⟩
      · rw [hx] at hk
        have hk' := shrink_quiet (fun _ => hk) hc.1
        simp only
        split
        · have hs2 : (w2.objs o).storage = some r := by
            have := stoKeep_mkeys E o w1 o r hs
            rw [hx] at this; exact this
          have := shrink_setStore hk'.1 hs2 (Od.nodup_keys_del (hk'.1.sNd r) k)
            fun j v => get?_del_sub (hk'.1.sNd r)
          exact ⟨this.1, hc.2.trans (hk'.2.trans this.2)⟩
        · exact ⟨hk'.1, hc.2.trans hk'.2⟩

theorem shrink_prims {E : Env} (hE : NoFactory E) : RemPrims E ShrinkR where
  noFactory := hE
  pre := shrink_pre
  quiet _ _ := shrink_quiet
  hidden _ _ := shrink_hidden
  delEnd := shrink_delEnd E
  nsDrop := shrink_nsDrop
  swap := shrink_swap E
  volatile := shrink_volatile E

end Verif
