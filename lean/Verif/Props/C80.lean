import Verif.Spec.Subscribers
import Verif.Props.C35

/-!
# C80 Lifecycle subscribers are called when the operation is complete

An operation with subscribers is the operation without them, followed by the subscribers.
-/

namespace Verif

variable {E : Env} {h : Listener}

theorem callAll_notRaised {p : Exc → Bool} (hs : NotRaised h p) (l : List Event) (w : World) {e : Exc} {w' : World}
    (he : callAll h l w = (.error e, w')) : p e = false := by
  induction l generalizing w with
  | nil => cases he
  | cons a t ih =>
    simp only [callAll, M.bind_apply] at he
    rcases hx : h a w with ⟨e1 | u, w1⟩
    · rw [hx] at he; cases he; exact hs a w e w' hx
    · rw [hx] at he; exact ih w1 he

theorem afterwards_error {α : Type} (n : Nat) (e : Exc) (w : World) :
    afterwards (α := α) h n (.error e, w) = (.error e, w) := rfl

theorem afterwards_silent {α : Type} {n : Nat} {x : Except Exc α × World} (hx : x.2.log.length = n) :
    afterwards h n x = x := by
  rcases x with ⟨e | a, w⟩
  · rfl
  · have : sent n w = [] := by
      unfold sent; rw [List.drop_of_length_le (Nat.le_of_eq hx)]; rfl
    simp only [afterwards, this, callAll, M.pure_apply]

/-- A handler that spares the exceptions of the subscribers comes out the same. -/
theorem afterwards_catch {α : Type} {n : Nat} {p : Exc → Bool} (hs : NotRaised h p) {m m' : M α} (hd : Exc → M α)
    (hl : ∀ e, ∀ w w', m w = (.error e, w') → (hd e w').1.isOk = false) (w : World)
    (hm : m' w = afterwards h n (m w)) :
    M.catchIf p m' hd w = afterwards h n (M.catchIf p m hd w) := by
  simp only [M.catchIf_apply, hm]
  rcases hx : m w with ⟨e | a, w1⟩
  · simp only [afterwards]
    split
    · have := hl e w w1 hx
      revert this
      rcases hd e w1 with ⟨e2 | b, w2⟩
      · intro _; rfl
      · intro hb; cases hb
    · rfl
  · simp only [afterwards]
    rcases hy : callAll h (sent n w1) w1 with ⟨e | u, w2⟩
    · have := callAll_notRaised hs _ _ hy
      simp only [this, Bool.false_eq_true, if_false]
    · rfl

theorem tell_eq (e : Event) (w : World) :
    tell h e w = afterwards h w.log.length (notify e w) := by
  simp only [tell, M.bind_apply, notify_apply, afterwards, sent, List.drop_left, List.map_cons, List.map_nil, callAll]
  rcases h e { w with log := w.log ++ [⟨e, w.children⟩] } with ⟨x | u, w1⟩ <;> rfl

/-! ### Assignment -/

theorem setPipeS_silent {r : List Bhv} (hr : ¬ Loud r) (o : Oid) (k : Key) (v : Val) :
    setPipeS E h r o k v = setPipe E r o k v := by
  induction r generalizing k v with
  | nil => rfl
  | cons b t ih =>
    have ih' : setPipeS E h t o = setPipe E t o := funext fun k => funext fun v => ih (fun x => hr x.cons) k v
    cases b
    case lifecycle => exact absurd (.inl List.mem_cons_self) hr
    case attributesLifecycle => exact absurd (.inr List.mem_cons_self) hr
    all_goals simp only [setPipeS, setPipe, ih']

theorem afterwards_pre {α β : Type} {n : Nat} {m : M α} {f f' : α → M β} {w : World}
    (hf : ∀ a w', m w = (.ok a, w') → f' a w' = afterwards h n (f a w')) :
    (m >>= f') w = afterwards h n ((m >>= f) w) := by
  simp only [M.bind_apply]
  rcases hx : m w with ⟨e | a, w1⟩
  · rfl
  · exact hf a w1 hx

theorem setPipeS_step {r : List Bhv} (o : Oid)
    (hr : ∀ k v w, WF w → setPipeS E h r o k v w = afterwards h w.log.length (setPipe E r o k v w))
    (l : List Bhv) (hl : ¬ Loud l) (hA : Bhv.adopt ∈ l → NotRaised h Exc.isAKV)
    (hK : Bhv.alias ∈ l → NotRaised h Exc.isKey) (k : Key) (v : Val) {w : World} (hw : WF w) :
    setPipeS E h (l ++ r) o k v w = afterwards h w.log.length (setPipe E (l ++ r) o k v w) := by
  induction l generalizing k v w with
  | nil => exact hr k v w hw
  | cons b t ih =>
    have ih := fun k v {w} => @ih (fun h => hl h.cons) (fun h => hA (List.mem_cons_of_mem _ h))
      (fun h => hK (List.mem_cons_of_mem _ h)) k v w
    have after : ∀ {w1 : World} (k : Key) (v : Val), LogS w w1 →
        setPipeS E h (t ++ r) o k v w1 = afterwards h w.log.length (setPipe E (t ++ r) o k v w1) := by
      intro w1 k v hs
      rw [← hs.log]; exact ih k v hs.wf
    have quiet : ∀ {m : M Unit}, Pres LogR m → m w = afterwards h w.log.length (m w) := fun hm =>
      (afterwards_silent (congrArg List.length (hm w hw).log)).symm
    cases b
    case lifecycle => exact absurd (.inl List.mem_cons_self) hl
    case attributesLifecycle => exact absurd (.inr List.mem_cons_self) hl
    case nodeChildValidate =>
      simp only [List.cons_append, setPipeS, setPipe, validateSet, M.bind_apply, M.getW_apply]
      split
      · rfl
      · split
        · rfl
        · exact ih k v hw
    case nodespaces =>
      simp only [List.cons_append, setPipeS, setPipe, nodespacesSet]
      split
      · split
        · split
          · exact quiet (pres_bind logR_pre (logR_setName _ _) fun _ =>
              pres_bind logR_pre (logR_setParent _ _) fun _ => logR_nsPut o _ _)
          · exact quiet (logR_nsPut o _ _)
          · exact quiet (logR_nsPut o _ _)
          · rfl
        · exact ih _ v hw
      · rfl
    case adopt =>
      cases v with
      | data d => exact ih k _ hw
      | node c =>
        have h12 := ((logR_setName c k) w hw).trans ((logR_setParent c (some o)) _
          ((logR_setName c k) w hw).wf)
        simp only [List.cons_append, setPipeS, setPipe, adoptSet]
        refine afterwards_pre fun old w1 h1 => ?_
        cases h1
        refine afterwards_pre fun _ w2 h2 => ?_
        cases h2
        refine afterwards_pre fun _ w3 h3 => ?_
        cases h3
        exact afterwards_catch (hA List.mem_cons_self) _ (fun e w4 w5 _ => rfl) _ (after k (.node c) h12)
    case reference =>
      cases v with
      | data d => exact ih k _ hw
      | node c =>
        have hm : Pres LogR (do referenceCheck E o c; referenceMerge o c) := by
          refine pres_bind logR_pre ?_ fun _ => logR_referenceMerge o c
          refine pres_bind logR_pre (logR_of_quiet (iter_quiet E c)) fun it => ?_
          split
          · exact pres_pure logR_pre _
          · exact pres_raise logR_pre _
          · refine pres_bind logR_pre (pres_of_id logR_pre (indexRef_id _)) fun _ => ?_
            refine pres_bind logR_pre (pres_of_id logR_pre (indexRef_id _)) fun _ => ?_
            refine pres_bind logR_pre (pres_getW logR_pre) fun _ => ?_
            exact pres_ite logR_pre (pres_raise logR_pre _) (pres_pure logR_pre _)
        simp only [List.cons_append, setPipeS, setPipe, referenceSet]
        have hm' := hm w hw
        refine afterwards_pre fun _ w1 h1 => afterwards_pre fun _ w2 h2 => after k _ ?_
        simp only [M.bind_apply, h1, h2] at hm'
        exact hm'
    case cache =>
      simp only [List.cons_append, setPipeS, setPipe]
      refine afterwards_pre fun _ w1 h1 => after k v ?_
      have := logR_of_quiet (cacheDrop_quiet o k) w hw
      rw [h1] at this; exact this
    case alias =>
      simp only [List.cons_append, setPipeS, setPipe]
      refine afterwards_pre fun u w1 h1 => ?_
      have hid := unaliasKey_id E o k w
      rw [h1] at hid
      dsimp only at hid
      subst hid
      exact afterwards_catch (hK List.mem_cons_self) _ (fun e w4 w5 _ => rfl) _ (ih u v hw)
    all_goals exact ih k v hw

theorem lifecycle_setS {r : List Bhv} (hr : ¬ Loud r) (o : Oid) (k : Key) (v : Val) {w : World} (hw : WF w) :
    setPipeS E h (.lifecycle :: r) o k v w =
      afterwards h w.log.length (setPipe E (.lifecycle :: r) o k v w) := by
  have h1 := logR_silent_set (E := E) hr o k v w hw
  simp only [setPipeS, setPipe, lifecycleSetS, lifecycleSet, setPipeS_silent hr]
  refine afterwards_pre fun _ w1 hx => ?_
  rw [hx] at h1
  simp only [M.bind_apply, getO_apply]
  split
  · exact (afterwards_silent (by rw [← h1.log]; rfl)).symm
  · rw [tell_eq, h1.log]

theorem notifyModifiedS_eq (o : Oid) (w : World) :
    notifyModifiedS E h o w = afterwards h w.log.length (notifyModified E o w) := by
  simp only [notifyModifiedS, notifyModified, M.bind_apply, M.getW_apply]
  cases (w.objs o).parent with
  | none => rfl
  | some p =>
    dsimp only
    split
    · split
      · exact (afterwards_silent rfl).symm
      · exact tell_eq _ _
    · rfl

theorem attributes_setS {r : List Bhv} (hr : ¬ Loud r) (o : Oid) (k : Key) (v : Val) {w : World} (hw : WF w) :
    setPipeS E h (.attributesLifecycle :: r) o k v w =
      afterwards h w.log.length (setPipe E (.attributesLifecycle :: r) o k v w) := by
  have h1 := logR_silent_set (E := E) hr o k v w hw
  simp only [setPipeS, setPipe, setPipeS_silent hr]
  refine afterwards_pre fun _ w1 hx => ?_
  rw [hx] at h1
  rw [notifyModifiedS_eq, h1.log]

/-! ### Deletion -/

theorem delPipeS_silent {r : List Bhv} (hr : ¬ Loud r) (o : Oid) (k : Key) :
    delPipeS E h r o k = delPipe E r o k := by
  induction r generalizing k with
  | nil => rfl
  | cons b t ih =>
    have ih' : delPipeS E h t o = delPipe E t o := funext fun k => ih (fun x => hr x.cons) k
    cases b
    case lifecycle => exact absurd (.inl List.mem_cons_self) hr
    case attributesLifecycle => exact absurd (.inr List.mem_cons_self) hr
    all_goals simp only [delPipeS, delPipe, ih']

theorem logR_unindex (hE : NoFactory E) (o : Oid) (v : Val) : Pres LogR (referenceUnindex E o v) :=
  (logR_delPrims hE o).unindexed v

theorem delPipeS_step {r : List Bhv} (o : Oid) (c : ClassDef)
    (hr : ∀ k w, WF w → clsOf E w o = c → delPipeS E h r o k w = afterwards h w.log.length (delPipe E r o k w))
    (l : List Bhv) (hE : Bhv.reference ∈ l → NoFactory E) (hl : ¬ Loud l)
    (hK : Bhv.alias ∈ l → NotRaised h Exc.isKey) (k : Key) {w : World} (hw : WF w) (hcl : clsOf E w o = c) :
    delPipeS E h (l ++ r) o k w = afterwards h w.log.length (delPipe E (l ++ r) o k w) := by
  induction l generalizing k w with
  | nil => exact hr k w hw hcl
  | cons b t ih =>
    have ih := fun k {w} => @ih (fun h => hE (List.mem_cons_of_mem _ h)) (fun h => hl h.cons)
      (fun h => hK (List.mem_cons_of_mem _ h)) k w
    have after : ∀ {w1 : World} (k : Key), LogS w w1 →
        delPipeS E h (t ++ r) o k w1 = afterwards h w.log.length (delPipe E (t ++ r) o k w1) := by
      intro w1 k hs
      rw [← hs.log]; exact ih k hs.wf ((congrArg E.cls (hs.cls o)).trans hcl)
    cases b
    case lifecycle => exact absurd (.inl List.mem_cons_self) hl
    case attributesLifecycle => exact absurd (.inr List.mem_cons_self) hl
    case nodespaces =>
      simp only [List.cons_append, delPipeS, delPipe, nodespacesDel]
      split
      · split
        · exact (afterwards_silent (congrArg List.length (logR_nsDrop o _ w hw).log)).symm
        · exact ih _ hw hcl
      · rfl
    case reference =>
      have hE := hE List.mem_cons_self
      simp only [List.cons_append, delPipeS, delPipe, referenceDel]
      refine afterwards_pre fun v w1 h1 => afterwards_pre fun _ w2 h2 => after k ?_
      have g1 := logR_of_quiet (getitem_quiet hE o k) w hw
      rw [h1] at g1
      have g2 := logR_unindex hE o v w1 g1.wf
      rw [h2] at g2
      exact g1.trans g2
    case cache =>
      simp only [List.cons_append, delPipeS, delPipe]
      refine afterwards_pre fun _ w1 h1 => after k ?_
      have := logR_of_quiet (cacheDrop_quiet o k) w hw
      rw [h1] at this; exact this
    case alias =>
      simp only [List.cons_append, delPipeS, delPipe]
      refine afterwards_pre fun u w1 h1 => ?_
      have hid := unaliasKey_id E o k w
      rw [h1] at hid
      dsimp only at hid
      subst hid
      exact afterwards_catch (hK List.mem_cons_self) _ (fun e w4 w5 _ => rfl) _ (ih u hw hcl)
    all_goals exact ih k hw hcl

theorem lifecycle_delS {c : ClassDef} {r : List Bhv} (hE : EmitReads E c r) (hr : ¬ Loud r) (o : Oid) (k : Key)
    {w : World} (hw : WF w) (hcl : clsOf E w o = c) : delPipeS E h (.lifecycle :: r) o k w =
      afterwards h w.log.length (delPipe E (.lifecycle :: r) o k w) := by
  have h0 := hE.getitem k hw hcl
  simp only [delPipeS, delPipe, lifecycleDelS, lifecycleDel, delPipeS_silent hr]
  refine afterwards_pre fun v w1 hx => ?_
  rw [hx] at h0
  have h1 := logR_silent_del hE.reference hr o k w1 h0.wf
  refine afterwards_pre fun _ w2 hy => ?_
  rw [hy] at h1
  have hl : w2.log = w.log := h1.log.trans h0.log
  simp only [M.bind_apply, getO_apply]
  split
  · exact (afterwards_silent (congrArg List.length hl)).symm
  · rw [tell_eq, hl]

theorem attributes_delS {r : List Bhv} (hE : Bhv.reference ∈ r → NoFactory E) (hr : ¬ Loud r) (o : Oid) (k : Key) {w : World}
    (hw : WF w) : delPipeS E h (.attributesLifecycle :: r) o k w =
      afterwards h w.log.length (delPipe E (.attributesLifecycle :: r) o k w) := by
  have h1 := logR_silent_del hE hr o k w hw
  simp only [delPipeS, delPipe, delPipeS_silent hr]
  refine afterwards_pre fun _ w1 hx => ?_
  rw [hx] at h1
  rw [notifyModifiedS_eq, h1.log]

/-! ### Detaching -/

/-- While notification is switched off nobody is called. -/
theorem delPipeS_off {c : ClassDef} {r : List Bhv} (hE : EmitReads E c r) (hr : ¬ Loud r) (o : Oid) (l : List Bhv)
    (hR : Bhv.reference ∈ l → NoFactory E) (hl : ¬ Loud l)
    (k : Key) {w : World} (hw : WF w) (hcl : clsOf E w o = c) (hs : (w.objs o).suppress = true) :
    delPipeS E h (l ++ .lifecycle :: r) o k w = delPipe E (l ++ .lifecycle :: r) o k w := by
  have seq : ∀ {α β : Type} {m : M α} {f f' : α → M β} {w : World},
      (∀ a w', m w = (.ok a, w') → f' a w' = f a w') → (m >>= f') w = (m >>= f) w := by
    intro α β m f f' w hf
    simp only [M.bind_apply]
    rcases hx : m w with ⟨e | a, w1⟩
    · rfl
    · exact hf a w1 hx
  induction l generalizing k w with
  | nil =>
    have h0 := hE.getitem k hw hcl
    simp only [List.nil_append, delPipeS, delPipe, lifecycleDelS, lifecycleDel, delPipeS_silent hr]
    refine seq fun v w1 hx => ?_
    rw [hx] at h0
    have h1 := logR_silent_del hE.reference hr o k w1 h0.wf
    refine seq fun _ w2 hy => ?_
    rw [hy] at h1
    have : (w2.objs o).suppress = true := (h1.suppress o).trans ((h0.suppress o).trans hs)
    simp only [M.bind_apply, getO_apply, this, if_true]
  | cons b t ih =>
    have ih := fun k {w} => @ih (fun h => hR (List.mem_cons_of_mem _ h)) (fun h => hl h.cons) k w
    have after : ∀ {w1 : World} (k : Key), LogS w w1 →
        delPipeS E h (t ++ .lifecycle :: r) o k w1 = delPipe E (t ++ .lifecycle :: r) o k w1 :=
      fun k g => ih k g.wf ((congrArg E.cls (g.cls o)).trans hcl) ((g.suppress o).trans hs)
    cases b
    case lifecycle => exact absurd (.inl List.mem_cons_self) hl
    case attributesLifecycle => exact absurd (.inr List.mem_cons_self) hl
    case nodespaces =>
      simp only [List.cons_append, delPipeS, delPipe, nodespacesDel]
      split
      · split
        · rfl
        · exact ih _ hw hcl hs
      · rfl
    case reference =>
      have hE := hR List.mem_cons_self
      simp only [List.cons_append, delPipeS, delPipe, referenceDel]
      refine seq fun v w1 h1 => seq fun _ w2 h2 => after k ?_
      have g1 := logR_of_quiet (getitem_quiet hE o k) w hw
      rw [h1] at g1
      have g2 := logR_unindex hE o v w1 g1.wf
      rw [h2] at g2
      exact g1.trans g2
    case cache =>
      simp only [List.cons_append, delPipeS, delPipe]
      refine seq fun _ w1 h1 => after k ?_
      have := logR_of_quiet (cacheDrop_quiet o k) w hw
      rw [h1] at this; exact this
    case alias =>
      simp only [List.cons_append, delPipeS, delPipe]
      refine seq fun u w1 h1 => ?_
      have hid := unaliasKey_id E o k w
      rw [h1] at hid
      dsimp only at hid
      subst hid
      simp only [rekey, M.catchIf_apply, ih u hw hcl hs]
    all_goals exact ih k hw hcl hs

theorem detachPipeS_off {o : Oid} {l r t : List Bhv} (ht : ¬ Loud t) (k : Key) {w : World}
    (hw : WF w) (hc : Emits (clsOf E w o) l r) (hE : DelReads E (clsOf E w o)) (hs : (w.objs o).suppress = true) :
    detachPipeS E h t o k w = detachPipe E t o k w := by
  induction t with
  | nil =>
    simp only [detachPipeS, detachPipe, detachEndS, detachEnd, M.bind_apply]
    have h0 := (hc.reads hE).getitem k hw rfl
    revert h0
    rcases getitem E o k w with ⟨e | v, w1⟩
    · exact fun _ => rfl
    · intro h0
      have hb : bhvsOf E w1 o = l ++ .lifecycle :: r := by
        show (E.cls (w1.objs o).cls).bhvs = _
        rw [h0.cls o]; exact hc.stack
      have := delPipeS_off (h := h) (hc.reads hE) hc.right o l (hc.refLeft hE) hc.left k h0.wf
        (congrArg E.cls (h0.cls o)) ((h0.suppress o).trans hs)
      simp only [delitemS, delitem, hb, this]
  | cons b t ih =>
    have ih := ih fun x => ht x.cons
    cases b
    case lifecycle => exact absurd (.inl List.mem_cons_self) ht
    case reference => simp only [detachPipeS, detachPipe, M.bind_apply, ih]
    all_goals exact ih

theorem lifecycle_detachS {o : Oid} {l r t : List Bhv} (hR : Bhv.reference ∈ t → NoFactory E) (ht : ¬ Loud t)
    (k : Key) {w : World} (hw : WF w) (hc : Emits (clsOf E w o) l r) (hE : DelReads E (clsOf E w o)) :
    detachPipeS E h (.lifecycle :: t) o k w =
      afterwards h w.log.length (detachPipe E (.lifecycle :: t) o k w) := by
  have hw1 : WF (modO o (fun ob => { ob with suppress := true }) w).2 :=
    hw.modO o (fun ob => { ob with suppress := true }) rfl rfl rfl fun _ h => hw.iLt h
  have hs1 : ((modO o (fun ob => { ob with suppress := true }) w).2.objs o).suppress = true := by
    simp [modO_apply]
  have hcl : clsOf E (modO o (fun ob => { ob with suppress := true }) w).2 o = clsOf E w o :=
    congrArg E.cls (proj_upd Obj.cls w.objs o _ (by rfl) o)
  have hm := muted_detachPipe (l := l) (r := r) hR ht k _ hw1 (by rw [hcl]; exact hc) (by rw [hcl]; exact hE) hs1
  have hoff := detachPipeS_off (h := h) (l := l) (r := r) ht k hw1 (by rw [hcl]; exact hc) (by rw [hcl]; exact hE) hs1
  have hlog : (modO o (fun ob => { ob with suppress := true }) w).2.log = w.log := rfl
  simp only [detachPipeS, detachPipe]
  refine afterwards_pre fun _ w1 h1 => ?_
  have e1 : (modO o (fun ob => { ob with suppress := true }) w).2 = w1 := by rw [h1]
  rw [e1] at hm hoff hlog
  simp only [M.bind_apply, hoff]
  rcases hx : detachPipe E t o k w1 with ⟨e | v, w2⟩
  · rfl
  · rw [hx] at hm
    simp only [modO_apply, tell_eq]
    have : w2.log.length = w.log.length := congrArg List.length (hm.log.trans hlog)
    simp only [this]
    simp only [notify_apply, afterwards, M.pure_apply]
    generalize callAll h _ _ = y
    rcases y with ⟨e | u, w3⟩ <;> rfl

theorem detachPipeS_step {r : List Bhv} (o : Oid) (k : Key) (w : World) (n : Nat)
    (hr : detachPipeS E h r o k w = afterwards h n (detachPipe E r o k w))
    (l : List Bhv) (hl : ¬ Loud l) (hR : Bhv.reference ∉ l) :
    detachPipeS E h (l ++ r) o k w = afterwards h n (detachPipe E (l ++ r) o k w) := by
  induction l with
  | nil => exact hr
  | cons b t ih =>
    have ih := ih (fun x => hl x.cons) (fun x => hR (List.mem_cons_of_mem _ x))
    cases b
    case lifecycle => exact absurd (.inl List.mem_cons_self) hl
    case reference => exact absurd List.mem_cons_self hR
    all_goals exact ih

/-! ### Constructors -/

theorem setUuidRef_log (o : Oid) (u : Option Nat) (w : World) : (setUuidRef o u w).2.log = w.log := by
  simp only [setUuidRef, M.bind_apply, M.getW_apply]
  rcases hi : indexRef o w with ⟨e | r, w1⟩
  · have := indexRef_id o w; rw [hi] at this; dsimp only at this ⊢; rw [this]
  · obtain ⟨e1, -⟩ := indexRef_ok hi
    subst e1
    dsimp only
    split <;> rfl

theorem initPipe_log {mk : ClassId → M Oid} {all r : List Bhv} (hl : Bhv.lifecycle ∉ r)
    (hf : Bhv.fixedChildren ∉ r) (o : Oid) (name : Key) (parent : Option Oid) (w : World) :
    initPipeS E h mk all r o name parent w = initPipe E mk all r o name parent w ∧
      (initPipe E mk all r o name parent w).2.log = w.log := by
  have hsu := setUuidRef_log o
  induction r generalizing w with
  | nil =>
    refine ⟨rfl, ?_⟩
    simp only [initPipe]
    split <;> rfl
  | cons b t ih =>
    have ih := ih (fun x => hl (List.mem_cons_of_mem _ x)) (fun x => hf (List.mem_cons_of_mem _ x))
    cases b
    case lifecycle => exact absurd List.mem_cons_self hl
    case fixedChildren => exact absurd List.mem_cons_self hf
    case reference =>
      simp only [initPipeS, initPipe, M.bind_apply]
      have hri : (referenceInit o w).2.log = w.log := by
        simp only [referenceInit, M.bind_apply, M.modifyW_apply, freshUuid]
        exact hsu _ _
      rcases hx : referenceInit o w with ⟨e | u, w1⟩
      · rw [hx] at hri; exact ⟨rfl, hri⟩
      · rw [hx] at hri
        exact ⟨(ih w1).1, (ih w1).2.trans hri⟩
    case uuidAware =>
      simp only [initPipeS, initPipe, M.bind_apply, (ih w).1]
      have h2 := (ih w).2
      rcases hx : initPipe E mk all t o name parent w with ⟨e | u, w1⟩
      · rw [hx] at h2; exact ⟨trivial, h2⟩
      · rw [hx] at h2
        refine ⟨trivial, ?_⟩
        simp only [freshUuid]
        split
        · exact (hsu _ _).trans h2
        · exact h2
    all_goals exact ih w

theorem initPipeS_step {mk mk' : ClassId → M Oid} {all r : List Bhv} (hl : Bhv.lifecycle ∉ r)
    (hf : Bhv.fixedChildren ∉ r) (l : List Bhv) (hll : Bhv.lifecycle ∉ l) (hlf : Bhv.fixedChildren ∉ l)
    (hlu : Bhv.uuidAware ∉ l) (o : Oid) (name : Key) (parent : Option Oid) (w : World) :
    initPipeS E h mk' all (l ++ .lifecycle :: r) o name parent w =
      afterwards h w.log.length (initPipe E mk all (l ++ .lifecycle :: r) o name parent w) := by
  have hsu := setUuidRef_log o
  have nofixed : ∀ {r : List Bhv}, Bhv.fixedChildren ∉ r → ∀ w,
      initPipe E mk' all r o name parent w = initPipe E mk all r o name parent w := by
    intro r hf
    induction r with
    | nil => intro w; rfl
    | cons b t ih =>
      have ih := ih fun x => hf (List.mem_cons_of_mem _ x)
      have ih' : initPipe E mk' all t o name parent = initPipe E mk all t o name parent := funext ih
      cases b
      case fixedChildren => exact absurd List.mem_cons_self hf
      all_goals (intro w; simp only [initPipe, ih'])
  induction l generalizing w with
  | nil =>
    obtain ⟨h1, h2⟩ := initPipe_log (E := E) (h := h) (mk := mk') (all := all) hl hf o name parent w
    simp only [List.nil_append, initPipeS, initPipe, M.bind_apply, h1]
    rw [nofixed hf] at h2
    rw [nofixed hf]
    rcases hx : initPipe E mk all r o name parent w with ⟨e | u, w1⟩
    · rfl
    · rw [hx] at h2
      dsimp only
      rw [tell_eq, h2]
  | cons b t ih =>
    have ih := ih (fun x => hll (List.mem_cons_of_mem _ x)) (fun x => hlf (List.mem_cons_of_mem _ x))
      (fun x => hlu (List.mem_cons_of_mem _ x))
    cases b
    case lifecycle => exact absurd List.mem_cons_self hll
    case fixedChildren => exact absurd List.mem_cons_self hlf
    case uuidAware => exact absurd List.mem_cons_self hlu
    case reference =>
      simp only [List.cons_append, initPipeS, initPipe]
      refine afterwards_pre fun _ w1 hx => ?_
      have hri : (referenceInit o w).2.log = w.log := by
        simp only [referenceInit, M.bind_apply, M.modifyW_apply, freshUuid]
        exact hsu _ _
      rw [hx] at hri
      rw [← hri]; exact ih w1
    all_goals exact ih w

/-! ### The theorems -/

/-- C80: an assignment with subscribers is the assignment followed by the subscribers. -/
theorem c80_set_partial {w : World} (hw : WF w) {o : Oid} {l r : List Bhv} (hc : Emits (clsOf E w o) l r)
    (hA : Bhv.adopt ∈ l → NotRaised h Exc.isAKV) (hK : Bhv.alias ∈ l → NotRaised h Exc.isKey) (k : Key) (v : Val) :
    setitemS E h o k v w = afterwards h w.log.length (setitem E o k v w) := by
  have := setPipeS_step (h := h) o (fun k v w hw => lifecycle_setS (E := E) hc.right o k v hw) l hc.left hA hK k v hw
  rw [← hc.stack] at this
  exact this

/-- C80: the same for the attributes of a node. -/
theorem c80_attrs_set_partial {w : World} (hw : WF w) {o : Oid} {l r : List Bhv}
    (hc : AttrEmits (clsOf E w o) l r) (hA : Bhv.adopt ∈ l → NotRaised h Exc.isAKV)
    (hK : Bhv.alias ∈ l → NotRaised h Exc.isKey) (k : Key) (v : Val) :
    setitemS E h o k v w = afterwards h w.log.length (setitem E o k v w) := by
  have := setPipeS_step (h := h) o (fun k v w hw => attributes_setS (E := E) hc.right o k v hw) l hc.left hA hK k v hw
  rw [← hc.stack] at this
  exact this

/-- C80: a deletion with subscribers is the deletion followed by the subscribers. -/
theorem c80_del_partial {w : World} {o : Oid} (hE : DelReads E (clsOf E w o)) (hw : WF w) {l r : List Bhv}
    (hc : Emits (clsOf E w o) l r) (hK : Bhv.alias ∈ l → NotRaised h Exc.isKey) (k : Key) :
    delitemS E h o k w = afterwards h w.log.length (delitem E o k w) := by
  have := delPipeS_step (h := h) o _ (fun k w hw hcl => lifecycle_delS (hc.reads hE) hc.right o k hw hcl) l
    (hc.refLeft hE) hc.left hK k hw rfl
  rw [← hc.stack] at this
  exact this

/-- C80: the same for the attributes of a node. -/
theorem c80_attrs_del_partial {w : World} {o : Oid} (hE : DelReads E (clsOf E w o)) (hw : WF w) {l r : List Bhv}
    (hc : AttrEmits (clsOf E w o) l r) (hK : Bhv.alias ∈ l → NotRaised h Exc.isKey) (k : Key) :
    delitemS E h o k w = afterwards h w.log.length (delitem E o k w) := by
  have := delPipeS_step (h := h) o _
    (fun k w hw _ => attributes_delS (fun x => hE.reference (by rw [hc.stack]; simp [x])) hc.right o k hw) l
    (fun x => hE.reference (by rw [hc.stack]; simp [x])) hc.left hK k hw rfl
  rw [← hc.stack] at this
  exact this

/-- C80: detaching with subscribers is detaching followed by the subscribers, unless `Reference` stands
to the left of `Lifecycle`. -/
theorem c80_detach_partial {w : World} {o : Oid} (hE : DelReads E (clsOf E w o)) (hw : WF w) {l r : List Bhv}
    (hc : Emits (clsOf E w o) l r) (hR : Bhv.reference ∉ l) (k : Key) :
    detachS E h o k w = afterwards h w.log.length (detach E o k w) := by
  have := detachPipeS_step (h := h) o k w w.log.length (lifecycle_detachS (hc.reads hE).reference hc.right k hw hc hE) l hc.left hR
  rw [← hc.stack] at this
  exact this

/-- C80: a constructor with subscribers is the constructor followed by the subscribers, unless
`UUIDAware` or `FixedChildren` has work to do after `Lifecycle`. -/
theorem c80_new_partial {c : ClassId} {l r : List Bhv} (hc : Emits (E.cls c) l r)
    (hF : Bhv.fixedChildren ∉ (E.cls c).bhvs) (hU : Bhv.uuidAware ∉ l) (name : Key) (parent : Option Oid)
    (w : World) :
    newNodeS E h c name parent w = afterwards h w.log.length (newNode E c name parent w) := by
  rw [hc.stack] at hF
  unfold newNodeS newNode
  split
  · cases E.depth with
    | zero => rfl
    | succ n =>
      unfold newNodeNS newNodeN
      refine afterwards_pre fun o w1 h1 => ?_
      have hl : w1.log = w.log := by cases h1; rfl
      have h2 := initPipeS_step (E := E) (h := h) (mk := fun c' => newNodeN E n c' .none none)
        (mk' := fun c' => newNodeNS E h n c' .none none) (all := (E.cls c).bhvs) (r := r)
        (fun x => hc.right (.inl x)) (fun x => hF (List.mem_append_right _ (List.mem_cons_of_mem _ x))) l
        (fun x => hc.left (.inl x)) (fun x => hF (List.mem_append_left _ x)) hU o name parent w1
      rw [← hc.stack, hl] at h2
      simp only [M.bind_apply, h2]
      rcases initPipe E (fun c' => newNodeN E n c' .none none) (E.cls c).bhvs (E.cls c).bhvs o name parent w1
        with ⟨e | u, w2⟩
      · rfl
      · simp only [afterwards, M.pure_apply]
        generalize callAll h _ _ = y
        rcases y with ⟨e | u, w3⟩ <;> rfl
  · rfl

/-- C80: if the assignment succeeds and the subscriber raises, the assignment stays done, what the
subscriber did is added, and its exception reaches the caller. -/
theorem c80_raise_partial {w w1 w2 : World} (hw : WF w) {o : Oid} {l r : List Bhv}
    (hc : Emits (clsOf E w o) l r) (hs : (w.objs o).suppress = false)
    (hA : Bhv.adopt ∈ l → NotRaised h Exc.isAKV) (hK : Bhv.alias ∈ l → NotRaised h Exc.isKey) {k k' : Key} {v : Val}
    (hd : dest (clsOf E w o).aliaser l k = some (.child k'))
    (h1 : setitem E o k v w = (.ok (), w1)) {e : Exc} (h2 : h (.added v o k') w1 = (.error e, w2)) :
    setitemS E h o k v w = (.error e, w2) := by
  rw [c80_set_partial hw hc hA hK, h1]
  have h3 : w1.log = w.log ++ [⟨.added v o k', w1.children⟩] := by
    rcases (c34_set hw hc hs k v).2 (by rw [h1]) with ⟨k2, h4, h5⟩ | ⟨k2, h4, -⟩
    · rw [hd] at h4; cases h4; rw [h1] at h5; exact h5
    · rw [hd] at h4; cases h4
  simp only [afterwards, sent, h3, List.drop_left, List.map_cons, List.map_nil, callAll, M.bind_apply, h2]

/-! ### Without subscribers -/

/-- Nobody listens. -/
def nobody : Listener := fun _ => pure ()

theorem tell_nobody (e : Event) : tell nobody e = notify e := by
  funext w; rfl

theorem notifyModifiedS_nobody (o : Oid) : notifyModifiedS E nobody o = notifyModified E o := by
  funext w
  simp only [notifyModifiedS, notifyModified, tell_nobody, M.bind_apply, M.getW_apply]
  cases (w.objs o).parent <;> rfl

theorem setPipeS_nobody (r : List Bhv) (o : Oid) : setPipeS E nobody r o = setPipe E r o := by
  funext k v
  induction r generalizing k v with
  | nil => rfl
  | cons b t ih =>
    have ih' : setPipeS E nobody t o = setPipe E t o := funext fun k => funext fun v => ih k v
    cases b
    all_goals simp only [setPipeS, setPipe, ih', lifecycleSetS, lifecycleSet, tell_nobody, notifyModifiedS_nobody]

theorem delPipeS_nobody (r : List Bhv) (o : Oid) : delPipeS E nobody r o = delPipe E r o := by
  funext k
  induction r generalizing k with
  | nil => rfl
  | cons b t ih =>
    have ih' : delPipeS E nobody t o = delPipe E t o := funext fun k => ih k
    cases b
    all_goals simp only [delPipeS, delPipe, ih', lifecycleDelS, lifecycleDel, tell_nobody, notifyModifiedS_nobody]

theorem delitemS_nobody (o : Oid) (k : Key) : delitemS E nobody o k = delitem E o k := by
  funext w
  simp only [delitemS, delitem, delPipeS_nobody]

theorem detachPipeS_nobody (r : List Bhv) (o : Oid) (k : Key) : detachPipeS E nobody r o k = detachPipe E r o k := by
  induction r with
  | nil => simp only [detachPipeS, detachPipe, detachEndS, detachEnd, delitemS_nobody]
  | cons b t ih =>
    cases b
    all_goals simp only [detachPipeS, detachPipe, ih, tell_nobody]

theorem fixedLoopS_eq (mk : ClassId → M Oid) (o : Oid) (l : List (Key × ClassId)) :
    fixedLoopS mk o l = initPipe.loop mk o l := by
  induction l with
  | nil => rfl
  | cons a t ih =>
    obtain ⟨k, c⟩ := a
    simp only [fixedLoopS, initPipe.loop, ih]

theorem initPipeS_nobody (mk : ClassId → M Oid) (all r : List Bhv) (o : Oid) (name : Key) (parent : Option Oid) :
    initPipeS E nobody mk all r o name parent = initPipe E mk all r o name parent := by
  induction r with
  | nil => rfl
  | cons b t ih =>
    cases b
    all_goals simp only [initPipeS, initPipe, ih, tell_nobody, fixedLoopS_eq]

theorem newNodeNS_nobody (n : Nat) (c : ClassId) (name : Key) (parent : Option Oid) :
    newNodeNS E nobody n c name parent = newNodeN E n c name parent := by
  induction n generalizing c name parent with
  | zero => rfl
  | succ n ih =>
    have : (fun c' => newNodeNS E nobody n c' .none none) = fun c' => newNodeN E n c' .none none :=
      funext fun c' => ih c' .none none
    unfold newNodeNS newNodeN
    simp only [this, initPipeS_nobody]

/-- C80: without subscribers, for every stack, these are the operations of the other theorems. -/
theorem c80_nobody (o : Oid) (k : Key) (v : Val) (c : ClassId) (name : Key) (parent : Option Oid) :
    setitemS E nobody o k v = setitem E o k v ∧ delitemS E nobody o k = delitem E o k ∧
    detachS E nobody o k = detach E o k ∧ newNodeS E nobody c name parent = newNode E c name parent := by
  refine ⟨?_, delitemS_nobody o k, ?_, ?_⟩
  · funext w; simp only [setitemS, setitem, setPipeS_nobody]
  · funext w; simp only [detachS, detach, detachPipeS_nobody]
  · simp only [newNodeS, newNode, newNodeNS_nobody]

/-! ### Where the subscribers come too early -/

/-- Lifecycle nodes with `Adopt`, `UUIDAware` or `Reference` to the left of `Lifecycle`. -/
def earlyEnv : Env where
  cls
    | 0 => { bhvs := [.adopt, .lifecycle, .defaultInit, .nodify, .odictStorage] }
    | 1 => { bhvs := [.uuidAware, .lifecycle, .defaultInit, .nodify, .odictStorage] }
    | _ => { bhvs := [.reference, .lifecycle, .adopt, .defaultInit, .nodify, .odictStorage] }

/-- A subscriber that looks something up and fails. -/
def failing : Listener := fun _ => M.raise (.key (.msg "unknown"))

/-- A subscriber that cannot do without a uuid. -/
def needsUuid : Listener
  | .created o => do
    let ob ← getO o
    if ob.uuid.isNone then M.raise .type else pure ()
  | _ => pure ()

/-- A subscriber that expects the detached node to have an index of its own. -/
def needsOwnIndex : Listener
  | .detached (.node c) o _ => do
    let a ← getO c
    let b ← getO o
    if a.index = b.index then M.raise .type else pure ()
  | _ => pure ()

/-- C80 fails: with `Adopt` to the left, a `KeyError` of a subscriber makes `Adopt` take the location
of the child back although the child has been stored; a node with `UUIDAware` to the left is announced
before it has a uuid; with `Reference` to the left `detached` is sent while the node still shares the
index of the tree it left. -/
theorem c80_refuted :
    ((setitemS earlyEnv failing 0 ka (.node 1) (after earlyEnv [.new 0 .none none, .new 0 .none none])).1 =
        .error (.key (.msg "unknown")) ∧
      ((setitemS earlyEnv failing 0 ka (.node 1) (after earlyEnv [.new 0 .none none, .new 0 .none none])).2.children
        0).get? ka = some (.node 1) ∧
      ((setitemS earlyEnv failing 0 ka (.node 1) (after earlyEnv [.new 0 .none none, .new 0 .none none])).2.objs
        1).parent = none) ∧
    ((newNodeS earlyEnv needsUuid 1 .none none {}).1 = .error .type ∧
      (afterwards needsUuid 0 (newNode earlyEnv 1 .none none {})).1 = .ok 0) ∧
    ((detachS earlyEnv needsOwnIndex 0 ka
        (after earlyEnv [.new 2 .none none, .new 2 .none none, .set 0 ka (.node 1)])).1 = .error .type ∧
      (afterwards needsOwnIndex
        (after earlyEnv [.new 2 .none none, .new 2 .none none, .set 0 ka (.node 1)]).log.length
        (detach earlyEnv 0 ka (after earlyEnv [.new 2 .none none, .new 2 .none none, .set 0 ka (.node 1)]))).1 =
        .ok (.node 1)) := by
  refine ⟨⟨?_, ?_, ?_⟩, ⟨?_, ?_⟩, ?_, ?_⟩ <;> decide +kernel

/-! ### Examples -/

/-- A subscriber that counts the children under `c` and refuses text. -/
def bookkeeper : Listener
  | .added (.data (.int i)) o _ => setitem sampleEnv o kc (.data (.int (i + 1)))
  | .added _ _ _ => M.raise .type
  | _ => pure ()

example : (setitemS sampleEnv bookkeeper 0 ka (.data (.int 5)) (after sampleEnv c34Ops)).2.children 0 =
    [(ka, .data (.int 5)), (kb, .data (.int 2)), (kc, .data (.int 6))] := by
  rw [c80_set_partial (reachable_after sampleEnv c34Ops).wf
    (show Emits (clsOf sampleEnv _ 0) _ _ from c34_sample_emits) (fun h => absurd h (by decide)) (fun h => absurd h (by decide))]
  decide +kernel

example : ∃ w', setitemS sampleEnv bookkeeper 0 kb (.data (.str ['x'])) (after sampleEnv c34Ops) = (.error .type, w') ∧
    (w'.children 0).get? kb = some (.data (.str ['x'])) :=
  ⟨_, c80_raise_partial (k' := kb) (w1 := (setitem sampleEnv 0 kb (.data (.str ['x'])) (after sampleEnv c34Ops)).2)
    (w2 := (setitem sampleEnv 0 kb (.data (.str ['x'])) (after sampleEnv c34Ops)).2)
    (reachable_after sampleEnv c34Ops).wf
    (show Emits (clsOf sampleEnv _ 0) _ _ from c34_sample_emits) (by decide +kernel)
    (fun h => absurd h (by decide)) (fun h => absurd h (by decide)) (by decide +kernel) (Prod.ext (by decide +kernel) rfl) rfl, by decide +kernel⟩

example : (detachS sampleEnv bookkeeper 0 ka (after sampleEnv c34Ops)).1 = .ok (.data (.int 1)) := by
  rw [c80_detach_partial (sample_noFactory.delReads _) (reachable_after sampleEnv c34Ops).wf
    (show Emits (clsOf sampleEnv _ 0) _ _ from c34_sample_emits) (by decide)]
  decide +kernel

example : (newNodeS sampleEnv failing 6 .none none {}).1 = .error (.key (.msg "unknown")) := by
  rw [c80_new_partial (show Emits (sampleEnv.cls 6) _ _ from c34_sample_emits) (by decide) (by decide)]
  decide +kernel

example : (delitemS sampleEnv failing 0 ka (after sampleEnv c34Ops)).1 = .error (.key (.msg "unknown")) ∧
    (delitemS sampleEnv failing 0 ka (after sampleEnv c34Ops)).2.children 0 = [(kb, .data (.int 2))] := by
  rw [c80_del_partial (sample_noFactory.delReads _) (reachable_after sampleEnv c34Ops).wf
    (show Emits (clsOf sampleEnv _ 0) _ _ from c34_sample_emits) (fun h => absurd h (by decide))]
  decide +kernel

theorem c80_sample_attrs : AttrEmits (clsOf sampleEnv (after sampleEnv c34Ops) 1) []
    [.nodeChildValidate, .adopt, .defaultInit, .nodify, .odictStorage] :=
  ⟨by decide +kernel, by decide, by decide⟩

example : (setitemS sampleEnv failing 1 kb (.data (.int 8)) (after sampleEnv c34Ops)).1 =
      .error (.key (.msg "unknown")) ∧
    (setitemS sampleEnv failing 1 kb (.data (.int 8)) (after sampleEnv c34Ops)).2.children 1 =
      [(ka, .data (.int 7)), (kb, .data (.int 8))] := by
  rw [c80_attrs_set_partial (reachable_after sampleEnv c34Ops).wf c80_sample_attrs
    (fun h => absurd h (by decide)) (fun h => absurd h (by decide))]
  decide +kernel

example : (delitemS sampleEnv failing 1 ka (after sampleEnv c34Ops)).2.children 1 = [] := by
  rw [c80_attrs_del_partial (sample_noFactory.delReads _) (reachable_after sampleEnv c34Ops).wf c80_sample_attrs
    (fun h => absurd h (by decide))]
  decide +kernel

end Verif
