import Verif.Lemmas.Detach

/-! Which steps leave the event log alone, and what reaches a behavior in the middle
of a stack. -/

namespace Verif

/-- The event log, the notification switches and the classes unchanged. -/
structure LogS (w w' : World) : Prop where
  wf : WF w'
  log : w'.log = w.log
  suppress : ∀ p, (w'.objs p).suppress = (w.objs p).suppress
  cls : ∀ p, (w'.objs p).cls = (w.objs p).cls

/-- `LogS` on well-formed heaps. -/
def LogR (w w' : World) : Prop := WF w → LogS w w'

theorem LogS.refl {w : World} (h : WF w) : LogS w w := ⟨h, rfl, fun _ => rfl, fun _ => rfl⟩

theorem LogS.trans {a b c : World} (h : LogS a b) (h' : LogS b c) : LogS a c :=
  ⟨h'.wf, h'.log.trans h.log, fun p => (h'.suppress p).trans (h.suppress p),
   fun p => (h'.cls p).trans (h.cls p)⟩

theorem logR_pre : PreR LogR :=
  ⟨fun _ hw => .refl hw, fun h h' hw => (h hw).trans (h' (h hw).wf)⟩

theorem logR_of_quiet {α : Type} {m : M α} (h : Pres Quiet m) : Pres LogR m := fun w hw =>
  ⟨(h w hw).1, (h w hw).2.log, fun p => ((h w hw).2.obj p).suppress,
   fun p => ((h w hw).2.obj p).cls⟩

theorem logR_of_keep {α : Type} {m : M α} (h : Pres Keep m) (hl : ∀ w, (m w).2.log = w.log) :
    Pres LogR m := fun w hw => ⟨(h w).wf hw, hl w, (h w).suppress, (h w).cls⟩

theorem logR_setStores (r : Ref) (f : World → Od Key Val) (hf : ∀ w, WF w → (f w).keys.Nodup) :
    Pres LogR (M.modifyW fun w => { w with stores := upd w.stores r (f w) }) :=
  logR_of_keep (keep_setStores r f hf) fun _ => rfl

theorem logR_setNspaces (r : Ref) (f : World → Od Key Val) (hf : ∀ w, WF w → (f w).keys.Nodup) :
    Pres LogR (M.modifyW fun w => { w with nspaces := upd w.nspaces r (f w) }) :=
  logR_of_keep (keep_setNspaces r f hf) fun _ => rfl

theorem logR_setName (c : Oid) (k : Key) : Pres LogR (modO c fun ob => { ob with name := k }) :=
  logR_of_keep (keep_setName c k) fun _ => rfl

theorem logR_setParent (c : Oid) (p : Option Oid) :
    Pres LogR (modO c fun ob => { ob with parent := p }) :=
  logR_of_keep (keep_setParent c p) fun _ => rfl

theorem logR_setEnd (E : Env) (o : Oid) (k : Key) (v : Val) : Pres LogR (setEnd E o k v) := by
  refine pres_bind logR_pre (pres_getW logR_pre) fun w => ?_
  refine pres_ite logR_pre (pres_raise logR_pre _) (pres_ite logR_pre ?_ (pres_raise logR_pre _))
  exact pres_bind logR_pre (logR_of_quiet (storageRef_quiet E o)) fun r =>
    logR_setStores r (fun w => (w.stores r).set k v) fun w hw => Od.nodup_keys_set (hw.sNd r) k v

theorem logR_delEnd (E : Env) (o : Oid) (k : Key) : Pres LogR (delEnd E o k) := by
  refine pres_bind logR_pre (pres_getW logR_pre) fun w => ?_
  refine pres_ite logR_pre (pres_raise logR_pre _) (pres_ite logR_pre ?_ (pres_raise logR_pre _))
  exact pres_bind logR_pre (logR_of_quiet (storageRef_quiet E o)) fun r =>
    pres_bind logR_pre (pres_getW logR_pre) fun w => pres_ite logR_pre
      (logR_setStores r (fun w => (w.stores r).del k) fun w hw => Od.nodup_keys_del (hw.sNd r) k)
      (pres_raise logR_pre _)

theorem logR_nsPut (o : Oid) (k : Key) (v : Val) : Pres LogR (nsPut o k v) :=
  pres_bind logR_pre (logR_of_quiet (nodespacesRef_quiet o)) fun r =>
    logR_setNspaces r (fun w => (w.nspaces r).set k v) fun w hw => Od.nodup_keys_set (hw.nNd r) k v

theorem logR_nsDrop (o : Oid) (k : Key) : Pres LogR (nsDrop o k) :=
  pres_bind logR_pre (logR_of_quiet (nodespacesRef_quiet o)) fun r =>
    pres_bind logR_pre (pres_getW logR_pre) fun _ => pres_ite logR_pre
      (logR_setNspaces r (fun w => (w.nspaces r).del k) fun w hw => Od.nodup_keys_del (hw.nNd r) k)
      (pres_raise logR_pre _)

theorem logR_referenceMerge (o c : Oid) : Pres LogR (referenceMerge o c) := by
  refine logR_of_keep (keep_referenceMerge o c) fun w => ?_
  simp only [referenceMerge, M.bind_apply]
  rcases h : indexRef o w with ⟨_ | si, w1⟩
  · have := indexRef_id o w; rw [h] at this; simp only at this; subst this; rfl
  · obtain ⟨e1, hsi⟩ := indexRef_ok h
    subst e1
    simp only
    rcases h2 : indexRef c w1 with ⟨_ | vi, w2⟩
    · have := indexRef_id c w1; rw [h2] at this; simp only at this; subst this; rfl
    · obtain ⟨e2, hvi⟩ := indexRef_ok h2
      subst e2
      rfl

theorem logR_setIdxs (r : Ref) (f : World → Od (Option Nat) Oid)
    (hf : ∀ w, WF w → (f w).keys.Nodup) :
    Pres LogR (M.modifyW fun w => { w with idxs := upd w.idxs r (f w) }) :=
  logR_of_keep (keep_setIdxs r f hf) fun _ => rfl

theorem logR_indexDelete (o : Oid) (us : List Nat) : Pres LogR (indexDelete o us) := by
  induction us with
  | nil => exact pres_pure logR_pre _
  | cons u r ih =>
    refine pres_bind logR_pre (pres_of_id logR_pre (indexRef_id _)) fun i => ?_
    refine pres_bind logR_pre (pres_getW logR_pre) fun w => ?_
    refine pres_ite logR_pre ?_ (pres_raise logR_pre _)
    exact pres_bind logR_pre (logR_setIdxs i (fun w => (w.idxs i).del (some u)) fun w hw =>
      Od.nodup_keys_del (hw.iNd i) _) fun _ => ih

theorem logR_setPrims (E : Env) (o : Oid) (v : Val) : SetPrims0 E LogR o v where
  pre := logR_pre
  iter c _ := logR_of_quiet (iter_quiet E c)
  setEnd k := logR_setEnd E o k v
  nsPut k := logR_nsPut o k v
  name c k _ := logR_setName c k
  parent c p _ := logR_setParent c p
  cacheDrop k := logR_of_quiet (cacheDrop_quiet o k)
  merge c _ := logR_referenceMerge o c

theorem logR_delPrims {E : Env} (hE : NoFactory E) (o : Oid) : DelPrims0 E LogR o where
  pre := logR_pre
  getitem p k := logR_of_quiet (getitem_quiet hE p k)
  iter p := logR_of_quiet (iter_quiet E p)
  delEnd k := logR_delEnd E o k
  nsDrop k := logR_nsDrop o k
  cacheDrop k := logR_of_quiet (cacheDrop_quiet o k)
  unindex us := logR_indexDelete o us

/-- Deleting without notification emits nothing. -/
theorem logR_delPipe {E : Env} (r : List Bhv) (hE : Bhv.reference ∈ r → NoFactory E)
    (hl : Bhv.lifecycle ∉ r) (hm : Bhv.attributesLifecycle ∉ r) (o : Oid) (k : Key) :
    Pres LogR (delPipe E r o k) := by
  by_cases hr : Bhv.reference ∈ r
  · exact (logR_delPrims (hE hr) o).delPipe r (fun h => absurd h hl) (fun h => absurd h hm) k
  · exact pres_delPipe_unread logR_pre (logR_delEnd E o) (logR_nsDrop o)
      (fun k => logR_of_quiet (cacheDrop_quiet o k)) r hl hr (fun h => absurd h hm) k

theorem logR_newIdx (o : Oid) (d : World → Od (Option Nat) Oid) (hd : ∀ w, (d w).keys.Nodup) :
    Pres LogR (M.modifyW fun w =>
      { w with
        objs := upd w.objs o { w.objs o with index := some w.nidx }
        idxs := upd w.idxs w.nidx (d w)
        nidx := w.nidx + 1 }) := fun w hw =>
  ⟨(grow_newIdx o d hd w).wf hw, rfl, proj_upd Obj.suppress w.objs o _ (by rfl),
   proj_upd Obj.cls w.objs o _ (by rfl)⟩

theorem logR_indexPut (o c : Oid) (u : Nat) {β : Type} {f : Unit → M β} (hf : Pres LogR (f ())) :
    Pres LogR (do
      let i ← indexRef o
      M.modifyW fun w => { w with idxs := upd w.idxs i ((w.idxs i).set (some u) c) }
      modO c fun ob => { ob with index := some i }
      f ()) := by
  intro w
  simp only [M.bind_apply]
  rcases h : indexRef o w with ⟨_ | si, w1⟩
  · have := indexRef_id o w; rw [h] at this; simp only at this; subst this; exact logR_pre.refl _
  · obtain ⟨e1, hsi⟩ := indexRef_ok h
    subst e1
    simp only [M.modifyW_apply, modO_apply]
    intro hw
    have k1 := logR_setIdxs si (fun w => (w.idxs si).set (some u) c)
        (fun w hw => Od.nodup_keys_set (hw.iNd si) _ _) w1 hw
    simp only [M.modifyW_apply] at k1
    have k2 := keep_setIndex c si { w1 with idxs := upd w1.idxs si ((w1.idxs si).set (some u) c) }
      fun hw => hw.iLt (o := o) hsi
    have k3 : LogS { w1 with idxs := upd w1.idxs si ((w1.idxs si).set (some u) c) } _ := ⟨k2.wf k1.wf, rfl, k2.suppress, k2.cls⟩
    exact (k1.trans k3).trans (hf _ k3.wf)

theorem logR_indexNodes {E : Env} (hE : NoFactory E) (n : Nat) (o : Oid) :
    Pres LogR (indexNodes E n o) := by
  induction n generalizing o with
  | zero => exact pres_raise logR_pre _
  | succ n ih =>
    refine pres_bind logR_pre (logR_of_quiet (mvalues_quiet hE o)) fun vs =>
      pres_forU logR_pre (fun v => ?_) vs
    unfold indexNodesStep
    split
    · exact pres_pure logR_pre _
    · rename_i c
      refine pres_bind logR_pre (pres_getW logR_pre) fun w => ?_
      refine pres_ite logR_pre ?_ (pres_pure logR_pre _)
      split
      · exact pres_raise logR_pre _
      · exact logR_indexPut o c _ (f := fun _ => if (bhvsOf E w c).contains .reference = true
          then indexNodes E n c else M.raise .attr)
          (pres_ite logR_pre (ih c) (pres_raise logR_pre _))

theorem logR_referenceDetach {E : Env} (hE : NoFactory E) (v : Val) :
    Pres LogR (referenceDetach E v) := by
  unfold referenceDetach
  split
  · exact pres_raise logR_pre _
  · rename_i c
    refine pres_bind logR_pre (pres_getW logR_pre) fun w => ?_
    refine pres_ite logR_pre ?_ (pres_raise logR_pre _)
    split
    · exact pres_raise logR_pre _
    · rename_i u _
      refine pres_bind logR_pre (logR_newIdx c (fun _ => [(some u, c)]) fun _ => by
        simp [Od.keys]) fun _ => ?_
      exact pres_ite logR_pre (logR_indexNodes hE _ _) (pres_raise logR_pre _)

/-- The notification switches unchanged, on well-formed heaps. -/
def SwitchR (w w' : World) : Prop := WF w → WF w' ∧ ∀ p, (w'.objs p).suppress = (w.objs p).suppress

theorem switchR_pre : PreR SwitchR :=
  ⟨fun _ hw => ⟨hw, fun _ => rfl⟩, fun h h' hw =>
    ⟨(h' (h hw).1).1, fun p => ((h' (h hw).1).2 p).trans ((h hw).2 p)⟩⟩

theorem switchR_of {α : Type} {m : M α} (h : Pres LogR m) : Pres SwitchR m := fun w hw =>
  ⟨(h w hw).wf, (h w hw).suppress⟩

theorem switchR_delitem {E : Env} (hE : NoFactory E) (o : Oid) (k : Key) :
    Pres SwitchR (delitem E o k) := by
  have h := logR_delPrims hE o
  have hp : DelPrims0 E SwitchR o :=
    ⟨switchR_pre, fun p k => switchR_of (h.getitem p k), fun p => switchR_of (h.iter p),
     fun k => switchR_of (h.delEnd k), fun k => switchR_of (h.nsDrop k),
     fun k => switchR_of (h.cacheDrop k), fun us => switchR_of (h.unindex us)⟩
  have hn : ∀ e, Pres SwitchR (notify e) := fun e w hw => ⟨hw.setLog _, fun _ => rfl⟩
  exact fun w => hp.delPipe _ (fun _ v k => hn _) (fun _ q => hn _) k w

/-! ### What reaches a behavior in the middle of a stack -/

/-- An assignment through `l ++ r`: an exception leaves the log alone; on success either
a nodespace of `l` took the value, or `r` was called with the key `l` made of `k`, and
nothing happened afterwards. -/
structure SetThru (E : Env) (al : Option Aliaser) (l r : List Bhv) (o : Oid) (k : Key) (v : Val)
    (w : World) (x : Except Exc Unit × World) : Prop where
  err : ∀ e, x.1 = .error e → LogS w x.2
  ok : x.1 = .ok () → (∃ k', dest al l k = some (.nodespace k') ∧ LogS w x.2) ∨
    ∃ k' w1, dest al l k = some (.child k') ∧ LogS w w1 ∧ setPipe E r o k' v w1 = (.ok (), x.2)

theorem SetThru.of_pre {E : Env} {al : Option Aliaser} {l l' r : List Bhv} {o : Oid} {k k' : Key}
    {v : Val} {w w1 : World} {x : Except Exc Unit × World} (h : SetThru E al l' r o k' v w1 x)
    (hs : LogS w w1) (hd : dest al l k = dest al l' k') : SetThru E al l r o k v w x where
  err e he := hs.trans (h.err e he)
  ok hx := by
    rcases h.ok hx with ⟨k2, h1, h2⟩ | ⟨k2, w2, h1, h2, h3⟩
    · exact .inl ⟨k2, hd.trans h1, hs.trans h2⟩
    · exact .inr ⟨k2, w2, hd.trans h1, hs.trans h2, h3⟩

theorem SetThru.fail {E : Env} {al : Option Aliaser} {l r : List Bhv} {o : Oid} {k : Key}
    {v : Val} {w w1 : World} (e : Exc) (hs : LogS w w1) : SetThru E al l r o k v w (.error e, w1) :=
  ⟨fun _ _ => hs, fun h => nomatch h⟩

theorem setPipe_thru {E : Env} (l r : List Bhv) (hl : ¬ Loud l) (o : Oid)
    (hr : ∀ k v w e w', WF w → setPipe E r o k v w = (.error e, w') → LogS w w')
    (k : Key) (v : Val) {w : World} (hw : WF w) (al : Option Aliaser)
    (hal : al = (clsOf E w o).aliaser) :
    SetThru E al l r o k v w (setPipe E (l ++ r) o k v w) := by
  induction l generalizing k v w with
  | nil =>
    refine ⟨fun e he => hr k v w e _ hw ?_, fun h => .inr ⟨k, w, rfl, .refl hw, ?_⟩⟩
    · show setPipe E r o k v w = _
      exact Prod.ext he rfl
    · exact Prod.ext h rfl
  | cons b t ih =>
    have ih := fun k v {w} => @ih (fun h => hl h.cons) k v w
    have hal' : ∀ {w1 : World}, LogS w w1 → al = (clsOf E w1 o).aliaser := by
      intro w1 h; unfold clsOf; rw [h.cls o]; exact hal
    have hnl : b ≠ .lifecycle ∧ b ≠ .attributesLifecycle :=
      ⟨fun h => hl (.inl (h ▸ List.mem_cons_self)), fun h => hl (.inr (h ▸ List.mem_cons_self))⟩
    have hfst : ∀ {m : M Unit}, Pres LogR m → ∀ {k'} (_ : dest al (b :: t) k = dest al t k'),
        SetThru E al (b :: t) r o k v w ((m >>= fun _ => setPipe E (t ++ r) o k' v) w) := by
      intro m hm k' hd
      have h1 := hm w hw
      simp only [M.bind_apply]
      rcases hx : m w with ⟨e | u, w1⟩
      · rw [hx] at h1; exact SetThru.fail e h1
      · rw [hx] at h1; exact (ih k' v h1.wf (hal' h1)).of_pre h1 hd
    cases b
    case lifecycle => exact absurd rfl hnl.1
    case attributesLifecycle => exact absurd rfl hnl.2
    case nodeChildValidate =>
      simp only [List.cons_append, setPipe, validateSet, M.bind_apply, M.getW_apply]
      split
      · exact SetThru.fail _ (.refl hw)
      · split
        · exact SetThru.fail _ (.refl hw)
        · exact (ih k v hw hal).of_pre (.refl hw) rfl
    case nodespaces =>
      simp only [List.cons_append, setPipe, nodespacesSet]
      split
      · rename_i s
        by_cases hres : reserved s = true
        · have hR := (reserved_iff s).mp hres
          have hns : ∀ {m : M Unit}, Pres LogR m →
              SetThru E al (.nodespaces :: t) r o (.str s) v w (m w) := by
            intro m hm
            exact ⟨fun _ _ => hm w hw, fun _ => .inl ⟨.str s, by simp only [dest, hR, if_true],
              hm w hw⟩⟩
          simp only [hres, if_true]
          split
          · exact hns (pres_bind logR_pre (logR_setName _ _) fun _ =>
              pres_bind logR_pre (logR_setParent _ _) fun _ => logR_nsPut o _ _)
          · exact hns (logR_nsPut o _ _)
          · exact hns (logR_nsPut o _ _)
          · exact SetThru.fail _ (.refl hw)
        · have hR : ¬ Reserved s := fun h => hres ((reserved_iff s).mpr h)
          simp only [hres, if_false, Bool.false_eq_true]
          exact (ih _ v hw hal).of_pre (.refl hw) (by simp [dest, hR])
      · exact SetThru.fail _ (.refl hw)
    case adopt =>
      cases v with
      | data d => exact (ih k _ hw hal).of_pre (.refl hw) rfl
      | node c =>
        simp only [List.cons_append, setPipe, adoptSet, M.bind_apply, getO_apply, modO_apply,
          M.catchIf_apply]
        have h12 := ((logR_setName c k) w hw).trans ((logR_setParent c (some o)) _
          ((logR_setName c k) w hw).wf)
        simp only [modO_apply] at h12
        have h1 := (ih k (.node c) h12.wf (hal' h12)).of_pre (l := .adopt :: t) (k := k) h12 rfl
        revert h1
        generalize setPipe E (t ++ r) o k (.node c) _ = x
        intro h1
        rcases x with ⟨e | u, w3⟩
        · simp only
          split
          · have h3 := h1.err e rfl
            exact SetThru.fail _ ((h3.trans ((logR_setName c (w.objs c).name) w3 h3.wf)).trans
              ((logR_setParent c (w.objs c).parent) _ ((logR_setName c (w.objs c).name) w3 h3.wf).wf))
          · exact h1
        · exact h1
    case reference =>
      cases v with
      | data d => exact (ih k _ hw hal).of_pre (.refl hw) rfl
      | node c =>
        have hm : Pres LogR (do referenceCheck E o c; referenceMerge o c) := by
          refine pres_bind logR_pre ?_ fun _ => logR_referenceMerge o c
          refine pres_bind logR_pre (logR_of_quiet (iter_quiet E c)) fun it => ?_
          split
          · exact pres_pure logR_pre _
          · exact pres_raise logR_pre _
          · refine pres_bind logR_pre (pres_of_id logR_pre (indexRef_id _)) fun _ => ?_
            refine pres_bind logR_pre (pres_of_id logR_pre (indexRef_id _)) fun _ => ?_
            refine pres_bind logR_pre (pres_getW logR_pre) fun _ => ?_
            exact pres_ite logR_pre (pres_raise logR_pre _) (pres_pure logR_pre _)
        have := hfst hm (k' := k) rfl
        simp only [List.cons_append, setPipe, referenceSet]
        simp only [M.bind_apply] at this ⊢
        revert this
        rcases referenceCheck E o c w with ⟨e | u, w1⟩ <;> exact fun h => h
    case cache => exact hfst (logR_of_quiet (cacheDrop_quiet o k)) rfl
    case alias =>
      simp only [List.cons_append, setPipe, M.bind_apply]
      have hid := unaliasKey_id E o k w
      have hd := fun u => unalias_dest (E := E) (o := o) (w := w) (k := k) (u := u) t
      rw [← hal] at hd
      revert hid hd
      generalize unaliasKey E o k w = x
      intro hid hd
      rcases x with ⟨e | u, w1⟩
      · simp only at hid; subst hid
        exact SetThru.fail _ (.refl hw)
      · simp only at hid; subst hid
        have h1 := (ih u v hw hal).of_pre (l := .alias :: t) (k := k) (.refl hw) (hd u rfl)
        simp only [rekey, M.catchIf_apply]
        revert h1
        generalize setPipe E (t ++ r) o u v w1 = x
        intro h1
        rcases x with ⟨e | u', w3⟩
        · simp only
          split
          · exact SetThru.fail _ (h1.err e rfl)
          · exact h1
        · exact h1
    all_goals exact (ih k v hw hal).of_pre (.refl hw) rfl

/-- The same for a deletion. -/
structure DelThru (E : Env) (al : Option Aliaser) (l r : List Bhv) (o : Oid) (k : Key)
    (w : World) (x : Except Exc Unit × World) : Prop where
  err : ∀ e, x.1 = .error e → LogS w x.2
  ok : x.1 = .ok () → (∃ k', dest al l k = some (.nodespace k') ∧ LogS w x.2) ∨
    ∃ k' w1, dest al l k = some (.child k') ∧ LogS w w1 ∧ ChSame w w1 ∧
      delPipe E r o k' w1 = (.ok (), x.2)

theorem DelThru.of_pre {E : Env} {al : Option Aliaser} {l l' r : List Bhv} {o : Oid} {k k' : Key}
    {w w1 : World} {x : Except Exc Unit × World} (h : DelThru E al l' r o k' w1 x)
    (hs : LogS w w1) (hc : ChSame w w1) (hd : dest al l k = dest al l' k') :
    DelThru E al l r o k w x where
  err e he := hs.trans (h.err e he)
  ok hx := by
    rcases h.ok hx with ⟨k2, h1, h2⟩ | ⟨k2, w2, h1, h2, h3, h4⟩
    · exact .inl ⟨k2, hd.trans h1, hs.trans h2⟩
    · exact .inr ⟨k2, w2, hd.trans h1, hs.trans h2, hc.trans h3, h4⟩

theorem DelThru.fail {E : Env} {al : Option Aliaser} {l r : List Bhv} {o : Oid} {k : Key}
    {w w1 : World} (e : Exc) (hs : LogS w w1) : DelThru E al l r o k w (.error e, w1) :=
  ⟨fun _ _ => hs, fun h => nomatch h⟩

theorem delPipe_thru {E : Env} (l r : List Bhv) (hE : Bhv.reference ∈ l → NoFactory E) (hl : ¬ Loud l) (o : Oid)
    (c : ClassDef)
    (hr : ∀ k w e w', WF w → clsOf E w o = c → delPipe E r o k w = (.error e, w') → LogS w w')
    (k : Key) {w : World} (hw : WF w) (hcl : clsOf E w o = c) :
    DelThru E c.aliaser l r o k w (delPipe E (l ++ r) o k w) := by
  induction l generalizing k w with
  | nil =>
    refine ⟨fun e he => hr k w e _ hw hcl ?_, fun h => .inr ⟨k, w, rfl, .refl hw, ChSame.refl w, ?_⟩⟩
    · show delPipe E r o k w = _
      exact Prod.ext he rfl
    · exact Prod.ext h rfl
  | cons b t ih =>
    have ih := fun k {w} => @ih (fun h => hE (List.mem_cons_of_mem _ h)) (fun h => hl h.cons) k w
    have hal : c.aliaser = (clsOf E w o).aliaser := hcl ▸ rfl
    have hcl' : ∀ {w1 : World}, LogS w w1 → clsOf E w1 o = c := fun h => (congrArg E.cls (h.cls o)).trans hcl
    have hnl : b ≠ .lifecycle ∧ b ≠ .attributesLifecycle :=
      ⟨fun h => hl (.inl (h ▸ List.mem_cons_self)), fun h => hl (.inr (h ▸ List.mem_cons_self))⟩
    have hfst : ∀ {m : M Unit}, Pres LogR m → Pres ChC m → dest c.aliaser (b :: t) k = dest c.aliaser t k →
        DelThru E c.aliaser (b :: t) r o k w ((m >>= fun _ => delPipe E (t ++ r) o k) w) := by
      intro m hm hc hd
      have h1 := hm w hw
      have h2 := (hc w hw).2.1
      simp only [M.bind_apply]
      rcases hx : m w with ⟨e | u, w1⟩
      · rw [hx] at h1; exact DelThru.fail e h1
      · rw [hx] at h1 h2; exact (ih k h1.wf (hcl' h1)).of_pre h1 h2 hd
    cases b
    case lifecycle => exact absurd rfl hnl.1
    case attributesLifecycle => exact absurd rfl hnl.2
    case nodespaces =>
      simp only [List.cons_append, delPipe, nodespacesDel]
      split
      · rename_i s
        by_cases hres : reserved s = true
        · have hR := (reserved_iff s).mp hres
          simp only [hres, if_true]
          have hm := logR_nsDrop o (.str s) w hw
          exact ⟨fun _ _ => hm, fun _ => .inl ⟨.str s, by simp only [dest, hR, if_true], hm⟩⟩
        · have hR : ¬ Reserved s := fun h => hres ((reserved_iff s).mpr h)
          simp only [hres, if_false, Bool.false_eq_true]
          exact (ih _ hw hcl).of_pre (.refl hw) (ChSame.refl w) (by simp [dest, hR])
      · exact DelThru.fail _ (.refl hw)
    case reference =>
      have hE := hE List.mem_cons_self
      have := hfst (m := do let v ← getitem E o k; referenceUnindex E o v)
        (pres_bind logR_pre (logR_of_quiet (getitem_quiet hE o k)) fun v =>
          (logR_delPrims hE o).unindexed v)
        (pres_bind chc_pre (chc_of_quiet (getitem_quiet hE o k)) fun v => chc_unindex hE o v) rfl
      simp only [List.cons_append, delPipe, referenceDel]
      simp only [M.bind_apply] at this ⊢
      revert this
      rcases getitem E o k w with ⟨e | u, w1⟩ <;> exact fun h => h
    case cache =>
      exact hfst (logR_of_quiet (cacheDrop_quiet o k)) (chc_of_quiet (cacheDrop_quiet o k)) rfl
    case alias =>
      simp only [List.cons_append, delPipe, M.bind_apply]
      have hid := unaliasKey_id E o k w
      have hd := fun u => unalias_dest (E := E) (o := o) (w := w) (k := k) (u := u) t
      rw [← hal] at hd
      revert hid hd
      generalize unaliasKey E o k w = x
      intro hid hd
      rcases x with ⟨e | u, w1⟩
      · simp only at hid; subst hid
        exact DelThru.fail _ (.refl hw)
      · simp only at hid; subst hid
        have h1 := (ih u hw hcl).of_pre (l := .alias :: t) (k := k) (.refl hw) (ChSame.refl _)
          (hd u rfl)
        simp only [rekey, M.catchIf_apply]
        revert h1
        generalize delPipe E (t ++ r) o u w1 = x
        intro h1
        rcases x with ⟨e | u', w3⟩
        · simp only
          split
          · exact DelThru.fail _ (h1.err e rfl)
          · exact h1
        · exact h1
    all_goals exact (ih k hw hcl).of_pre (.refl hw) (ChSame.refl w) rfl

end Verif
