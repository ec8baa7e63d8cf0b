import Verif.Lemmas.ApiGeneric
import Verif.Lemmas.Detach

/-! Relations preserved by an assignment or deletion that goes to a given destination. -/

namespace Verif

/-- `R`, for a well-formed heap in which `o` has the class `c`. -/
def On (E : Env) (o : Oid) (c : ClassDef) (R : World → World → Prop) (w w' : World) : Prop :=
  WF w → clsOf E w o = c → WF w' ∧ (w'.objs o).cls = (w.objs o).cls ∧ R w w'

theorem on_pre {E : Env} {o : Oid} {c : ClassDef} {R : World → World → Prop} (hR : PreR R) :
    PreR (On E o c R) :=
  ⟨fun w hw _ => ⟨hw, rfl, hR.refl w⟩, fun h h' hw hc => by
    obtain ⟨h1, h2, h3⟩ := h hw hc
    obtain ⟨h4, h5, h6⟩ := h' h1 ((congrArg E.cls h2).trans hc)
    exact ⟨h4, h5.trans h2, hR.trans h3 h6⟩⟩

theorem on_cls {E : Env} {o : Oid} {c : ClassDef} {R : World → World → Prop} (w w' : World)
    (h : clsOf E w o = c → On E o c R w w') : On E o c R w w' := fun hw hc => h hc hw hc

/-- `R` is respected by everything an assignment to a destination in `D` is made of. -/
structure SetRoute (E : Env) (R : World → World → Prop) (o : Oid) (c : ClassDef) (v : Val)
    (D : Dest → Prop) : Prop where
  pre : PreR R
  cls : ∀ w w', (clsOf E w o = c → R w w') → R w w'
  iter : ∀ n, v = .node n → Pres R (iter E n)
  setEnd : ∀ k, D (.child k) → Pres R (setEnd E o k v)
  nsPut : ∀ k, D (.nodespace k) → Pres R (nsPut o k v)
  name : ∀ n k, v = .node n → Pres R (modO n fun ob => { ob with name := k })
  parent : ∀ n p, v = .node n → Pres R (modO n fun ob => { ob with parent := p })
  cacheDrop : ∀ k, Pres R (cacheDrop o k)
  merge : ∀ n, v = .node n → Pres R (referenceMerge o n)
  notify : ∀ e, Pres R (notify e)

/-- `Alias` continues with the translated key, or fails. -/
theorem pres_unalias {E : Env} {R : World → World → Prop} {o : Oid} {c : ClassDef} (hR : PreR R)
    (hcls : ∀ w w', (clsOf E w o = c → R w w') → R w w') {k : Key} {D : Dest → Prop} {bs : List Bhv} {α : Type} {f : Key → M α}
    (hf : ∀ u, (∀ d, dest c.aliaser bs u = some d → D d) → Pres R (f u))
    (hd : ∀ d, dest c.aliaser (.alias :: bs) k = some d → D d) :
    Pres R (unaliasKey E o k >>= f) := by
  intro w
  refine hcls w _ fun hc => ?_
  simp only [M.bind_apply, unaliasKey, hc]
  simp only [dest] at hd
  cases ha : c.aliaser with
  | none =>
    rw [ha] at hd
    exact hf k (by rw [ha]; exact hd) w
  | some a =>
    simp only [ha] at hd ⊢
    by_cases ht : a.truthy = true
    · simp only [ht, if_true] at hd ⊢
      cases hu : a.unalias k with
      | error e => exact hR.refl w
      | ok u =>
        simp only [hu] at hd ⊢
        exact hf u (by rw [ha]; exact hd) w
    · simp only [ht] at hd ⊢
      exact hf k (by rw [ha]; exact hd) w

theorem SetRoute.setPipe {E : Env} {R : World → World → Prop} {o : Oid} {c : ClassDef} {v : Val}
    {D : Dest → Prop} (h : SetRoute E R o c v D) (bs : List Bhv) (k : Key)
    (hd : ∀ d, dest c.aliaser bs k = some d → D d) : Pres R (setPipe E bs o k v) := by
  have hR := h.pre
  induction bs generalizing k with
  | nil => exact h.setEnd k (hd _ rfl)
  | cons b r ih =>
    cases b
    case nodeChildValidate =>
      refine pres_bind hR (pres_getW hR) fun w => ?_
      exact pres_ite hR (pres_raise hR _) (pres_ite hR (pres_raise hR _) (ih k hd))
    case nodespaces =>
      show Pres _ (nodespacesSet _ o k v)
      unfold nodespacesSet
      split
      · rename_i s
        split
        · rename_i hres
          have hn := h.nsPut (.str s) (hd _ (by simp only [dest, if_pos ((reserved_iff s).mp hres)]))
          split
          · exact pres_bind hR (h.name _ _ rfl) fun _ =>
              pres_bind hR (h.parent _ _ rfl) fun _ => hn
          · exact hn
          · exact hn
          · exact pres_raise hR _
        · rename_i hres
          exact ih _ fun d e => hd d (by
            simp only [dest, if_neg fun h => hres ((reserved_iff s).mpr h)]; exact e)
      · exact pres_raise hR _
    case adopt =>
      show Pres _ (adoptSet _ o k v)
      unfold adoptSet
      split
      · exact ih _ hd
      · refine pres_bind hR (pres_getO hR _) fun old => ?_
        refine pres_bind hR (h.name _ _ rfl) fun _ => ?_
        refine pres_bind hR (h.parent _ _ rfl) fun _ => ?_
        refine pres_catchIf hR (ih _ hd) fun e => ?_
        exact pres_bind hR (h.name _ _ rfl) fun _ =>
          pres_bind hR (h.parent _ _ rfl) fun _ => pres_raise hR _
    case reference =>
      show Pres _ (referenceSet E (Verif.setPipe E r o) o k v)
      cases v with
      | data d => exact ih k hd
      | node c =>
        refine pres_bind hR ?_ fun _ => pres_bind hR (h.merge c rfl) fun _ => ih k hd
        refine pres_bind hR (h.iter c rfl) fun it => ?_
        split
        · exact pres_pure hR _
        · exact pres_raise hR _
        · refine pres_bind hR (pres_of_id hR (indexRef_id _)) fun _ => ?_
          refine pres_bind hR (pres_of_id hR (indexRef_id _)) fun _ => ?_
          refine pres_bind hR (pres_getW hR) fun _ => ?_
          exact pres_ite hR (pres_raise hR _) (pres_pure hR _)
    case lifecycle =>
      refine pres_bind hR (ih k hd) fun _ => ?_
      refine pres_bind hR (pres_getO hR _) fun ob => ?_
      exact pres_ite hR (pres_pure hR _) (h.notify _)
    case attributesLifecycle =>
      exact pres_bind hR (ih k hd) fun _ => pres_notifyModified hR (fun _ => h.notify _) o
    case cache => exact pres_bind hR (h.cacheDrop k) fun _ => ih k hd
    case alias =>
      exact pres_unalias h.pre h.cls (fun u hu => pres_catchIf hR (ih u hu) fun _ => pres_raise hR _) hd
    all_goals exact ih k hd

/-- `R` is respected by everything a deletion of a destination in `D` is made of. -/
structure DelRoute (E : Env) (R : World → World → Prop) (o : Oid) (c : ClassDef)
    (D : Dest → Prop) : Prop where
  pre : PreR R
  cls : ∀ w w', (clsOf E w o = c → R w w') → R w w'
  getitem : Bhv.lifecycle ∈ c.bhvs ∨ Bhv.reference ∈ c.bhvs → ∀ k, Pres R (getitem E o k)
  unindexed : Bhv.reference ∈ c.bhvs → ∀ v, Pres R (referenceUnindex E o v)
  delEnd : ∀ k, D (.child k) → Pres R (delEnd E o k)
  nsDrop : ∀ k, D (.nodespace k) → Pres R (nsDrop o k)
  cacheDrop : ∀ k, Pres R (cacheDrop o k)
  notify : ∀ e, Pres R (notify e)

theorem DelRoute.delPipe {E : Env} {R : World → World → Prop} {o : Oid} {c : ClassDef}
    {D : Dest → Prop} (h : DelRoute E R o c D) (bs : List Bhv) (hbs : ∀ b ∈ bs, b ∈ c.bhvs) (k : Key)
    (hd : ∀ d, dest c.aliaser bs k = some d → D d) : Pres R (delPipe E bs o k) := by
  have hR := h.pre
  induction bs generalizing k with
  | nil => exact h.delEnd k (hd _ rfl)
  | cons b r ih =>
    have hb := hbs b List.mem_cons_self
    replace ih := ih fun b h => hbs b (List.mem_cons_of_mem _ h)
    cases b
    case nodespaces =>
      show Pres _ (nodespacesDel _ o k)
      unfold nodespacesDel
      split
      · rename_i s
        split
        · rename_i hres
          exact h.nsDrop (.str s) (hd _ (by simp only [dest, if_pos ((reserved_iff s).mp hres)]))
        · rename_i hres
          exact ih _ fun d e => hd d (by
            simp only [dest, if_neg fun h => hres ((reserved_iff s).mpr h)]; exact e)
      · exact pres_raise hR _
    case reference =>
      exact pres_bind hR (h.getitem (.inr hb) k) fun v => pres_bind hR (h.unindexed hb v) fun _ => ih k hd
    case lifecycle =>
      refine pres_bind hR (h.getitem (.inl hb) k) fun v => pres_bind hR (ih k hd) fun _ => ?_
      refine pres_bind hR (pres_getO hR _) fun ob => ?_
      exact pres_ite hR (pres_pure hR _) (h.notify _)
    case attributesLifecycle =>
      exact pres_bind hR (ih k hd) fun _ => pres_notifyModified hR (fun _ => h.notify _) o
    case cache => exact pres_bind hR (h.cacheDrop k) fun _ => ih k hd
    case alias =>
      exact pres_unalias h.pre h.cls (fun u hu => pres_catchIf hR (ih u hu) fun _ => pres_raise hR _) hd
    all_goals exact ih k hd

/-! ### What the parts do to children and nodespaces -/

section
variable {E : Env} {o : Oid} {c : ClassDef}

theorem on_quiet {R : World → World → Prop} (hR : ∀ w w', Same w w' → R w w') {w w' : World}
    (h : Quiet w w') : On E o c R w w' := fun hw _ =>
  ⟨(h hw).1, ((h hw).2.obj _).cls, hR _ _ (h hw).2⟩

theorem on_hidden {R : World → World → Prop} (hR : ∀ w w', Hidden w w' → R w w') {w w' : World}
    (h : Hidden w w') : On E o c R w w' := fun hw _ => ⟨h.wf hw, h.cls _, hR _ _ h⟩

/-- A relation between the nodespaces alone. -/
structure NsRel (R : World → World → Prop) : Prop where
  pre : PreR R
  of : ∀ w w', (∀ p, w'.nsview p = w.nsview p) → R w w'

/-- A relation between the children alone. -/
structure ChRel (R : World → World → Prop) : Prop where
  pre : PreR R
  of : ∀ w w', (∀ p, w'.children p = w.children p) → R w w'

theorem on_setEnd_ns {R : World → World → Prop} (h : NsRel R) (k : Key) (v : Val) :
    Pres (On E o c R) (setEnd E o k v) := by
  have hR := on_pre (E := E) (o := o) (c := c) h.pre
  refine pres_bind hR (pres_getW hR) fun w => ?_
  refine pres_ite hR (pres_raise hR _) (pres_ite hR ?_ (pres_raise hR _))
  refine pres_bind hR (fun w => on_quiet (fun _ _ s => h.of _ _ s.nsview) (storageRef_quiet E o w))
    fun r w hw hc => ⟨hw.setStore r (Od.nodup_keys_set (hw.sNd r) k v), rfl,
      h.of _ _ fun _ => rfl⟩

theorem on_delEnd_ns {R : World → World → Prop} (h : NsRel R) (k : Key) :
    Pres (On E o c R) (delEnd E o k) := by
  have hR := on_pre (E := E) (o := o) (c := c) h.pre
  refine pres_bind hR (pres_getW hR) fun w => ?_
  refine pres_ite hR (pres_raise hR _) (pres_ite hR ?_ (pres_raise hR _))
  refine pres_bind hR (fun w => on_quiet (fun _ _ s => h.of _ _ s.nsview) (storageRef_quiet E o w))
    fun r => pres_bind hR (pres_getW hR) fun w => pres_ite hR (fun w hw hc =>
      ⟨hw.setStore r (Od.nodup_keys_del (hw.sNd r) k), rfl, h.of _ _ fun _ => rfl⟩)
      (pres_raise hR _)

theorem on_nsPut_ch {R : World → World → Prop} (h : ChRel R) (k : Key) (v : Val) :
    Pres (On E o c R) (nsPut o k v) := by
  have hR := on_pre (E := E) (o := o) (c := c) h.pre
  exact pres_bind hR (fun w => on_quiet (fun _ _ s => h.of _ _ s.children) (nodespacesRef_quiet o w))
    fun r w hw hc => ⟨hw.setNspace r (Od.nodup_keys_set (hw.nNd r) k v), rfl,
      h.of _ _ fun _ => rfl⟩

theorem on_nsDrop_ch {R : World → World → Prop} (h : ChRel R) (k : Key) :
    Pres (On E o c R) (nsDrop o k) := by
  have hR := on_pre (E := E) (o := o) (c := c) h.pre
  exact pres_bind hR (fun w => on_quiet (fun _ _ s => h.of _ _ s.children) (nodespacesRef_quiet o w))
    fun r => pres_bind hR (pres_getW hR) fun w => pres_ite hR (fun w hw hc =>
      ⟨hw.setNspace r (Od.nodup_keys_del (hw.nNd r) k), rfl, h.of _ _ fun _ => rfl⟩)
      (pres_raise hR _)

/-- The entry `j` of every node's nodespaces. -/
def NsEntry (j : Key) (w w' : World) : Prop := ∀ p, (w'.nsview p).get? j = (w.nsview p).get? j

/-- All nodespaces. -/
def NsSame (w w' : World) : Prop := ∀ p, w'.nsview p = w.nsview p

theorem nsSame_rel : NsRel NsSame :=
  ⟨⟨fun _ _ => rfl, fun h h' p => (h' p).trans (h p)⟩, fun _ _ h => h⟩

theorem nsEntry_rel (j : Key) : NsRel (NsEntry j) :=
  ⟨⟨fun _ _ => rfl, fun h h' p => (h' p).trans (h p)⟩, fun _ _ h p => by rw [h p]⟩

theorem chSame_rel : ChRel ChSame :=
  ⟨⟨fun _ _ => rfl, fun h h' => h.trans h'⟩, fun _ _ h => h⟩

theorem nsEntry_nsPut {j k : Key} (hj : j ≠ k) (v : Val) :
    Pres (On E o c (NsEntry j)) (nsPut o k v) := by
  intro w hw hc
  simp only [nsPut, M.bind_apply]
  have hq := nodespacesRef_quiet o w hw
  have hok := fun r w' => nodespacesRef_ok (o := o) (w := w) (r := r) (w' := w')
  generalize nodespacesRef o w = x at hq hok
  rcases x with ⟨e | r, w'⟩
  · exact ⟨hq.1, (hq.2.obj _).cls, fun p => by rw [hq.2.nsview p]⟩
  · refine ⟨hq.1.setNspace r (Od.nodup_keys_set (hq.1.nNd r) k v), (hq.2.obj _).cls, fun p => ?_⟩
    show (World.nsview { w' with nspaces := upd w'.nspaces r _ } p).get? j = _
    rw [nsview_setNspace hq.1 (hok r w' rfl)]
    split
    · rename_i e; subst e
      rw [Od.get?_set, if_neg hj, ← hq.2.nsview p, nsview_eq (hok r w' rfl)]
    · rw [hq.2.nsview p]

theorem nsEntry_nsDrop {j k : Key} (hj : j ≠ k) : Pres (On E o c (NsEntry j)) (nsDrop o k) := by
  intro w hw hc
  simp only [nsDrop, M.bind_apply]
  have hq := nodespacesRef_quiet o w hw
  have hok := fun r w' => nodespacesRef_ok (o := o) (w := w) (r := r) (w' := w')
  generalize nodespacesRef o w = x at hq hok
  rcases x with ⟨e | r, w'⟩
  · exact ⟨hq.1, (hq.2.obj _).cls, fun p => by rw [hq.2.nsview p]⟩
  · simp only [M.getW_apply]
    split
    · refine ⟨hq.1.setNspace r (Od.nodup_keys_del (hq.1.nNd r) k), (hq.2.obj _).cls, fun p => ?_⟩
      show (World.nsview { w' with nspaces := upd w'.nspaces r _ } p).get? j = _
      rw [nsview_setNspace hq.1 (hok r w' rfl)]
      split
      · rename_i e; subst e
        rw [Od.get?_del (hq.1.nNd r), if_neg hj, ← hq.2.nsview p, nsview_eq (hok r w' rfl)]
      · rw [hq.2.nsview p]
    · exact ⟨hq.1, (hq.2.obj _).cls, fun p => congrArg (Od.get? · j) (hq.2.nsview p)⟩

/-- Assigning name or parent touches neither children nor nodespaces. -/
theorem on_name {R : World → World → Prop}
    (hR : ∀ w w', (∀ p, w'.nsview p = w.nsview p) → (∀ p, w'.children p = w.children p) → R w w')
    (n : Oid) (k : Key) : Pres (On E o c R) (modO n fun ob => { ob with name := k }) := fun w hw _ =>
  ⟨(keep_setName n k w).wf hw, (keep_setName n k w).cls _,
    hR _ _ (nsview_modO n (fun ob => { ob with name := k }) rfl)
      (children_modO n (fun ob => { ob with name := k }) rfl)⟩

theorem on_parent {R : World → World → Prop}
    (hR : ∀ w w', (∀ p, w'.nsview p = w.nsview p) → (∀ p, w'.children p = w.children p) → R w w')
    (n : Oid) (k : Option Oid) : Pres (On E o c R) (modO n fun ob => { ob with parent := k }) :=
  fun w hw _ => ⟨(keep_setParent n k w).wf hw, (keep_setParent n k w).cls _,
    hR _ _ (nsview_modO n (fun ob => { ob with parent := k }) rfl)
      (children_modO n (fun ob => { ob with parent := k }) rfl)⟩

theorem NsRel.set {R : World → World → Prop} (h : NsRel R) (v : Val) (D : Dest → Prop)
    (hp : ∀ k, D (.nodespace k) → Pres (On E o c R) (nsPut o k v)) : SetRoute E (On E o c R) o c v D where
  pre := on_pre h.pre
  cls := on_cls
  iter n _ w := on_quiet (fun _ _ s => h.of _ _ s.nsview) (iter_quiet E n w)
  setEnd k _ := on_setEnd_ns h k v
  nsPut := hp
  name n k _ := on_name (fun _ _ e _ => h.of _ _ e) n k
  parent n k _ := on_parent (fun _ _ e _ => h.of _ _ e) n k
  cacheDrop k w := on_quiet (fun _ _ s => h.of _ _ s.nsview) (cacheDrop_quiet o k w)
  merge n _ w := on_hidden (fun _ _ s => h.of _ _ s.nsview) (hidden_referenceMerge o n w)
  notify e w := on_hidden (fun _ _ s => h.of _ _ s.nsview) (hidden_notify e w)

/-- The reads of a deletion, if they make no children. -/
theorem on_getitem_del {R : World → World → Prop} (hE : DelReads E c) (hR : ∀ w w', Same w w' → R w w')
    (hb : Bhv.lifecycle ∈ c.bhvs ∨ Bhv.reference ∈ c.bhvs) (k : Key) : Pres (On E o c R) (getitem E o k) :=
  fun w hw hc => on_quiet hR (getitem_quiet_at (by
    rw [hc]; exact hb.elim hE.lifecycle fun h => .inl (hE.reference h))) hw hc

theorem on_unindexed_del {R : World → World → Prop} (hE : DelReads E c) (hR : PreR R)
    (hS : ∀ w w', Same w w' → R w w') (hH : ∀ w w', Hidden w w' → R w w')
    (hb : Bhv.reference ∈ c.bhvs) (v : Val) : Pres (On E o c R) (referenceUnindex E o v) :=
  pres_referenceUnindex (on_pre hR) (fun p k w => on_quiet hS (getitem_quiet (hE.reference hb) p k w))
    (fun n w => on_quiet hS (iter_quiet E n w)) (fun us w => on_hidden hH (hidden_indexDelete o us w)) v

theorem NsRel.del {R : World → World → Prop} (h : NsRel R) (hE : DelReads E c) (D : Dest → Prop)
    (hp : ∀ k, D (.nodespace k) → Pres (On E o c R) (nsDrop o k)) : DelRoute E (On E o c R) o c D where
  pre := on_pre h.pre
  cls := on_cls
  getitem := on_getitem_del hE fun _ _ s => h.of _ _ s.nsview
  unindexed := on_unindexed_del hE h.pre (fun _ _ s => h.of _ _ s.nsview) fun _ _ s => h.of _ _ s.nsview
  delEnd k _ := on_delEnd_ns h k
  nsDrop := hp
  cacheDrop k w := on_quiet (fun _ _ s => h.of _ _ s.nsview) (cacheDrop_quiet o k w)
  notify e w := on_hidden (fun _ _ s => h.of _ _ s.nsview) (hidden_notify e w)

theorem ChRel.set {R : World → World → Prop} (h : ChRel R) (v : Val) (D : Dest → Prop)
    (hp : ∀ k, D (.child k) → Pres (On E o c R) (setEnd E o k v)) : SetRoute E (On E o c R) o c v D where
  pre := on_pre h.pre
  cls := on_cls
  iter n _ w := on_quiet (fun _ _ s => h.of _ _ s.children) (iter_quiet E n w)
  setEnd := hp
  nsPut k _ := on_nsPut_ch h k v
  name n k _ := on_name (fun _ _ _ e => h.of _ _ e) n k
  parent n k _ := on_parent (fun _ _ _ e => h.of _ _ e) n k
  cacheDrop k w := on_quiet (fun _ _ s => h.of _ _ s.children) (cacheDrop_quiet o k w)
  merge n _ w := on_hidden (fun _ _ s => h.of _ _ s.children) (hidden_referenceMerge o n w)
  notify e w := on_hidden (fun _ _ s => h.of _ _ s.children) (hidden_notify e w)

theorem ChRel.del {R : World → World → Prop} (h : ChRel R) (hE : DelReads E c) (D : Dest → Prop)
    (hp : ∀ k, D (.child k) → Pres (On E o c R) (delEnd E o k)) : DelRoute E (On E o c R) o c D where
  pre := on_pre h.pre
  cls := on_cls
  getitem := on_getitem_del hE fun _ _ s => h.of _ _ s.children
  unindexed := on_unindexed_del hE h.pre (fun _ _ s => h.of _ _ s.children) fun _ _ s => h.of _ _ s.children
  delEnd := hp
  nsDrop k _ := on_nsDrop_ch h k
  cacheDrop k w := on_quiet (fun _ _ s => h.of _ _ s.children) (cacheDrop_quiet o k w)
  notify e w := on_hidden (fun _ _ s => h.of _ _ s.children) (hidden_notify e w)

end

end Verif
