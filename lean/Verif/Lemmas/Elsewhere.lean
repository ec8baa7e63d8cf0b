import Verif.Lemmas.ApiGeneric
import Verif.Lemmas.NewNode
import Verif.Lemmas.Grow
import Verif.Lemmas.Remove

/-!
# What operations on other nodes leave alone

The children and the nodespaces of a node `q` without child factories, over operations that are called
on other nodes.
-/

namespace Verif

variable {E : Env} {q : Oid}

/-- The children and the nodespaces of the node `q` without child factories are what they were. -/
def Elsewhere (E : Env) (q : Oid) (w w' : World) : Prop :=
  WF w → q < w.nobj → Bhv.childFactory ∉ (clsOf E w q).bhvs →
    WF w' ∧ q < w'.nobj ∧ (w'.objs q).cls = (w.objs q).cls ∧ w'.children q = w.children q ∧ w'.nsview q = w.nsview q

theorem else_pre (E : Env) (q : Oid) : PreR (Elsewhere E q) :=
  ⟨fun _ hw hq _ => ⟨hw, hq, rfl, rfl, rfl⟩, fun h h' hw hq hf => by
    obtain ⟨a1, a2, a3, a4, a5⟩ := h hw hq hf
    obtain ⟨b1, b2, b3, b4, b5⟩ := h' a1 a2 (by unfold clsOf at hf ⊢; rw [a3]; exact hf)
    exact ⟨b1, b2, b3.trans a3, b4.trans a4, b5.trans a5⟩⟩

theorem else_quiet (w w' : World) (h : Quiet w w') : Elsewhere E q w w' := fun hw hq _ =>
  have ⟨h1, h2⟩ := h hw
  ⟨h1, h2.nobj ▸ hq, (h2.obj q).cls, h2.children q, h2.nsview q⟩

theorem else_hidden (w w' : World) (h : Hidden w w') : Elsewhere E q w w' := fun hw hq _ =>
  ⟨h.wf hw, h.nobj ▸ hq, h.cls q, h.children q, h.nsview q⟩

theorem else_steps (E : Env) (q : Oid) : ReadSteps E (Elsewhere E q) :=
  readSteps_of_quiet fun _ _ h => else_quiet _ _ h.1

/-- Changing the storage of another node. -/
theorem else_storage {p : Oid} (hp : p ≠ q) {α : Type} {f : Ref → M α}
    (hf : ∀ r w, (WF w → (w.objs p).storage = some r) → Elsewhere E q w (f r w).2) :
    Pres (Elsewhere E q) (do let r ← storageRef E p; f r) := fun w => by
  have hq := else_quiet (E := E) (q := q) _ _ (storageRef_quiet E p w)
  have hok := fun r w' => storageRef_ok (E := E) (o := p) (w := w) (r := r) (w' := w')
  simp only [M.bind_apply]
  generalize storageRef E p w = x at hq hok
  rcases x with ⟨e | r, w1⟩
  · exact hq
  · exact (else_pre E q).trans hq (hf r w1 fun _ => hok r w1 rfl)

theorem else_setStore {p : Oid} (hp : p ≠ q) {r : Ref} {w : World} (hr : WF w → (w.objs p).storage = some r)
    {d : Od Key Val} (hd : WF w → d.keys.Nodup) : Elsewhere E q w { w with stores := upd w.stores r d } :=
  fun hw hq _ => ⟨hw.setStore r (hd hw), hq, rfl, by rw [children_setStore hw (hr hw), if_neg (Ne.symm hp)], rfl⟩

/-- Changing the nodespaces of another node. -/
theorem else_spaces {p : Oid} (hp : p ≠ q) {α : Type} {f : Ref → M α}
    (hf : ∀ r w, (WF w → (w.objs p).nodespaces = some r) → Elsewhere E q w (f r w).2) :
    Pres (Elsewhere E q) (do let r ← nodespacesRef p; f r) := fun w => by
  have hq := else_quiet (E := E) (q := q) _ _ (nodespacesRef_quiet p w)
  have hok := fun r w' => nodespacesRef_ok (o := p) (w := w) (r := r) (w' := w')
  simp only [M.bind_apply]
  generalize nodespacesRef p w = x at hq hok
  rcases x with ⟨e | r, w1⟩
  · exact hq
  · exact (else_pre E q).trans hq (hf r w1 fun _ => hok r w1 rfl)

theorem else_setSpace {p : Oid} (hp : p ≠ q) {r : Ref} {w : World} (hr : WF w → (w.objs p).nodespaces = some r)
    {d : Od Key Val} (hd : WF w → d.keys.Nodup) : Elsewhere E q w { w with nspaces := upd w.nspaces r d } :=
  fun hw hq _ => ⟨hw.setNspace r (hd hw), hq, rfl, rfl, by rw [nsview_setNspace hw (hr hw), if_neg (Ne.symm hp)]⟩

theorem else_setPrims {p : Oid} (hp : p ≠ q) (v : Val) : SetPrims E (Elsewhere E q) p v where
  pre := else_pre E q
  iter c _ := (else_steps E q).iter c
  setEnd k := by
    have hR := else_pre E q
    refine pres_bind hR (pres_getW hR) fun w => pres_ite hR (pres_raise hR _) (pres_ite hR ?_ (pres_raise hR _))
    exact else_storage hp fun r w hr => else_setStore hp hr fun hw => Od.nodup_keys_set (hw.sNd r) _ _
  nsPut k := else_spaces hp fun r w hr => else_setSpace hp hr fun hw => Od.nodup_keys_set (hw.nNd r) _ _
  name c k _ w := fun hw hq _ => ⟨(keep_setName c k w).wf hw, hq, (keep_setName c k w).cls q,
    children_modO c (fun ob => { ob with name := k }) rfl q, nsview_modO c (fun ob => { ob with name := k }) rfl q⟩
  parent c k _ w := fun hw hq _ => ⟨(keep_setParent c k w).wf hw, hq, (keep_setParent c k w).cls q,
    children_modO c (fun ob => { ob with parent := k }) rfl q, nsview_modO c (fun ob => { ob with parent := k }) rfl q⟩
  cacheDrop k := (else_steps E q).cacheDrop p k
  merge c _ w := else_hidden _ _ (hidden_referenceMerge p c w)
  notify e w := else_hidden _ _ (hidden_notify e w)

theorem else_newNode (c : ClassId) (n : Key) (pa : Option Oid) : Pres (Elsewhere E q) (newNode E c n pa) :=
  fun w hw hq _ => by
    obtain ⟨h1, -, h3, -⟩ := newNode_builds E c n pa hw
    exact ⟨h1, Nat.lt_of_lt_of_le hq h3.nobj, h3.cls q hq, h3.children q hq, h3.nsview q hq⟩

theorem else_api (E : Env) (q : Oid) : ApiAt E (· ≠ q) (fun _ => True) (Elsewhere E q) where
  pre := else_pre E q
  steps := else_steps E q
  fbGuard := fbGuard_of_quiet (else_pre E q) else_quiet
  make o w hc := by
    by_cases h : o = q
    · subst h; exact .inr fun _ _ _ hf => absurd hc hf
    · exact .inl (pres_makeAt (else_pre E q) else_newNode fun k v => (else_setPrims h v).setitem k)
  setitem o ho k v _ := (else_setPrims ho v).setitem k
  delEnd o ho k := by
    have hR := else_pre E q
    refine pres_bind hR (pres_getW hR) fun w => pres_ite hR (pres_raise hR _) (pres_ite hR ?_ (pres_raise hR _))
    refine else_storage ho fun r w hr => ?_
    simp only [M.bind_apply, M.getW_apply]
    split
    · exact else_setStore ho hr fun hw => Od.nodup_keys_del (hw.sNd r) _
    · exact hR.refl w
  nsDrop o ho k := by
    refine else_spaces ho fun r w hr => ?_
    simp only [M.bind_apply, M.getW_apply]
    split
    · exact else_setSpace ho hr fun hw => Od.nodup_keys_del (hw.nNd r) _
    · exact (else_pre E q).refl w
  attrs o ho := by
    have hR := else_pre E q
    refine pres_bind hR (pres_getW hR) fun w => pres_ite hR ?_ (pres_raise hR _)
    refine else_spaces ho fun r w hr => ?_
    simp only [M.bind_apply, M.getW_apply]
    rcases (w.nspaces r).get? attrsKey with _ | (a | d)
    rotate_left
    · exact hR.refl w
    · exact hR.refl w
    · intro hw hq hf
      have hn := else_newNode (E := E) (q := q) (clsOf E w o).attrsFactory attrsKey (some o) w hw hq hf
      have hb := (newNode_builds E (clsOf E w o).attrsFactory attrsKey (some o) hw).2.2.1.spaces q hq
      simp only [M.bind_apply]
      revert hn hb
      generalize newNode E _ _ _ w = x
      intro hn hb
      rcases x with ⟨e | a, w1⟩
      · exact hn
      · obtain ⟨h1, h2, h3, h4, h5⟩ := hn
        refine ⟨h1.setNspace r (Od.nodup_keys_set (h1.nNd r) _ _), h2, h3, h4, ?_⟩
        show World.nsview { w1 with nspaces := upd w1.nspaces r _ } q = _
        rw [← h5]
        simp only [World.nsview]
        cases hs : (w1.objs q).nodespaces with
        | none => rfl
        | some s =>
          have hne : s ≠ r := fun e => ho (hw.nInj (hr hw) (by rw [← hb, hs, e]))
          simp only [upd, if_neg hne]
  insert b o ho ref new c := by
    have hR := else_pre E q
    refine else_storage ho fun r w hr => ?_
    simp only [M.bind_apply, M.getW_apply]
    split
    · split
      · split
        · exact hR.refl w
        · rename_i hnew
          have hk : new ∉ (w.stores r).keys := by rw [← Od.has_iff]; exact hnew
          refine else_setStore ho hr fun hw => ?_
          split
          · exact Od.nodup_insertBefore (hw.sNd r) hk ref _
          · exact Od.nodup_insertAfter (hw.sNd r) hk ref _
      · exact hR.refl w
    · exact hR.refl w
  swap o ho a b := by
    have hR := else_pre E q
    refine else_storage ho fun r w hr => ?_
    simp only [M.bind_apply, M.getW_apply]
    repeat' split
    all_goals first | exact hR.refl w | skip
    all_goals exact else_setStore ho hr fun hw => Od.nodup_swap (hw.sNd r) _ _
  volatile o ho k := by
    have hR := else_pre E q
    refine else_storage ho fun r w hr => ?_
    split
    · exact else_setStore ho hr fun _ => by simp [Od.keys]
    · intro hw
      have hk := else_quiet (E := E) (q := q) _ _ (mkeys_quiet E o w)
      have hs := stoKeep_mkeys E o w o r (hr hw)
      revert hw
      simp only [M.bind_apply]
      generalize mkeys E o w = x at hk hs
      rcases x with ⟨e | ks, w1⟩
      · exact hk
      · show Elsewhere E q w _
        refine hR.trans hk ?_
        simp only
        split
        · exact else_setStore ho (fun _ => hs) fun hw => Od.nodup_keys_del (hw.sNd r) _
        · exact hR.refl _
  newNode := else_newNode
  notify e w := else_hidden _ _ (hidden_notify e w)
  unindex o us w := else_hidden _ _ (hidden_indexDelete o us w)
  indexPut o c u w _ := hidden_indexPut (else_pre E q) else_hidden o c u (f := fun _ => pure ())
    (pres_pure (else_pre E q) _) w
  indexOwn c u w _ := else_hidden _ _ (hidden_newIdx c (fun _ => [(some u, c)]) (fun _ => by simp [Od.keys]) w)
  suppress o b w := else_hidden _ _ (hidden_modO o (fun ob => { ob with suppress := b }) (fun _ => rfl) (fun _ => rfl)
    (fun _ => rfl) (fun _ => rfl) (fun _ => rfl) (fun _ => rfl) (fun _ => rfl) (fun _ => rfl) w)
  fallbackKey o k w := else_hidden _ _ (hidden_setFallbackKey o k w)

/-! ### Locations -/

/-- The node `q` has the name and the parent it had. -/
def Lodged (q : Oid) (w w' : World) : Prop :=
  WF w → q < w.nobj → WF w' ∧ q < w'.nobj ∧ w'.loc q = w.loc q

theorem lodged_pre (q : Oid) : PreR (Lodged q) :=
  ⟨fun _ hw hq => ⟨hw, hq, rfl⟩, fun h h' hw hq => by
    obtain ⟨a1, a2, a3⟩ := h hw hq
    obtain ⟨b1, b2, b3⟩ := h' a1 a2
    exact ⟨b1, b2, b3.trans a3⟩⟩

theorem lodged_quiet (w w' : World) (h : Quiet w w') : Lodged q w w' := fun hw hq =>
  have ⟨h1, h2⟩ := h hw
  ⟨h1, h2.nobj ▸ hq, h2.loc q⟩

theorem lodged_hidden (w w' : World) (h : Hidden w w') : Lodged q w w' := fun hw hq =>
  ⟨h.wf hw, h.nobj ▸ hq, h.loc q⟩

theorem lodged_shrink (w w' : World) (h : ShrinkR w w') : Lodged q w w' := fun hw hq =>
  have ⟨h1, h2⟩ := h hw
  ⟨h1, h2.nobj ▸ hq, h2.loc q⟩

theorem lodged_steps (E : Env) (q : Oid) : ReadSteps E (Lodged q) :=
  readSteps_of_quiet fun _ _ h => lodged_quiet _ _ h.1

theorem lodged_same {w w' : World} (hw : WF w → WF w') (hn : w'.nobj = w.nobj) (ho : w'.objs = w.objs) : Lodged q w w' :=
  fun h hq => ⟨hw h, hn ▸ hq, by simp only [World.loc, ho]⟩

theorem lodged_setPrims {v : Val} (hv : v ≠ .node q) (p : Oid) : SetPrims E (Lodged q) p v where
  pre := lodged_pre q
  iter c _ := (lodged_steps E q).iter c
  setEnd k := by
    have hR := lodged_pre q
    refine pres_bind hR (pres_getW hR) fun w => pres_ite hR (pres_raise hR _) (pres_ite hR ?_ (pres_raise hR _))
    exact pres_bind hR (fun w => lodged_quiet _ _ (storageRef_quiet E p w)) fun r =>
      pres_modifyW fun w => lodged_same (fun hw => hw.setStore r (Od.nodup_keys_set (hw.sNd r) _ _)) rfl rfl
  nsPut k := pres_bind (lodged_pre q) (fun w => lodged_quiet _ _ (nodespacesRef_quiet p w)) fun r =>
    pres_modifyW fun w => lodged_same (fun hw => hw.setNspace r (Od.nodup_keys_set (hw.nNd r) _ _)) rfl rfl
  name c k hc w := fun hw hq => ⟨(keep_setName c k w).wf hw, hq, by
    have hne : q ≠ c := fun e => hv (by rw [hc, e])
    show ((upd w.objs c _ q).name, (upd w.objs c _ q).parent) = _
    simp only [upd, if_neg hne]; rfl⟩
  parent c k hc w := fun hw hq => ⟨(keep_setParent c k w).wf hw, hq, by
    have hne : q ≠ c := fun e => hv (by rw [hc, e])
    show ((upd w.objs c _ q).name, (upd w.objs c _ q).parent) = _
    simp only [upd, if_neg hne]; rfl⟩
  cacheDrop k := (lodged_steps E q).cacheDrop p k
  merge c _ w := lodged_hidden _ _ (hidden_referenceMerge p c w)
  notify e w := lodged_hidden _ _ (hidden_notify e w)

theorem lodged_newNode (c : ClassId) (n : Key) (pa : Option Oid) : Pres (Lodged q) (newNode E c n pa) :=
  fun w hw hq => by
    obtain ⟨h1, -, h3, -⟩ := newNode_builds E c n pa hw
    exact ⟨h1, Nat.lt_of_lt_of_le hq h3.nobj, h3.loc q hq⟩

theorem lodged_api (E : Env) (q : Oid) : ApiAt E (fun _ => True) (· ≠ .node q) (Lodged q) where
  pre := lodged_pre q
  steps := lodged_steps E q
  fbGuard := fbGuard_of_quiet (lodged_pre q) lodged_quiet
  make o w _ := .inl fun c n p k w hw hq => by
    obtain ⟨h1, -, h3, h4⟩ := newNode_builds E c n p hw
    have hn := lodged_newNode (E := E) (q := q) c n p w hw hq
    simp only [makeAt, M.bind_apply]
    generalize newNode E c n p w = x at h1 h3 h4 hn
    rcases x with ⟨e | a, w1⟩
    · exact hn
    · have ha := (h4 a rfl).1
      obtain ⟨n1, n2, n3⟩ := hn
      have hne : Val.node a ≠ .node q := fun e => by
        have e : a = q := Val.node.inj e
        exact absurd hq (by rw [← e, ha]; exact Nat.lt_irrefl _)
      obtain ⟨m1, m2, m3⟩ := (lodged_setPrims (E := E) hne o).setitem k w1 n1 n2
      exact ⟨m1, m2, m3.trans n3⟩
  setitem o _ k v hv := (lodged_setPrims hv o).setitem k
  delEnd o _ k w := lodged_shrink _ _ (shrink_delEnd E o k w)
  nsDrop o _ k w := lodged_shrink _ _ (shrink_nsDrop o k w)
  attrs o _ w hw hq := by
    obtain ⟨h1, -, h3, -, h5, -⟩ := attrs_builds E o hw
    exact ⟨h1, Nat.lt_of_lt_of_le hq h3, h5 q hq⟩
  insert b o _ ref new c w hw hq := by
    have hg := grow_storageInsert E b o ref new (.node c) w
    refine ⟨hg.wf hw, Nat.lt_of_lt_of_le hq hg.nobj, ?_⟩
    have hs := (storageRef_quiet E o w hw).2.loc q
    simp only [storageInsert, M.bind_apply]
    generalize storageRef E o w = x at hs
    rcases x with ⟨e | r, w1⟩
    · exact hs
    · simp only [M.getW_apply]
      repeat' split
      all_goals exact hs
  swap o _ a b w := lodged_shrink _ _ (shrink_swap E o a b w)
  volatile o _ k w := lodged_shrink _ _ (shrink_volatile E o k w)
  newNode := lodged_newNode
  notify e w := lodged_hidden _ _ (hidden_notify e w)
  unindex o us w := lodged_hidden _ _ (hidden_indexDelete o us w)
  indexPut o c u w _ := hidden_indexPut (lodged_pre q) lodged_hidden o c u (f := fun _ => pure ())
    (pres_pure (lodged_pre q) _) w
  indexOwn c u w _ := lodged_hidden _ _ (hidden_newIdx c (fun _ => [(some u, c)]) (fun _ => by simp [Od.keys]) w)
  suppress o b w := lodged_hidden _ _ (hidden_modO o (fun ob => { ob with suppress := b }) (fun _ => rfl) (fun _ => rfl)
    (fun _ => rfl) (fun _ => rfl) (fun _ => rfl) (fun _ => rfl) (fun _ => rfl) (fun _ => rfl) w)
  fallbackKey o k w := lodged_hidden _ _ (hidden_setFallbackKey o k w)

end Verif
