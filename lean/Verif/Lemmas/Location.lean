import Verif.Lemmas.Generic

/-! What `node[k] = v` does to names and parents, for every stack. -/

namespace Verif

/-- Location of all nodes unchanged. -/
def LocSame (w w' : World) : Prop := ∀ p, w'.loc p = w.loc p

theorem LocSame.refl (w : World) : LocSame w w := fun _ => rfl

theorem LocSame.trans {a b c : World} (h : LocSame a b) (h' : LocSame b c) : LocSame a c :=
  fun p => (h' p).trans (h p)

theorem Same.loc {w w' : World} (h : Same w w') : LocSame w w' := fun p => by
  unfold World.loc; rw [(h.obj p).name, (h.obj p).parent]

/-- Well-formedness kept, locations unchanged. -/
def LocW (w w' : World) : Prop := WF w → WF w' ∧ LocSame w w'

theorem locw_pre : PreR LocW :=
  ⟨fun w hw => ⟨hw, LocSame.refl w⟩, fun h h' hw =>
    ⟨(h' (h hw).1).1, (h hw).2.trans (h' (h hw).1).2⟩⟩

theorem locw_of_quiet {α : Type} {m : M α} (h : Pres Quiet m) : Pres LocW m := fun w hw =>
  ⟨(h w hw).1, (h w hw).2.loc⟩

theorem loc_set (w : World) (c : Oid) (k : Key) (p : Option Oid) (q : Oid) :
    World.loc (modO c (fun ob => { ob with parent := p })
      (modO c (fun ob => { ob with name := k }) w).2).2 q = if q = c then (k, p) else w.loc q := by
  unfold World.loc
  simp only [modO_apply]
  by_cases hq : q = c
  · subst hq; simp
  · simp [upd, hq]

theorem locw_notify (e : Event) : Pres LocW (notify e) := fun _ hw => ⟨hw.setLog _, fun _ => rfl⟩

theorem locw_referenceMerge (o c : Oid) : Pres LocW (referenceMerge o c) := by
  intro w hw
  refine ⟨(keep_referenceMerge o c w).wf hw, ?_⟩
  simp only [referenceMerge, M.bind_apply]
  rcases h : indexRef o w with ⟨_ | si, w1⟩
  · have := indexRef_id o w; rw [h] at this; simp only at this; subst this; exact LocSame.refl _
  · obtain ⟨e1, hsi⟩ := indexRef_ok h
    subst e1
    simp only
    rcases h2 : indexRef c w1 with ⟨_ | vi, w2⟩
    · have := indexRef_id c w1; rw [h2] at this; simp only at this; subst this; exact LocSame.refl _
    · obtain ⟨e2, hvi⟩ := indexRef_ok h2
      subst e2
      simp only [M.modifyW_apply, modO_apply]
      intro p
      unfold World.loc
      by_cases hp : p = c
      · subst hp; simp
      · simp [upd, hp]

theorem locw_referenceCheck (E : Env) (o c : Oid) : Pres LocW (referenceCheck E o c) := by
  refine pres_bind locw_pre (locw_of_quiet (iter_quiet E c)) fun it => ?_
  split
  · exact pres_pure locw_pre _
  · exact pres_raise locw_pre _
  · refine pres_bind locw_pre (pres_of_id locw_pre (indexRef_id _)) fun _ => ?_
    refine pres_bind locw_pre (pres_of_id locw_pre (indexRef_id _)) fun _ => ?_
    refine pres_bind locw_pre (pres_getW locw_pre) fun _ => ?_
    exact pres_ite locw_pre (pres_raise locw_pre _) (pres_pure locw_pre _)

theorem locw_setEnd (E : Env) (o : Oid) (k : Key) (v : Val) : Pres LocW (setEnd E o k v) := by
  refine pres_bind locw_pre (pres_getW locw_pre) fun w => ?_
  refine pres_ite locw_pre (pres_raise locw_pre _) ?_
  refine pres_ite locw_pre ?_ (pres_raise locw_pre _)
  exact pres_bind locw_pre (locw_of_quiet (storageRef_quiet E o)) fun r => fun w hw =>
    ⟨hw.setStore r (Od.nodup_keys_set (hw.sNd r) k v), fun _ => rfl⟩

theorem locw_nsPut (o : Oid) (k : Key) (v : Val) : Pres LocW (nsPut o k v) :=
  pres_bind locw_pre (locw_of_quiet (nodespacesRef_quiet o)) fun r => fun w hw =>
    ⟨hw.setNspace r (Od.nodup_keys_set (hw.nNd r) k v), fun _ => rfl⟩

theorem nsPut_ok (o : Oid) (k : Key) (v : Val) (w : World) : (nsPut o k v w).1 = .ok () := by
  obtain ⟨r, w', h⟩ := nodespacesRef_isOk o w
  simp [nsPut, h]

/-- Locations after a successful assignment. -/
def LocSet (w w' : World) (o : Oid) (v : Val) : Option Key → Prop
  | none => LocSame w w'
  | some n => ∀ p, w'.loc p = if v = .node p then (n, some o) else w.loc p

structure LocOut (al : Option Aliaser) (bs : List Bhv) (o : Oid) (k : Key) (v : Val) (w : World)
    (x : Except Exc Unit × World) : Prop where
  wf : WF x.2
  ok : x.1 = .ok () → LocSet w x.2 o v (locName al bs k)
  err : ∀ e, x.1 = .error e → e.isAKV = true → Bhv.attributesLifecycle ∉ bs → LocSame w x.2

theorem LocSet.pre {a b c : World} {o : Oid} {v : Val} {n : Option Key} (h : LocSame a b)
    (h' : LocSet b c o v n) : LocSet a c o v n := by
  cases n with
  | none => exact h.trans h'
  | some n => intro p; rw [h' p, h p]

theorem LocSet.post {a b c : World} {o : Oid} {v : Val} {n : Option Key} (h : LocSet a b o v n)
    (h' : LocSame b c) : LocSet a c o v n := by
  cases n with
  | none => exact LocSame.trans h h'
  | some n => intro p; rw [h' p, h p]

theorem LocOut.of_pre {al : Option Aliaser} {bs bs' : List Bhv} {o : Oid} {k k' : Key} {v : Val}
    {w w1 : World} {x : Except Exc Unit × World} (h : LocOut al bs' o k' v w1 x)
    (hs : LocSame w w1) (hd : locName al bs k = locName al bs' k')
    (hm : Bhv.attributesLifecycle ∈ bs' → Bhv.attributesLifecycle ∈ bs) :
    LocOut al bs o k v w x where
  wf := h.wf
  ok e := hd ▸ (h.ok e).pre hs
  err e he ha hb := hs.trans (h.err e he ha fun hx => hb (hm hx))

theorem LocOut.fail {al : Option Aliaser} {bs : List Bhv} {o : Oid} {k : Key} {v : Val}
    {w w1 : World} (e : Exc) (hw : WF w1) (hs : LocSame w w1) :
    LocOut al bs o k v w (.error e, w1) where
  wf := hw
  ok h := by cases h
  err _ _ _ _ := hs

theorem unalias_locName {E : Env} {o : Oid} {w : World} {k u : Key} (r : List Bhv)
    (hu : (unaliasKey E o k w).1 = .ok u) :
    locName (clsOf E w o).aliaser (.alias :: r) k = locName (clsOf E w o).aliaser r u := by
  unfold unaliasKey at hu
  cases hal : (clsOf E w o).aliaser with
  | none => rw [hal] at hu; simp at hu; subst hu; rfl
  | some a =>
    rw [hal] at hu
    simp only at hu
    simp only [locName]
    split at hu
    · rename_i ht
      simp only at hu
      simp [ht, hu]
    · rename_i ht
      injection hu with hu
      subst hu
      simp [ht]

theorem setPipe_loc (E : Env) (bs : List Bhv) (o : Oid) (k : Key) (v : Val) {w : World}
    (hw : WF w) (al : Option Aliaser) (hal : al = (clsOf E w o).aliaser) :
    LocOut al bs o k v w (setPipe E bs o k v w) := by
  induction bs generalizing k v w with
  | nil =>
    have := locw_setEnd E o k v w hw
    exact ⟨this.1, fun _ => this.2, fun _ _ _ _ => this.2⟩
  | cons b r ih =>
    have hal' : ∀ {w1 : World}, (∀ p, (w1.objs p).cls = (w.objs p).cls) →
        al = (clsOf E w1 o).aliaser := by
      intro w1 h; unfold clsOf; rw [h o]; exact hal
    have hmem : Bhv.attributesLifecycle ∈ r → Bhv.attributesLifecycle ∈ b :: r :=
      List.mem_cons_of_mem _
    cases b
    case nodeChildValidate =>
      simp only [setPipe, validateSet, M.bind_apply, M.getW_apply]
      split
      · exact LocOut.fail _ hw (LocSame.refl w)
      · split
        · exact LocOut.fail _ hw (LocSame.refl w)
        · exact (ih k v hw hal).of_pre (LocSame.refl w) rfl hmem
    case nodespaces =>
      simp only [setPipe, nodespacesSet]
      split
      · rename_i s
        by_cases hres : reserved s = true
        · have hR := (reserved_iff s).mp hres
          have hl : locName al (.nodespaces :: r) (.str s) = some (.str s) := by simp [locName, hR]
          simp only [hres, if_true]
          split
          · rename_i c
            have k1 := keep_setName c (.str s) w
            have k2 := keep_setParent c (some o) (modO c (fun ob => { ob with name := .str s }) w).2
            have hw2 := k2.wf (k1.wf hw)
            have hn := locw_nsPut o (.str s) (.node c) _ hw2
            have hl2 := loc_set w c (.str s) (some o)
            have hok := nsPut_ok o (.str s) (.node c) (modO c (fun ob => { ob with parent := some o })
              (modO c (fun ob => { ob with name := .str s }) w).2).2
            show LocOut al _ o _ _ w (nsPut o (.str s) (.node c) (modO c (fun ob => { ob with parent := some o })
              (modO c (fun ob => { ob with name := .str s }) w).2).2)
            refine ⟨hn.1, fun _ => ?_, fun e he => ?_⟩
            · rw [hl]
              intro p
              rw [hn.2 p, hl2 p]
              by_cases hp : p = c
              · subst hp; simp
              · have : ¬ (Val.node c = Val.node p) := fun h => hp (by injection h with h; exact h.symm)
                simp [hp, this]
            · rw [hok] at he; cases he
          · rename_i d
            have hn := locw_nsPut o (.str s) (.data (.cls d)) w hw
            refine ⟨hn.1, fun _ => ?_, fun e he _ _ => hn.2⟩
            rw [hl]; intro p; exact (hn.2 p).trans (by simp)
          · rename_i d
            have hn := locw_nsPut o (.str s) (.data (.func d)) w hw
            refine ⟨hn.1, fun _ => ?_, fun e he _ _ => hn.2⟩
            rw [hl]; intro p; exact (hn.2 p).trans (by simp)
          · exact LocOut.fail _ hw (LocSame.refl w)
        · have hR : ¬ Reserved s := fun h => hres ((reserved_iff s).mpr h)
          simp only [hres, if_false, Bool.false_eq_true]
          exact (ih _ v hw hal).of_pre (LocSame.refl w) (by simp [locName, hR]) hmem
      · exact LocOut.fail _ hw (LocSame.refl w)
    case adopt =>
      cases v with
      | data d =>
        have h1 := ih k (.data d) hw hal
        refine ⟨h1.wf, fun e => ?_, fun e he ha hb => h1.err e he ha fun hx => hb (hmem hx)⟩
        have h2 := h1.ok e
        simp only [locName]
        have h3 : LocSame w (setPipe E (.adopt :: r) o k (.data d) w).2 := by
          cases hn : locName al r k with
          | none => rw [hn] at h2; exact h2
          | some n => rw [hn] at h2; intro p; exact (h2 p).trans (by simp)
        cases hn : locName al r k with
        | none => intro p; simpa using h3 p
        | some n => intro p; simpa using h3 p
      | node c =>
        simp only [setPipe, adoptSet, M.bind_apply, getO_apply, M.catchIf_apply]
        have k1 := keep_setName c k w
        have k2 := keep_setParent c (some o) (modO c (fun ob => { ob with name := k }) w).2
        have hl := loc_set w c k (some o)
        have h1 := ih k (.node c) (k2.wf (k1.wf hw)) (hal' fun p => (k2.cls p).trans (k1.cls p))
        simp only [modO_apply] at h1 hl ⊢
        revert h1
        generalize setPipe E r o k (.node c) _ = x
        intro h1
        rcases x with ⟨e | u, w3⟩
        · simp only
          have hback := loc_set w3 c (w.objs c).name (w.objs c).parent
          have k3 := keep_setName c (w.objs c).name w3
          have k4 := keep_setParent c (w.objs c).parent
            (modO c (fun ob => { ob with name := (w.objs c).name }) w3).2
          split
          · rename_i hakv
            refine ⟨k4.wf (k3.wf h1.wf), (fun h => nomatch h), fun e' he' ha hb => ?_⟩
            intro p
            refine (hback p).trans ?_
            have h2 := h1.err e rfl hakv fun hx => hb (hmem hx)
            by_cases hp : p = c
            · subst hp; simp [World.loc]
            · simp only [hp, if_false]
              rw [h2 p, hl p]; simp [hp]
          · rename_i hakv
            exact ⟨h1.wf, (fun h => nomatch h), fun e' he' ha hb => by
              injection he' with he'; subst he'; exact absurd ha hakv⟩
        · refine ⟨h1.wf, fun _ => ?_, fun e he => nomatch he⟩
          have h2 := h1.ok rfl
          simp only [locName]
          cases hn : locName al r k with
          | none =>
            rw [hn] at h2
            intro p
            rw [h2 p, hl p]
            by_cases hp : p = c
            · subst hp; simp
            · have : ¬ (Val.node c = Val.node p) := fun h => hp (by injection h with h; exact h.symm)
              simp [hp, this]
          | some n =>
            rw [hn] at h2
            intro p
            rw [h2 p, hl p]
            by_cases hp : p = c
            · subst hp; simp
            · have : ¬ (Val.node c = Val.node p) := fun h => hp (by injection h with h; exact h.symm)
              simp [hp, this]
    case reference =>
      cases v with
      | data d => exact (ih k _ hw hal).of_pre (LocSame.refl w) rfl hmem
      | node c =>
        simp only [setPipe, referenceSet, M.bind_apply]
        have k1 := keep_referenceCheck E o c w
        have c1 := locw_referenceCheck E o c w hw
        rcases h : referenceCheck E o c w with ⟨e | u, w1⟩
        · rw [h] at k1 c1
          exact LocOut.fail _ c1.1 c1.2
        · rw [h] at k1 c1
          simp only
          have k2 := keep_referenceMerge o c w1
          have c2 := locw_referenceMerge o c w1 c1.1
          rcases h2 : referenceMerge o c w1 with ⟨e | u, w2⟩
          · rw [h2] at k2 c2
            exact LocOut.fail _ c2.1 (c1.2.trans c2.2)
          · rw [h2] at k2 c2
            exact (ih k (.node c) c2.1 (hal' fun p => (k2.cls p).trans (k1.cls p))).of_pre
              (c1.2.trans c2.2) rfl hmem
    case lifecycle =>
      simp only [setPipe, lifecycleSet, M.bind_apply]
      have h1 := (ih k v hw hal).of_pre (bs := .lifecycle :: r) (k := k) (LocSame.refl w) rfl hmem
      revert h1
      generalize setPipe E r o k v w = x
      intro h1
      rcases x with ⟨e | u, w3⟩
      · exact h1
      · simp only [getO_apply]
        split
        · exact h1
        · exact ⟨h1.wf.setLog _, fun _ => (h1.ok rfl).post fun _ => rfl, fun e he => nomatch he⟩
    case attributesLifecycle =>
      simp only [setPipe, M.bind_apply]
      have h1 := (ih k v hw hal).of_pre (bs := .attributesLifecycle :: r) (k := k)
        (LocSame.refl w) rfl hmem
      revert h1
      generalize setPipe E r o k v w = x
      intro h1
      rcases x with ⟨e | u, w3⟩
      · exact h1
      · simp only
        have cn := pres_notifyModified (E := E) locw_pre (fun _ => locw_notify _) o w3 h1.wf
        exact ⟨cn.1, fun _ => (h1.ok rfl).post cn.2, fun e he _ hb => absurd List.mem_cons_self hb⟩
    case cache =>
      simp only [setPipe, M.bind_apply]
      have hq := cacheDrop_quiet o k w hw
      have hk := keep_cacheDrop o k w
      revert hq hk
      generalize cacheDrop o k w = x
      intro hq hk
      rcases x with ⟨e | u, w1⟩
      · exact LocOut.fail _ hq.1 hq.2.loc
      · exact (ih k v hq.1 (hal' hk.cls)).of_pre hq.2.loc rfl hmem
    case alias =>
      simp only [setPipe, M.bind_apply]
      have hid := unaliasKey_id E o k w
      have hd := fun u => unalias_locName (E := E) (o := o) (w := w) (k := k) (u := u) r
      rw [← hal] at hd
      revert hid hd
      generalize unaliasKey E o k w = x
      intro hid hd
      rcases x with ⟨e | u, w1⟩
      · simp only at hid; subst hid
        exact LocOut.fail _ hw (LocSame.refl _)
      · simp only at hid; subst hid
        have h1 := (ih u v hw hal).of_pre (bs := .alias :: r) (k := k)
          (LocSame.refl w1) (hd u rfl) hmem
        simp only [rekey, M.catchIf_apply]
        revert h1
        generalize setPipe E r o u v w1 = x
        intro h1
        rcases x with ⟨e | u', w3⟩
        · simp only
          split
          · rename_i hek
            refine ⟨h1.wf, fun h => (by simp at h), fun e' he' ha hb => h1.err e rfl ?_ hb⟩
            cases e <;> simp [Exc.isKey, Exc.isAKV] at hek ⊢
          · exact h1
        · exact h1
    all_goals exact (ih k v hw hal).of_pre (LocSame.refl w) rfl hmem

theorem setitem_loc (E : Env) (o : Oid) (k : Key) (v : Val) {w : World} (hw : WF w) :
    LocOut (clsOf E w o).aliaser (bhvsOf E w o) o k v w (setitem E o k v w) :=
  setPipe_loc E _ o k v hw _ rfl

end Verif
