import Verif.Lemmas.Write
import Verif.Spec.Dest

/-! What `node[k] = v` does to the stored children, for every stack. -/

namespace Verif

theorem reserved_iff (s : Str) : reserved s = true ↔ Reserved s := by
  unfold reserved Reserved startsWith endsWith
  simp only [Bool.and_eq_true, List.isPrefixOf_iff_prefix, List.isSuffixOf_iff_suffix]
  constructor
  · rintro ⟨⟨t, ht⟩, ⟨u, hu⟩⟩; exact ⟨⟨t, ht.symm⟩, ⟨u, hu.symm⟩⟩
  · rintro ⟨⟨t, ht⟩, ⟨u, hu⟩⟩; exact ⟨⟨t, ht.symm⟩, ⟨u, hu.symm⟩⟩

/-- Children of all nodes unchanged. -/
def ChSame (w w' : World) : Prop := ∀ p, w'.children p = w.children p

theorem ChSame.refl (w : World) : ChSame w w := fun _ => rfl

theorem ChSame.trans {a b c : World} (h : ChSame a b) (h' : ChSame b c) : ChSame a c :=
  fun p => (h' p).trans (h p)

/-- Children of all nodes unchanged, on well-formed heaps. -/
def ChW (w w' : World) : Prop := WF w → WF w' ∧ ChSame w w'

theorem chw_pre : PreR ChW :=
  ⟨fun w hw => ⟨hw, ChSame.refl w⟩, fun h h' hw =>
    ⟨(h' (h hw).1).1, (h hw).2.trans (h' (h hw).1).2⟩⟩

theorem chw_of_quiet {α : Type} {m : M α} (h : Pres Quiet m) : Pres ChW m := fun w hw =>
  ⟨(h w hw).1, (h w hw).2.children⟩

theorem chw_modO (o : Oid) (f : Obj → Obj) (hs : ∀ b, (f b).storage = b.storage)
    (hc : ∀ b, (f b).cache = b.cache) (hn : ∀ b, (f b).nodespaces = b.nodespaces)
    (hi : ∀ b, (f b).index = b.index) : Pres ChW (modO o f) := fun _ hw =>
  ⟨hw.modO o f (hs _) (hc _) (hn _) fun _ hr => hw.iLt ((hi _).symm.trans hr),
   children_modO o f (hs _)⟩

theorem chw_notify (e : Event) : Pres ChW (notify e) := fun _ hw =>
  ⟨hw.setLog _, fun _ => rfl⟩

theorem chw_notifyModified (E : Env) (o : Oid) : Pres ChW (notifyModified E o) := by
  refine pres_bind chw_pre (pres_getW chw_pre) fun w => ?_
  split
  · exact pres_raise chw_pre _
  · split
    · split
      · exact pres_pure chw_pre _
      · exact chw_notify _
    · exact pres_raise chw_pre _

theorem cacheDrop_quiet (o : Oid) (k : Key) : Pres Quiet (cacheDrop o k) :=
  pres_bind quiet_pre (cacheRef_quiet o) fun _ =>
    pres_modifyW fun _ => setCache_quiet _ _ fun hw => Od.nodup_keys_del (hw.cNd _) _

theorem chw_referenceMerge (o c : Oid) : Pres ChW (referenceMerge o c) := by
  intro w hw
  refine ⟨(keep_referenceMerge o c w).wf hw, ?_⟩
  simp only [referenceMerge, M.bind_apply]
  rcases h : indexRef o w with ⟨_ | si, w1⟩
  · have := indexRef_id o w; rw [h] at this; simp only at this; subst this; exact ChSame.refl _
  · obtain ⟨e1, hsi⟩ := indexRef_ok h
    subst e1
    simp only
    rcases h2 : indexRef c w1 with ⟨_ | vi, w2⟩
    · have := indexRef_id c w1; rw [h2] at this; simp only at this; subst this; exact ChSame.refl _
    · obtain ⟨e2, hvi⟩ := indexRef_ok h2
      subst e2
      simp only [M.modifyW_apply]
      intro p
      exact children_modO (w := { w2 with idxs := _ }) c (fun ob => { ob with index := some si }) rfl p

theorem chw_referenceCheck (E : Env) (o c : Oid) : Pres ChW (referenceCheck E o c) := by
  refine pres_bind chw_pre (chw_of_quiet (iter_quiet E c)) fun it => ?_
  split
  · exact pres_pure chw_pre _
  · exact pres_raise chw_pre _
  · refine pres_bind chw_pre (pres_of_id chw_pre (indexRef_id _)) fun _ => ?_
    refine pres_bind chw_pre (pres_of_id chw_pre (indexRef_id _)) fun _ => ?_
    refine pres_bind chw_pre (pres_getW chw_pre) fun _ => ?_
    exact pres_ite chw_pre (pres_raise chw_pre _) (pres_pure chw_pre _)

/-- The children after a successful assignment. -/
def ChildSet (w w' : World) (o : Oid) (v : Val) : Option Dest → Prop
  | some (.child k) => ∀ p, w'.children p = if p = o then (w.children o).set k v else w.children p
  | some (.nodespace _) => ChSame w w'
  | none => False

theorem ChildSet.pre {a b c : World} {o : Oid} {v : Val} {d : Option Dest} (h : ChSame a b)
    (h' : ChildSet b c o v d) : ChildSet a c o v d := by
  cases d with
  | none => exact h'
  | some d =>
    cases d with
    | child k => intro p; rw [h' p, h o, h p]
    | nodespace k => exact h.trans h'

theorem ChildSet.post {a b c : World} {o : Oid} {v : Val} {d : Option Dest}
    (h : ChildSet a b o v d) (h' : ChSame b c) : ChildSet a c o v d := by
  cases d with
  | none => exact h
  | some d =>
    cases d with
    | child k => intro p; rw [h' p, h p]
    | nodespace k => exact ChSame.trans h h'

/-- The outcome of an assignment. -/
structure SetOut (al : Option Aliaser) (bs : List Bhv) (o : Oid) (k : Key) (v : Val) (w : World)
    (x : Except Exc Unit × World) : Prop where
  wf : WF x.2
  cls : ∀ p, (x.2.objs p).cls = (w.objs p).cls
  ok : x.1 = .ok () → ChildSet w x.2 o v (dest al bs k)
  err : ∀ e, x.1 = .error e → ChSame w x.2 ∨
    (Bhv.attributesLifecycle ∈ bs ∧ e.isAttr = true ∧ ChildSet w x.2 o v (dest al bs k))

/-- Prefix a computation that does not touch children. -/
theorem SetOut.of_pre {al : Option Aliaser} {bs bs' : List Bhv} {o : Oid} {k k' : Key} {v : Val}
    {w w1 : World} {x : Except Exc Unit × World} (h : SetOut al bs' o k' v w1 x)
    (hc : ∀ p, (w1.objs p).cls = (w.objs p).cls) (hs : ChSame w w1)
    (hd : dest al bs k = dest al bs' k')
    (hm : Bhv.attributesLifecycle ∈ bs' → Bhv.attributesLifecycle ∈ bs) :
    SetOut al bs o k v w x where
  wf := h.wf
  cls p := (h.cls p).trans (hc p)
  ok e := hd ▸ (h.ok e).pre hs
  err e he := by
    rcases h.err e he with h1 | ⟨h1, h2, h3⟩
    · exact .inl (hs.trans h1)
    · exact .inr ⟨hm h1, h2, hd ▸ h3.pre hs⟩

theorem SetOut.fail {al : Option Aliaser} {bs : List Bhv} {o : Oid} {k : Key} {v : Val}
    {w w1 : World} (e : Exc) (hw : WF w1)
    (hc : ∀ p, (w1.objs p).cls = (w.objs p).cls) (hs : ChSame w w1) :
    SetOut al bs o k v w (.error e, w1) where
  wf := hw
  cls := hc
  ok h := by cases h
  err _ _ := .inl hs

/-- Append a computation that does not touch children. -/
theorem SetOut.of_post {al : Option Aliaser} {bs bs' : List Bhv} {o : Oid} {k k' : Key} {v : Val}
    {w : World} {x : Except Exc Unit × World} {r : Except Exc Unit} {w2 : World}
    (h : SetOut al bs' o k' v w x) (hw : WF w2)
    (hc : ∀ p, (w2.objs p).cls = (x.2.objs p).cls) (hs : ChSame x.2 w2)
    (hd : dest al bs k = dest al bs' k')
    (hr : r = x.1) (hm : Bhv.attributesLifecycle ∈ bs' → Bhv.attributesLifecycle ∈ bs) :
    SetOut al bs o k v w (r, w2) where
  wf := hw
  cls p := (hc p).trans (h.cls p)
  ok e := hd ▸ (h.ok (hr ▸ e)).post hs
  err e he := by
    rcases h.err e (hr ▸ he) with h1 | ⟨h1, h2, h3⟩
    · exact .inl (h1.trans hs)
    · exact .inr ⟨hm h1, h2, hd ▸ h3.post hs⟩

theorem setEnd_out (E : Env) (o : Oid) (k : Key) (v : Val) {w : World} (hw : WF w)
    (al : Option Aliaser) : SetOut al [] o k v w (setEnd E o k v w) := by
  unfold setEnd
  simp only [M.bind_apply, M.getW_apply]
  split
  · exact SetOut.fail _ hw (fun _ => rfl) (ChSame.refl w)
  · split
    · have hq := storageRef_quiet E o w hw
      have hk := keep_storageRef E o w
      simp only [M.bind_apply]
      rcases h : storageRef E o w with ⟨e | r, w1⟩
      · rw [h] at hq hk
        exact SetOut.fail _ hq.1 hk.cls hq.2.children
      · rw [h] at hq hk
        have hr := storageRef_ok h
        simp only [M.modifyW_apply]
        refine ⟨hq.1.setStore r (Od.nodup_keys_set (hq.1.sNd r) k v), hk.cls, fun _ => ?_,
          fun e he => by cases he⟩
        intro p
        rw [children_setStore hq.1 hr, ← hq.2.children o, children_eq hr, hq.2.children p]
    · exact SetOut.fail _ hw (fun _ => rfl) (ChSame.refl w)

theorem setPipe_out (E : Env) (bs : List Bhv) (o : Oid) (k : Key) (v : Val) {w : World}
    (hw : WF w) (al : Option Aliaser) (hal : al = (clsOf E w o).aliaser) :
    SetOut al bs o k v w (setPipe E bs o k v w) := by
  induction bs generalizing k v w with
  | nil => exact setEnd_out E o k v hw al
  | cons b r ih =>
    -- the class of `o` is the same in every heap reached
    have hal' : ∀ {w1 : World}, (∀ p, (w1.objs p).cls = (w.objs p).cls) →
        al = (clsOf E w1 o).aliaser := by
      intro w1 h; unfold clsOf; rw [h o]; exact hal
    have hmem : Bhv.attributesLifecycle ∈ r → Bhv.attributesLifecycle ∈ b :: r :=
      List.mem_cons_of_mem _
    cases b
    case nodeChildValidate =>
      simp only [setPipe, validateSet, M.bind_apply, M.getW_apply]
      split
      · exact SetOut.fail _ hw (fun _ => rfl) (ChSame.refl w)
      · split
        · exact SetOut.fail _ hw (fun _ => rfl) (ChSame.refl w)
        · exact (ih k v hw hal).of_pre (fun _ => rfl) (ChSame.refl w) rfl hmem
    case nodespaces =>
      simp only [setPipe, nodespacesSet]
      have hns : ∀ (w1 : World), WF w1 → (∀ p, (w1.objs p).cls = (w.objs p).cls) → ChSame w w1 →
          ∀ s, k = .str s → Reserved s →
          SetOut al (.nodespaces :: r) o k v w ((do
            let r ← nodespacesRef o
            M.modifyW fun w => { w with nspaces := upd w.nspaces r ((w.nspaces r).set k v) } : M Unit) w1) := by
        intro w1 hw1 hc1 hs1 s hk hres
        have hq := nodespacesRef_quiet o w1 hw1
        have hkp := keep_nodespacesRef o w1
        simp only [M.bind_apply]
        rcases h : nodespacesRef o w1 with ⟨e | rr, w2⟩
        · rw [h] at hq hkp
          exact SetOut.fail _ hq.1 (fun p => (hkp.cls p).trans (hc1 p)) (hs1.trans hq.2.children)
        · rw [h] at hq hkp
          simp only [M.modifyW_apply]
          refine ⟨hq.1.setNspace rr (Od.nodup_keys_set (hq.1.nNd rr) k v),
            fun p => (hkp.cls p).trans (hc1 p), fun _ => ?_, fun e he => by cases he⟩
          subst hk
          simp only [dest, hres, if_true]
          exact hs1.trans hq.2.children
      split
      · rename_i s
        by_cases hres : reserved s = true
        · have hR := (reserved_iff s).mp hres
          simp only [hres, if_true]
          split
          · rename_i c
            simp only [M.bind_apply, modO_apply]
            have k1 := keep_setName c (.str s) w
            have c1 := chw_modO c (fun ob => { ob with name := .str s }) (fun _ => rfl)
              (fun _ => rfl) (fun _ => rfl) (fun _ => rfl) w hw
            have k2 := keep_setParent c (some o) (modO c (fun ob => { ob with name := .str s }) w).2
            have c2 := chw_modO c (fun ob => { ob with parent := some o }) (fun _ => rfl)
              (fun _ => rfl) (fun _ => rfl) (fun _ => rfl) _ c1.1
            exact hns _ c2.1 (fun p => (k2.cls p).trans (k1.cls p)) (c1.2.trans c2.2) s rfl hR
          · exact hns w hw (fun _ => rfl) (ChSame.refl w) s rfl hR
          · exact hns w hw (fun _ => rfl) (ChSame.refl w) s rfl hR
          · exact SetOut.fail _ hw (fun _ => rfl) (ChSame.refl w)
        · have hR : ¬ Reserved s := fun h => hres ((reserved_iff s).mpr h)
          simp only [hres, if_false, Bool.false_eq_true]
          exact (ih _ v hw hal).of_pre (fun _ => rfl) (ChSame.refl w) (by simp [dest, hR]) hmem
      · exact SetOut.fail _ hw (fun _ => rfl) (ChSame.refl w)
    case adopt =>
      cases v with
      | data d => exact (ih k _ hw hal).of_pre (fun _ => rfl) (ChSame.refl w) rfl hmem
      | node c =>
        simp only [setPipe, adoptSet, M.bind_apply, getO_apply, modO_apply, M.catchIf_apply]
        have k1 := keep_setName c k w
        have c1 := chw_modO c (fun ob => { ob with name := k }) (fun _ => rfl)
          (fun _ => rfl) (fun _ => rfl) (fun _ => rfl) w hw
        have k2 := keep_setParent c (some o) (modO c (fun ob => { ob with name := k }) w).2
        have c2 := chw_modO c (fun ob => { ob with parent := some o }) (fun _ => rfl)
          (fun _ => rfl) (fun _ => rfl) (fun _ => rfl) _ c1.1
        simp only [modO_apply] at k1 c1 k2 c2
        have k12 : ∀ p, _ := fun p => (k2.cls p).trans (k1.cls p)
        have h1 := (ih k (.node c) c2.1 (hal' k12)).of_pre (bs := .adopt :: r) (k := k) k12
          (c1.2.trans c2.2) rfl hmem
        revert h1
        generalize setPipe E r o k (.node c) _ = x
        intro h1
        rcases x with ⟨e | u, w3⟩
        · simp only
          split
          · have k3 := keep_setName c (w.objs c).name w3
            have c3 := chw_modO c (fun ob => { ob with name := (w.objs c).name }) (fun _ => rfl)
              (fun _ => rfl) (fun _ => rfl) (fun _ => rfl) w3 h1.wf
            have k4 := keep_setParent c (w.objs c).parent
              (modO c (fun ob => { ob with name := (w.objs c).name }) w3).2
            have c4 := chw_modO c (fun ob => { ob with parent := (w.objs c).parent }) (fun _ => rfl)
              (fun _ => rfl) (fun _ => rfl) (fun _ => rfl) _ c3.1
            exact h1.of_post c4.1 (fun p => (k4.cls p).trans (k3.cls p)) (c3.2.trans c4.2) rfl rfl
              (fun h => h)
          · exact h1
        · exact h1
    case reference =>
      cases v with
      | data d => exact (ih k _ hw hal).of_pre (fun _ => rfl) (ChSame.refl w) rfl hmem
      | node c =>
        simp only [setPipe, referenceSet, M.bind_apply]
        have k1 := keep_referenceCheck E o c w
        have c1 := chw_referenceCheck E o c w hw
        rcases h : referenceCheck E o c w with ⟨e | u, w1⟩
        · rw [h] at k1 c1
          exact SetOut.fail _ c1.1 k1.cls c1.2
        · rw [h] at k1 c1
          simp only
          have k2 := keep_referenceMerge o c w1
          have c2 := chw_referenceMerge o c w1 c1.1
          rcases h2 : referenceMerge o c w1 with ⟨e | u, w2⟩
          · rw [h2] at k2 c2
            exact SetOut.fail _ c2.1 (fun p => (k2.cls p).trans (k1.cls p)) (c1.2.trans c2.2)
          · rw [h2] at k2 c2
            have kk : ∀ p, _ := fun p => (k2.cls p).trans (k1.cls p)
            exact (ih k (.node c) c2.1 (hal' kk)).of_pre kk (c1.2.trans c2.2) rfl hmem
    case lifecycle =>
      simp only [setPipe, lifecycleSet, M.bind_apply]
      have h1 := (ih k v hw hal).of_pre (bs := .lifecycle :: r) (k := k) (fun _ => rfl)
        (ChSame.refl w) rfl hmem
      revert h1
      generalize setPipe E r o k v w = x
      intro h1
      rcases x with ⟨e | u, w3⟩
      · exact h1
      · simp only [getO_apply]
        split
        · exact h1
        · exact h1.of_post (h1.wf.setLog _) (fun _ => rfl) (fun _ => rfl) rfl rfl (fun h => h)
    case attributesLifecycle =>
      simp only [setPipe, M.bind_apply]
      have h1 := (ih k v hw hal).of_pre (bs := .attributesLifecycle :: r) (k := k) (fun _ => rfl)
        (ChSame.refl w) rfl hmem
      revert h1
      generalize setPipe E r o k v w = x
      intro h1
      rcases x with ⟨e | u, w3⟩
      · exact h1
      · simp only
        have kn := keep_notifyModified E o w3
        have cn := chw_notifyModified E o w3 h1.wf
        have hex : (∃ e, (notifyModified E o w3).1 = .error e ∧ e.isAttr = true) ∨
            (notifyModified E o w3).1 = .ok () := by
          unfold notifyModified
          simp only [M.bind_apply, M.getW_apply]
          cases (w3.objs o).parent with
          | none => exact .inl ⟨_, rfl, rfl⟩
          | some p =>
            simp only
            by_cases hl : (bhvsOf E w3 p).contains .lifecycle = true
            · simp only [hl, if_true]
              by_cases hs : (w3.objs p).suppress = true
              · simp only [hs, if_true]; exact .inr rfl
              · simp only [hs, if_false, Bool.false_eq_true]; exact .inr rfl
            · simp only [hl, if_false, Bool.false_eq_true]; exact .inl ⟨_, rfl, rfl⟩
        revert kn cn hex
        generalize notifyModified E o w3 = y
        intro kn cn hex
        rcases y with ⟨e | u', w4⟩
        · refine ⟨cn.1, fun p => (kn.cls p).trans (h1.cls p), (fun h => nomatch h), fun e' he' => ?_⟩
          injection he' with he'
          subst he'
          rcases hex with ⟨e2, h2, h3⟩ | h2
          · injection h2 with h2
            subst h2
            exact .inr ⟨List.mem_cons_self, h3, (h1.ok rfl).post cn.2⟩
          · cases h2
        · exact h1.of_post cn.1 kn.cls cn.2 rfl rfl (fun h => h)
    case cache =>
      simp only [setPipe, M.bind_apply]
      have hq := cacheDrop_quiet o k w hw
      have hk := keep_cacheDrop o k w
      revert hq hk
      generalize cacheDrop o k w = x
      intro hq hk
      rcases x with ⟨e | u, w1⟩
      · exact SetOut.fail _ hq.1 hk.cls hq.2.children
      · exact (ih k v hq.1 (hal' hk.cls)).of_pre hk.cls hq.2.children rfl hmem
    case alias =>
      simp only [setPipe, M.bind_apply]
      have hid := unaliasKey_id E o k w
      have hd : ∀ u, (unaliasKey E o k w).1 = .ok u → dest al (.alias :: r) k = dest al r u := by
        intro u hu
        unfold unaliasKey at hu
        rw [← hal] at hu
        cases al with
        | none => simp at hu; subst hu; rfl
        | some a =>
          simp only at hu
          simp only [dest]
          split at hu
          · rename_i ht
            simp only at hu
            simp [ht, hu]
          · rename_i ht
            injection hu with hu
            subst hu
            simp [ht]
      revert hid hd
      generalize unaliasKey E o k w = x
      intro hid hd
      rcases x with ⟨e | u, w1⟩
      · simp only at hid; subst hid
        exact SetOut.fail _ hw (fun _ => rfl) (ChSame.refl _)
      · simp only at hid; subst hid
        have h1 := (ih u v hw hal).of_pre (bs := .alias :: r) (k := k) (fun _ => rfl)
          (ChSame.refl w1) (hd u rfl) hmem
        simp only [rekey, M.catchIf_apply]
        revert h1
        generalize setPipe E r o u v w1 = x
        intro h1
        rcases x with ⟨e | u', w3⟩
        · simp only
          split
          · rename_i hek
            rcases h1.err e rfl with h2 | ⟨h2, h3, h4⟩
            · exact ⟨h1.wf, h1.cls, fun h => by simp at h, fun e' he' => .inl h2⟩
            · cases e <;> simp [Exc.isAttr, Exc.isKey] at h3 hek
          · exact h1
        · exact h1
    all_goals exact (ih k v hw hal).of_pre (fun _ => rfl) (ChSame.refl w) rfl hmem

theorem setitem_out (E : Env) (o : Oid) (k : Key) (v : Val) {w : World} (hw : WF w) :
    SetOut (clsOf E w o).aliaser (bhvsOf E w o) o k v w (setitem E o k v w) :=
  setPipe_out E _ o k v hw _ rfl

end Verif
