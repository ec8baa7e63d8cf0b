import Verif.Lemmas.Shown
import Verif.Lemmas.UncacheRel

/-! What is shown after `node[k] = v`, whatever the class. -/

namespace Verif

variable {E : Env}

theorem shownBy_mute {w w' : World} (h : Mute w w') (hw : WF w) (o : Oid) (bs : List Bhv) (k : Key) :
    w'.shownBy E o bs k = w.shownBy E o bs k := by
  induction bs generalizing k with
  | nil =>
    show w'.stored E o k = w.stored E o k
    unfold World.stored
    rw [h.clsOf, h.children hw, h.fixed]
  | cons b r ih =>
    cases b <;> simp only [World.shownBy, ih, h.clsOf, h.cached hw, h.nsview hw]

/-- One entry of the dictionaries of `o` differs: all other slots show what they did. -/
theorem shownBy_slot {w w' : World} {o : Oid} {d : Dest} (hcls : (w'.objs o).cls = (w.objs o).cls)
    (hf : (w'.objs o).fixed = (w.objs o).fixed) (hc : w'.cached o = w.cached o)
    (hch : ∀ j, d ≠ .child j → (w'.children o).get? j = (w.children o).get? j)
    (hns : ∀ j, d ≠ .nodespace j → (w'.nsview o).get? j = (w.nsview o).get? j) (bs : List Bhv) (j : Key)
    (h : slot (clsOf E w o).aliaser bs j ≠ some d) : w'.shownBy E o bs j = w.shownBy E o bs j := by
  have hco : clsOf E w' o = clsOf E w o := congrArg E.cls hcls
  induction bs generalizing j with
  | nil =>
    show w'.stored E o j = w.stored E o j
    unfold World.stored
    rw [hco, hf, hch j fun e => h (congrArg some e.symm)]
  | cons b r ih =>
    cases b
    case alias =>
      simp only [World.shownBy, hco]
      simp only [slot] at h
      cases ha : (clsOf E w o).aliaser with
      | none => rw [ha] at h; exact ih j (ha ▸ h)
      | some a =>
        rw [ha] at h
        simp only at h ⊢
        split
        · rename_i ht
          rw [if_pos ht] at h
          cases hu : a.unalias j with
          | error e => rfl
          | ok u => rw [hu] at h; exact ih u (ha ▸ h)
        · rename_i ht
          rw [if_neg ht] at h
          exact ih j (ha ▸ h)
    case nodespaces =>
      cases j with
      | str s =>
        simp only [World.shownBy]
        simp only [slot] at h
        split
        · rename_i hs
          rw [if_pos hs] at h
          exact hns _ fun e => h (congrArg some e.symm)
        · rename_i hs
          rw [if_neg hs] at h
          exact ih _ h
      | _ => exact ih _ h
    case cache =>
      simp only [World.shownBy, hc, ih j h]
    all_goals exact ih j h

/-- What a finished assignment leaves behind. -/
structure Wrote (E : Env) (bs : List Bhv) (o : Oid) (k : Key) (v : Val) (w w' : World) : Prop where
  wf : WF w'
  cls : ∀ p, (w'.objs p).cls = (w.objs p).cls
  fixed : ∀ p, (w'.objs p).fixed = (w.objs p).fixed
  nobj : w'.nobj = w.nobj
  shown : w'.shownBy E o bs k = some v
  children : ∀ p, p ≠ o → w'.children p = w.children p
  nsview : ∀ p, p ≠ o → w'.nsview p = w.nsview p
  cached : ∀ p, p ≠ o → w'.cached p = w.cached p
  drops : ∀ j, (w.cached o).get? j = none → (w'.cached o).get? j = none
  noCache : Bhv.cache ∉ bs → w'.cached o = w.cached o
  entry : ∀ j, slot (clsOf E w o).aliaser bs k ≠ some (.child j) →
    (w'.children o).get? j = (w.children o).get? j
  space : ∀ j, slot (clsOf E w o).aliaser bs k ≠ some (.nodespace j) →
    (w'.nsview o).get? j = (w.nsview o).get? j
  frame : bs.count .cache ≤ 1 → ∀ j, slot (clsOf E w o).aliaser bs j ≠ slot (clsOf E w o).aliaser bs k →
    w'.shownBy E o bs j = w.shownBy E o bs j

namespace Wrote

variable {bs : List Bhv} {o : Oid} {k : Key} {v : Val} {w w1 w2 : World}

theorem clsOf (h : Wrote E bs o k v w w1) (p : Oid) : Verif.clsOf E w1 p = Verif.clsOf E w p :=
  congrArg E.cls (h.cls p)

theorem pre (hm : Mute w w1) (hw : WF w) (h : Wrote E bs o k v w1 w2) : Wrote E bs o k v w w2 where
  wf := h.wf
  cls p := (h.cls p).trans (hm.cls p)
  fixed p := (h.fixed p).trans (hm.fixed p)
  nobj := h.nobj.trans hm.nobj
  shown := h.shown
  children p hp := (h.children p hp).trans (hm.children hw p)
  nsview p hp := (h.nsview p hp).trans (hm.nsview hw p)
  cached p hp := (h.cached p hp).trans (hm.cached hw p)
  drops j hj := h.drops j (by rw [hm.cached hw]; exact hj)
  noCache hc := (h.noCache hc).trans (hm.cached hw o)
  entry j hj := (h.entry j (by rw [hm.clsOf]; exact hj)).trans (by rw [hm.children hw])
  space j hj := (h.space j (by rw [hm.clsOf]; exact hj)).trans (by rw [hm.nsview hw])
  frame hc j hj := (h.frame hc j (by rw [hm.clsOf]; exact hj)).trans (shownBy_mute hm hw o bs j)

theorem post (h : Wrote E bs o k v w w1) (hm : Mute w1 w2) : Wrote E bs o k v w w2 where
  wf := hm.wf h.wf
  cls p := (hm.cls p).trans (h.cls p)
  fixed p := (hm.fixed p).trans (h.fixed p)
  nobj := hm.nobj.trans h.nobj
  shown := (shownBy_mute hm h.wf o bs k).trans h.shown
  children p hp := (hm.children h.wf p).trans (h.children p hp)
  nsview p hp := (hm.nsview h.wf p).trans (h.nsview p hp)
  cached p hp := (hm.cached h.wf p).trans (h.cached p hp)
  drops j hj := by rw [hm.cached h.wf]; exact h.drops j hj
  noCache hc := (hm.cached h.wf o).trans (h.noCache hc)
  entry j hj := by rw [hm.children h.wf]; exact h.entry j hj
  space j hj := by rw [hm.nsview h.wf]; exact h.space j hj
  frame hc j hj := (shownBy_mute hm h.wf o bs j).trans (h.frame hc j hj)

/-- A behavior reading hands the key through. -/
theorem pass {b : Bhv} {r : List Bhv} (h : Wrote E r o k v w w1) (hb : b ≠ .cache)
    (hs : ∀ w' : World, ∀ j, w'.shownBy E o (b :: r) j = w'.shownBy E o r j)
    (hd : ∀ al j, slot al (b :: r) j = slot al r j) : Wrote E (b :: r) o k v w w1 :=
  { h with
    shown := (hs w1 k).trans h.shown
    noCache := fun hc => h.noCache fun x => hc (List.mem_cons_of_mem _ x)
    entry := fun j hj => h.entry j (by rw [hd] at hj; exact hj)
    space := fun j hj => h.space j (by rw [hd] at hj; exact hj)
    frame := fun hc j hj => by
      rw [List.count_cons_of_ne hb] at hc
      rw [hd, hd] at hj
      rw [hs, hs]; exact h.frame hc j hj }

end Wrote

theorem wrote_setEnd {o : Oid} {k : Key} {v : Val} {w w' : World} (hw : WF w)
    (h : setEnd E o k v w = (.ok (), w')) : Wrote E [] o k v w w' := by
  unfold setEnd at h
  simp only [M.bind_apply, M.getW_apply] at h
  split at h
  · cases h
  · rename_i hfx
    split at h
    · simp only [M.bind_apply] at h
      have hm := mute_storageRef E o w
      rcases hs : storageRef E o w with ⟨_ | r, w1⟩
      · rw [hs] at h; cases h
      · rw [hs] at h hm
        replace hm : Mute w w1 := hm
        have hr := storageRef_ok hs
        have hw1 : WF w1 := hm.wf hw
        obtain rfl : { w1 with stores := upd w1.stores r ((w1.stores r).set k v) } = w' := (Prod.mk.inj h).2
        have hch := fun p => children_setStore hw1 hr ((w1.stores r).set k v) p
        refine Wrote.pre hm hw ⟨hw1.setStore r (Od.nodup_keys_set (hw1.sNd r) k v), fun _ => rfl, fun _ => rfl,
          rfl, ?_, fun p hp => ?_, fun _ _ => rfl, fun _ _ => rfl, fun _ h => h, fun _ => rfl, fun j hj => ?_,
          fun _ _ => rfl, fun _ j hj => ?_⟩
        · show World.stored E _ o k = some v
          unfold World.stored
          have hkind : ∃ b, (clsOf E w o).bhvs.find? Bhv.isStorage = some b ∧ b ≠ .storage := by
            unfold storageRef storageKind at hs
            cases hk : (clsOf E w o).bhvs.find? Bhv.isStorage with
            | none => rw [show (clsOf E w o).bhvs = bhvsOf E w o from rfl] at hk; simp [hk] at hs
            | some b =>
              refine ⟨b, rfl, fun e => ?_⟩
              subst e
              rw [show (clsOf E w o).bhvs = bhvsOf E w o from rfl] at hk; simp [hk] at hs
          have hco : clsOf E { w1 with stores := upd w1.stores r ((w1.stores r).set k v) } o = clsOf E w o :=
            hm.clsOf o
          rw [hco, if_neg (show ¬ Bhv.fixedChildren ∈ (clsOf E w o).bhvs from
            fun hmem => hfx (List.contains_iff_mem.mpr hmem))]
          obtain ⟨b, hb, hne⟩ := hkind
          rw [hb, hch, if_pos rfl]
          cases b <;> first | exact absurd rfl hne | simp [Od.get?_set]
        · rw [hch, if_neg hp]
        · rw [hch, if_pos rfl, Od.get?_set, if_neg (fun e => hj (by rw [e]; rfl)), children_eq hr]
        · refine shownBy_slot (w := w1) (w' := { w1 with stores := upd w1.stores r ((w1.stores r).set k v) })
            (d := .child k) rfl rfl rfl (fun i hi => ?_) (fun _ _ => rfl) [] j hj
          rw [hch, if_pos rfl, Od.get?_set, if_neg (fun e => hi (by rw [e])), children_eq hr]
    · cases h

theorem wrote_nsPut {o : Oid} {s : Str} {v : Val} {w w' : World} {r : List Bhv} (hw : WF w) (hs : Reserved s)
    (h : nsPut o (.str s) v w = (.ok (), w')) : Wrote E (.nodespaces :: r) o (.str s) v w w' := by
  simp only [nsPut, M.bind_apply] at h
  have hm := mute_nodespacesRef o w
  obtain ⟨rn, w1, hr⟩ := nodespacesRef_isOk o w
  rw [hr] at h hm
  have hro := nodespacesRef_ok hr
  replace hm : Mute w w1 := hm
  have hw1 : WF w1 := hm.wf hw
  obtain rfl : { w1 with nspaces := upd w1.nspaces rn ((w1.nspaces rn).set (.str s) v) } = w' :=
    (Prod.mk.inj h).2
  have hns := fun p => nsview_setNspace hw1 hro ((w1.nspaces rn).set (.str s) v) p
  refine Wrote.pre hm hw ⟨hw1.setNspace rn (Od.nodup_keys_set (hw1.nNd rn) (.str s) v), fun _ => rfl, fun _ => rfl,
    rfl, ?_, fun _ _ => rfl, fun p hp => ?_, fun _ _ => rfl, fun _ h => h, fun _ => rfl, fun _ _ => rfl,
    fun j hj => ?_, fun _ j hj => ?_⟩
  · simp only [World.shownBy, if_pos hs]
    rw [hns, if_pos rfl, Od.get?_set, if_pos rfl]
  · rw [hns, if_neg hp]
  · simp only [slot, if_pos hs] at hj
    rw [hns, if_pos rfl, Od.get?_set, if_neg (fun e => hj (by rw [e])), nsview_eq hro]
  · refine shownBy_slot (w := w1) (w' := { w1 with nspaces := upd w1.nspaces rn ((w1.nspaces rn).set (.str s) v) })
      (d := .nodespace (.str s)) rfl rfl rfl (fun _ _ => rfl) (fun i hi => ?_) _ j ?_
    · rw [hns, if_pos rfl, Od.get?_set, if_neg (fun e => hi (by rw [e])), nsview_eq hro]
    · simpa only [slot, if_pos hs] using hj

/-- A finished assignment shows its value. -/
theorem wrote_setPipe (bs : List Bhv) {o : Oid} {k : Key} {v : Val} {w w' : World} (hw : WF w)
    (h : setPipe E bs o k v w = (.ok (), w')) : Wrote E bs o k v w w' := by
  induction bs generalizing k w w' with
  | nil => exact wrote_setEnd hw h
  | cons b r ih =>
    cases b
    case nodeChildValidate =>
      simp only [setPipe, validateSet, M.bind_apply, M.getW_apply] at h
      split at h
      · cases h
      · split at h
        · cases h
        · exact (ih hw h).pass nofun (fun _ _ => rfl) fun _ _ => rfl
    case nodespaces =>
      simp only [setPipe, nodespacesSet] at h
      cases k with
      | str s =>
        simp only at h
        split at h
        · rename_i hres
          have hR := (reserved_iff s).mp hres
          split at h
          · rename_i c
            have m1 := mute_name c (.str s) w
            have m2 := mute_parent c (some o) (modO c (fun ob => { ob with name := .str s }) w).2
            have m := mute_pre.trans m1 m2
            exact (wrote_nsPut (m.wf hw) hR h).pre m hw
          · exact wrote_nsPut hw hR h
          · exact wrote_nsPut hw hR h
          · cases h
        · rename_i hres
          have hR : ¬ Reserved s := fun h => hres ((reserved_iff s).mpr h)
          have i := ih hw h
          have hk : slot (clsOf E w o).aliaser (.nodespaces :: r) (.str s) =
              slot (clsOf E w o).aliaser r (.str s) := by simp only [slot, if_neg hR]
          refine { i with
            entry := fun j hj => i.entry j (by rw [hk] at hj; exact hj)
            space := fun j hj => i.space j (by rw [hk] at hj; exact hj)
            shown := by simp only [World.shownBy, if_neg hR]; exact i.shown
            noCache := fun hc => i.noCache fun x => hc (List.mem_cons_of_mem _ x)
            frame := fun hc j hj => ?_ }
          rw [List.count_cons_of_ne (by decide)] at hc
          rw [hk] at hj
          cases j with
          | str t =>
            simp only [slot] at hj
            simp only [World.shownBy]
            by_cases ht : Reserved t
            · rw [if_pos ht] at hj
              simp only [if_pos ht]
              exact i.space _ fun e => hj e.symm
            · rw [if_neg ht] at hj
              simp only [if_neg ht]
              exact i.frame hc _ hj
          | _ => exact i.frame hc _ hj
      | _ => cases h
    case adopt =>
      refine Wrote.pass ?_ nofun (fun _ _ => rfl) fun _ _ => rfl
      cases v with
      | data d => exact ih hw h
      | node c =>
        simp only [setPipe, adoptSet, M.bind_apply, getO_apply, modO_apply, M.catchIf_apply] at h
        have m1 := mute_name c k w
        have m2 := mute_parent c (some o) (modO c (fun ob => { ob with name := k }) w).2
        have m := mute_pre.trans m1 m2
        simp only [modO_apply] at m
        split at h
        · rename_i heq
          obtain rfl := (Prod.mk.inj h).2
          exact (ih (m.wf hw) heq).pre m hw
        · split at h <;> cases h
    case reference =>
      refine Wrote.pass ?_ nofun (fun _ _ => rfl) fun _ _ => rfl
      cases v with
      | data d => exact ih hw h
      | node c =>
        simp only [setPipe, referenceSet, M.bind_apply] at h
        have m1 := mute_referenceCheck E o c w
        revert m1 h
        rcases referenceCheck E o c w with ⟨_ | _, w1⟩ <;> intro h m1
        · cases h
        · have m2 := mute_of_hidden (hidden_referenceMerge o c) w1
          revert m2 h
          simp only
          rcases referenceMerge o c w1 with ⟨_ | _, w2⟩ <;> intro h m2
          · cases h
          · have m := mute_pre.trans m1 m2
            exact (ih (m.wf hw) h).pre m hw
    case lifecycle =>
      refine Wrote.pass ?_ nofun (fun _ _ => rfl) fun _ _ => rfl
      simp only [setPipe, lifecycleSet, M.bind_apply] at h
      rcases hx : setPipe E r o k v w with ⟨_ | _, w1⟩
      · rw [hx] at h; cases h
      · rw [hx] at h
        simp only [getO_apply] at h
        have i := ih hw hx
        split at h
        · obtain rfl := (Prod.mk.inj h).2
          exact i
        · have m := mute_of_hidden (hidden_notify (.added v o k)) w1
          rw [h] at m
          exact i.post m
    case attributesLifecycle =>
      refine Wrote.pass ?_ nofun (fun _ _ => rfl) fun _ _ => rfl
      simp only [setPipe, M.bind_apply] at h
      rcases hx : setPipe E r o k v w with ⟨_ | _, w1⟩
      · rw [hx] at h; cases h
      · rw [hx] at h
        have m := mute_notifyModified E o w1
        simp only at h
        rw [h] at m
        exact (ih hw hx).post m
    case cache =>
      simp only [setPipe, M.bind_apply] at h
      obtain ⟨w1, hd, hw1, -, -, -, hca⟩ := cacheDrop_cached (o := o) (k := k) hw
      have hq := cacheDrop_quiet o k w hw
      rw [hd] at h hq
      have hsame : Same w w1 := hq.2
      have i := ih hw1 h
      have gone : (w'.cached o).get? k = none := i.drops k (by
        rw [hca, if_pos rfl, Od.get?_del (hw.cached_nodup o), if_pos rfl])
      refine ⟨i.wf, fun p => (i.cls p).trans (hsame.obj p).cls, fun p => (i.fixed p).trans (hsame.obj p).fixed,
        i.nobj.trans hsame.nobj, ?_, fun p hp => (i.children p hp).trans (hsame.children p),
        fun p hp => (i.nsview p hp).trans (hsame.nsview p), fun p hp => ?_, fun j hj => ?_,
        fun hc => absurd List.mem_cons_self hc, fun j hj => (i.entry j ?_).trans (by rw [hsame.children]),
        fun j hj => (i.space j ?_).trans (by rw [hsame.nsview]), fun hc j hj => ?_⟩
      · simp only [World.shownBy, gone, i.shown]
      · rw [i.cached p hp, hca, if_neg hp]
      · refine i.drops j ?_
        rw [hca, if_pos rfl, Od.get?_del (hw.cached_nodup o)]
        split
        · rfl
        · exact hj
      · rw [show clsOf E w1 o = clsOf E w o from hsame.clsOf o]; exact hj
      · rw [show clsOf E w1 o = clsOf E w o from hsame.clsOf o]; exact hj
      · have hnc : Bhv.cache ∉ r := by
          rw [List.count_cons_self] at hc
          exact List.count_eq_zero.mp (by omega)
        have hjk : j ≠ k := fun e => hj (by rw [e])
        have hf := i.frame (by rw [List.count_eq_zero.mpr hnc]; omega) j (by
          rw [show clsOf E w1 o = clsOf E w o from hsame.clsOf o]; exact hj)
        simp only [World.shownBy, hf, shownBy_noCache hsame hnc, i.noCache hnc, hca, if_true]
        rw [Od.get?_del (hw.cached_nodup o), if_neg hjk]
    case alias =>
      simp only [setPipe, M.bind_apply, unaliasKey] at h
      have keyed : ∀ {u : Key} {w' : World}, rekey k (setPipe E r o u v) w = (.ok (), w') →
          Wrote E r o u v w w' := fun {u w'} hu => by
        simp only [rekey, M.catchIf_apply] at hu
        rcases hx : setPipe E r o u v w with ⟨_ | _, w1⟩
        · rw [hx] at hu
          simp only at hu
          split at hu <;> cases hu
        · rw [hx] at hu
          obtain rfl := (Prod.mk.inj hu).2
          exact ih hw hx
      have lift : ∀ {u : Key}, Wrote E r o u v w w' →
          (∀ w1 : World, clsOf E w1 o = clsOf E w o → w1.shownBy E o (.alias :: r) k = w1.shownBy E o r u) →
          slot (clsOf E w o).aliaser (.alias :: r) k = slot (clsOf E w o).aliaser r u →
          (∀ j, (∃ u', (∀ w1 : World, clsOf E w1 o = clsOf E w o →
              w1.shownBy E o (.alias :: r) j = w1.shownBy E o r u') ∧
              slot (clsOf E w o).aliaser (.alias :: r) j = slot (clsOf E w o).aliaser r u') ∨
            ∀ w1 : World, clsOf E w1 o = clsOf E w o → w1.shownBy E o (.alias :: r) j = none) →
          Wrote E (.alias :: r) o k v w w' := fun {u} i hs hd hj =>
        { i with
          shown := (hs w' (i.clsOf o)).trans i.shown
          entry := fun j hj => i.entry j (by rw [hd] at hj; exact hj)
          space := fun j hj => i.space j (by rw [hd] at hj; exact hj)
          noCache := fun hc => i.noCache fun x => hc (List.mem_cons_of_mem _ x)
          frame := fun hc j hne => by
            rw [List.count_cons_of_ne (by decide)] at hc
            rcases hj j with ⟨u', h1, h2⟩ | h1
            · rw [hd, h2] at hne
              rw [h1 _ (i.clsOf o), h1 _ rfl]
              exact i.frame hc u' hne
            · rw [h1 _ (i.clsOf o), h1 _ rfl] }
      cases ha : (clsOf E w o).aliaser with
      | none =>
        rw [ha] at h
        refine lift (u := k) (keyed h) (fun w1 e => ?_) ?_ fun j => .inl ⟨j, fun w1 e => ?_, ?_⟩ <;>
          simp only [World.shownBy, slot, ha, *]
      | some a =>
        rw [ha] at h
        simp only at h
        by_cases ht : a.truthy
        · rw [if_pos ht] at h
          cases hu : a.unalias k with
          | error e => rw [hu] at h; cases h
          | ok u =>
            rw [hu] at h
            refine lift (u := u) (keyed h) (fun w1 e => ?_) ?_ fun j => ?_
            · simp only [World.shownBy, e, ha, if_pos ht, hu]
            · simp only [slot, ha, if_pos ht, hu]
            · cases hv : a.unalias j with
              | error e => exact .inr fun w1 e => by simp only [World.shownBy, e, ha, if_pos ht, hv]
              | ok u' =>
                exact .inl ⟨u', fun w1 e => by simp only [World.shownBy, e, ha, if_pos ht, hv],
                  by simp only [slot, ha, if_pos ht, hv]⟩
        · rw [if_neg ht] at h
          refine lift (u := k) (keyed h) (fun w1 e => ?_) ?_ fun j => .inl ⟨j, fun w1 e => ?_, ?_⟩
          · simp only [World.shownBy, e, ha, if_neg ht]
          · simp only [slot, ha, if_neg ht]
          · simp only [World.shownBy, e, ha, if_neg ht]
          · simp only [slot, ha, if_neg ht]
    all_goals exact (ih hw h).pass nofun (fun _ _ => rfl) fun _ _ => rfl

end Verif
