import Verif.Lemmas.Written
import Verif.Lemmas.UncacheItems

/-! What is shown after `del node[k]`, and what reading a key does that is not there. -/

namespace Verif

variable {E : Env}

/-- No behavior to the right of a `Cache` reads the item it deletes. -/
def Unread : List Bhv → Prop
  | [] => True
  | .cache :: r => Bhv.reference ∉ r ∧ Bhv.lifecycle ∉ r ∧ Unread r
  | _ :: r => Unread r

instance decUnread : (bs : List Bhv) → Decidable (Unread bs)
  | [] => isTrue trivial
  | b :: r => by
    have := decUnread r
    cases b <;> unfold Unread <;> infer_instance

/-- What a finished deletion leaves behind. -/
structure Gone (E : Env) (bs : List Bhv) (o : Oid) (k : Key) (w w' : World) : Prop where
  wf : WF w'
  cls : clsOf E w' o = clsOf E w o
  shown : w'.shownBy E o bs k = none
  slot : ∃ d, slot (clsOf E w o).aliaser bs k = some d
  stores : ∀ u, Verif.slot (clsOf E w o).aliaser bs k = some (.child u) → Stores (clsOf E w o)
  drops : Bhv.reference ∉ bs → Bhv.lifecycle ∉ bs → ∀ j, (w.cached o).get? j = none →
    (w'.cached o).get? j = none

namespace Gone

variable {bs : List Bhv} {o : Oid} {k : Key} {w w1 w2 : World}

theorem pre (hm : Mute w w1) (hw : WF w) (h : Gone E bs o k w1 w2) : Gone E bs o k w w2 where
  wf := h.wf
  cls := h.cls.trans (hm.clsOf o)
  shown := h.shown
  slot := by have := h.slot; rwa [hm.clsOf] at this
  stores := by have := h.stores; rwa [hm.clsOf] at this
  drops hr hl j hj := h.drops hr hl j (by rw [hm.cached hw]; exact hj)

theorem post (h : Gone E bs o k w w1) (hm : Mute w1 w2) : Gone E bs o k w w2 where
  wf := hm.wf h.wf
  cls := (hm.clsOf o).trans h.cls
  shown := (shownBy_mute hm h.wf o bs k).trans h.shown
  slot := h.slot
  stores := h.stores
  drops hr hl j hj := by rw [hm.cached h.wf]; exact h.drops hr hl j hj

/-- A behavior reading hands the key through. -/
theorem pass {b : Bhv} {r : List Bhv} (h : Gone E r o k w w1)
    (hs : ∀ w' : World, ∀ j, w'.shownBy E o (b :: r) j = w'.shownBy E o r j)
    (hd : ∀ al j, Verif.slot al (b :: r) j = Verif.slot al r j) : Gone E (b :: r) o k w w1 where
  wf := h.wf
  cls := h.cls
  shown := (hs w1 k).trans h.shown
  slot := by rw [hd]; exact h.slot
  stores u hu := h.stores u (by rw [hd] at hu; exact hu)
  drops hr hl := h.drops (fun x => hr (List.mem_cons_of_mem _ x)) fun x => hl (List.mem_cons_of_mem _ x)

end Gone

theorem gone_delEnd {o : Oid} {k : Key} {w w' : World} (hw : WF w)
    (h : delEnd E o k w = (.ok (), w')) : Gone E [] o k w w' := by
  unfold delEnd at h
  simp only [M.bind_apply, M.getW_apply] at h
  split at h
  · cases h
  · rename_i hfx
    split at h
    · simp only [M.bind_apply] at h
      have hm := mute_storageRef E o w
      rcases hs : storageRef E o w with ⟨_ | r, w1⟩
      · rw [hs] at h; cases h
      · rw [hs] at h hm
        replace hm : Mute w w1 := hm
        have hr := storageRef_ok hs
        have hw1 : WF w1 := hm.wf hw
        simp only [M.getW_apply] at h
        split at h
        · obtain rfl : { w1 with stores := upd w1.stores r ((w1.stores r).del k) } = w' := (Prod.mk.inj h).2
          have hnf : Bhv.fixedChildren ∉ (clsOf E w o).bhvs := fun hmem => hfx (List.contains_iff_mem.mpr hmem)
          have hst : Stores (clsOf E w o) := by
            refine ⟨?_, hnf⟩
            unfold storageRef at hs
            cases hk : storageKind (clsOf E w o).bhvs with
            | none => rw [show (clsOf E w o).bhvs = bhvsOf E w o from rfl] at hk; simp [hk] at hs
            | some b =>
              refine ⟨b, rfl, fun e => ?_⟩
              subst e
              rw [show (clsOf E w o).bhvs = bhvsOf E w o from rfl] at hk; simp [hk] at hs
          refine ⟨hw1.setStore r (Od.nodup_keys_del (hw1.sNd r) k), hm.clsOf o, ?_, ⟨_, rfl⟩, fun _ _ => hst,
            fun _ _ j hj => ?_⟩
          · show World.stored E _ o k = none
            unfold World.stored
            have hco : clsOf E { w1 with stores := upd w1.stores r ((w1.stores r).del k) } o = clsOf E w o :=
              hm.clsOf o
            rw [hco, if_neg hnf, children_setStore hw1 hr, if_pos rfl, Od.get?_del (hw1.sNd r), if_pos rfl]
            split <;> rfl
          · show (w1.cached o).get? j = none
            rw [hm.cached hw]; exact hj
        · cases h
    · cases h

theorem gone_nsDrop {o : Oid} {s : Str} {w w' : World} {r : List Bhv} (hw : WF w) (hs : Reserved s)
    (h : nsDrop o (.str s) w = (.ok (), w')) : Gone E (.nodespaces :: r) o (.str s) w w' := by
  simp only [nsDrop, M.bind_apply] at h
  have hm := mute_nodespacesRef o w
  obtain ⟨rn, w1, hr⟩ := nodespacesRef_isOk o w
  rw [hr] at h hm
  have hro := nodespacesRef_ok hr
  replace hm : Mute w w1 := hm
  have hw1 : WF w1 := hm.wf hw
  simp only [M.getW_apply] at h
  split at h
  · obtain rfl : { w1 with nspaces := upd w1.nspaces rn ((w1.nspaces rn).del (.str s)) } = w' :=
      (Prod.mk.inj h).2
    refine ⟨hw1.setNspace rn (Od.nodup_keys_del (hw1.nNd rn) (.str s)), hm.clsOf o, ?_, ⟨.nodespace (.str s), ?_⟩,
      fun u hu => ?_, fun _ _ j hj => ?_⟩
    · simp only [World.shownBy, if_pos hs]
      rw [nsview_setNspace hw1 hro, if_pos rfl, Od.get?_del (hw1.nNd rn), if_pos rfl]
    · simp only [slot, if_pos hs]
    · simp only [slot, if_pos hs] at hu
      injection hu with hu
      cases hu
    · show (w1.cached o).get? j = none
      rw [hm.cached hw]; exact hj
  · cases h

/-- A finished deletion leaves nothing under the key. -/
theorem gone_delPipe (bs : List Bhv) (hu : Unread bs) {o : Oid} {k : Key} {w w' : World} (hw : WF w)
    (ho : o < w.nobj) (h : delPipe E bs o k w = (.ok (), w')) : Gone E bs o k w w' := by
  induction bs generalizing k w w' with
  | nil => exact gone_delEnd hw h
  | cons b r ih =>
    /- reading first -/
    have reads : ∀ {w1 : World}, Grow w w1 → Unread r → delPipe E r o k w1 = (.ok (), w') →
        WF w' ∧ clsOf E w' o = clsOf E w o ∧ w'.shownBy E o r k = none ∧
          (∃ d, slot (clsOf E w o).aliaser r k = some d) ∧
          ∀ u, slot (clsOf E w o).aliaser r k = some (.child u) → Stores (clsOf E w o) := by
      intro w1 hg hr h
      have i := ih hr (hg.wf hw) (Nat.lt_of_lt_of_le ho hg.nobj) h
      have hc : clsOf E w1 o = clsOf E w o := congrArg E.cls (hg.cls o ho)
      refine ⟨i.wf, i.cls.trans hc, i.shown, ?_, ?_⟩
      · have := i.slot; rwa [hc] at this
      · have := i.stores; rwa [hc] at this
    cases b
    case nodespaces =>
      simp only [delPipe, nodespacesDel] at h
      cases k with
      | str s =>
        simp only at h
        split at h
        · rename_i hres
          exact gone_nsDrop hw ((reserved_iff s).mp hres) h
        · rename_i hres
          have hR : ¬ Reserved s := fun h => hres ((reserved_iff s).mpr h)
          have i := ih hu hw ho h
          have hk : slot (clsOf E w o).aliaser (.nodespaces :: r) (.str s) =
              slot (clsOf E w o).aliaser r (.str s) := by simp only [slot, if_neg hR]
          refine ⟨i.wf, i.cls, ?_, by rw [hk]; exact i.slot, fun u hu => i.stores u (by rw [hk] at hu; exact hu),
            fun h1 h2 => i.drops (fun x => h1 (List.mem_cons_of_mem _ x)) fun x => h2 (List.mem_cons_of_mem _ x)⟩
          simp only [World.shownBy, if_neg hR]; exact i.shown
      | _ => cases h
    case reference =>
      simp only [delPipe, referenceDel, M.bind_apply] at h
      have g1 := grow_getitem E o k w
      revert g1 h
      rcases getitem E o k w with ⟨_ | v, w1⟩ <;> intro h g1
      · cases h
      · simp only at h
        have g2 := grow_referenceUnindex E o v w1
        revert g2 h
        rcases referenceUnindex E o v w1 with ⟨_ | _, w2⟩ <;> intro h g2
        · cases h
        · obtain ⟨a, b, c, d, e⟩ := reads (grow_pre.trans g1 g2) hu h
          exact ⟨a, b, c, d, e, fun x => absurd List.mem_cons_self x⟩
    case lifecycle =>
      simp only [delPipe, lifecycleDel, M.bind_apply] at h
      have g1 := grow_getitem E o k w
      revert g1 h
      rcases getitem E o k w with ⟨_ | v, w1⟩ <;> intro h g1
      · cases h
      · simp only at h
        rcases hx : delPipe E r o k w1 with ⟨_ | _, w2⟩
        · rw [hx] at h; cases h
        · rw [hx] at h
          simp only [getO_apply] at h
          have i := ih hu (g1.wf hw) (Nat.lt_of_lt_of_le ho g1.nobj) hx
          have i2 : Gone E r o k w1 w' := by
            split at h
            · obtain rfl := (Prod.mk.inj h).2
              exact i
            · have m := mute_of_hidden (hidden_notify (.removed v o k)) w2
              rw [h] at m
              exact i.post m
          have hc : clsOf E w1 o = clsOf E w o := congrArg E.cls (g1.cls o ho)
          exact ⟨i2.wf, i2.cls.trans hc, i2.shown, by have := i2.slot; rwa [hc] at this,
            by have := i2.stores; rwa [hc] at this, fun _ x => absurd List.mem_cons_self x⟩
    case attributesLifecycle =>
      refine Gone.pass ?_ (fun _ _ => rfl) fun _ _ => rfl
      simp only [delPipe, M.bind_apply] at h
      rcases hx : delPipe E r o k w with ⟨_ | _, w1⟩
      · rw [hx] at h; cases h
      · rw [hx] at h
        have m := mute_notifyModified E o w1
        simp only at h
        rw [h] at m
        exact (ih hu hw ho hx).post m
    case cache =>
      simp only [delPipe, M.bind_apply] at h
      obtain ⟨w1, hd, hw1, -, hcls, hno, hca⟩ := cacheDrop_cached (o := o) (k := k) hw
      rw [hd] at h
      obtain ⟨n1, n2, hu⟩ := hu
      have i := ih hu hw1 (by omega) h
      have hc : clsOf E w1 o = clsOf E w o := congrArg E.cls (hcls o)
      have gone : (w'.cached o).get? k = none := i.drops n1 n2 k (by
        rw [hca, if_pos rfl, Od.get?_del (hw.cached_nodup o), if_pos rfl])
      refine ⟨i.wf, i.cls.trans hc, ?_, by have := i.slot; rwa [hc] at this, by have := i.stores; rwa [hc] at this,
        fun _ _ j hj => ?_⟩
      · simp only [World.shownBy, gone, i.shown]
      · refine i.drops n1 n2 j ?_
        rw [hca, if_pos rfl, Od.get?_del (hw.cached_nodup o)]
        split
        · rfl
        · exact hj
    case alias =>
      simp only [delPipe, M.bind_apply, unaliasKey] at h
      have lift : ∀ {u : Key}, rekey k (delPipe E r o u) w = (.ok (), w') →
          (∀ w1 : World, clsOf E w1 o = clsOf E w o → w1.shownBy E o (.alias :: r) k = w1.shownBy E o r u) →
          slot (clsOf E w o).aliaser (.alias :: r) k = slot (clsOf E w o).aliaser r u →
          Gone E (.alias :: r) o k w w' := fun {u} hx hs hd => by
        simp only [rekey, M.catchIf_apply] at hx
        rcases hy : delPipe E r o u w with ⟨_ | _, w1⟩
        · rw [hy] at hx
          simp only at hx
          split at hx <;> cases hx
        · rw [hy] at hx
          obtain rfl := (Prod.mk.inj hx).2
          have i := ih hu hw ho hy
          exact ⟨i.wf, i.cls, (hs _ i.cls).trans i.shown, by rw [hd]; exact i.slot,
            fun u hu => i.stores u (by rw [hd] at hu; exact hu),
            fun h1 h2 => i.drops (fun x => h1 (List.mem_cons_of_mem _ x)) fun x => h2 (List.mem_cons_of_mem _ x)⟩
      cases ha : (clsOf E w o).aliaser with
      | none =>
        rw [ha] at h
        refine lift (u := k) h (fun w1 e => ?_) ?_ <;> simp only [World.shownBy, slot, ha, *]
      | some a =>
        rw [ha] at h
        simp only at h
        by_cases ht : a.truthy
        · rw [if_pos ht] at h
          cases hv : a.unalias k with
          | error e => rw [hv] at h; cases h
          | ok u =>
            rw [hv] at h
            refine lift (u := u) h (fun w1 e => ?_) ?_
            · simp only [World.shownBy, e, ha, if_pos ht, hv]
            · simp only [slot, ha, if_pos ht, hv]
        · rw [if_neg ht] at h
          refine lift (u := k) h (fun w1 e => ?_) ?_
          · simp only [World.shownBy, e, ha, if_neg ht]
          · simp only [slot, ha, if_neg ht]
    all_goals exact (ih hu hw ho h).pass (fun _ _ => rfl) fun _ _ => rfl

/-- Nothing under the key, and nothing that makes up values: `KeyError` with that key. -/
theorem getPipe_absent (fb : Oid → Key → Exc → M Val) {bs : List Bhv} (hf : Bhv.childFactory ∉ bs)
    (hb : Bhv.fallback ∉ bs) {o : Oid} {k : Key} {w : World} (hw : WF w)
    (h : w.shownBy E o bs k = none) (hs : ∃ d, slot (clsOf E w o).aliaser bs k = some d)
    (hst : ∀ u, slot (clsOf E w o).aliaser bs k = some (.child u) →
      Stores (clsOf E w o) ∨ Bhv.fixedChildren ∈ (clsOf E w o).bhvs) :
    ∃ w', getPipe E fb bs o k w = (.error (.key (.key k)), w') ∧ Mute w w' := by
  induction bs generalizing k w with
  | nil =>
    replace h : w.stored E o k = none := h
    unfold World.stored at h
    rcases hst k rfl with hS | hF
    · rw [if_neg hS.noFixed] at h
      obtain ⟨r, w1, hr⟩ := hS.storageRef
      have hm := mute_storageRef E o w
      rw [hr] at hm
      refine ⟨w1, ?_, hm⟩
      simp only [getPipe, getEnd, M.bind_apply, M.getW_apply]
      rw [show (bhvsOf E w o).contains .fixedChildren = false from hS.fixed,
          show (bhvsOf E w o).any Bhv.isStorage = true from hS.any]
      simp only [Bool.false_eq_true, if_false, if_true, M.bind_apply, hr, M.getW_apply, M.ofExcept_apply]
      obtain ⟨b, hk, hne⟩ := hS.kind
      unfold storageKind at hk
      rw [hk] at h
      have hch : (w.children o).get? k = none := by
        cases b <;> first | exact absurd rfl hne | exact h
      rw [← children_eq (storageRef_ok hr), hm.children hw]
      simp [lookup, hch]
    · rw [if_pos hF] at h
      refine ⟨w, ?_, mute_pre.refl w⟩
      simp only [getPipe, getEnd, M.bind_apply, M.getW_apply]
      rw [if_pos (show (bhvsOf E w o).contains .fixedChildren = true from List.contains_iff_mem.mpr hF)]
      simp [M.ofExcept_apply, lookup, h]
  | cons b r ih =>
    have ih := fun {k : Key} {w : World} => @ih (fun x => hf (List.mem_cons_of_mem _ x))
      (fun x => hb (List.mem_cons_of_mem _ x)) k w
    cases b
    case nodespaces =>
      cases k with
      | str s =>
        simp only [World.shownBy] at h
        by_cases hR : Reserved s
        · rw [if_pos hR] at h
          obtain ⟨rn, w1, hr⟩ := nodespacesRef_isOk o w
          have hm := mute_nodespacesRef o w
          rw [hr] at hm
          refine ⟨w1, ?_, hm⟩
          simp only [getPipe, nodespacesGet, (reserved_iff s).mpr hR, if_true, M.bind_apply, hr,
            M.getW_apply, M.ofExcept_apply]
          rw [← nsview_eq (nodespacesRef_ok hr), hm.nsview hw]
          simp [lookup, h]
        · rw [if_neg hR] at h
          simp only [slot, if_neg hR] at hs hst
          simp only [getPipe, nodespacesGet, not_reserved hR, Bool.false_eq_true, if_false]
          exact ih hw h hs hst
      | _ => exact ih hw h hs hst
    case cache =>
      simp only [World.shownBy] at h
      obtain ⟨rc, w1, hr⟩ := cacheRef_isOk o w
      have hm := mute_cacheRef o w
      have hro := cacheRef_ok hr
      rw [hr] at hm
      simp only [getPipe, cacheGet, M.bind_apply, hr, M.getW_apply]
      rw [← cached_eq hro, hm.cached hw]
      cases hg : (w.cached o).get? k with
      | some x => rw [hg] at h; cases h
      | none =>
        rw [hg] at h
        have hco : clsOf E w1 o = clsOf E w o := hm.clsOf o
        obtain ⟨w2, h2, hm2⟩ := ih (k := k) (w := w1) (hm.wf hw) ((shownBy_mute hm hw o r k).trans h)
          (by rw [hco]; exact hs) (by rw [hco]; exact hst)
        refine ⟨w2, ?_, mute_pre.trans hm hm2⟩
        simp only [M.bind_apply, h2]
    case alias =>
      simp only [World.shownBy] at h
      simp only [slot] at hs hst
      simp only [getPipe, M.bind_apply, unaliasKey]
      have keyed : ∀ {u : Key}, w.shownBy E o r u = none → (∃ d, slot (clsOf E w o).aliaser r u = some d) →
          (∀ x, slot (clsOf E w o).aliaser r u = some (.child x) →
            Stores (clsOf E w o) ∨ Bhv.fixedChildren ∈ (clsOf E w o).bhvs) →
          ∃ w', rekey k (getPipe E fb r o u) w = (.error (.key (.key k)), w') ∧ Mute w w' := fun a b c => by
        obtain ⟨w', h1, h2⟩ := ih hw a b c
        refine ⟨w', ?_, h2⟩
        simp only [rekey, M.catchIf_apply, h1, Exc.isKey, if_true, M.raise_apply]
      cases ha : (clsOf E w o).aliaser with
      | none =>
        rw [ha] at h hs hst
        exact keyed h (ha ▸ hs) (ha ▸ hst)
      | some a =>
        rw [ha] at h hs hst
        simp only at h hs hst ⊢
        by_cases ht : a.truthy
        · rw [if_pos ht] at h hs ⊢
          simp only [if_pos ht] at hst
          cases hu : a.unalias k with
          | error e => rw [hu] at hs; simp at hs
          | ok u =>
            rw [hu] at h hs
            simp only [hu] at hst
            exact keyed h (ha ▸ hs) (ha ▸ hst)
        · rw [if_neg ht] at h hs ⊢
          simp only [if_neg ht] at hst
          exact keyed h (ha ▸ hs) (ha ▸ hst)
    case childFactory => exact absurd List.mem_cons_self hf
    case fallback => exact absurd List.mem_cons_self hb
    all_goals exact ih hw h hs hst

end Verif
