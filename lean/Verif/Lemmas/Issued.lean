import Verif.Props.C57
import Verif.Spec.Copy
import Verif.Lemmas.Reference

/-!
# Uuids in use

No operation but assigning `node.uuid` changes the uuid of a node that exists, and new nodes get uuids
no node has.
-/

namespace Verif

variable {E : Env}

/-- Every uuid in use was handed out before, and no two nodes have the same. -/
structure Distinct (w : World) : Prop where
  uuid : ∀ p u, (w.objs p).uuid = some u → u < w.nuuid
  idx : ∀ r i x, (some i, x) ∈ w.idxs r → i < w.nuuid
  pos : 0 < w.nuuid
  inj : ∀ p q u, (w.objs p).uuid = some u → (w.objs q).uuid = some u → p = q

theorem Distinct.issued {w : World} (h : Distinct w) : Issued w :=
  ⟨fun p u _ => h.uuid p u, fun r i x hx => h.idx r i x (Od.get?_some_mem hx), h.pos⟩

theorem Distinct.empty : Distinct {} where
  uuid _ _ h := by cases h
  idx _ _ _ h := by cases h
  pos := Nat.one_pos
  inj _ _ _ h := by cases h

/-- The same uuids, and in the indexes no others than before. -/
structure SameUuids (w w' : World) : Prop where
  uuid : ∀ p, (w'.objs p).uuid = (w.objs p).uuid
  nobj : w'.nobj = w.nobj
  nuuid : w'.nuuid = w.nuuid
  idx : ∀ r i x, (some i, x) ∈ w'.idxs r → (∃ s y, (some i, y) ∈ w.idxs s) ∨ ∃ p, (w.objs p).uuid = some i

theorem sameUuids_pre : PreR SameUuids :=
  ⟨fun _ => ⟨fun _ => rfl, rfl, rfl, fun _ _ _ h => .inl ⟨_, _, h⟩⟩, fun h h' =>
    ⟨fun p => (h'.uuid p).trans (h.uuid p), h'.nobj.trans h.nobj, h'.nuuid.trans h.nuuid, fun r i x hx => by
      rcases h'.idx r i x hx with ⟨s, y, hy⟩ | ⟨p, hp⟩
      · exact h.idx s i y hy
      · exact .inr ⟨p, (h.uuid p).symm.trans hp⟩⟩⟩

theorem SameUuids.distinct {w w' : World} (h : SameUuids w w') (hd : Distinct w) : Distinct w' where
  uuid p u hu := by rw [h.nuuid]; exact hd.uuid p u ((h.uuid p).symm.trans hu)
  idx r i x hx := by
    rw [h.nuuid]
    rcases h.idx r i x hx with ⟨s, y, hy⟩ | ⟨p, hp⟩
    · exact hd.idx s i y hy
    · exact hd.uuid p i hp
  pos := by rw [h.nuuid]; exact hd.pos
  inj p q u h1 h2 := hd.inj p q u ((h.uuid p).symm.trans h1) ((h.uuid q).symm.trans h2)

/-- Objects, counters and indexes as before. -/
theorem sameUuids_of {w w' : World} (h : ∀ p, (w'.objs p).uuid = (w.objs p).uuid) (hn : w'.nobj = w.nobj)
    (hu : w'.nuuid = w.nuuid) (hi : w'.idxs = w.idxs) : SameUuids w w' :=
  ⟨h, hn, hu, fun r i x hx => .inl ⟨r, x, by rw [← hi]; exact hx⟩⟩

theorem sameUuids_modO (o : Oid) (f : Obj → Obj) (hf : ∀ b, (f b).uuid = b.uuid) : Pres SameUuids (modO o f) :=
  fun w => sameUuids_of (fun p => proj_upd Obj.uuid w.objs o _ (hf _) p) rfl rfl rfl

/-- The uuids of existing nodes stay; distinct uuids stay distinct. -/
def UuidsKept (b : Nat) (w w' : World) : Prop :=
  b ≤ w.nobj → w.nobj ≤ w'.nobj ∧ w.nuuid ≤ w'.nuuid ∧ (∀ p, p < b → (w'.objs p).uuid = (w.objs p).uuid) ∧
    (Distinct w → Distinct w')

theorem uuidsKept_pre (b : Nat) : PreR (UuidsKept b) :=
  ⟨fun _ _ => ⟨Nat.le_refl _, Nat.le_refl _, fun _ _ => rfl, id⟩, fun h h' hb => by
    obtain ⟨a1, a2, a3, a4⟩ := h hb
    obtain ⟨c1, c2, c3, c4⟩ := h' (Nat.le_trans hb a1)
    exact ⟨Nat.le_trans a1 c1, Nat.le_trans a2 c2, fun p hp => (c3 p hp).trans (a3 p hp), fun hd => c4 (a4 hd)⟩⟩

theorem SameUuids.kept {w w' : World} (h : SameUuids w w') (b : Nat) : UuidsKept b w w' := fun _ =>
  ⟨Nat.le_of_eq h.nobj.symm, Nat.le_of_eq h.nuuid.symm, fun p _ => h.uuid p, h.distinct⟩

/-! ### Calling a class -/

/-- A uuid never used before for a new node. -/
theorem uuidsKept_put {b : Nat} {w : World} {o : Oid} (ho : b ≤ o) (objs : Oid → Obj)
    (hu : ∀ p, (objs p).uuid = if p = o then some w.nuuid else (w.objs p).uuid)
    (idxs : Nat → Od (Option Nat) Oid) (hi : ∀ r i x, (some i, x) ∈ idxs r → i = w.nuuid ∨ ∃ s y, (some i, y) ∈ w.idxs s)
    (n : Nat) : UuidsKept b w { w with objs := objs, idxs := idxs, nidx := n, nuuid := w.nuuid + 1 } := by
  refine fun _ => ⟨Nat.le_refl _, Nat.le_succ _, fun p hp => ?_, fun hd => ⟨fun p u h => ?_, fun r i x hx => ?_,
    Nat.succ_pos _, fun p q u h1 h2 => ?_⟩⟩
  · show (objs p).uuid = _
    rw [hu, if_neg (by omega)]
  · have h : (objs p).uuid = some u := h
    show u < w.nuuid + 1
    rw [hu] at h
    split at h
    · injection h with h; omega
    · have := hd.uuid p u h; omega
  · show i < w.nuuid + 1
    rcases hi r i x hx with rfl | ⟨s, y, hy⟩
    · omega
    · have := hd.idx s i y hy; omega
  · have h1 : (objs p).uuid = some u := h1
    have h2 : (objs q).uuid = some u := h2
    rw [hu] at h1 h2
    split at h1 <;> split at h2
    · rename_i e1 e2; rw [e1, e2]
    · injection h1 with h1; have := hd.uuid q u h2; omega
    · injection h2 with h2; have := hd.uuid p u h1; omega
    · exact hd.inj p q u h1 h2

theorem uuid_upd {w : World} {o : Oid} (ob : Obj) (hu : ob.uuid = some w.nuuid) (p : Oid) :
    (upd w.objs o ob p).uuid = if p = o then some w.nuuid else (w.objs p).uuid := by
  by_cases h : p = o
  · subst h; rw [if_pos rfl, upd_same]; exact hu
  · rw [if_neg h, upd_other _ _ h]

theorem iuuid_mem {u i : Nat} (h : iuuid (some u) = some i) : i = u := by
  cases u with
  | zero => cases h
  | succ n => injection h with h; exact h.symm

theorem uuidsKept_referenceInit {b : Nat} {o : Oid} (ho : b ≤ o) : Pres (UuidsKept b) (referenceInit o) := by
  intro w
  have e : referenceInit o w = (.ok (), { w with
      objs := upd w.objs o { w.objs o with index := some w.nidx, uuid := some w.nuuid }
      idxs := upd w.idxs w.nidx [(iuuid (some w.nuuid), o)]
      nidx := w.nidx + 1
      nuuid := w.nuuid + 1 }) := by
    simp only [referenceInit, M.bind_apply, M.modifyW_apply, freshUuid, setUuidRef, indexRef,
      upd_same, M.getW_apply, Od.get?, Option.any_none, Bool.false_eq_true, if_false, modO_apply,
      upd_upd]
    rfl
  rw [e]
  refine uuidsKept_put ho _ (uuid_upd _ rfl) _ (fun r i x hx => ?_) _
  unfold upd at hx
  split at hx
  · rw [List.mem_singleton, Prod.mk.injEq] at hx
    exact .inl (iuuid_mem hx.1.symm)
  · exact .inr ⟨r, x, hx⟩

/-- `self.uuid = self.uuid_factory()`. -/
theorem uuidsKept_fresh {b : Nat} {o : Oid} (ho : b ≤ o) (c : Prop) [Decidable c] :
    Pres (UuidsKept b) (freshUuid >>= fun u =>
      if c then setUuidRef o (some u) else modO o fun ob => { ob with uuid := some u }) := by
  intro w
  have raised : UuidsKept b w { w with nuuid := w.nuuid + 1 } := fun _ =>
    ⟨Nat.le_refl _, Nat.le_succ _, fun _ _ => rfl, fun hd => ⟨fun p u h => Nat.lt_succ_of_lt (hd.uuid p u h),
      fun r i x hx => Nat.lt_succ_of_lt (hd.idx r i x hx), Nat.succ_pos _, hd.inj⟩⟩
  simp only [M.bind_apply, freshUuid]
  split
  · simp only [setUuidRef, M.bind_apply, indexRef]
    cases hi : (w.objs o).index with
    | none => exact raised
    | some r =>
      simp only [M.getW_apply]
      split
      · exact raised
      · simp only [M.bind_apply, M.modifyW_apply, modO_apply]
        refine uuidsKept_put ho (upd w.objs o { w.objs o with uuid := some w.nuuid }) (uuid_upd _ rfl)
          (upd w.idxs r (((w.idxs r).del (iuuid (w.objs o).uuid)).set (iuuid (some w.nuuid)) o))
          (fun s i x hx => ?_) w.nidx
        unfold upd at hx
        split at hx
        · rcases Od.mem_of_set hx with e | hx
          · rw [Prod.mk.injEq] at e
            exact .inl (iuuid_mem e.1.symm)
          · exact .inr ⟨r, x, Od.mem_of_del hx⟩
        · exact .inr ⟨s, x, hx⟩
  · exact uuidsKept_put ho _ (uuid_upd { w.objs o with uuid := some w.nuuid } rfl) w.idxs
      (fun r i x hx => .inr ⟨r, x, hx⟩) w.nidx

theorem uuidsKept_newNodeN (E : Env) (b n : Nat) : ∀ c name parent,
    Pres (UuidsKept b) (newNodeN E n c name parent) := by
  have hR := uuidsKept_pre b
  have hmod : ∀ (o : Oid) (f : Obj → Obj), (∀ ob, (f ob).uuid = ob.uuid) → Pres (UuidsKept b) (modO o f) :=
    fun o f hf w => (sameUuids_modO o f hf w).kept b
  induction n with
  | zero => exact fun _ _ _ => pres_raise hR _
  | succ n ih =>
    intro c name parent w hb
    have loop : ∀ o l, Pres (UuidsKept b) (initPipe.loop (fun c' => newNodeN E n c' .none none) o l) := by
      intro o l
      induction l with
      | nil => exact pres_pure hR _
      | cons a t iht =>
        exact pres_bind hR (ih _ _ _) fun q => pres_bind hR (hmod q _ fun _ => rfl) fun _ =>
          pres_bind hR (hmod q _ fun _ => rfl) fun _ => pres_bind hR (hmod o _ fun _ => rfl) fun _ => iht
    have init : ∀ o, b ≤ o → ∀ all bs, Pres (UuidsKept b)
        (initPipe E (fun c' => newNodeN E n c' .none none) all bs o name parent) := by
      intro o ho all bs
      induction bs with
      | nil =>
        unfold initPipe
        exact pres_ite hR (pres_bind hR (hmod o _ fun _ => rfl) fun _ => hmod o _ fun _ => rfl) (pres_pure hR _)
      | cons x r ihb =>
        cases x
        case reference => exact pres_bind hR (uuidsKept_referenceInit ho) fun _ => ihb
        case lifecycle =>
          exact pres_bind hR ihb fun _ w => SameUuids.kept (w := w) (w' := (notify (.created o) w).2) (sameUuids_of (fun _ => rfl) rfl rfl rfl) b
        case uuidAware => exact pres_bind hR ihb fun _ => uuidsKept_fresh ho _
        case fixedChildren =>
          exact pres_bind hR ihb fun _ => pres_bind hR (hmod o _ fun _ => rfl) fun _ =>
            pres_bind hR (pres_getW hR) fun w => loop o _
        all_goals exact ihb
    have ha : UuidsKept b w (alloc c w).2 := by
      refine fun hb => ⟨Nat.le_succ _, Nat.le_refl _, fun p hp => ?_, fun hd => ⟨fun p u h => ?_, hd.idx, hd.pos, ?_⟩⟩
      · show (upd w.objs w.nobj { cls := c } p).uuid = _
        rw [upd_other _ _ (by omega)]
      · have h : (upd w.objs w.nobj { cls := c } p).uuid = some u := h
        unfold upd at h
        split at h
        · cases h
        · exact hd.uuid p u h
      · intro p q u h1 h2
        have h1 : (upd w.objs w.nobj { cls := c } p).uuid = some u := h1
        have h2 : (upd w.objs w.nobj { cls := c } q).uuid = some u := h2
        unfold upd at h1 h2
        split at h1
        · cases h1
        · split at h2
          · cases h2
          · exact hd.inj p q u h1 h2
    refine hR.trans ha ?_ hb
    exact pres_bind hR (init w.nobj hb _ _) (fun _ => pres_pure hR _) (alloc c w).2

/-! ### The operations -/

/-- Well formed and the uuids of existing nodes as before. -/
def UuidKept (w w' : World) : Prop := WF w → WF w' ∧ UuidsKept w.nobj w w'

theorem UuidsKept.mono {b b' : Nat} {w w' : World} (h : UuidsKept b' w w') (hb : b ≤ b') (hb' : b' ≤ w.nobj) :
    UuidsKept b w w' := fun _ => by
  obtain ⟨h1, h2, h3, h4⟩ := h hb'
  exact ⟨h1, h2, fun p hp => h3 p (Nat.lt_of_lt_of_le hp hb), h4⟩

theorem uuidKept_pre : PreR UuidKept :=
  ⟨fun w hw => ⟨hw, (uuidsKept_pre _).refl w⟩, fun {a b c} h h' hw => by
    obtain ⟨h1, h2⟩ := h hw
    obtain ⟨h3, h4⟩ := h' h1
    exact ⟨h3, (uuidsKept_pre _).trans h2 (h4.mono (h2 (Nat.le_refl _)).1 (Nat.le_refl _))⟩⟩

theorem uuidKept_of {w w' : World} (h : FixKept w w') (h' : SameUuids w w') : UuidKept w w' := fun hw =>
  ⟨(h hw).1, h'.kept _⟩

theorem Same.uuids {w w' : World} (h : Same w w') : SameUuids w w' :=
  sameUuids_of (fun p => (h.obj p).uuid) h.nobj h.nuuid h.idxs

theorem uuidKept_quiet (w w' : World) (h : Quiet w w') : UuidKept w w' := fun hw =>
  ⟨(h hw).1, (h hw).2.uuids.kept _⟩

theorem UuidKept.hidden {w w' : World} (h : Hidden w w') (h' : SameUuids w w') : UuidKept w w' := fun hw =>
  ⟨h.wf hw, h'.kept _⟩

theorem sameUuids_merge (o c : Oid) : Pres SameUuids (referenceMerge o c) := by
  refine pres_bind sameUuids_pre (pres_of_id sameUuids_pre (indexRef_id o)) fun si => ?_
  refine pres_bind sameUuids_pre (pres_of_id sameUuids_pre (indexRef_id c)) fun vi => ?_
  refine pres_bind sameUuids_pre (fun w => ⟨fun _ => rfl, rfl, rfl, fun r i x hx => ?_⟩) fun _ =>
    sameUuids_modO c _ fun _ => rfl
  have hx : (some i, x) ∈ upd w.idxs si ((w.idxs si).update (w.idxs vi)) r := hx
  unfold upd at hx
  split at hx
  · rcases Od.mem_of_update hx with hx | hx
    · exact .inl ⟨_, _, hx⟩
    · exact .inl ⟨_, _, hx⟩
  · exact .inl ⟨_, _, hx⟩

theorem sameUuids_unindex (o : Oid) (us : List Nat) : Pres SameUuids (indexDelete o us) := by
  induction us with
  | nil => exact pres_pure sameUuids_pre _
  | cons u r ih =>
    refine pres_bind sameUuids_pre (pres_of_id sameUuids_pre (indexRef_id _)) fun i => ?_
    refine pres_bind sameUuids_pre (pres_getW sameUuids_pre) fun w => ?_
    refine pres_ite sameUuids_pre (pres_bind sameUuids_pre (fun w => ⟨fun _ => rfl, rfl, rfl, fun s j x hx => ?_⟩)
      fun _ => ih) (pres_raise sameUuids_pre _)
    have hx : (some j, x) ∈ upd w.idxs i ((w.idxs i).del (some u)) s := hx
    unfold upd at hx
    split at hx
    · exact .inl ⟨_, _, Od.mem_of_del hx⟩
    · exact .inl ⟨_, _, hx⟩

/-- `storage`, `cache` and `nodespaces` are read or created. -/
theorem uuidEq_ref {α : Type} {m : M α} (h : Pres Quiet m) : Pres UuidKept m := fun w => uuidKept_quiet _ _ (h w)

theorem uuidKept_setPrims (E : Env) (o : Oid) (v : Val) : SetPrims E UuidKept o v where
  pre := uuidKept_pre
  iter c _ w := uuidKept_quiet _ _ (iter_quietF E c w).1
  setEnd k := by
    refine pres_bind uuidKept_pre (pres_getW uuidKept_pre) fun w => ?_
    refine pres_ite uuidKept_pre (pres_raise uuidKept_pre _) (pres_ite uuidKept_pre ?_ (pres_raise uuidKept_pre _))
    exact pres_bind uuidKept_pre (uuidEq_ref (storageRef_quiet E o)) fun r w =>
      uuidKept_of (fixKept_keep (keep_setStores r (fun w => (w.stores r).set k v) fun w hw =>
        Od.nodup_keys_set (hw.sNd r) _ _) w) (sameUuids_of (fun _ => rfl) rfl rfl rfl)
  nsPut k := pres_bind uuidKept_pre (uuidEq_ref (nodespacesRef_quiet o)) fun r w =>
    uuidKept_of (fixKept_keep (keep_setNspaces r (fun w => (w.nspaces r).set k v) fun w hw =>
        Od.nodup_keys_set (hw.nNd r) _ _) w) (sameUuids_of (fun _ => rfl) rfl rfl rfl)
  name c k _ w hw := ⟨(grow_setName c k w).wf hw, (sameUuids_modO c (fun ob => { ob with name := k }) (fun _ => rfl) w).kept _⟩
  parent c p _ w hw := ⟨(grow_setParent c p w).wf hw, (sameUuids_modO c (fun ob => { ob with parent := p }) (fun _ => rfl) w).kept _⟩
  cacheDrop k w := uuidKept_quiet _ _ (cacheDrop_quietF o k w).1
  notify e w := .hidden (hidden_notify e w) (sameUuids_of (fun _ => rfl) rfl rfl rfl)
  merge c _ w := .hidden (hidden_referenceMerge o c w) (sameUuids_merge o c w)

theorem uuidKept_api (E : Env) : ApiFine E UuidKept where
  pre := uuidKept_pre
  steps := readSteps_of_quiet fun _ _ h => uuidKept_quiet _ _ h.1
  fbGuard := fbGuard_of_quiet uuidKept_pre uuidKept_quiet
  setitem o k v := (uuidKept_setPrims E o v).setitem k
  delEnd o k := by
    refine pres_bind uuidKept_pre (pres_getW uuidKept_pre) fun w => ?_
    refine pres_ite uuidKept_pre (pres_raise uuidKept_pre _) (pres_ite uuidKept_pre ?_ (pres_raise uuidKept_pre _))
    refine pres_bind uuidKept_pre (uuidEq_ref (storageRef_quiet E o)) fun r => pres_bind uuidKept_pre
      (pres_getW uuidKept_pre) fun _ => pres_ite uuidKept_pre (fun w => ?_) (pres_raise uuidKept_pre _)
    exact uuidKept_of (fixKept_keep (keep_setStores r (fun w => (w.stores r).del k) fun w hw =>
      Od.nodup_keys_del (hw.sNd r) k) w) (sameUuids_of (fun _ => rfl) rfl rfl rfl)
  nsDrop o k := by
    refine pres_bind uuidKept_pre (uuidEq_ref (nodespacesRef_quiet o)) fun r => pres_bind uuidKept_pre
      (pres_getW uuidKept_pre) fun _ => pres_ite uuidKept_pre (fun w => ?_) (pres_raise uuidKept_pre _)
    exact uuidKept_of (fixKept_keep (keep_setNspaces r (fun w => (w.nspaces r).del k) fun w hw =>
      Od.nodup_keys_del (hw.nNd r) k) w) (sameUuids_of (fun _ => rfl) rfl rfl rfl)
  attrsPut r a w := uuidKept_of ((fixKept_api E).attrsPut r a w) (sameUuids_of (fun _ => rfl) rfl rfl rfl)
  insert b o ref new c w hw := by
    refine ⟨((fixKept_api E).insert b o ref new c w hw).1, SameUuids.kept ?_ _⟩
    have hq := (storageRef_quiet E o w hw).2.uuids
    simp only [storageInsert, M.bind_apply, M.getW_apply]
    rcases hr : storageRef E o w with ⟨e | r, w1⟩
    · rw [hr] at hq; exact hq
    · rw [hr] at hq
      simp only
      repeat' split
      all_goals exact ⟨hq.uuid, hq.nobj, hq.nuuid, hq.idx⟩
  swap o a b w hw := by
    refine ⟨((fixKept_api E).swap o a b w hw).1, SameUuids.kept ?_ _⟩
    have hq := (storageRef_quiet E o w hw).2.uuids
    simp only [swapNodes, M.bind_apply, M.getW_apply]
    rcases hr : storageRef E o w with ⟨e | r, w1⟩
    · rw [hr] at hq; exact hq
    · rw [hr] at hq
      simp only
      repeat' split
      all_goals exact ⟨hq.uuid, hq.nobj, hq.nuuid, hq.idx⟩
  volatile o k := by
    refine pres_bind uuidKept_pre (uuidEq_ref (storageRef_quiet E o)) fun r => ?_
    refine pres_ite uuidKept_pre (fun w => ?_) ?_
    · exact uuidKept_of (fixKept_keep (keep_setStores r (fun _ => []) fun _ _ => by simp [Od.keys]) w)
        (sameUuids_of (fun _ => rfl) rfl rfl rfl)
    refine pres_bind uuidKept_pre (fun w => uuidKept_quiet _ _ (mkeys_quietF E o w).1) fun ks => ?_
    refine pres_ite uuidKept_pre (fun w => ?_) (pres_raise uuidKept_pre _)
    exact uuidKept_of (fixKept_keep (keep_setStores r (fun w => (w.stores r).del k) fun w hw =>
      Od.nodup_keys_del (hw.sNd r) k) w) (sameUuids_of (fun _ => rfl) rfl rfl rfl)
  newNode c n p w hw := by
    refine ⟨((fixKept_api E).newNode c n p w hw).1, ?_⟩
    rcases newNode_cases E c n p with e | e
    · rw [e]; exact uuidsKept_newNodeN E _ _ c n p w
    · rw [e]; exact (uuidsKept_pre _).refl w
  notify e w := .hidden (hidden_notify e w) (sameUuids_of (fun _ => rfl) rfl rfl rfl)
  unindex o us w := .hidden (hidden_indexDelete o us w) (sameUuids_unindex o us w)
  indexPut o c u w hu := by
    refine .hidden (hidden_indexPut hidden_pre (fun _ _ h => h) o c u (f := fun _ => pure ()) (pres_pure hidden_pre _) w) ?_
    simp only [indexPut, M.bind_apply]
    rcases hi : indexRef o w with ⟨e | i, w1⟩
    · have := indexRef_id o w; rw [hi] at this; rw [show w1 = w from this]; exact sameUuids_pre.refl w
    · obtain ⟨rfl, _⟩ := indexRef_ok hi
      simp only [M.modifyW_apply, modO_apply]
      refine ⟨fun p => proj_upd Obj.uuid w1.objs c _ (by rfl) p, rfl, rfl, fun s j x hx => ?_⟩
      have hx : (some j, x) ∈ upd w1.idxs i ((w1.idxs i).set (some u) c) s := hx
      unfold upd at hx
      split at hx
      · rcases Od.mem_of_set hx with e | hx
        · rw [Prod.mk.injEq, Option.some.injEq] at e
          exact .inr ⟨c, by rw [e.1]; exact hu⟩
        · exact .inl ⟨_, _, hx⟩
      · exact .inl ⟨_, _, hx⟩
  indexOwn c u w hu := by
    refine .hidden (hidden_newIdx c (fun _ => [(some u, c)]) (fun _ => by simp [Od.keys]) w) ?_
    refine ⟨fun p => proj_upd Obj.uuid w.objs c _ (by rfl) p, rfl, rfl, fun s j x hx => ?_⟩
    have hx : (some j, x) ∈ upd w.idxs w.nidx [(some u, c)] s := hx
    unfold upd at hx
    split at hx
    · rw [List.mem_singleton, Prod.mk.injEq, Option.some.injEq] at hx
      exact .inr ⟨c, by rw [hx.1]; exact hu⟩
    · exact .inl ⟨_, _, hx⟩
  suppress o b w := .hidden (hidden_modO o (fun ob => { ob with suppress := b }) (fun _ => rfl) (fun _ => rfl)
    (fun _ => rfl) (fun _ => rfl) (fun _ => rfl) (fun _ => rfl) (fun _ => rfl) (fun _ => rfl) w)
    (sameUuids_modO o (fun ob => { ob with suppress := b }) (fun _ => rfl) w)
  fallbackKey o k w := .hidden (hidden_setFallbackKey o k w)
    (sameUuids_modO o (fun ob => { ob with fallbackKey := some k }) (fun _ => rfl) w)

end Verif
