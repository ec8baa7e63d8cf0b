import Verif.Lemmas.Decode
import Verif.Lemmas.RefInv
import Verif.Spec.Copy

/-! Reading trees of `Reference` nodes: what happens to the indices. -/

namespace Verif

variable {E : Env}

/-! ### Steps that leave the indices alone -/

/-- Only the node `o` is touched, and no index. -/
structure Off (o : Oid) (w w' : World) : Prop where
  children : ∀ p, w'.children p = w.children p
  idxs : w'.idxs = w.idxs
  index : ∀ p, p ≠ o → (w'.objs p).index = (w.objs p).index
  uuid : ∀ p, p ≠ o → (w'.objs p).uuid = (w.objs p).uuid
  cls : ∀ p, (w'.objs p).cls = (w.objs p).cls
  nobj : w'.nobj = w.nobj
  nuuid : w.nuuid ≤ w'.nuuid

theorem off_pre (o : Oid) : PreR (Off o) :=
  ⟨fun _ => ⟨fun _ => rfl, rfl, fun _ _ => rfl, fun _ _ => rfl, fun _ => rfl, rfl, Nat.le_refl _⟩, fun h h' =>
    ⟨fun p => (h'.children p).trans (h.children p), h'.idxs.trans h.idxs, fun p hp => (h'.index p hp).trans (h.index p hp),
      fun p hp => (h'.uuid p hp).trans (h.uuid p hp), fun p => (h'.cls p).trans (h.cls p), h'.nobj.trans h.nobj,
      Nat.le_trans h.nuuid h'.nuuid⟩⟩

theorem off_modO (o : Oid) (f : Obj → Obj) (hs : ∀ b, (f b).storage = b.storage) (hc : ∀ b, (f b).cls = b.cls) :
    Pres (Off o) (modO o f) := fun w =>
  ⟨children_modO o f (hs _), rfl, fun p hp => by simp only [modO_apply, upd_other _ _ hp],
    fun p hp => by simp only [modO_apply, upd_other _ _ hp], fun p => proj_upd Obj.cls w.objs o _ (hc _) p, rfl, Nat.le_refl _⟩

theorem off_freshUuid (o : Oid) : Pres (Off o) freshUuid := fun _ =>
  ⟨fun _ => rfl, rfl, fun _ _ => rfl, fun _ _ => rfl, fun _ => rfl, rfl, Nat.le_succ _⟩

theorem off_notify (o : Oid) (e : Event) : Pres (Off o) (notify e) := fun _ =>
  ⟨fun _ => rfl, rfl, fun _ _ => rfl, fun _ _ => rfl, fun _ => rfl, rfl, Nat.le_refl _⟩

theorem off_initPipe (mk : ClassId → M Oid) {all bs : List Bhv} (o : Oid) (name : Key) (parent : Option Oid)
    (ha : Bhv.reference ∉ all) (hr : Bhv.reference ∉ bs) (hx : Bhv.fixedChildren ∉ bs) :
    Pres (Off o) (initPipe E mk all bs o name parent) := by
  induction bs with
  | nil =>
    simp only [initPipe]
    split
    · exact pres_bind (off_pre o) (off_modO o _ (fun _ => rfl) fun _ => rfl) fun _ =>
        off_modO o _ (fun _ => rfl) fun _ => rfl
    · exact pres_pure (off_pre o) _
  | cons b r ih =>
    have base := ih (fun h => hr (List.mem_cons_of_mem _ h)) (fun h => hx (List.mem_cons_of_mem _ h))
    cases b
    case lifecycle => exact pres_bind (off_pre o) base fun _ => off_notify o _
    case uuidAware =>
      refine pres_bind (off_pre o) base fun _ => pres_bind (off_pre o) (off_freshUuid o) fun u => ?_
      rw [if_neg (by rw [List.contains_iff_mem]; exact ha)]
      exact off_modO o _ (fun _ => rfl) fun _ => rfl
    all_goals first
      | exact base
      | exact absurd List.mem_cons_self hr
      | exact absurd List.mem_cons_self hx

/-- What constructing a node without `Reference` does. -/
structure Besides (w w' : World) (o : Oid) : Prop where
  children : ∀ p, p ≠ o → w'.children p = w.children p
  empty : w'.children o = []
  idxs : w'.idxs = w.idxs
  index : ∀ p, p ≠ o → (w'.objs p).index = (w.objs p).index
  uuid : ∀ p, p ≠ o → (w'.objs p).uuid = (w.objs p).uuid
  cls : ∀ p, p ≠ o → (w'.objs p).cls = (w.objs p).cls
  nobj : w'.nobj = w.nobj + 1
  nuuid : w.nuuid ≤ w'.nuuid

theorem newNode_besides {c : ClassId} {name : Key} {parent : Option Oid} {w w' : World} {a : Oid}
    (hr : Bhv.reference ∉ (E.cls c).bhvs) (hx : Bhv.fixedChildren ∉ (E.cls c).bhvs)
    (h : newNode E c name parent w = (.ok a, w')) : a = w.nobj ∧ Besides w w' a := by
  unfold newNode at h
  split at h
  · cases hd : E.depth with
    | zero => rw [hd] at h; cases h
    | succ n =>
      rw [hd] at h
      simp only [newNodeN, M.bind_apply] at h
      rw [show alloc c w = (.ok w.nobj, (alloc c w).2) from rfl] at h
      simp only at h
      have ho := off_initPipe (E := E) (fun c' => newNodeN E n c' .none none) w.nobj name parent hr hr hx (alloc c w).2
      rcases hi : initPipe E (fun c' => newNodeN E n c' .none none) (E.cls c).bhvs (E.cls c).bhvs w.nobj name parent
        (alloc c w).2 with ⟨e | u, w1⟩
      · rw [hi] at h; cases h
      rw [hi] at h ho
      obtain ⟨rfl, rfl⟩ : w.nobj = a ∧ w1 = w' := by
        simp only [M.pure_apply, Prod.mk.injEq, Except.ok.injEq] at h; exact h
      refine ⟨rfl, fun p hp => (ho.children p).trans ?_, (ho.children _).trans ?_, ho.idxs,
        fun p hp => (ho.index p hp).trans ?_, fun p hp => (ho.uuid p hp).trans ?_, fun p hp => (ho.cls p).trans ?_,
        ho.nobj, ho.nuuid⟩
      · simp [World.children, alloc, upd, hp]
      · simp [World.children, alloc]
      all_goals simp only [alloc, upd_other _ _ hp]
  · cases h

/-! ### Assigning ordinary values -/

/-- Indices and uuids stay. -/
structure SameIdx (w w' : World) : Prop where
  idxs : w'.idxs = w.idxs
  index : ∀ p, (w'.objs p).index = (w.objs p).index
  uuid : ∀ p, (w'.objs p).uuid = (w.objs p).uuid
  nuuid : w'.nuuid = w.nuuid

theorem sameIdx_pre : PreR SameIdx :=
  ⟨fun _ => ⟨rfl, fun _ => rfl, fun _ => rfl, rfl⟩, fun h h' => ⟨h'.idxs.trans h.idxs,
    fun p => (h'.index p).trans (h.index p), fun p => (h'.uuid p).trans (h.uuid p), h'.nuuid.trans h.nuuid⟩⟩

theorem sameIdx_storageRef (o : Oid) : Pres SameIdx (storageRef E o) := by
  intro w
  unfold storageRef
  split
  · exact sameIdx_pre.refl w
  · exact sameIdx_pre.refl w
  · split
    · exact sameIdx_pre.refl w
    · exact ⟨rfl, fun p => proj_upd Obj.index w.objs o { w.objs o with storage := some w.nstore } rfl p,
        fun p => proj_upd Obj.uuid w.objs o { w.objs o with storage := some w.nstore } rfl p, rfl⟩

theorem sameIdx_nodespacesRef (o : Oid) : Pres SameIdx (nodespacesRef o) := by
  intro w
  unfold nodespacesRef
  split
  · exact sameIdx_pre.refl w
  · exact ⟨rfl, fun p => proj_upd Obj.index w.objs o { w.objs o with nodespaces := some w.nnspace } rfl p,
        fun p => proj_upd Obj.uuid w.objs o { w.objs o with nodespaces := some w.nnspace } rfl p, rfl⟩

theorem sameIdx_cacheRef (o : Oid) : Pres SameIdx (cacheRef o) := by
  intro w
  unfold cacheRef
  split
  · exact sameIdx_pre.refl w
  · exact ⟨rfl, fun p => proj_upd Obj.index w.objs o { w.objs o with cache := some w.ncache } rfl p,
        fun p => proj_upd Obj.uuid w.objs o { w.objs o with cache := some w.ncache } rfl p, rfl⟩

theorem sameIdx_setPipe (bs : List Bhv) (o : Oid) (k : Key) (d : Data) : Pres SameIdx (setPipe E bs o k (.data d)) := by
  have hR := sameIdx_pre
  induction bs generalizing k with
  | nil =>
    refine pres_bind hR (pres_getW hR) fun w => pres_ite hR (pres_raise hR _) (pres_ite hR ?_ (pres_raise hR _))
    exact pres_bind hR (sameIdx_storageRef o) fun r => fun w => ⟨rfl, fun _ => rfl, fun _ => rfl, rfl⟩
  | cons b r ih =>
    have base := ih k
    have hn : ∀ e : Event, Pres SameIdx (notify e) := fun e w => ⟨rfl, fun _ => rfl, fun _ => rfl, rfl⟩
    cases b
    case nodeChildValidate =>
      exact pres_bind hR (pres_getW hR) fun w => pres_ite hR (pres_raise hR _) (pres_ite hR (pres_raise hR _) base)
    case nodespaces =>
      simp only [setPipe]
      unfold nodespacesSet
      have hput : ∀ v : Val, Pres SameIdx (do
          let r ← nodespacesRef o
          M.modifyW fun w => { w with nspaces := upd w.nspaces r ((w.nspaces r).set k v) }) := fun v =>
        pres_bind hR (sameIdx_nodespacesRef o) fun r => fun w => ⟨rfl, fun _ => rfl, fun _ => rfl, rfl⟩
      cases k with
      | str s =>
        simp only
        split
        · cases d <;> first | exact pres_raise hR _ | exact hput _
        · exact base
      | _ => exact pres_raise hR _
    case lifecycle =>
      refine pres_bind hR base fun _ => pres_bind hR (pres_getO hR o) fun ob => ?_
      split
      · exact pres_pure hR _
      · exact hn _
    case attributesLifecycle =>
      refine pres_bind hR base fun _ => pres_bind hR (pres_getW hR) fun w => ?_
      split
      · exact pres_raise hR _
      · split
        · split
          · exact pres_pure hR _
          · exact hn _
        · exact pres_raise hR _
    case cache =>
      refine pres_bind hR (pres_bind hR (sameIdx_cacheRef o) fun r => ?_) fun _ => base
      exact fun w => ⟨rfl, fun _ => rfl, fun _ => rfl, rfl⟩
    case «alias» =>
      refine pres_bind hR (pres_of_id hR fun w => ?_) fun u => pres_catchIf hR (ih u) fun _ => pres_raise hR _
      unfold unaliasKey
      split
      · rfl
      · split <;> rfl
    all_goals exact base

theorem sameIdx_setitem (o : Oid) (k : Key) (d : Data) : Pres SameIdx (setitem E o k (.data d)) := fun w =>
  sameIdx_setPipe (bhvsOf E w o) o k d w

/-! ### Forests -/

/-- Whoever is not in the forest may change, as long as no node is put anywhere. -/
theorem Forest.beside {w w' : World} {Rs : List Oid} (hf : Forest E w Rs) (hw : WF w')
    (hcon : ∀ p k c, Contains w' p k c → Contains w p k c)
    (hch : ∀ R ∈ Rs, ∀ x, InTree w R x → w'.children x = w.children x) (hidx : w'.idxs = w.idxs)
    (hix : ∀ R ∈ Rs, ∀ x, InTree w R x → (w'.objs x).index = (w.objs x).index)
    (huu : ∀ R ∈ Rs, ∀ x, InTree w R x → (w'.objs x).uuid = (w.objs x).uuid)
    (hcl : ∀ R ∈ Rs, ∀ x, InTree w R x → (w'.objs x).cls = (w.objs x).cls)
    (hn : w.nobj ≤ w'.nobj) (hu : w.nuuid ≤ w'.nuuid) : Forest E w' Rs := by
  have hdown : ∀ {a x}, InTree w' a x → InTree w a x := fun {a x} hx =>
    hx.induct (P := InTree w a) (.refl a) fun p k c _ hc ih => ih.child (hcon p k c hc)
  have hup : ∀ {a x}, a ∈ Rs → InTree w a x → InTree w' a x := fun {a x} ha hx =>
    hx.induct (P := InTree w' a) (.refl a) fun p k c hp hc ih => ih.child (show (w'.children p).get? k = _ from by
      rw [hch a ha p hp]; exact hc)
  have hsole : Sole w' := fun p k p' k' c h1 h2 => hf.sole p k p' k' c (hcon _ _ _ h1) (hcon _ _ _ h2)
  have hb : ∀ p k c, Contains w' p k c → c < w'.nobj := fun p k c hc =>
    Nat.lt_of_lt_of_le (hf.bounds p k c (hcon _ _ _ hc)) hn
  refine ⟨hw, Nat.lt_of_lt_of_le hf.pos hu, hsole, hb, hf.nodup, fun R hR => ?_, fun R hR R' hR' e => ?_,
    fun R hR R' hR' x y u hx hy h1 h2 => ?_⟩
  · obtain ⟨r, hr⟩ := hf.live R hR
    have hc : ∀ x, InTree w R x → clsOf E w' x = clsOf E w x := fun x hx => congrArg E.cls (hcl R hR x hx)
    refine ⟨r, ⟨hsole, fun p k h => hr.tree.top p k (hcon _ _ _ h), Nat.lt_of_lt_of_le hr.tree.bound hn, hb,
      fun x hx => ?_, fun x hx k hk => ?_, fun x hx => ?_, fun x y u hx hy h1 h2 => ?_⟩, fun x hx => ?_, fun v x => ?_,
      fun x u hx h => ?_⟩
    · rw [hc x (hdown hx)]; exact hr.tree.cls x (hdown hx)
    · rw [hc x (hdown hx)]
      rw [hch R hR x (hdown hx)] at hk
      exact hr.tree.keys x (hdown hx) k hk
    · obtain ⟨u, h⟩ := hr.tree.uuid x (hdown hx)
      exact ⟨u, (huu R hR x (hdown hx)).trans h⟩
    · exact hr.tree.inj x y u (hdown hx) (hdown hy) ((huu R hR x (hdown hx)).symm.trans h1)
        ((huu R hR y (hdown hy)).symm.trans h2)
    · exact (hix R hR x (hdown hx)).trans (hr.shared x (hdown hx))
    · rw [hidx, hr.exact]
      refine exists_congr fun u => and_congr_right fun _ => ?_
      refine ⟨fun h => ⟨hup hR h.1, (huu R hR x h.1).trans h.2⟩, fun h => ⟨hdown h.1, (huu R hR x (hdown h.1)).symm.trans h.2⟩⟩
    · exact hr.real x u (hdown hx) ((huu R hR x (hdown hx)).symm.trans h)
  · have h1 := hix R hR R (.refl R)
    have h2 := hix R' hR' R' (.refl R')
    exact hf.apart R hR R' hR' (by rw [← h1, ← h2, e])
  · exact hf.inj R hR R' hR' x y u (hdown hx) (hdown hy) ((huu R hR x (hdown hx)).symm.trans h1)
      ((huu R' hR' y (hdown hy)).symm.trans h2)

theorem Forest.lt {w : World} {Rs : List Oid} (hf : Forest E w Rs) {R x : Oid} (hR : R ∈ Rs) (hx : InTree w R x) :
    x < w.nobj := by
  obtain ⟨r, hr⟩ := hf.live R hR
  rcases hx.cases with e | ⟨p, k, -, hc⟩
  · exact e ▸ hr.tree.bound
  · exact hf.bounds p k x hc

/-- Creating the attributes of a node keeps the forest. -/
theorem Forest.attrs {w w' : World} {Rs : List Oid} (hf : Forest E w Rs) {o a : Oid} (hw : WF w')
    (hr : Bhv.reference ∉ (E.cls (clsOf E w o).attrsFactory).bhvs)
    (hx : Bhv.fixedChildren ∉ (E.cls (clsOf E w o).attrsFactory).bhvs) (h : Verif.attrs E o w = (.ok a, w')) :
    Forest E w' Rs ∧ (∀ p k c, Contains w' p k c → Contains w p k c) ∧
      (∀ p, p < w.nobj → (w'.objs p).uuid = (w.objs p).uuid) ∧ w.nuuid ≤ w'.nuuid := by
  obtain ⟨r, w1, h1⟩ := nodespacesRef_isOk o w
  have hq := nodespacesRef_quiet o w hf.wf
  rw [h1] at hq
  obtain ⟨hw1, hs⟩ := hq
  have hc1 : clsOf E w1 o = clsOf E w o := congrArg E.cls (hs.obj o).cls
  have hcon1 : ∀ p k c, Contains w1 p k c → Contains w p k c := fun p k c => by
    show (w1.children p).get? k = _ → (w.children p).get? k = _
    rw [hs.children]
    exact id
  unfold Verif.attrs at h
  simp only [M.bind_apply, M.getW_apply] at h
  split at h
  · simp only [M.bind_apply, h1, M.getW_apply] at h
    cases hv : (w1.nspaces r).get? attrsKey with
    | some v =>
      rw [hv] at h
      cases v with
      | data d => cases h
      | node b =>
        simp only [M.pure_apply, Prod.mk.injEq] at h
        obtain ⟨-, rfl⟩ := h
        exact ⟨hf.beside hw hcon1 (fun _ _ x _ => hs.children x) hs.idxs (fun _ _ x _ => (hs.obj x).index)
          (fun _ _ x _ => (hs.obj x).uuid) (fun _ _ x _ => (hs.obj x).cls) (Nat.le_of_eq hs.nobj.symm)
          (Nat.le_of_eq hs.nuuid.symm), hcon1, fun p _ => (hs.obj p).uuid, Nat.le_of_eq hs.nuuid.symm⟩
    | none =>
      rw [hv] at h
      simp only [M.bind_apply] at h
      rcases h2 : newNode E (clsOf E w1 o).attrsFactory attrsKey (some o) w1 with ⟨e | b, w2⟩
      · rw [h2] at h; cases h
      rw [h2] at h
      simp only [M.modifyW_apply, M.pure_apply, Prod.mk.injEq] at h
      obtain ⟨-, rfl⟩ := h
      obtain ⟨rfl, hb⟩ := newNode_besides (by rw [hc1]; exact hr) (by rw [hc1]; exact hx) h2
      have hne : ∀ R ∈ Rs, ∀ x, InTree w R x → x ≠ w1.nobj := fun R hR x hx =>
        Nat.ne_of_lt (by rw [hs.nobj]; exact hf.lt hR hx)
      have hcon : ∀ p k c, Contains w2 p k c → Contains w p k c := fun p k c => by
        show (w2.children p).get? k = _ → _
        by_cases e : p = w1.nobj
        · subst e
          rw [hb.empty]
          exact fun h => nomatch h
        · rw [hb.children p e]
          exact hcon1 p k c
      have hnn : w.nobj ≤ w2.nobj := by rw [hb.nobj, hs.nobj]; exact Nat.le_succ _
      have huu : w.nuuid ≤ w2.nuuid := hs.nuuid ▸ hb.nuuid
      refine ⟨hf.beside hw hcon (fun R hR x hx => (hb.children x (hne R hR x hx)).trans (hs.children x))
        (hb.idxs.trans hs.idxs) (fun R hR x hx => (hb.index x (hne R hR x hx)).trans (hs.obj x).index)
        (fun R hR x hx => (hb.uuid x (hne R hR x hx)).trans (hs.obj x).uuid)
        (fun R hR x hx => (hb.cls x (hne R hR x hx)).trans (hs.obj x).cls) hnn huu, hcon, fun p hp => ?_, huu⟩
      exact (hb.uuid p (Nat.ne_of_lt (by rw [hs.nobj]; exact hp))).trans (hs.obj p).uuid
  · cases h

/-- A forest in which no uuid is in use that will be drawn. -/
structure Ready (E : Env) (w : World) (Rs : List Oid) : Prop where
  forest : Forest E w Rs
  spare : ∀ u, w.nuuid ≤ u → Unused w Rs u

/-- All uuids in use have been drawn. -/
theorem Forest.ready {w : World} {Rs : List Oid} (hf : Forest E w Rs) (hi : Issued w) : Ready E w Rs :=
  ⟨hf, fun u hu R hR x hx hxu => Nat.lt_irrefl _ (Nat.lt_of_lt_of_le (hi.uuid x u (hf.lt hR hx) hxu) hu)⟩

theorem Ready.attrs {w w' : World} {Rs : List Oid} (h : Ready E w Rs) {o a : Oid} (hw : WF w')
    (hr : Bhv.reference ∉ (E.cls (clsOf E w o).attrsFactory).bhvs)
    (hx : Bhv.fixedChildren ∉ (E.cls (clsOf E w o).attrsFactory).bhvs) (he : Verif.attrs E o w = (.ok a, w')) :
    Ready E w' Rs := by
  obtain ⟨h1, h2, h3, h4⟩ := h.forest.attrs hw hr hx he
  refine ⟨h1, fun u hu R hR x hx hxu => ?_⟩
  have hx' : InTree w R x := hx.induct (P := InTree w R) (.refl R) fun p k c _ hc ih => ih.child (h2 p k c hc)
  exact h.spare u (Nat.le_trans h4 hu) R hR x hx' ((h3 x (h.forest.lt hR hx')).symm.trans hxu)

/-- Assigning an ordinary value to a node that is not in the forest. -/
theorem Forest.setBeside {w w' : World} {Rs : List Oid} (hf : Forest E w Rs) {a : Oid} {k : Key} {d : Data}
    (ha : Bhv.reference ∉ (clsOf E w a).bhvs) (he : setitem E a k (.data d) w = (.ok (), w'))
    (hs : Stored a k (.data d) w w') : Forest E w' Rs ∧ (∀ p j c, Contains w' p j c → Contains w p j c) ∧ SameIdx w w' := by
  have hi := sameIdx_setitem (E := E) a k d w
  rw [he] at hi
  have hne : ∀ R ∈ Rs, ∀ x, InTree w R x → x ≠ a := by
    rintro R hR x hx rfl
    obtain ⟨r, hr⟩ := hf.live R hR
    obtain ⟨l, q, e, -⟩ := (hr.tree.cls x hx).once
    exact ha (by rw [e]; simp)
  have hcon : ∀ p j c, Contains w' p j c → Contains w p j c := fun p j c hc => by
    have hc' : (w'.children p).get? j = some (.node c) := hc
    rw [hs.children] at hc'
    split at hc'
    · rename_i e
      subst e
      rw [Od.get?_set] at hc'
      split at hc'
      · cases hc'
      · exact hc'
    · exact hc'
  exact ⟨hf.beside hs.wf hcon (fun R hR x hx => by rw [hs.children, if_neg (hne R hR x hx)]) hi.idxs
    (fun _ _ x _ => hi.index x) (fun _ _ x _ => hi.uuid x) (fun _ _ x _ => hs.cls x) (Nat.le_of_eq hs.nobj.symm)
    (Nat.le_of_eq hi.nuuid.symm), hcon, hi⟩

theorem Ready.setData {w w' : World} {Rs : List Oid} (h : Ready E w Rs) {a : Oid} {k : Key} {d : Data}
    (ha : Bhv.reference ∉ (clsOf E w a).bhvs) (he : setitem E a k (.data d) w = (.ok (), w'))
    (hs : Stored a k (.data d) w w') : Ready E w' Rs := by
  obtain ⟨h1, hcon, hi⟩ := h.forest.setBeside ha he hs
  refine ⟨h1, fun u hu R hR x hx hxu => ?_⟩
  have hx' : InTree w R x := hx.induct (P := InTree w R) (.refl R) fun p k c _ hc ih => ih.child (hcon p k c hc)
  exact h.spare u (hi.nuuid ▸ hu) R hR x hx' ((hi.uuid x).symm.trans hxu)

/-- Creating a node. -/
theorem Ready.new {w w' : World} {Rs : List Oid} (h : Ready E w Rs) {c : ClassId} {name : Key} {parent : Option Oid}
    {x : Except Exc Oid} (hE : 0 < E.depth) (ha : (E.cls c).Accepts name parent) (hc : RefClass (E.cls c))
    (he : newNode E c name parent w = (x, w')) : Ready E w' (w.nobj :: Rs) ∧ w'.children w.nobj = [] ∧
      (∀ p, p ≠ w.nobj → w'.children p = w.children p) ∧ ∀ p, p ≠ w.nobj → (w'.objs p).cls = (w.objs p).cls := by
  obtain ⟨w1, u0, e1, e2, e3⟩ := h.forest.new name parent hE ha hc
  obtain ⟨-, rfl⟩ := Prod.mk.inj (e1.symm.trans he)
  refine ⟨⟨e3 (h.spare u0 e2.le), fun u hu R hR x hx hxu => ?_⟩, e2.empty, e2.children, fun p hp => by rw [e2.cls, if_neg hp]⟩
  have hcon : ∀ p k c, Contains w1 p k c → p ≠ w.nobj ∧ Contains w p k c := fun p k c hc => by
    have hc' : (w1.children p).get? k = some (.node c) := hc
    by_cases e : p = w.nobj
    · rw [e, e2.empty] at hc'; cases hc'
    · exact ⟨e, by rw [e2.children p e] at hc'; exact hc'⟩
  have hlt := e2.lt
  by_cases ex : x = w.nobj
  · rw [HasUuid, e2.uuid, if_pos ex] at hxu
    injection hxu with hxu
    omega
  · rw [HasUuid, e2.uuid, if_neg ex] at hxu
    have hx' : InTree w R x := hx.induct (P := InTree w R) (.refl R) fun p k c _ hc ih => ih.child (hcon p k c hc).2
    rcases List.mem_cons.mp hR with rfl | hR
    · rcases hx.down with e | ⟨k, c, hc, -⟩
      · exact ex e
      · exact (hcon _ _ _ hc).1 rfl
    · exact h.spare u (Nat.le_trans e2.le (by omega)) R hR x hx' hxu

/-- Putting a new node into a tree. -/
theorem Ready.setLeaf {w w' : World} {Rs : List Oid} (h : Ready E w Rs) {R o N : Oid} {k : Key} {x : Except Exc Unit}
    (hR : R ∈ Rs) (ho : InTree w R o) (hN : N ∈ Rs) (hNR : N ≠ R) (hleaf : ∀ j c, ¬ Contains w N j c)
    (hk : k ∉ (w.children o).keys) (hkf : KeyFor (clsOf E w o) k) (he : setitem E o k (.node N) w = (x, w')) :
    Ready E w' (Rs.filter (· ≠ N)) := by
  obtain ⟨w1, e1, e2, e3, e4, -, -, e5⟩ := h.forest.setLeaf hR ho hN hNR hleaf hk hkf
  obtain ⟨-, rfl⟩ := Prod.mk.inj (e1.symm.trans he)
  refine ⟨e2, fun u hu A hA x hx hxu => ?_⟩
  have hA' : A ∈ Rs := (List.mem_filter.mp hA).1
  have : ∃ B ∈ Rs, InTree w B x := by
    refine hx.induct (P := fun x => ∃ B ∈ Rs, InTree w B x) ⟨A, hA', .refl A⟩ fun p j c _ hc ih => ?_
    obtain ⟨B, hB, hp⟩ := ih
    have hc' : (w1.children p).get? j = some (.node c) := hc
    rw [e3] at hc'
    simp only [chSet] at hc'
    split at hc'
    · rename_i e
      subst e
      rw [Od.get?_set] at hc'
      split at hc'
      · injection hc' with hc'
        injection hc' with hc'
        subst hc'
        exact ⟨N, hN, .refl N⟩
      · exact ⟨B, hB, hp.child hc'⟩
    · exact ⟨B, hB, hp.child hc'⟩
  obtain ⟨B, hB, hx'⟩ := this
  exact h.spare u (e5 ▸ hu) B hB x hx' ((e4 x).symm.trans hxu)

theorem Ready.calm {w w' : World} {Rs : List Oid} (h : Ready E w Rs) (hc : Calm w w') : Ready E w' Rs :=
  ⟨h.forest.calm hc, fun u hu R hR x hx hxu => h.spare u (hc.nuuid ▸ hu) R hR x (hc.inTree.mp hx)
    ((hc.uuid x).symm.trans hxu)⟩

end Verif

namespace Verif.Ser

variable {E : Env} {N : Codec}

/-- The loop over the attributes keeps the forest. -/
theorem attrs_ready {f : Data → J} {A : Data → Prop}
    (hA : ∀ d, A d → Proper d ∧ Safe N d ∧ encData N {} d = .ok (f d)) (hE : 0 < E.depth) {c : ClassId}
    {o b n : Nat} (ho : o < b) (ht : Bhv.attributes ∈ (E.cls c).bhvs)
    (hn : Bhv.nodespaces ∈ (E.cls c).bhvs) (hc : ReadClass (E.cls (E.cls c).attrsFactory))
    (hl : (E.cls (E.cls c).attrsFactory).Located) (hnr : Bhv.reference ∉ (E.cls (E.cls c).attrsFactory).bhvs)
    {Rs : List Oid} :
    ∀ (rest done : List (Str × Data)) (w : World), Ready E w Rs → b ≤ w.nobj → (w.objs o).cls = c →
    HasAttrs E (fun p => b ≤ p ∧ p < w.nobj) w o done → ((done ++ rest).map Prod.fst).Nodup →
    (∀ kv ∈ rest, KeyFor (E.cls (E.cls c).attrsFactory) (.str kv.1) ∧
      refuses (E.cls (E.cls c).attrsFactory) (.data kv.2) = none ∧ A kv.2) → attrsHeight rest < n →
    Ready E (forU (fun (kv : Str × J) => do
        let x ← decode E N n kv.2 none
        let v ← x.toVal
        let a ← attrs E o
        setitem E a (.str kv.1) v) (rest.map fun kv => (kv.1, f kv.2)) w).2 Rs
  | [], done, w, hw, _, _, _, _, _, _ => hw
  | (k, d) :: rest, done, w, hw, hb, hcl, hat, hnd, hr, hh => by
    obtain ⟨w2, f1, f2, f3, f4, f5, f6, f7, f8⟩ := attrs_loop (N := N) hA hE ho ht hn hc hl [(k, d)] done w hw.forest.wf hb hcl
      hat (by
        simp only [List.map_append, List.map_cons, List.map_nil] at hnd ⊢
        rw [show k :: rest.map Prod.fst = [k] ++ rest.map Prod.fst from rfl, ← List.append_assoc] at hnd
        exact (List.nodup_append.mp hnd).1)
      (fun kv hkv => hr kv (by
        rw [List.mem_singleton] at hkv; subst hkv; exact List.mem_cons_self))
      (show attrsHeight [(k, d)] < n by simp only [attrsHeight] at hh ⊢; omega)
    have how : o < w.nobj := Nat.lt_of_lt_of_le ho hb
    have hco : clsOf E w o = E.cls c := congrArg E.cls hcl
    simp only [attrsHeight] at hh
    obtain ⟨hk, hrf, hAd⟩ := hr (k, d) List.mem_cons_self
    obtain ⟨x, hx1, hx2⟩ := decode_value (E := E) hA hAd (n := n) (show height d < n by omega) w
    obtain ⟨a, w1, h1, h2, h3, h4, h5, -⟩ := attrs_tree (E := E) (o := o) hw.forest.wf how hE (by rw [hco]; exact ht) (by rw [hco]; exact hn)
      (by rw [hco]; exact hl)
      (by rw [hco]; exact hc.not (by decide))
      (fun d hd => by
        unfold HasAttrs at hat
        rw [show (w.nmap o).val attrsKey = some (.data d) from hd] at hat
        exact hat)
      (fun a ha => by
        unfold HasAttrs at hat
        rw [show (w.nmap o).val attrsKey = some (.node a) from ha] at hat
        exact hat.1.2)
    have hat1 := hat.grows_from h2 how hb
    unfold HasAttrs at hat1
    rw [show (w1.nmap o).val attrsKey = some (.node a) from h3] at hat1
    obtain ⟨⟨h6, -⟩, h7, h8⟩ := hat1
    rw [h2.clsOf how, hco] at h7
    have hca : clsOf E w1 a = E.cls (E.cls c).attrsFactory := congrArg E.cls h7
    obtain ⟨w2', e1, e2, -⟩ := setitem_tree (E := E) (o := a) (k := .str k) (v := .data d) h2.wf
      (by rw [hca]; exact hc.store.take) (by rw [hca]; exact hk) (by rw [hca]; exact hrf) h4 (fun _ e => by cases e)
    have hrd1 : Ready E w1 Rs := hw.attrs h2.wf (by rw [hco]; exact hnr) (by rw [hco]; exact hc.not (by decide)) h1
    have hrd2 : Ready E w2' Rs := hrd1.setData (by rw [hca]; exact hnr) e1 e2
    have heq : w2' = w2 := by
      simp only [List.map_cons, List.map_nil, forU, M.bind_apply, hx1, hx2, h1, e1, M.pure_apply, Prod.mk.injEq] at f1
      exact f1.2
    subst heq
    have := attrs_ready hA hE ho ht hn hc hl hnr rest (done ++ [(k, d)]) w2' hrd2 (Nat.le_trans hb f3.le)
      (f7.trans hcl) f4 (by simpa using hnd) (fun kv hkv => hr kv (List.mem_cons_of_mem _ hkv))
      (show attrsHeight rest < n by omega)
    simp only [List.map_cons, forU, M.bind_apply, hx1, hx2, h1, e1]
    exact this

mutual
/-- Trees of `Reference` nodes, whose attributes are no `Reference` nodes. -/
def Refs (E : Env) : NTree → Prop
  | .mk c _ _ kids => RefClass (E.cls c) ∧
    (Bhv.attributes ∈ (E.cls c).bhvs → Bhv.reference ∉ (E.cls (E.cls c).attrsFactory).bhvs) ∧ Refss E kids
/-- All trees. -/
def Refss (E : Env) : List NTree → Prop
  | [] => True
  | t :: r => Refs E t ∧ Refss E r
end

/-- The roots after a node was made: it is one if it has no parent. -/
def rootsWith (parent : Option Oid) (o : Oid) (Rs : List Oid) : List Oid :=
  match parent with
  | none => o :: Rs
  | some _ => Rs

/-- Below the parent, in the forest, the key is free. -/
structure Spot (E : Env) (t : NTree) (w : World) (Rs : List Oid) (p : Oid) : Prop extends Par E t w p where
  free : t.name ∉ (w.children p).keys
  inside : ∃ R ∈ Rs, InTree w R p

theorem nodeFactory_ready {rec : J → Option Oid → M Dec} {f : Data → J} (hE : 0 < E.depth) {c : ClassId} {name : Key}
    {at' : List (Str × Data)} {kids : List NTree} {parent : Option Oid} {w : World} {Rs : List Oid} (hw : Ready E w Rs)
    (hc : RefClass (E.cls c)) (hb : ∀ b, name ≠ .bytes b) (hf : N.findCls (E.cls c).dotted = some c)
    (hp : ∀ p, parent = some p → Spot E (.mk c name at' kids) w Rs p) :
    Ready E (nodeFactory E N rec (members E f c name at' kids) parent w).2 (rootsWith parent w.nobj Rs) := by
  rcases h1 : newNode E c .none none w with ⟨x, w1⟩
  obtain ⟨r1, r2, r3, r4⟩ := hw.new hE (.inl ⟨rfl, rfl⟩) hc h1
  obtain ⟨w1', u0, e1, -⟩ := hw.forest.new .none none hE (.inl ⟨rfl, rfl⟩) hc
  obtain ⟨rfl, rfl⟩ := Prod.mk.inj (e1.symm.trans h1)
  unfold nodeFactory
  simp only [M.bind_apply, M.ofExcept_apply, members_class hf, members_kw, M.pure_apply, members_name hb,
    callArgs, h1]
  cases parent with
  | none => exact r1.calm (calm_name w.nobj name r1.forest.wf)
  | some p =>
    have hP := hp p rfl
    obtain ⟨R, hR, hRp⟩ := hP.inside
    have hne : p ≠ w.nobj := Nat.ne_of_lt hP.lt
    have hnot : w.nobj ∉ Rs := fun h => Nat.lt_irrefl _ (hw.forest.lt h (.refl _))
    have hin : InTree w1' R p := hRp.induct (P := InTree w1' R) (.refl R) fun q k c hq hc ih =>
      ih.child (show (w1'.children q).get? k = _ from by
        rw [r3 q (Nat.ne_of_lt (hw.forest.lt hR hq))]; exact hc)
    have hcl : clsOf E w1' p = clsOf E w p := congrArg E.cls (r4 p hne)
    rcases h2 : setitem E p name (.node w.nobj) w1' with ⟨y, w2⟩
    have := r1.setLeaf (List.mem_cons_of_mem _ hR) hin List.mem_cons_self (fun e => hnot (e ▸ hR))
      (fun j c hc => by
        have hc' : (w1'.children w.nobj).get? j = _ := hc
        rw [r2] at hc'; cases hc')
      (by rw [r3 p hne]; exact hP.free) (by rw [hcl]; exact hP.key) h2
    have hfil : (w.nobj :: Rs).filter (· ≠ w.nobj) = Rs := by
      rw [List.filter_cons_of_neg (by simp), List.filter_eq_self]
      intro a ha
      simp only [ne_eq, decide_not, Bool.not_eq_eq_eq_not, Bool.not_true, decide_eq_false_iff_not]
      exact fun e => hnot (e ▸ ha)
    rw [hfil] at this
    simp only [M.bind_apply, h2]
    cases y with
    | error e => exact this
    | ok u => exact this

mutual
/-- Reading a tree keeps the forest. -/
theorem decode_ready {f : Data → J} {A : Data → Prop}
    (hA : ∀ d, A d → Proper d ∧ Safe N d ∧ encData N {} d = .ok (f d)) (hE : 0 < E.depth) :
    ∀ (t : NTree) (n : Nat) (parent : Option Oid) (w : World) (Rs : List Oid), Ready E w Rs → Buildable E N A t →
    Refs E t → tall t < n → (∀ p, parent = some p → Spot E t w Rs p) →
    Ready E (decode E N n (jNode E f {} t) parent w).2 (rootsWith parent w.nobj Rs)
  | .mk c name at' kids, n, parent, w, Rs, hw, hb, ⟨hr1, hr2, hr3⟩, hn, hp => by
    obtain ⟨b1, b2, b3, b4, b5, b6, b7⟩ := hb
    cases n with
    | zero => cases hn
    | succ n =>
      simp only [tall] at hn
      obtain ⟨w1, h1, hpl⟩ := nodeFactory_tree (rec := decode E N n) (f := f) (N := N) hE hw.forest.wf b1 b2 b3
        (fun p e => (hp p e).toPar)
      have hd1 := nodeFactory_ready (rec := decode E N n) (f := f) (N := N) hE hw hr1 b2 b3 hp
      rw [h1] at hd1
      have hcl1 : clsOf E w1 w.nobj = E.cls c := congrArg E.cls hpl.cls
      have hin : ∃ R ∈ rootsWith parent w.nobj Rs, InTree w1 R w.nobj := by
        cases parent with
        | none => exact ⟨w.nobj, List.mem_cons_self, .refl _⟩
        | some p =>
          obtain ⟨R, hR, hRp⟩ := (hp p rfl).inside
          have hfree := (hp p rfl).free
          obtain ⟨p1, -⟩ := hpl.par p rfl
          have hmono : InTree w1 R p := hRp.induct (P := InTree w1 R) (.refl R) fun q k x hq hc ih =>
            ih.child (show (w1.children q).get? k = _ from by
              by_cases e : q = p
              · subst e
                rw [p1, Od.get?_set, if_neg (fun e => hfree (by
                  show name ∈ _
                  rw [← e]; exact Od.mem_keys_of_get? hc))]
                exact hc
              · rw [(hpl.old q (hw.forest.lt hR hq) (fun h => e (Option.some.inj h))).children]; exact hc)
          exact ⟨R, hR, hmono.child (k := name) (show (w1.children p).get? name = _ from by
            rw [p1, Od.get?_set, if_pos rfl])⟩
      have hab : Above E kids w1 w.nobj := ⟨hpl.lt, by rw [hcl1]; exact b1, b5,
            fun t _ => by rw [hpl.empty]; nofun, by rw [hcl1]; exact b6, by rw [hcl1]; exact hpl.indexed⟩
      have hk : ∃ w2, decKids (decode E N n) w.nobj (members E f c name at' kids) w1 = (.ok (), w2) ∧
          Kids E w.nobj kids w1 w2 ∧ Ready E w2 (rootsWith parent w.nobj Rs) := by
        unfold decKids
        rw [members_get?, if_neg (by decide), if_neg (by decide)]
        by_cases he : kids.isEmpty = true
        · rw [if_neg (fun h => h.1 he), if_neg (fun h => absurd h.2 (by decide))]
          have : kids = [] := List.isEmpty_iff.mp he
          subst this
          exact ⟨w1, rfl, ⟨hpl.wf, .refl w1, fun _ _ _ => .refl w1 _, rfl, rfl, rfl, [],
            (List.append_nil _).symm, rfl⟩, hd1⟩
        · rw [if_pos ⟨he, by decide⟩]
          obtain ⟨w2, g1, g2⟩ := decode_kids (N := N) hA hE kids n w.nobj w1 hpl.wf b7 (by omega) hab
          have := kids_ready hA hE kids n w.nobj w1 _ hd1 b7 hr3 (by omega) hab hin
          rw [g1] at this
          exact ⟨w2, g1, g2, this⟩
      obtain ⟨w2, h2, hk, hd2⟩ := hk
      have ho2 : w.nobj < w2.nobj := Nat.lt_of_lt_of_le hpl.lt hk.index.le
      have hcl2 : (w2.objs w.nobj).cls = c := hk.cls.trans hpl.cls
      have ha : Ready E (decAttrs E (decode E N n) w.nobj (members E f c name at' kids) w2).2 (rootsWith parent w.nobj Rs) := by
        unfold decAttrs
        by_cases hat : Bhv.attributes ∈ (E.cls c).bhvs
        · rw [if_pos hat] at b4
          obtain ⟨c1, c2, c5, c3, c4⟩ := b4
          rw [if_pos (by rw [show clsOf E w2 w.nobj = E.cls c from congrArg E.cls hcl2]; exact List.contains_iff_mem.mpr hat),
            members_get?, if_neg (by decide), if_neg (by decide), if_neg (fun h => absurd h.2 (by decide)),
            if_pos ⟨hat, by decide⟩]
          exact attrs_ready hA hE ho2 hat c1 c2 c5 (hr2 hat) at' [] w2 hd2 (Nat.le_refl _) hcl2 (by
            unfold HasAttrs
            rw [show (w2.nmap w.nobj).val attrsKey = none from hk.attr.trans hpl.attr]) c3 c4
            (show attrsHeight at' < n by omega)
        · rw [if_neg (by rw [show clsOf E w2 w.nobj = E.cls c from congrArg E.cls hcl2, List.contains_iff_mem]; exact hat)]
          exact hd2
      rw [jNode_members]
      have g1 : Od.get? [("__node__".toList, J.obj (members E f c name at' kids))] obKey = none := rfl
      have g2 : Od.get? [("__node__".toList, J.obj (members E f c name at' kids))] nodeKey =
        some (J.obj (members E f c name at' kids)) := rfl
      simp only [decode, g1, g2, M.bind_apply, h1, h2]
      rcases h3 : decAttrs E (decode E N n) w.nobj (members E f c name at' kids) w2 with ⟨e | u, w3⟩
      · rw [h3] at ha; exact ha
      · rw [h3] at ha; exact ha
/-- Reading the children of a node keeps the forest. -/
theorem kids_ready {f : Data → J} {A : Data → Prop}
    (hA : ∀ d, A d → Proper d ∧ Safe N d ∧ encData N {} d = .ok (f d)) (hE : 0 < E.depth) :
    ∀ (ts : List NTree) (n : Nat) (o : Oid) (w : World) (Rs : List Oid), Ready E w Rs → Buildables E N A ts →
    Refss E ts → talls ts < n → Above E ts w o → (∃ R ∈ Rs, InTree w R o) →
    Ready E (forU (fun j => do let _ ← decode E N n j (some o); pure ()) (jNodes E f {} ts) w).2 Rs
  | [], n, o, w, Rs, hw, _, _, _, _, _ => hw
  | t :: ts, n, o, w, Rs, hw, hb, hr, hn, hab, hin => by
    simp only [talls] at hn
    obtain ⟨e1, e2, e3⟩ := hab.each t List.mem_cons_self
    have hpar : ∀ p, some o = some p → Spot E t w Rs p := by
      intro p hp
      cases hp
      exact ⟨⟨hab.lt, hab.read, e1, e2, fun hr => ⟨hab.ref hr, e3 hr⟩⟩, hab.fresh t List.mem_cons_self, hin⟩
    obtain ⟨w1, h1, hbt⟩ := decode_tree (N := N) hA hE t n (some o) w hw.forest.wf hb.1 (by omega) (fun p e => (hpar p e).toPar)
    have hd := decode_ready hA hE t n (some o) w Rs hw hb.1 hr.1 (by omega) hpar
    rw [h1] at hd
    obtain ⟨p1, p2, p3, p4⟩ := hbt.par o rfl
    have hcl : clsOf E w1 o = clsOf E w o := congrArg E.cls p3
    have hin1 : ∃ R ∈ Rs, InTree w1 R o := by
      obtain ⟨R, hR, hRo⟩ := hin
      refine ⟨R, hR, hRo.induct (P := InTree w1 R) (.refl R) fun q k x hq hc ih => ih.child
        (show (w1.children q).get? k = _ from ?_)⟩
      by_cases e : q = o
      · subst e
        rw [p1, Od.get?_set, if_neg (fun e => hab.fresh t List.mem_cons_self (by rw [← e]; exact Od.mem_keys_of_get? hc))]
        exact hc
      · rw [(hbt.old q (hw.forest.lt hR hq) (fun h => e (Option.some.inj h))).children]; exact hc
    rw [Od.set_append (hab.fresh t List.mem_cons_self)] at p1
    have hnd := hab.names
    simp only [List.map_cons, List.nodup_cons] at hnd
    have := kids_ready hA hE ts n o w1 Rs hd hb.2 hr.2 (by omega)
      ⟨Nat.lt_trans hab.lt hbt.lt, by rw [hcl]; exact hab.read, hnd.2, fun t' ht' => by
        rw [p1]
        simp only [Od.keys, List.map_append, List.map_cons, List.map_nil, List.mem_append, List.mem_cons,
          List.not_mem_nil, or_false, not_or]
        exact ⟨hab.fresh t' (List.mem_cons_of_mem _ ht'), fun e => hnd.1 (List.mem_map.mpr ⟨t', ht', e⟩)⟩,
        fun t' ht' => by rw [hcl]; exact hab.each t' (List.mem_cons_of_mem _ ht'), fun hr =>
          hbt.index.keep o hab.lt (hab.ref (hcl ▸ hr))⟩ hin1
    simp only [jNodes, forU, M.bind_apply, h1, M.pure_apply]
    exact this
end

end Verif.Ser
