import Verif.Lemmas.MapRefine
import Verif.Lemmas.Lookup
import Verif.Lemmas.DelOutcome
import Verif.Lemmas.Log
import Verif.Lemmas.Shape
import Verif.Spec.Refuse

/-! The mapping API of classes with `Reference` computes on ordered maps that may refuse nodes. -/

namespace Verif

section
variable {E : Env}

theorem RefMapClass.kind {c : ClassDef} (h : RefMapClass c) : ∃ b, storageKind c.bhvs = some b ∧ b ≠ .storage := by
  have hs : ∀ b ∈ c.bhvs, b.isStorage = true → b ≠ .storage := by
    intro b hb _ e
    subst e
    rcases (h.passes _ hb).1 with h | h <;> cases h
  have : ∃ b ∈ c.bhvs, b.isStorage = true := by
    rcases h.stores with h | h
    · exact ⟨_, h, rfl⟩
    · exact ⟨_, h, rfl⟩
  obtain ⟨b, hb, hb'⟩ := this
  cases hf : c.bhvs.find? Bhv.isStorage with
  | none => exact absurd hb' (by simpa using List.find?_eq_none.mp hf b hb)
  | some a => exact ⟨a, hf, hs a (List.mem_of_find?_eq_some hf) (List.find?_some hf)⟩

theorem RefMapClass.not {c : ClassDef} (h : RefMapClass c) {b : Bhv} (hb : b.passes = false) (hr : b ≠ .reference) :
    b ∉ c.bhvs := fun hm => by
  rcases (h.passes b hm).1 with h1 | h1
  · rw [hb] at h1; cases h1
  · exact hr h1

theorem RefMapClass.noCache {c : ClassDef} (h : RefMapClass c) : Bhv.cache ∉ c.bhvs := fun hm => (h.passes _ hm).2 rfl

theorem RefMapClass.concrete {c : ClassDef} (h : RefMapClass c) : Concrete c where
  kind := h.kind
  noFixed := h.not rfl nofun
  noAlias := h.not rfl nofun
  noFactory := h.not rfl nofun

theorem RefMapClass.store {c : ClassDef} (h : RefMapClass c) : StoreClass c where
  kind := h.kind
  plain b hb := by
    intro hm
    simp only [List.mem_cons, List.not_mem_nil, or_false] at hm
    rcases hm with e | e | e | e <;> subst e
    · exact absurd hb (h.not rfl nofun)
    · exact h.noCache hb
    · exact absurd hb (h.not rfl nofun)
    · exact absurd hb (h.not rfl nofun)

theorem RefMapClass.coh {w : World} {o : Oid} (h : RefMapClass (clsOf E w o)) : Coh E (· = o) w := by
  intro p hp hc
  subst hp
  exact absurd hc h.noCache

theorem RefMapClass.looks {c : ClassDef} {k : Key} (h : RefMapClass c) (hk : KeyFor c k) : Looks c k :=
  ⟨h.concrete.stores, h.concrete.noAlias, hk⟩

theorem RefMapClass.get {w : World} {o : Oid} {k : Key} (h : RefMapClass (clsOf E w o)) (hk : KeyFor (clsOf E w o) k)
    (hw : WF w) : ∃ w', getitem E o k w = (lookup (w.children o) k, w') ∧ Quiet w w' := by
  obtain ⟨w', h1, h2⟩ := getitem_look (E := E) (h.looks hk) hw h.coh rfl h.concrete.noFactory (h.not rfl nofun)
  exact ⟨w', h1, fun _ => ⟨h2.wf, h2.same⟩⟩

/-! ### Assigning -/

/-- Values that are not nodes pass `Reference`. -/
theorem setPipe_plain (bs : List Bhv) (o : Oid) (k : Key) (d : Data) (w : World) (ha : Bhv.alias ∉ bs) :
    setPipe E bs o k (.data d) w = setPipe E (bs.filter (· ≠ .reference)) o k (.data d) w := by
  induction bs generalizing w with
  | nil => rfl
  | cons b r ih =>
    have ih := fun w => ih w fun h => ha (List.mem_cons_of_mem _ h)
    have ih' : setPipe E r o k (.data d) = setPipe E (r.filter (· ≠ .reference)) o k (.data d) := funext ih
    cases b
    case reference =>
      simp only [setPipe, referenceSet, ne_eq, not_true_eq_false, decide_false, Bool.false_eq_true, not_false_eq_true,
        List.filter_cons_of_neg]
      exact ih w
    case alias => exact absurd List.mem_cons_self ha
    case nodespaces =>
      simp only [ne_eq, reduceCtorEq, not_false_eq_true, decide_true, List.filter_cons_of_pos, setPipe, nodespacesSet]
      split
      · split
        · rfl
        · exact ih w
      · rfl
    all_goals
      simp only [ne_eq, reduceCtorEq, not_false_eq_true, decide_true, List.filter_cons_of_pos, setPipe, validateSet, adoptSet,
        lifecycleSet]
      try rw [ih']

/-- Whatever `Reference` has no say in is assigned, or refused by `NodeChildValidate`. -/
theorem setitem_sure {w : World} {o : Oid} {k : Key} {v : Val} (h : RefMapClass (clsOf E w o))
    (hk : KeyFor (clsOf E w o) k) (hw : WF w) (hv : ¬ (Bhv.reference ∈ (clsOf E w o).bhvs ∧ ∃ c, v = .node c)) :
    (setitem E o k v w).1 = match refuses (clsOf E w o) v with
      | some m => .error (.value m)
      | none => .ok () := by
  have mid : ∀ bs, Mid E (· = o) bs o k w := fun bs =>
    ⟨hw, h.coh, h.concrete.stores, rfl, fun hc => absurd hc h.noCache⟩
  have hp : ∀ b ∈ (clsOf E w o).bhvs, b ≠ .reference → b.passes = true := fun b hb hne =>
    (h.passes b hb).1.resolve_right hne
  refine Eq.trans ?_ (setRes_eq _ v)
  cases v with
  | node c =>
    have hr : Bhv.reference ∉ (clsOf E w o).bhvs := fun hr => hv ⟨hr, c, rfl⟩
    obtain ⟨w', h1, -⟩ := setPipe_pt (v := .node c) (fun b hb => hp b hb fun e => hr (e ▸ hb)) hk (mid _)
    exact congrArg Prod.fst h1
  | data d =>
    obtain ⟨w', h1, -⟩ := setPipe_pt (v := .data d) (bs := (clsOf E w o).bhvs.filter (· ≠ .reference)) (k := k)
      (fun b hb => hp b (List.mem_filter.mp hb).1 (by simpa using (List.mem_filter.mp hb).2))
      (fun hn => hk (List.mem_filter.mp hn).1) (mid _)
    have e : setitem E o k (.data d) w = setPipe E ((clsOf E w o).bhvs.filter (· ≠ .reference)) o k (.data d) w :=
      setPipe_plain _ o k d w h.concrete.noAlias
    rw [e, h1]
    simp only [setRes, List.mem_filter, ne_eq, reduceCtorEq, not_false_eq_true, decide_true, and_true]

/-! ### Deleting -/

/-- Deleting: a missing key is a `KeyError`, and what `Reference` has no say in is deleted. -/
theorem delPipe_sure {bs : List Bhv} {o : Oid} {k : Key} (hb : ∀ b ∈ bs, (b.passes = true ∨ b = .reference) ∧ b ≠ .cache)
    (hp : Plain bs k) {w : World} (h : RefMapClass (clsOf E w o)) (hk : KeyFor (clsOf E w o) k) (hw : WF w) :
    (k ∉ (w.children o).keys → (delPipe E bs o k w).1 = .error (.key (.key k))) ∧
    (k ∈ (w.children o).keys → (Bhv.reference ∈ bs → ∃ d, (w.children o).get? k = some (.data d)) →
      (delPipe E bs o k w).1 = .ok ()) := by
  induction bs generalizing w with
  | nil =>
    obtain ⟨w', h1, -⟩ := delEnd_pt (E := E) (S := (· = o)) (k := k)
      ⟨hw, h.coh, h.concrete.stores, rfl, fun hc => absurd hc h.noCache⟩
    simp only [delPipe, h1]
    exact ⟨fun hm => if_neg hm, fun hm _ => if_pos hm⟩
  | cons b r ih =>
    have hb' : ∀ b ∈ r, (b.passes = true ∨ b = .reference) ∧ b ≠ .cache := fun x hx => hb x (List.mem_cons_of_mem _ hx)
    have hbp := hb b List.mem_cons_self
    have ih := fun {w : World} => ih (w := w) hb' hp.tail
    have tl : ∀ {w : World}, (Bhv.reference ∈ b :: r → ∃ d, (w.children o).get? k = some (.data d)) →
        Bhv.reference ∈ r → ∃ d, (w.children o).get? k = some (.data d) := fun hr hm => hr (List.mem_cons_of_mem _ hm)
    have rd : ∃ w', getitem E o k w = (lookup (w.children o) k, w') ∧ RefMapClass (clsOf E w' o) ∧
        KeyFor (clsOf E w' o) k ∧ WF w' ∧ w'.children o = w.children o := by
      obtain ⟨w1, e1, e2⟩ := h.get hk hw
      have hc : clsOf E w1 o = clsOf E w o := congrArg E.cls ((e2 hw).2.obj o).cls
      exact ⟨w1, e1, hc ▸ h, hc ▸ hk, (e2 hw).1, (e2 hw).2.children o⟩
    cases b
    case nodespaces =>
      obtain ⟨s, rfl, hs⟩ := hp List.mem_cons_self
      simp only [delPipe, nodespacesDel, not_reserved hs, Bool.false_eq_true, if_false]
      exact ⟨(ih h hk hw).1, fun hm hr => (ih h hk hw).2 hm (tl hr)⟩
    case reference =>
      obtain ⟨w1, e1, c1, k1, f1, ch⟩ := rd
      simp only [delPipe, referenceDel, M.bind_apply, e1]
      rcases lookup_eq (w.children o) k with ⟨v, e2, e3, e4⟩ | ⟨e2, e3, e4⟩
      · refine ⟨fun hm => absurd e4 hm, fun _ hr => ?_⟩
        obtain ⟨d, hd⟩ := hr List.mem_cons_self
        rw [e2] at hd
        injection hd with hd
        subst hd
        simp only [e3, referenceUnindex, M.pure_apply]
        refine (ih c1 k1 f1).2 (by rw [ch]; exact e4) fun _ => ⟨d, by rw [ch]; exact e2⟩
      · exact ⟨fun _ => by simp only [e3], fun hm => absurd hm e4⟩
    case lifecycle =>
      obtain ⟨w1, e1, c1, k1, f1, ch⟩ := rd
      simp only [delPipe, lifecycleDel, M.bind_apply, e1]
      rcases lookup_eq (w.children o) k with ⟨v, e2, e3, e4⟩ | ⟨e2, e3, e4⟩
      · refine ⟨fun hm => absurd e4 hm, fun _ hr => ?_⟩
        have := (ih c1 k1 f1).2 (by rw [ch]; exact e4) (by rw [ch]; exact tl hr)
        rcases hx : delPipe E r o k w1 with ⟨e | u, w2⟩
        · rw [hx] at this; cases this
        · simp only [e3, hx, getO_apply]
          split <;> rfl
      · exact ⟨fun _ => by simp only [e3], fun hm => absurd hm e4⟩
    case cache => exact absurd rfl hbp.2
    case alias => rcases hbp.1 with h | h <;> cases h
    case attributesLifecycle => rcases hbp.1 with h | h <;> cases h
    all_goals exact ⟨(ih h hk hw).1, fun hm hr => (ih h hk hw).2 hm (tl hr)⟩

/-- The number of objects unchanged and no `_index` lost, on well-formed heaps. -/
def CountR (w w' : World) : Prop := WF w → WF w' ∧ w'.nobj = w.nobj ∧
  ∀ p, (w.objs p).index.isSome = true → (w'.objs p).index.isSome = true

theorem countR_pre : PreR CountR :=
  ⟨fun _ hw => ⟨hw, rfl, fun _ h => h⟩, fun h h' hw => ⟨(h' (h hw).1).1, (h' (h hw).1).2.1.trans (h hw).2.1,
    fun p hp => (h' (h hw).1).2.2 p ((h hw).2.2 p hp)⟩⟩

theorem countR_of_quiet {α : Type} {m : M α} (h : Pres Quiet m) : Pres CountR m := fun w hw =>
  ⟨(h w hw).1, (h w hw).2.nobj, fun p hp => by rw [((h w hw).2.obj p).index]; exact hp⟩

theorem countR_of_keep {α : Type} {m : M α} (h : Pres Keep m)
    (hi : ∀ w p, (w.objs p).index.isSome = true → ((m w).2.objs p).index.isSome = true) : Pres CountR m := fun w hw =>
  ⟨(h w).wf hw, (h w).nobj, hi w⟩

theorem countR_setPrims (E : Env) (o : Oid) (v : Val) : SetPrims E CountR o v where
  pre := countR_pre
  iter c _ := countR_of_quiet (iter_quiet E c)
  setEnd k := by
    refine pres_bind countR_pre (pres_getW countR_pre) fun w => ?_
    refine pres_ite countR_pre (pres_raise countR_pre _) (pres_ite countR_pre ?_ (pres_raise countR_pre _))
    exact pres_bind countR_pre (countR_of_quiet (storageRef_quiet E o)) fun r => countR_of_keep
      (keep_setStores r (fun w => (w.stores r).set k v) fun w hw => Od.nodup_keys_set (hw.sNd r) k v) fun _ _ h => h
  nsPut k := pres_bind countR_pre (countR_of_quiet (nodespacesRef_quiet o)) fun r => countR_of_keep
    (keep_setNspaces r (fun w => (w.nspaces r).set k v) fun w hw => Od.nodup_keys_set (hw.nNd r) k v) fun _ _ h => h
  name c k _ := countR_of_keep (keep_setName c k) fun w p hp => by
    rw [modO_apply, proj_upd Obj.index w.objs c _ (by rfl) p]; exact hp
  parent c q _ := countR_of_keep (keep_setParent c q) fun w p hp => by
    rw [modO_apply, proj_upd Obj.index w.objs c _ (by rfl) p]; exact hp
  cacheDrop k := countR_of_quiet (cacheDrop_quiet o k)
  merge c _ := by
    refine countR_of_keep (keep_referenceMerge o c) fun w p hp => ?_
    simp only [referenceMerge, M.bind_apply]
    rcases h : indexRef o w with ⟨_ | si, w1⟩
    · have := indexRef_id o w; rw [h] at this; simp only at this; subst this; exact hp
    · obtain ⟨e1, hsi⟩ := indexRef_ok h
      subst e1
      simp only
      rcases h2 : indexRef c w1 with ⟨_ | vi, w2⟩
      · have := indexRef_id c w1; rw [h2] at this; simp only at this; subst this; exact hp
      · obtain ⟨e2, hvi⟩ := indexRef_ok h2
        subst e2
        simp only [M.modifyW_apply, modO_apply, upd]
        split
        · rfl
        · exact hp
  notify e w hw := ⟨hw.setLog _, rfl, fun _ h => h⟩

theorem countR_delPrims (hE : NoFactory E) (o : Oid) : DelPrims E CountR o where
  pre := countR_pre
  getitem p k := countR_of_quiet (getitem_quiet hE p k)
  iter p := countR_of_quiet (iter_quiet E p)
  delEnd k := by
    refine pres_bind countR_pre (pres_getW countR_pre) fun w => ?_
    refine pres_ite countR_pre (pres_raise countR_pre _) (pres_ite countR_pre ?_ (pres_raise countR_pre _))
    refine pres_bind countR_pre (countR_of_quiet (storageRef_quiet E o)) fun r => ?_
    refine pres_bind countR_pre (pres_getW countR_pre) fun w => ?_
    exact pres_ite countR_pre (fun w hw => ⟨hw.setStore r (Od.nodup_keys_del (hw.sNd r) k), rfl, fun _ h => h⟩)
      (pres_raise countR_pre _)
  nsDrop k := by
    refine pres_bind countR_pre (countR_of_quiet (nodespacesRef_quiet o)) fun r => ?_
    refine pres_bind countR_pre (pres_getW countR_pre) fun w => ?_
    exact pres_ite countR_pre (fun w hw => ⟨hw.setNspace r (Od.nodup_keys_del (hw.nNd r) k), rfl, fun _ h => h⟩)
      (pres_raise countR_pre _)
  cacheDrop k := countR_of_quiet (cacheDrop_quiet o k)
  unindex us := by
    induction us with
    | nil => exact pres_pure countR_pre _
    | cons u r ih =>
      refine pres_bind countR_pre (pres_of_id countR_pre (indexRef_id _)) fun i => ?_
      refine pres_bind countR_pre (pres_getW countR_pre) fun w => ?_
      refine pres_ite countR_pre ?_ (pres_raise countR_pre _)
      exact pres_bind countR_pre (countR_of_keep (keep_setIdxs i (fun w => (w.idxs i).del (some u)) fun w hw =>
        Od.nodup_keys_del (hw.iNd i) _) fun _ _ h => h) fun _ => ih
  notify e w hw := ⟨hw.setLog _, rfl, fun _ h => h⟩

theorem delitem_count (hE : NoFactory E) {w : World} (hw : WF w) (o : Oid) (k : Key) :
    (delitem E o k w).2.nobj = w.nobj ∧
    ∀ p, (w.objs p).index.isSome = true → ((delitem E o k w).2.objs p).index.isSome = true :=
  ((countR_delPrims hE o).delitem k w hw).2

theorem setitem_count {w : World} (hw : WF w) (o : Oid) (k : Key) (v : Val) :
    (setitem E o k v w).2.nobj = w.nobj ∧
    ∀ p, (w.objs p).index.isSome = true → ((setitem E o k v w).2.objs p).index.isSome = true :=
  ((countR_setPrims E o v).setitem k w hw).2

/-! ### The heap implements the maps -/

/-- The heap `w` implements the ordered maps `s`. -/
structure RefRel (E : Env) (w : World) (s : MapSpec) : Prop where
  wf : WF w
  nobj : w.nobj = s.n
  cls : ∀ o, o < s.n → (w.objs o).cls = s.cls o
  mc : ∀ o, o < s.n → RefMapClass (E.cls (s.cls o))
  map : ∀ o, o < s.n → w.omap o = s.map o
  keys : ∀ o, o < s.n → ∀ k ∈ (w.children o).keys, KeyFor (E.cls (s.cls o)) k
  index : ∀ o, o < s.n → Bhv.reference ∈ (E.cls (s.cls o)).bhvs → (w.objs o).index.isSome = true

theorem RefRel.empty : RefRel E {} {} :=
  ⟨WF.empty, rfl, fun _ h => absurd h (Nat.not_lt_zero _), fun _ h => absurd h (Nat.not_lt_zero _), fun _ h => absurd h (Nat.not_lt_zero _),
    fun _ h => absurd h (Nat.not_lt_zero _), fun _ h => absurd h (Nat.not_lt_zero _)⟩

theorem RefRel.same {w w' : World} {s : MapSpec} (h : RefRel E w s) (hw : WF w')
    (hn : w'.nobj = w.nobj ∧ ∀ p, (w.objs p).index.isSome = true → (w'.objs p).index.isSome = true)
    (hc : ∀ p, (w'.objs p).cls = (w.objs p).cls) (hch : ChSame w w') : RefRel E w' s :=
  ⟨hw, hn.1.trans h.nobj, fun o ho => (hc o).trans (h.cls o ho), h.mc,
    fun o ho => by rw [World.omap, hch o]; exact h.map o ho, fun o ho k hk => h.keys o ho k (hch o ▸ hk),
    fun o ho hr => hn.2 o (h.index o ho hr)⟩

theorem RefRel.quiet {w w' : World} {s : MapSpec} (h : RefRel E w s) (hq : Quiet w w') : RefRel E w' s :=
  h.same (hq h.wf).1 ⟨(hq h.wf).2.nobj, fun p hp => by rw [((hq h.wf).2.obj p).index]; exact hp⟩ (fun p => ((hq h.wf).2.obj p).cls) (hq h.wf).2.children

theorem RefRel.put {w w' : World} {s : MapSpec} (h : RefRel E w s) {o : Oid} {d : Od Key Val}
    (hw : WF w') (hn : w'.nobj = w.nobj ∧ ∀ p, (w.objs p).index.isSome = true → (w'.objs p).index.isSome = true) (hc : ∀ p, (w'.objs p).cls = (w.objs p).cls)
    (hch : ∀ p, w'.children p = if p = o then d else w.children p)
    (hk : ∀ k ∈ d.keys, KeyFor (E.cls (s.cls o)) k) : RefRel E w' (s.put o d.toMap) := by
  refine ⟨hw, hn.1.trans h.nobj, fun p hp => (hc p).trans (h.cls p hp), h.mc, fun p hp => ?_, fun p hp k hm => ?_,
    fun p hp hr => hn.2 p (h.index p hp hr)⟩
  · show (w'.children p).toMap = if p = o then _ else _
    rw [hch]
    by_cases e : p = o
    · simp [e]
    · simp only [e, if_false]; exact h.map p hp
  · rw [hch] at hm
    by_cases e : p = o
    · simp only [e, if_true] at hm; rw [e]; exact hk k hm
    · simp only [e, if_false] at hm; exact h.keys p hp k hm

section
variable {w : World} {s : MapSpec} (h : RefRel E w s) {o : Oid} (ho : o < s.n)
include h ho

theorem RefRel.clsOf : Verif.clsOf E w o = E.cls (s.cls o) := congrArg E.cls (h.cls o ho)

theorem RefRel.mcOf : RefMapClass (Verif.clsOf E w o) := h.clsOf ho ▸ h.mc o ho

theorem RefRel.kfOf {k : Key} (hk : KeyFor (E.cls (s.cls o)) k) : KeyFor (Verif.clsOf E w o) k := h.clsOf ho ▸ hk

theorem RefRel.val (k : Key) : (s.map o).val k = (w.children o).get? k := by rw [← h.map o ho]; rfl

theorem RefRel.keysEq : (s.map o).keys = (w.children o).keys := by rw [← h.map o ho]; rfl

theorem RefRel.get {k : Key} (hk : KeyFor (E.cls (s.cls o)) k) :
    ∃ w', getitem E o k w = (lookup (w.children o) k, w') ∧ RefRel E w' s ∧ w'.children o = w.children o := by
  obtain ⟨w', h1, h2⟩ := (h.mcOf ho).get (h.kfOf ho hk) h.wf
  exact ⟨w', h1, h.quiet h2, (h2 h.wf).2.children o⟩

theorem RefRel.open : Open E w o :=
  ⟨(h.mcOf ho).concrete, fun k hk => h.kfOf ho (h.keys o ho k hk), fun hc => absurd hc (h.mcOf ho).noCache⟩

theorem RefRel.iter : ∃ w', Verif.iter E o w = (.ok ((w.children o).keys, none), w') ∧ RefRel E w' s ∧
    w'.children o = w.children o := by
  obtain ⟨w', h1, h2⟩ := iter_open (S := (· = o)) (h.mcOf ho).concrete h.wf (h.mcOf ho).coh
  exact ⟨w', h1, h.quiet fun _ => ⟨h2.wf, h2.same⟩, h2.same.children o⟩

theorem RefRel.mkeys : ∃ w', Verif.mkeys E o w = (.ok (w.children o).keys, w') ∧ RefRel E w' s ∧
    w'.children o = w.children o := by
  obtain ⟨w', h1, h2, h3⟩ := h.iter ho
  exact ⟨w', by simp only [Verif.mkeys, M.bind_apply, h1, endIter, M.pure_apply], h2, h3⟩

theorem RefRel.set {k : Key} (v : Val) (hk : KeyFor (E.cls (s.cls o)) k) :
    ∃ x w' s', setitem E o k v w = (x, w') ∧ Assigns E o k v s x s' ∧ RefRel E w' s' ∧ s'.n = s.n ∧ s'.cls = s.cls := by
  have hout := setitem_out E o k v h.wf
  have hkeep := setitem_count (E := E) h.wf o k v
  have hd : dest (Verif.clsOf E w o).aliaser (bhvsOf E w o) k = some (.child k) := ((h.mcOf ho).looks (h.kfOf ho hk)).dest _
  have hal : Bhv.attributesLifecycle ∉ bhvsOf E w o := (h.mcOf ho).not (b := .attributesLifecycle) rfl nofun
  have hsure := setitem_sure (v := v) (h.mcOf ho) (h.kfOf ho hk) h.wf
  have hok : (setitem E o k v w).1 = .ok () → ChildSet w (setitem E o k v w).2 o v (some (.child k)) :=
    fun he => hd ▸ hout.ok he
  rcases hx : setitem E o k v w with ⟨x, w'⟩
  rw [hx] at hout hkeep hsure hok
  rw [h.clsOf ho] at hsure
  have hbad : ∀ e, x = .error e → RefRel E w' s := fun e he =>
    h.same hout.wf hkeep hout.cls ((hout.err e he).resolve_right fun hh => hal hh.1)
  have hgood : x = .ok () → RefRel E w' (s.put o ((s.map o).set k v)) := fun he => by
    have := h.put (o := o) (d := (w.children o).set k v) hout.wf hkeep hout.cls (hok he) fun j hj => ?_
    · rw [toMap_set] at this
      rw [show (s.map o).set k v = (w.children o).toMap.set k v by rw [← h.map o ho]; rfl]
      exact this
    · rw [Od.keys_set] at hj
      split at hj
      · exact h.keys o ho j hj
      · rcases List.mem_append.mp hj with hj | hj
        · exact h.keys o ho j hj
        · rw [List.mem_singleton.mp hj]; exact hk
  by_cases hm : MayRefuse E s o v
  · obtain ⟨c, rfl, -⟩ := hm.2
    cases x with
    | error e => exact ⟨_, w', s, rfl, .refused e hm, hbad e rfl, rfl, rfl⟩
    | ok u => exact ⟨_, w', _, rfl, .done rfl, hgood rfl, rfl, rfl⟩
  · have hx' : x = match refuses (E.cls (s.cls o)) v with
        | some m => .error (.value m)
        | none => .ok () := by
      by_cases hr : Bhv.reference ∈ (E.cls (s.cls o)).bhvs ∧ ∃ c, v = .node c
      · obtain ⟨hr, c, rfl⟩ := hr
        have hl : c < s.n ∧ Bhv.reference ∈ (E.cls (s.cls c)).bhvs ∧ (s.map c).keys = [] :=
          Classical.byContradiction fun hn => hm ⟨hr, c, rfl, hn⟩
        obtain ⟨h1, h2, h3⟩ := hl
        obtain ⟨w2, e, -⟩ := setitem_tree (k := k) (v := .node c) h.wf (h.mcOf ho).store.take (h.kfOf ho hk) rfl (h.nobj ▸ ho)
          fun c' e' _ => by
            injection e' with e'
            subst e'
            exact ⟨h.index o ho hr, h.nobj ▸ h1, h.index c h1 h2, (h.mcOf h1).concrete,
              keys_nil (by rw [← h.keysEq h1]; exact h3)⟩
        rw [hx] at e
        injection e
      · exact hsure hr
    cases hr : refuses (E.cls (s.cls o)) v with
    | some m =>
      rw [hr] at hx'
      simp only at hx'
      subst hx'
      exact ⟨_, w', s, rfl, .invalid m hr, hbad _ rfl, rfl, rfl⟩
    | none =>
      rw [hr] at hx'
      simp only at hx'
      subst hx'
      exact ⟨_, w', _, rfl, .done hr, hgood rfl, rfl, rfl⟩

theorem RefRel.del (hE : NoFactory E) {k : Key} (hk : KeyFor (E.cls (s.cls o)) k) :
    ∃ x w' s', delitem E o k w = (x, w') ∧ Deletes E o k s x s' ∧ RefRel E w' s' ∧ s'.n = s.n ∧ s'.cls = s.cls ∧
      (x = .ok () → w'.children o = (w.children o).del k) := by
  have hout := delitem_out hE o k h.wf
  have hn := delitem_count hE h.wf o k
  have hd : dest (Verif.clsOf E w o).aliaser (bhvsOf E w o) k = some (.child k) := ((h.mcOf ho).looks (h.kfOf ho hk)).dest _
  have hal : Bhv.attributesLifecycle ∉ bhvsOf E w o := (h.mcOf ho).not (b := .attributesLifecycle) rfl nofun
  have hsure := delPipe_sure (k := k) (h.mcOf ho).passes (h.kfOf ho hk) (h.mcOf ho) (h.kfOf ho hk) h.wf
  have hok : (delitem E o k w).1 = .ok () → ChildDel w (delitem E o k w).2 o (some (.child k)) :=
    fun he => hd ▸ hout.ok he
  rw [show delPipe E (Verif.clsOf E w o).bhvs o k w = delitem E o k w from rfl] at hsure
  rcases hx : delitem E o k w with ⟨x, w'⟩
  rw [hx] at hout hn hsure hok
  simp only at hsure
  have hbad : ∀ e, x = .error e → RefRel E w' s ∧ w'.children o = w.children o := fun e he =>
    have hch := (hout.err e he).resolve_right fun hh => hal hh.1
    ⟨h.same hout.wf hn hout.cls hch, hch o⟩
  have hgood : x = .ok () → RefRel E w' (s.put o ((s.map o).del k)) := fun he => by
    have := h.put (o := o) (d := (w.children o).del k) hout.wf hn hout.cls (hok he).2 fun j hj => ?_
    · rw [toMap_del (h.wf.children_nodup o)] at this
      rw [show (s.map o).del k = (w.children o).toMap.del k by rw [← h.map o ho]; rfl]
      exact this
    · rw [Od.keys_del (h.wf.children_nodup o)] at hj
      exact h.keys o ho j (List.mem_filter.mp hj).1
  cases x with
  | ok u =>
    refine ⟨_, w', _, rfl, .done ?_, hgood rfl, rfl, rfl, ?_⟩
    · rw [h.keysEq ho]; exact (hok rfl).1
    · exact fun _ => by rw [(hok rfl).2 o, if_pos rfl]
  | error e =>
    refine ⟨_, w', s, rfl, ?_, (hbad e rfl).1, rfl, rfl, nofun⟩
    by_cases hm : k ∈ (w.children o).keys
    · obtain ⟨v, hv⟩ := Od.get?_of_mem_keys hm
      refine .refused e v ((h.val ho k).trans hv) ?_
      by_cases hr : Bhv.reference ∈ (E.cls (s.cls o)).bhvs
      · refine ⟨hr, ?_⟩
        cases v with
        | node c => exact ⟨c, rfl⟩
        | data d => exact nomatch hsure.2 hm fun _ => ⟨d, hv⟩
      · refine nomatch hsure.2 hm fun hr' => absurd ?_ hr
        rw [← h.clsOf ho]; exact hr'
    · have := hsure.1 hm
      injection this with this
      subst this
      exact .missing (by rw [h.keysEq ho]; exact hm)

end

theorem update_ref (o : Oid) (kvs : List (Key × Val)) {w : World} {s : MapSpec} (h : RefRel E w s)
    (ho : o < s.n) (hk : ∀ kv ∈ kvs, KeyFor (E.cls (s.cls o)) kv.1) :
    ∃ x w' s', mupdate E o kvs w = (x, w') ∧ AssignsAll E o kvs s x s' ∧ RefRel E w' s' ∧ s'.n = s.n ∧ s'.cls = s.cls := by
  induction kvs generalizing w s with
  | nil => exact ⟨_, w, s, rfl, .nil s, h, rfl, rfl⟩
  | cons a t ih =>
    obtain ⟨k, v⟩ := a
    obtain ⟨x, w1, s1, h1, h2, h3, h4, h5⟩ := h.set ho v (hk (k, v) List.mem_cons_self)
    cases x with
    | error e => exact ⟨_, w1, s1, by simp only [mupdate, forU, M.bind_apply, h1], .stop h2, h3, h4, h5⟩
    | ok u =>
      obtain ⟨y, w2, s2, g1, g2, g3, g4, g5⟩ := ih h3 (h4 ▸ ho)
        (by rw [h5]; exact fun kv hm => hk kv (List.mem_cons_of_mem _ hm))
      refine ⟨y, w2, s2, ?_, .step h2 g2, g3, g4.trans h4, g5.trans h5⟩
      simp only [mupdate] at g1
      simp only [mupdate, forU, M.bind_apply, h1, g1]

theorem clear_ref (hE : NoFactory E) (ks : List Key) {w : World} {s : MapSpec} (h : RefRel E w s) {o : Oid}
    (ho : o < s.n) (hk : (w.children o).keys = ks) :
    ∃ x w' s', forU (delitem E o) ks w = (x, w') ∧ DeletesAll E o ks s x s' ∧ RefRel E w' s' ∧ s'.n = s.n ∧
      s'.cls = s.cls := by
  induction ks generalizing w s with
  | nil => exact ⟨_, w, s, rfl, .nil s, h, rfl, rfl⟩
  | cons a t ih =>
    have hm : a ∈ (w.children o).keys := by rw [hk]; exact List.mem_cons_self
    obtain ⟨x, w1, s1, h1, h2, h3, h4, h5, h6⟩ := h.del ho hE (h.keys o ho a hm)
    cases x with
    | error e => exact ⟨_, w1, s1, by simp only [forU, M.bind_apply, h1], .stop h2, h3, h4, h5⟩
    | ok u =>
      obtain ⟨y, w2, s2, g1, g2, g3, g4, g5⟩ := ih h3 (h4 ▸ ho)
        (by rw [h6 rfl]; exact keys_del_head (h.wf.children_nodup o) hk)
      exact ⟨y, w2, s2, by simp only [forU, M.bind_apply, h1, g1], .step h2 g2, g3, g4.trans h4, g5.trans h5⟩

theorem sizeR_pre : PreR fun w w' => w'.nobj = w.nobj := ⟨fun _ => rfl, fun h h' => h'.trans h⟩

theorem initPipe_nobj (mk : ClassId → M Oid) (all : List Bhv) {bs : List Bhv} (hx : Bhv.fixedChildren ∉ bs) (o : Oid) (name : Key)
    (parent : Option Oid) : Pres (fun w w' => w'.nobj = w.nobj) (initPipe E mk all bs o name parent) := by
  induction bs with
  | nil =>
    refine pres_ite sizeR_pre ?_ (pres_pure sizeR_pre _)
    exact fun _ => rfl
  | cons b r ih =>
    have ih := ih fun h => hx (List.mem_cons_of_mem _ h)
    cases b
    case reference =>
      refine pres_bind sizeR_pre (pres_bind sizeR_pre (fun _ => rfl) fun _ => pres_bind sizeR_pre (fun _ => rfl) fun u => ?_)
        fun _ => ih
      refine pres_bind sizeR_pre (pres_of_id sizeR_pre (indexRef_id _)) fun i => ?_
      refine pres_bind sizeR_pre (pres_getW sizeR_pre) fun w => ?_
      refine pres_ite sizeR_pre (pres_raise sizeR_pre _) fun _ => rfl
    case lifecycle => exact pres_bind sizeR_pre ih fun _ _ => rfl
    case uuidAware =>
      refine pres_bind sizeR_pre ih fun _ => pres_bind sizeR_pre (fun _ => rfl) fun u => pres_ite sizeR_pre ?_ fun _ => rfl
      refine pres_bind sizeR_pre (pres_of_id sizeR_pre (indexRef_id _)) fun i => ?_
      refine pres_bind sizeR_pre (pres_getW sizeR_pre) fun w => ?_
      refine pres_ite sizeR_pre (pres_raise sizeR_pre _) fun _ => rfl
    case fixedChildren => exact absurd List.mem_cons_self hx
    all_goals exact ih

theorem newNode_nobj {c : ClassId} {name : Key} {parent : Option Oid} {w w' : World} {o : Oid}
    (hx : Bhv.fixedChildren ∉ (E.cls c).bhvs) (h : newNode E c name parent w = (.ok o, w')) : w'.nobj = w.nobj + 1 := by
  have h := newNode_ok h
  cases hd : E.depth with
  | zero => rw [hd] at h; cases h
  | succ n =>
    rw [hd] at h
    obtain ⟨-, h2⟩ := newNodeN_split E n c name parent h
    have := initPipe_nobj (E := E) (fun c' => newNodeN E n c' .none none) (E.cls c).bhvs hx o name parent (alloc c w).2
    rw [h2] at this
    exact this

theorem new_ref (hd : 0 < E.depth) {w : World} {s : MapSpec} (h : RefRel E w s) (c : ClassId)
    (hc : RefMapClass (E.cls c)) (name : Key) (parent : Option Oid) (ha : (E.cls c).Accepts name parent) :
    ∃ w', newNode E c name parent w = (.ok s.n, w') ∧ RefRel E w' (s.run (refOf E) (.new c name parent)).2 := by
  obtain ⟨w', h1, h2⟩ := newNode_tree (name := name) (parent := parent) hd ha hc.concrete.noFixed h.wf
  have hn := newNode_nobj hc.concrete.noFixed h1
  refine ⟨w', by rw [h1, h.nobj], h2.wf, by rw [hn, h.nobj]; rfl, ?_, ?_, ?_, ?_, ?_⟩
  all_goals
    intro o ho
    by_cases e : o = s.n
    · subst e
      simp only [MapSpec.run, if_true]
      try rw [← h.nobj]
      first
      | exact h2.cls
      | exact hc
      | (rw [World.omap, h2.empty]; rfl)
      | (rw [h2.empty]; exact fun k hk => nomatch hk)
      | exact h2.indexed
    · have ho' : o < s.n := by
        have : o < s.n + 1 := ho
        omega
      have a := h2.old o (h.nobj ▸ ho')
      simp only [MapSpec.run, e, if_false]
      first
      | exact a.cls.trans (h.cls o ho')
      | exact h.mc o ho'
      | (rw [World.omap, a.children]; exact h.map o ho')
      | (rw [a.children]; exact h.keys o ho')
      | exact fun hr => h2.index.keep o (h.nobj ▸ ho') (h.index o ho' hr)

/-- One operation. -/
theorem exec_ref (hE : NoFactory E) (hd : 0 < E.depth) {w : World} {s : MapSpec} (h : RefRel E w s) (op : Op)
    (ho : RefMapOp E s op) :
    ∃ x w' s', exec E op w = (x, w') ∧ Allows E s op x s' ∧ RefRel E w' s' ∧ s'.n = (s.declare op).n ∧
      s'.cls = (s.declare op).cls := by
  have pl : ∀ {op : Op} {w' : World}, exec E op w = ((s.run (refOf E) op).1, w') → RefRel E w' (s.run (refOf E) op).2 →
      (s.run (refOf E) op).2.n = (s.declare op).n → (s.run (refOf E) op).2.cls = (s.declare op).cls →
      (∀ o k v, op ≠ .set o k v) → (∀ o k, op ≠ .del o k) →
      (∀ o k v, op ≠ .setdefault o k v) → (∀ o k d, op ≠ .pop o k d) → (∀ o, op ≠ .popitem o) →
      (∀ o kvs, op ≠ .update o kvs) → (∀ o, op ≠ .clear o) →
      ∃ x w' s', exec E op w = (x, w') ∧ Allows E s op x s' ∧ RefRel E w' s' ∧ s'.n = (s.declare op).n ∧
      s'.cls = (s.declare op).cls := fun e1 e2 e3 e4 a b c d e f g =>
    ⟨_, _, _, e1, .plain _ a b c d e f g, e2, e3, e4⟩
  rcases ho with ⟨c, name, parent, rfl, hc, ha⟩ | ⟨o, ks, ht, ho, hk⟩
  · obtain ⟨w', h1, h2⟩ := new_ref hd h c hc name parent ha
    refine pl (w' := w') ?_ h2 rfl rfl nofun nofun nofun nofun nofun nofun nofun
    simp only [exec, M.bind_apply, h1, M.pure_apply, MapSpec.run]
  cases op
  case get o' k =>
    injection ht with ht; cases ht
    obtain ⟨w', h1, h2, h3⟩ := h.get ho (hk k (by simp))
    have e : (s.run (refOf E) (.get o k)).2 = s := by simp only [MapSpec.run]; split <;> rfl
    refine pl (w' := w') ?_ (by rw [e]; exact h2) (by rw [e]; rfl) (by rw [e]; rfl) nofun nofun nofun nofun nofun nofun nofun
    simp only [exec, M.bind_apply, h1, MapSpec.run, h.val ho]
    cases hg : (w.children o).get? k <;> simp only [lookup, hg, M.pure_apply]
  case set o' k v =>
    injection ht with ht; cases ht
    obtain ⟨x, w', s', h1, h2, h3, h4, h5⟩ := h.set ho v (hk k (by simp))
    refine ⟨_, w', s', ?_, .set h2, h3, h4, h5⟩
    simp only [exec, M.bind_apply, h1]
    cases x <;> rfl
  case del o' k =>
    injection ht with ht; cases ht
    obtain ⟨x, w', s', h1, h2, h3, h4, h5, -⟩ := h.del ho hE (hk k (by simp))
    refine ⟨_, w', s', ?_, .del h2, h3, h4, h5⟩
    simp only [exec, M.bind_apply, h1]
    cases x <;> rfl
  case getD o' k d =>
    injection ht with ht; cases ht
    obtain ⟨w', h1, h2, h3⟩ := h.get ho (hk k (by simp))
    refine pl (w' := w') ?_ h2 rfl rfl nofun nofun nofun nofun nofun nofun nofun
    simp only [exec, mget, M.bind_apply, M.catchIf_apply, h1, MapSpec.run, h.val ho]
    cases hg : (w.children o).get? k <;> simp [lookup, hg, Exc.isKey]
  case contains o' k =>
    injection ht with ht; cases ht
    obtain ⟨w', h1, h2, h3⟩ := h.get ho (hk k (by simp))
    refine pl (w' := w') ?_ h2 rfl rfl nofun nofun nofun nofun nofun nofun nofun
    simp only [exec, mcontains, M.bind_apply, M.catchIf_apply, h1, MapSpec.run, h.keysEq ho]
    rcases lookup_eq (w.children o) k with ⟨v, -, hg, hm⟩ | ⟨-, hg, hm⟩ <;> simp [hg, hm, Exc.isKey]
  case keys o' =>
    injection ht with ht; cases ht
    obtain ⟨w', h1, h2, -⟩ := h.mkeys ho
    refine pl (w' := w') ?_ h2 rfl rfl nofun nofun nofun nofun nofun nofun nofun
    simp only [exec, M.bind_apply, h1, M.pure_apply, MapSpec.run, h.keysEq ho]
  case values o' =>
    injection ht with ht; cases ht
    obtain ⟨w', h1, h2⟩ := mvalues_open (S := (· = o)) (h.open ho) h.wf (h.mcOf ho).coh rfl
    refine pl (w' := w') ?_ (h.quiet fun _ => ⟨h2.wf, h2.same⟩) rfl rfl nofun nofun nofun nofun nofun nofun nofun
    simp only [exec, M.bind_apply, h1, M.pure_apply, MapSpec.run, h.map o ho]
  case items o' =>
    injection ht with ht; cases ht
    obtain ⟨w', h1, h2⟩ := mitems_open (S := (· = o)) (h.open ho) h.wf (h.mcOf ho).coh rfl
    refine pl (w' := w') ?_ (h.quiet fun _ => ⟨h2.wf, h2.same⟩) rfl rfl nofun nofun nofun nofun nofun nofun nofun
    simp only [exec, M.bind_apply, h1, M.pure_apply, MapSpec.run, h.map o ho]
  case len o' =>
    injection ht with ht; cases ht
    obtain ⟨w', h1, h2, -⟩ := h.mkeys ho
    refine pl (w' := w') ?_ h2 rfl rfl nofun nofun nofun nofun nofun nofun nofun
    simp only [exec, mlen, M.bind_apply, h1, M.pure_apply, MapSpec.run, h.keysEq ho]
  case setdefault o' k v =>
    injection ht with ht; cases ht
    obtain ⟨w1, h1, h2, h3⟩ := h.get ho (hk k (by simp))
    rcases lookup_eq (w.children o) k with ⟨y, hx, hg, hm⟩ | ⟨hx, hg, hm⟩
    · refine ⟨_, w1, s, ?_, .setdefault_there ((h.val ho k).trans hx), h2, rfl, rfl⟩
      simp only [exec, msetdefault, M.bind_apply, M.catchIf_apply, h1, hg, M.pure_apply]
    · obtain ⟨x, w2, s', g1, g2, g3, g4, g5⟩ := h2.set ho v (hk k (by simp))
      refine ⟨_, w2, s', ?_, .setdefault_new ((h.val ho k).trans hx) g2, g3, g4, g5⟩
      cases x <;> simp [exec, msetdefault, h1, hg, g1, Exc.isKey, Except.map]
  case pop o' k d =>
    injection ht with ht; cases ht
    obtain ⟨w1, h1, h2, h3⟩ := h.get ho (hk k (by simp))
    rcases lookup_eq (w.children o) k with ⟨v, hx, hg, hm⟩ | ⟨hx, hg, hm⟩
    · obtain ⟨x, w2, s', g1, g2, g3, g4, g5, -⟩ := h2.del ho hE (hk k (by simp))
      have hv := (h.val ho k).trans hx
      by_cases hcase : ∃ e d', x = .error e ∧ e.isKey = true ∧ d = some d'
      · obtain ⟨e, d', rfl, he, rfl⟩ := hcase
        refine ⟨_, w2, s', ?_, .pop_kept hv g2 he, g3, g4, g5⟩
        simp [exec, mpop, h1, hg, g1, he]
      · refine ⟨_, w2, s', ?_, .pop_there hv g2 fun e he hk' => ?_, g3, g4, g5⟩
        · cases x with
          | ok u => simp [exec, mpop, h1, hg, g1, Except.map]
          | error e =>
            by_cases he : e.isKey = true
            · cases d with
              | none => simp [exec, mpop, h1, hg, g1, Except.map, he]
              | some d' => exact absurd ⟨e, d', rfl, he, rfl⟩ hcase
            · simp [exec, mpop, h1, hg, g1, Except.map, he]
        · cases d with
          | none => rfl
          | some d' => exact absurd ⟨e, d', he, hk', rfl⟩ hcase
    · have hv := (h.val ho k).trans hx
      cases d with
      | none => exact ⟨_, w1, s, by simp [exec, mpop, h1, hg, Exc.isKey], .pop_missing hv, h2, rfl, rfl⟩
      | some d => exact ⟨_, w1, s, by simp [exec, mpop, h1, hg, Exc.isKey], .pop_default hv, h2, rfl, rfl⟩
  case popitem o' =>
    injection ht with ht; cases ht
    obtain ⟨w1, h1, h2, h3⟩ := h.mkeys ho
    have e : (s.map o).items = w.children o := by
      rw [← h.map o ho]; exact toMap_items (h.wf.children_nodup o)
    rcases hl : (w.children o).getLast? with _ | ⟨k, v⟩
    · have hn : w.children o = [] := List.getLast?_eq_none_iff.mp hl
      refine ⟨_, w1, s, ?_, .popitem_empty (by rw [h.keysEq ho, hn]; rfl), h2, rfl, rfl⟩
      simp [exec, mpopitem, h1, hn, Od.keys]
    · obtain ⟨t, ht⟩ := List.getLast?_eq_some_iff.mp hl
      have hm : (k, v) ∈ w.children o := List.mem_of_getLast? hl
      have hg := Od.get?_of_mem (h.wf.children_nodup o) hm
      have hkm := Od.mem_keys_of_get? hg
      have hrev : (w.children o).keys.reverse = k :: (Od.keys t).reverse := by
        rw [ht]; simp [Od.keys]
      obtain ⟨w2, h4, h5, h6⟩ := h2.get ho (h.keys o ho k hkm)
      obtain ⟨x, w3, s', g1, g2, g3, g4, g5, -⟩ := h5.del ho hE (h.keys o ho k hkm)
      refine ⟨_, w3, s', ?_, .popitem (k := k) (v := v) (by rw [e]; exact hl) g2, g3, g4, g5⟩
      rw [h3] at h4
      cases x <;> simp [exec, mpopitem, h1, hrev, h4, lookup, hg, g1, Except.map]
  case update o' kvs =>
    injection ht with ht; cases ht
    obtain ⟨x, w', s', h1, h2, h3, h4, h5⟩ := update_ref o kvs h ho (fun kv hm => hk kv.1 (List.mem_map_of_mem hm))
    refine ⟨_, w', s', ?_, .update h2, h3, h4, h5⟩
    simp only [exec, M.bind_apply, h1]
    cases x <;> rfl
  case clear o' =>
    injection ht with ht; cases ht
    obtain ⟨w1, h1, h2, h3⟩ := h.mkeys ho
    obtain ⟨x, w', s', g1, g2, g3, g4, g5⟩ := clear_ref hE (w.children o).keys h2 ho (by rw [h3])
    refine ⟨_, w', s', ?_, .clear (by rw [h.keysEq ho]; exact g2), g3, g4, g5⟩
    simp only [exec, mclear, M.bind_apply, h1, g1]
    cases x <;> rfl
  all_goals exact nomatch ht

theorem refMapHistory_congr {ops : List Op} {s s' : MapSpec} (hn : s'.n = s.n) (hc : s'.cls = s.cls)
    (h : RefMapHistory E ops s) : RefMapHistory E ops s' := by
  induction ops generalizing s s' with
  | nil => trivial
  | cons op r ih =>
    refine ⟨?_, ih (s := s.declare op) (s' := s'.declare op) ?_ ?_ h.2⟩
    · rcases h.1 with h | ⟨o, ks, h1, h2, h3⟩
      · exact .inl h
      · exact .inr ⟨o, ks, h1, hn ▸ h2, hc ▸ h3⟩
    · cases op <;> simp only [MapSpec.declare, hn]
    · cases op <;> simp only [MapSpec.declare, hn, hc]

/-- Whole histories. -/
theorem execAll_ref (hE : NoFactory E) (hd : 0 < E.depth) (ops : List Op) {w : World} {s : MapSpec} (h : RefRel E w s)
    (ho : RefMapHistory E ops s) :
    ∃ s', AllowsAll E ops s (execAll E ops w).1 s' ∧ RefRel E (execAll E ops w).2 s' := by
  induction ops generalizing w s with
  | nil => exact ⟨s, .nil s, h⟩
  | cons op r ih =>
    obtain ⟨x, w', s1, h1, h2, h3, h4, h5⟩ := exec_ref hE hd h op ho.1
    obtain ⟨s2, g1, g2⟩ := ih h3 (refMapHistory_congr h4 h5 ho.2)
    simp only [execAll, h1]
    exact ⟨s2, .step h2 g1, g2⟩

end
end Verif
