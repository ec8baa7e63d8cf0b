import Verif.Lemmas.PassThrough
import Verif.Lemmas.OMap

/-! The mapping API of pass-through classes computes on ordered maps. -/

namespace Verif

section
variable {E : Env}

/-- The heap `w` implements the ordered maps `s`. -/
structure Rel (E : Env) (w : World) (s : MapSpec) : Prop where
  wf : WF w
  coh : Coh E (fun _ => True) w
  nobj : w.nobj = s.n
  cls : ∀ o, o < s.n → (w.objs o).cls = s.cls o
  mc : ∀ o, o < s.n → MapClass (E.cls (s.cls o))
  map : ∀ o, o < s.n → w.omap o = s.map o
  keys : ∀ o, o < s.n → ∀ k ∈ (w.children o).keys, KeyFor (E.cls (s.cls o)) k

theorem Rel.empty : Rel E {} {} := by
  refine ⟨WF.empty, fun p _ _ k v h => ?_, rfl, ?_, ?_, ?_, ?_⟩
  · exact nomatch (h : none = some v)
  all_goals exact fun o h => absurd h (Nat.not_lt_zero o)

theorem Rel.clsOf {w : World} {s : MapSpec} (h : Rel E w s) {o : Oid} (ho : o < s.n) :
    Verif.clsOf E w o = E.cls (s.cls o) := congrArg E.cls (h.cls o ho)

theorem Rel.read {w w' : World} {s : MapSpec} (h : Rel E w s) (hr : ReadOut E (fun _ => True) w w') :
    Rel E w' s := by
  refine ⟨hr.wf, hr.coh, hr.same.nobj.trans h.nobj, fun o ho => ?_, h.mc, fun o ho => ?_,
    fun o ho k hk => ?_⟩
  · rw [(hr.same.obj o).cls, h.cls o ho]
  · rw [← h.map o ho, World.omap, World.omap, hr.same.children]
  · rw [hr.same.children] at hk; exact h.keys o ho k hk

theorem Rel.put {w w' : World} {s : MapSpec} (h : Rel E w s) {o : Oid} {d : Od Key Val}
    (hwf : WF w') (hcoh : Coh E (fun _ => True) w') (hcls : ∀ p, (w'.objs p).cls = (w.objs p).cls)
    (hno : w'.nobj = w.nobj)
    (hch : ∀ p, w'.children p = if p = o then d else w.children p)
    (hk : ∀ k ∈ d.keys, KeyFor (E.cls (s.cls o)) k) : Rel E w' (s.put o d.toMap) := by
  refine ⟨hwf, hcoh, hno.trans h.nobj, fun p hp => (hcls p).trans (h.cls p hp), h.mc,
    fun p hp => ?_, fun p hp k hm => ?_⟩
  · show (w'.children p).toMap = if p = o then _ else _
    rw [hch]
    by_cases e : p = o
    · simp [e]
    · simp only [e, if_false]; exact h.map p hp
  · rw [hch] at hm
    by_cases e : p = o
    · simp only [e, if_true] at hm; rw [e]; exact hk k hm
    · simp only [e, if_false] at hm; exact h.keys p hp k hm

section
variable {w : World} {s : MapSpec} (h : Rel E w s) {o : Oid} (ho : o < s.n)
include h ho

theorem Rel.mcOf : MapClass (Verif.clsOf E w o) := h.clsOf ho ▸ h.mc o ho

theorem Rel.kfOf {k : Key} (hk : KeyFor (E.cls (s.cls o)) k) : KeyFor (Verif.clsOf E w o) k :=
  h.clsOf ho ▸ hk

theorem Rel.val (k : Key) : (s.map o).val k = (w.children o).get? k := by
  rw [← h.map o ho]; rfl

theorem Rel.keysEq : (s.map o).keys = (w.children o).keys := by rw [← h.map o ho]; rfl

theorem Rel.get {k : Key} (hk : KeyFor (E.cls (s.cls o)) k) :
    ∃ w', getitem E o k w = (lookup (w.children o) k, w') ∧ Rel E w' s ∧
      w'.children o = w.children o := by
  obtain ⟨w', h1, h2⟩ := getitem_pt (h.mcOf ho) h.wf h.coh trivial (h.kfOf ho hk)
  exact ⟨w', h1, h.read h2, h2.same.children o⟩

theorem Rel.set {k : Key} (v : Val) (hk : KeyFor (E.cls (s.cls o)) k) :
    ∃ w', setitem E o k v w = ((s.assign (refOf E) o k v).1, w') ∧
      Rel E w' (s.assign (refOf E) o k v).2 := by
  obtain ⟨w', h1, h2⟩ := setitem_pt (h.mcOf ho) h.wf h.coh trivial v (h.kfOf ho hk)
  refine ⟨w', ?_, ?_⟩
  · rw [h1, h.clsOf ho]
    simp only [MapSpec.assign, refOf]
    cases refuses (E.cls (s.cls o)) v <;> rfl
  · have hch := h2.children
    rw [h.clsOf ho] at hch
    simp only [MapSpec.assign, refOf]
    cases hr : refuses (E.cls (s.cls o)) v with
    | some m =>
      have hc2 : ∀ p, w'.children p = w.children p := fun p => by
        rw [hch p, hr]; simp
      refine ⟨h2.wf, h2.coh, h2.keep.nobj.trans h.nobj, fun p hp => ?_, h.mc, fun p hp => ?_,
        fun p hp j hj => ?_⟩
      · rw [h2.keep.cls, h.cls p hp]
      · rw [← h.map p hp, World.omap, World.omap, hc2]
      · rw [hc2] at hj; exact h.keys p hp j hj
    | none =>
      have := h.put (o := o) (d := (w.children o).set k v) h2.wf h2.coh h2.keep.cls h2.keep.nobj
        (fun p => by rw [hch p, hr]; simp) fun j hj => ?_
      · rw [toMap_set] at this
        rw [show (s.map o).set k v = (w.children o).toMap.set k v by rw [← h.map o ho]; rfl]
        exact this
      · rw [Od.keys_set] at hj
        split at hj
        · exact h.keys o ho j hj
        · rcases List.mem_append.mp hj with hj | hj
          · exact h.keys o ho j hj
          · rw [List.mem_singleton.mp hj]; exact hk

theorem Rel.del {k : Key} (hk : KeyFor (E.cls (s.cls o)) k) (hm : k ∈ (w.children o).keys) :
    ∃ w', delitem E o k w = (.ok (), w') ∧ Rel E w' (s.put o ((s.map o).del k)) ∧
      w'.children o = (w.children o).del k := by
  obtain ⟨w', h1, h2⟩ := delitem_pt (h.mcOf ho) h.wf h.coh trivial (h.kfOf ho hk)
  have hch := h2.children
  refine ⟨w', ?_, ?_, ?_⟩
  · rw [h1, if_pos hm]
  · have := h.put (o := o) (d := (w.children o).del k) h2.wf h2.coh h2.cls h2.nobj
        (fun p => by rw [hch p]; simp [hm]) fun j hj => ?_
    · rw [toMap_del (h.wf.children_nodup o)] at this
      rw [show (s.map o).del k = (w.children o).toMap.del k by rw [← h.map o ho]; rfl]
      exact this
    · rw [Od.keys_del (h.wf.children_nodup o)] at hj
      exact h.keys o ho j (List.mem_filter.mp hj).1
  · rw [hch o]; simp [hm]

theorem Rel.delMiss {k : Key} (hk : KeyFor (E.cls (s.cls o)) k) (hm : k ∉ (w.children o).keys) :
    ∃ w', delitem E o k w = (.error (.key (.key k)), w') ∧ Rel E w' s := by
  obtain ⟨w', h1, h2⟩ := delitem_pt (h.mcOf ho) h.wf h.coh trivial (h.kfOf ho hk)
  have hch : ∀ p, w'.children p = w.children p := fun p => by rw [h2.children p]; simp [hm]
  refine ⟨w', ?_, ?_⟩
  · rw [h1, if_neg hm]
  · refine ⟨h2.wf, h2.coh, h2.nobj.trans h.nobj, fun p hp => ?_, h.mc, fun p hp => ?_,
        fun p hp j hj => ?_⟩
    · rw [h2.cls, h.cls p hp]
    · rw [← h.map p hp, World.omap, World.omap, hch]
    · rw [hch] at hj; exact h.keys p hp j hj

theorem Rel.iter : ∃ w', Verif.iter E o w = (.ok ((w.children o).keys, none), w') ∧ Rel E w' s ∧
    w'.children o = w.children o := by
  obtain ⟨r, w', hr, hi⟩ := (h.mcOf ho).concrete.iter
  have hq := storageRef_quiet E o w h.wf
  have hv := vis_storageRef E o h.wf
  have hk := cacheKeep_storageRef (E := E) o w
  rw [hr] at hq hv hk
  refine ⟨w', ?_, h.read ⟨hq.1, hq.2, h.coh.vis hv, hk⟩, hq.2.children o⟩
  rw [hi, ← hq.2.children o, children_eq (storageRef_ok hr)]

theorem Rel.mkeys : ∃ w', Verif.mkeys E o w = (.ok (w.children o).keys, w') ∧ Rel E w' s ∧
    w'.children o = w.children o := by
  obtain ⟨w', h1, h2⟩ := mkeys_pt (h.mcOf ho) h.wf h.coh
  exact ⟨w', h1, h.read h2, h2.same.children o⟩

end

theorem forM'_items (ks : List Key) {w : World} {s : MapSpec} (h : Rel E w s) {o : Oid}
    (ho : o < s.n) (hk : ∀ k ∈ ks, k ∈ (w.children o).keys) :
    ∃ w', forM' (fun k => do let v ← getitem E o k; pure (k, v)) ks w =
        (.ok (ks.filterMap fun k => ((w.children o).get? k).map fun v => (k, v)), w') ∧
      Rel E w' s := by
  induction ks generalizing w with
  | nil => exact ⟨w, rfl, h⟩
  | cons a t ih =>
    obtain ⟨w1, h1, h2, h3⟩ := h.get ho (h.keys o ho a (hk a List.mem_cons_self))
    obtain ⟨v, hv⟩ := Od.get?_of_mem_keys (hk a List.mem_cons_self)
    obtain ⟨w2, h4, h5⟩ := ih h2 (fun k hm => by rw [h3]; exact hk k (List.mem_cons_of_mem _ hm))
    refine ⟨w2, ?_, h5⟩
    rw [h3] at h4
    simp only [forM', M.bind_apply, h1, lookup, hv, M.pure_apply, h4, List.filterMap_cons,
      Option.map_some]

theorem forM'_vals (ks : List Key) {w : World} {s : MapSpec} (h : Rel E w s) {o : Oid}
    (ho : o < s.n) (hk : ∀ k ∈ ks, k ∈ (w.children o).keys) :
    ∃ w', forM' (getitem E o) ks w = (.ok (ks.filterMap (w.children o).get?), w') ∧
      Rel E w' s := by
  induction ks generalizing w with
  | nil => exact ⟨w, rfl, h⟩
  | cons a t ih =>
    obtain ⟨w1, h1, h2, h3⟩ := h.get ho (h.keys o ho a (hk a List.mem_cons_self))
    obtain ⟨v, hv⟩ := Od.get?_of_mem_keys (hk a List.mem_cons_self)
    obtain ⟨w2, h4, h5⟩ := ih h2 (fun k hm => by rw [h3]; exact hk k (List.mem_cons_of_mem _ hm))
    refine ⟨w2, ?_, h5⟩
    rw [h3] at h4
    simp only [forM', M.bind_apply, h1, lookup, hv, M.pure_apply, h4, List.filterMap_cons]

theorem keys_nil {d : Od Key Val} (h : d.keys = []) : d = [] := by
  cases d with
  | nil => rfl
  | cons a t => exact nomatch h

theorem keys_del_head {d : Od Key Val} (hd : d.keys.Nodup) {k : Key} {t : List Key}
    (h : d.keys = k :: t) : (d.del k).keys = t := by
  cases d with
  | nil => exact nomatch h
  | cons a d =>
    obtain ⟨k', v⟩ := a
    injection h with h1 h2
    have : k' = k := h1
    subst this
    simp only [Od.del, if_true]
    exact h2

theorem put_put (s : MapSpec) (o : Oid) (m m' : OMap Key Val) :
    (s.put o m).put o m' = s.put o m' := by
  simp only [MapSpec.put]
  congr 1
  funext p
  split <;> rfl

theorem put_self (s : MapSpec) (o : Oid) : s.put o (s.map o) = s := by
  simp only [MapSpec.put]
  congr 1
  funext p
  split
  · rename_i e; rw [e]
  · rfl

theorem clear_pt (ks : List Key) {w : World} {s : MapSpec} (h : Rel E w s) {o : Oid}
    (ho : o < s.n) (hk : (w.children o).keys = ks) :
    ∃ w', forU (delitem E o) ks w = (.ok (), w') ∧ Rel E w' (s.put o OMap.empty) := by
  induction ks generalizing w s with
  | nil =>
    refine ⟨w, rfl, ?_⟩
    have : s.map o = OMap.empty := by
      rw [← h.map o ho, World.omap, keys_nil hk]; rfl
    rw [← this, put_self]; exact h
  | cons a t ih =>
    have hm : a ∈ (w.children o).keys := by rw [hk]; exact List.mem_cons_self
    obtain ⟨w1, h1, h2, h3⟩ := h.del ho (h.keys o ho a hm) hm
    obtain ⟨w2, h4, h5⟩ := ih h2 ho (by rw [h3]; exact keys_del_head (h.wf.children_nodup o) hk)
    refine ⟨w2, ?_, ?_⟩
    · simp only [forU, M.bind_apply, h1, h4]
    · rw [put_put] at h5; exact h5

theorem update_pt (o : Oid) (kvs : List (Key × Val)) {w : World} {s : MapSpec} (h : Rel E w s)
    (ho : o < s.n) (hk : ∀ kv ∈ kvs, KeyFor (E.cls (s.cls o)) kv.1) :
    ∃ w', mupdate E o kvs w = ((MapSpec.assignAll (refOf E) o kvs s).1, w') ∧
      Rel E w' (MapSpec.assignAll (refOf E) o kvs s).2 := by
  induction kvs generalizing w s with
  | nil => exact ⟨w, rfl, h⟩
  | cons a t ih =>
    obtain ⟨k, v⟩ := a
    obtain ⟨w1, h1, h2⟩ := h.set ho v (hk (k, v) List.mem_cons_self)
    rcases hs : s.assign (refOf E) o k v with ⟨e | u, s1⟩
    · rw [hs] at h1 h2
      refine ⟨w1, ?_, ?_⟩
      · simp only [mupdate, forU, M.bind_apply, h1, MapSpec.assignAll, hs]
      · simp only [MapSpec.assignAll, hs]; exact h2
    · have hns : s1.n = s.n ∧ s1.cls = s.cls := by
        simp only [MapSpec.assign] at hs
        split at hs
        · cases hs
        · injection hs with _ hs; subst hs; exact ⟨rfl, rfl⟩
      rw [hs] at h1 h2
      obtain ⟨w2, h3, h4⟩ := ih h2 (hns.1 ▸ ho)
        (by rw [hns.2]; exact fun kv hm => hk kv (List.mem_cons_of_mem _ hm))
      refine ⟨w2, ?_, ?_⟩
      · simp only [mupdate] at h3
        simp only [mupdate, forU, M.bind_apply, h1, h3, MapSpec.assignAll, hs]
      · simp only [MapSpec.assignAll, hs]; exact h4

theorem initPipe_pt (mk : ClassId → M Oid) (all bs : List Bhv) (hall : Bhv.reference ∉ all)
    (hb : ∀ b ∈ bs, b.passes = true) (o : Oid) (name : Key) (parent : Option Oid) {w : World} (hw : WF w) :
    ∃ w', initPipe E mk all bs o name parent w = (.ok (), w') ∧ Vis w w' := by
  induction bs with
  | nil =>
    simp only [initPipe]
    split
    · exact ⟨_, rfl, (vis_name o name hw).trans (vis_parent o parent (vis_name o name hw).wf)⟩
    · exact ⟨w, rfl, Vis.refl hw⟩
  | cons b r ih =>
    have ih := ih fun x h => hb x (List.mem_cons_of_mem _ h)
    have hbp := hb b List.mem_cons_self
    obtain ⟨w', h1, h2⟩ := ih
    cases b
    case lifecycle =>
      refine ⟨_, ?_, h2.trans (vis_notify (.created o) h2.wf)⟩
      simp only [initPipe, M.bind_apply, h1]
      rfl
    case uuidAware =>
      refine ⟨_, ?_, h2.trans (((hidden_freshUuid w').vis h2.wf).trans
        (vis_modO o (fun ob => { ob with uuid := some w'.nuuid }) (fun _ => rfl) (fun _ => rfl)
          (fun _ => rfl) (fun _ => rfl) (fun _ => rfl) ((hidden_freshUuid w').vis h2.wf).wf))⟩
      simp only [initPipe, M.bind_apply, h1, freshUuid, if_neg (fun h => hall (List.contains_iff_mem.mp h))]
      rfl
    case reference => cases hbp
    case fixedChildren => cases hbp
    all_goals exact ⟨w', h1, h2⟩

theorem new_pt (hd : 0 < E.depth) {w : World} {s : MapSpec} (h : Rel E w s) (c : ClassId)
    (hc : MapClass (E.cls c)) (name : Key) (parent : Option Oid) (ha : (E.cls c).Accepts name parent) :
    ∃ w', newNode E c name parent w = (.ok s.n, w') ∧
      Rel E w' (s.run (refOf E) (.new c name parent)).2 := by
  obtain ⟨n, hn⟩ : ∃ n, E.depth = n + 1 := ⟨E.depth - 1, by omega⟩
  have hga := (grow_alloc c w).wf h.wf
  obtain ⟨w', h1, hv⟩ := initPipe_pt (E := E) (fun c' => newNodeN E n c' .none none) (E.cls c).bhvs
    (E.cls c).bhvs (fun h => nomatch hc.passes _ h) hc.passes w.nobj name parent hga
  have hal : ∃ wa, wa = (alloc c w).2 ∧ alloc c w = (.ok w.nobj, wa) := ⟨_, rfl, rfl⟩
  have hne : ∀ o, o ≠ w.nobj → (alloc c w).2.objs o = w.objs o := fun o ho => by
    simp [alloc, upd, ho]
  have heq : (alloc c w).2.objs w.nobj = { cls := c } := by simp [alloc, upd]
  refine ⟨w', ?_, ?_⟩
  · obtain ⟨wa, hwa, hal⟩ := hal
    rw [← hwa] at h1
    rw [h.nobj] at h1 hal
    simp only [newNode_accepts ha, hn, newNodeN, M.bind_apply, hal, h1, M.pure_apply]
  · have hchO : ∀ o, o ≠ w.nobj → w'.children o = w.children o := fun o ho => by
      rw [hv.children, World.children, hne o ho]; rfl
    have hchN : w'.children w.nobj = [] := by
      rw [hv.children, World.children, heq]
    have hcaO : ∀ o, o ≠ w.nobj → w'.cached o = w.cached o := fun o ho => by
      rw [hv.cached, World.cached, hne o ho]; rfl
    have hcaN : w'.cached w.nobj = [] := by
      rw [hv.cached, World.cached, heq]
    have hclO : ∀ o, o ≠ w.nobj → (w'.objs o).cls = (w.objs o).cls := fun o ho => by
      rw [hv.cls, hne o ho]
    have hclN : (w'.objs w.nobj).cls = c := by rw [hv.cls, heq]
    have hlt : ∀ {o}, o < s.n + 1 → o ≠ w.nobj → o < s.n := fun h1 h2 => by
      have := h.nobj; omega
    simp only [MapSpec.run]
    refine ⟨hv.wf, fun p _ hcp k x hx => ?_, by rw [hv.nobj]; show w.nobj + 1 = _; rw [h.nobj], ?_, ?_,
      ?_, ?_⟩
    · by_cases e : p = w.nobj
      · subst e
        rw [hcaN] at hx
        exact nomatch (hx : none = some x)
      · have := h.coh p trivial
        rw [← show Verif.clsOf E w' p = Verif.clsOf E w p from congrArg E.cls (hclO p e), ← hcaO p e,
          ← hchO p e] at this
        exact this hcp k x hx
    all_goals
      intro o ho
      by_cases e : o = w.nobj
      · subst e
        simp only [h.nobj, if_true]
        try rw [← h.nobj]
        first
        | exact hclN
        | exact hc
        | (rw [World.omap, hchN]; rfl)
        | (rw [hchN]; exact fun k hk => nomatch hk)
      · have e' : o ≠ s.n := h.nobj ▸ e
        have ho' := hlt ho e
        simp only [e', if_false]
        first
        | exact (hclO o e).trans (h.cls o ho')
        | exact h.mc o ho'
        | (rw [World.omap, hchO o e]; exact h.map o ho')
        | (rw [hchO o e]; exact h.keys o ho')

/-- One operation. -/
theorem exec_pt (hd : 0 < E.depth) {w : World} {s : MapSpec} (h : Rel E w s) (op : Op)
    (ho : MapOp E s op) :
    ∃ w', exec E op w = ((s.run (refOf E) op).1, w') ∧ Rel E w' (s.run (refOf E) op).2 := by
  rcases ho with ⟨c, name, parent, rfl, hc, ha⟩ | ⟨o, ks, ht, ho, hk⟩
  · obtain ⟨w', h1, h2⟩ := new_pt hd h c hc name parent ha
    refine ⟨w', ?_, h2⟩
    simp only [exec, M.bind_apply, h1, M.pure_apply, MapSpec.run]
  cases op
  case get o' k =>
    injection ht with ht; cases ht
    obtain ⟨w', h1, h2, h3⟩ := h.get ho (hk k (by simp))
    refine ⟨w', ?_, ?_⟩
    all_goals
      simp only [exec, M.bind_apply, h1, MapSpec.run, h.val ho]
      cases hg : (w.children o).get? k <;> simp only [lookup, hg, M.pure_apply]
    all_goals exact h2
  case set o' k v =>
    injection ht with ht; cases ht
    obtain ⟨w', h1, h2⟩ := h.set ho v (hk k (by simp))
    rcases hs : s.assign (refOf E) o k v with ⟨e | u, s1⟩
    all_goals
      rw [hs] at h1 h2
      refine ⟨w', ?_, ?_⟩
      · simp only [exec, M.bind_apply, h1, MapSpec.run, hs, M.pure_apply]
      · simp only [MapSpec.run, hs]; exact h2
  case del o' k =>
    injection ht with ht; cases ht
    by_cases hm : k ∈ (w.children o).keys
    · obtain ⟨w', h1, h2, -⟩ := h.del ho (hk k (by simp)) hm
      refine ⟨w', ?_, ?_⟩
      · simp only [exec, M.bind_apply, h1, MapSpec.run, h.keysEq ho, hm, if_true, M.pure_apply]
      · simp only [MapSpec.run, h.keysEq ho, hm, if_true]; exact h2
    · obtain ⟨w', h1, h2⟩ := h.delMiss ho (hk k (by simp)) hm
      refine ⟨w', ?_, ?_⟩
      · simp only [exec, M.bind_apply, h1, MapSpec.run, h.keysEq ho, hm, if_false]
      · simp only [MapSpec.run, h.keysEq ho, hm, if_false]; exact h2
  case getD o' k d =>
    injection ht with ht; cases ht
    obtain ⟨w', h1, h2, h3⟩ := h.get ho (hk k (by simp))
    refine ⟨w', ?_, h2⟩
    simp only [exec, mget, M.bind_apply, M.catchIf_apply, h1, MapSpec.run, h.val ho]
    cases hg : (w.children o).get? k <;>
      simp [lookup, hg, Exc.isKey]
  case contains o' k =>
    injection ht with ht; cases ht
    obtain ⟨w', h1, h2, h3⟩ := h.get ho (hk k (by simp))
    refine ⟨w', ?_, h2⟩
    simp only [exec, mcontains, M.bind_apply, M.catchIf_apply, h1, MapSpec.run, h.keysEq ho]
    rcases lookup_eq (w.children o) k with ⟨v, -, hg, hm⟩ | ⟨-, hg, hm⟩ <;>
      simp [hg, hm, Exc.isKey]
  case keys o' =>
    injection ht with ht; cases ht
    obtain ⟨w', h1, h2, -⟩ := h.mkeys ho
    exact ⟨w', by simp only [exec, M.bind_apply, h1, M.pure_apply, MapSpec.run, h.keysEq ho], h2⟩
  case values o' =>
    injection ht with ht; cases ht
    obtain ⟨w1, h1, h2, h3⟩ := h.iter ho
    obtain ⟨w2, h4, h5⟩ := forM'_vals (w.children o).keys h2 ho (by rw [h3]; exact fun _ h => h)
    refine ⟨w2, ?_, h5⟩
    rw [h3] at h4
    have e : (s.map o).values = (w.children o).keys.filterMap (w.children o).get? := by
      rw [← h.map o ho]; rfl
    simp only [exec, mvalues, M.bind_apply, h1, h4, endIter, M.pure_apply, MapSpec.run, e]
  case items o' =>
    injection ht with ht; cases ht
    obtain ⟨w1, h1, h2, h3⟩ := h.iter ho
    obtain ⟨w2, h4, h5⟩ := forM'_items (w.children o).keys h2 ho (by rw [h3]; exact fun _ h => h)
    refine ⟨w2, ?_, h5⟩
    rw [h3] at h4
    have e : (s.map o).items = (w.children o).keys.filterMap
        (fun k => ((w.children o).get? k).map fun v => (k, v)) := by
      rw [← h.map o ho]; rfl
    simp only [exec, mitems, M.bind_apply, h1, h4, endIter, M.pure_apply, MapSpec.run, e]
  case len o' =>
    injection ht with ht; cases ht
    obtain ⟨w', h1, h2, -⟩ := h.mkeys ho
    exact ⟨w', by simp only [exec, mlen, M.bind_apply, h1, M.pure_apply, MapSpec.run, h.keysEq ho], h2⟩
  case setdefault o' k v =>
    injection ht with ht; cases ht
    obtain ⟨w1, h1, h2, h3⟩ := h.get ho (hk k (by simp))
    rcases lookup_eq (w.children o) k with ⟨x, hx, hg, hm⟩ | ⟨hx, hg, hm⟩
    · refine ⟨w1, ?_, ?_⟩
      · simp only [exec, msetdefault, M.bind_apply, M.catchIf_apply, h1, hg, MapSpec.run, h.val ho, hx,
          M.pure_apply]
      · simp only [MapSpec.run, h.val ho, hx]; exact h2
    · obtain ⟨w2, h4, h5⟩ := h2.set ho v (hk k (by simp))
      rcases hs : s.assign (refOf E) o k v with ⟨e | u, s1⟩
      all_goals
        rw [hs] at h4 h5
        refine ⟨w2, ?_, ?_⟩
        · simp [exec, msetdefault, h1, hg, MapSpec.run, h.val ho, hx, h4, hs, Exc.isKey]
        · simp only [MapSpec.run, h.val ho, hx, hs]; exact h5
  case pop o' k d =>
    injection ht with ht; cases ht
    obtain ⟨w1, h1, h2, h3⟩ := h.get ho (hk k (by simp))
    rcases lookup_eq (w.children o) k with ⟨x, hx, hg, hm⟩ | ⟨hx, hg, hm⟩
    · obtain ⟨w2, h4, h5, -⟩ := h2.del ho (hk k (by simp)) (by rw [h3]; exact hm)
      refine ⟨w2, ?_, ?_⟩
      · simp [exec, mpop, h1, hg, MapSpec.run, h.val ho, hx, h4]
      · simp only [MapSpec.run, h.val ho, hx]; exact h5
    · refine ⟨w1, ?_, ?_⟩
      · cases d <;> simp [exec, mpop, h1, hg, MapSpec.run, h.val ho, hx, Exc.isKey]
      · cases d <;> (simp only [MapSpec.run, h.val ho, hx]; exact h2)
  case popitem o' =>
    injection ht with ht; cases ht
    obtain ⟨w1, h1, h2, h3⟩ := h.mkeys ho
    have e : (s.map o).items = w.children o := by
      rw [← h.map o ho]; exact toMap_items (h.wf.children_nodup o)
    rcases hl : (w.children o).getLast? with _ | ⟨k, v⟩
    · have hn : w.children o = [] := List.getLast?_eq_none_iff.mp hl
      refine ⟨w1, ?_, ?_⟩
      · simp [exec, mpopitem, h1, MapSpec.run, e, hn, Od.keys]
      · simp only [MapSpec.run, e, hl]; exact h2
    · obtain ⟨t, ht⟩ := List.getLast?_eq_some_iff.mp hl
      have hm : (k, v) ∈ w.children o := List.mem_of_getLast? hl
      have hg := Od.get?_of_mem (h.wf.children_nodup o) hm
      have hkm := Od.mem_keys_of_get? hg
      have hrev : (w.children o).keys.reverse = k :: (Od.keys t).reverse := by
        rw [ht]; simp [Od.keys]
      obtain ⟨w2, h4, h5, h6⟩ := h2.get ho (h.keys o ho k hkm)
      obtain ⟨w3, h7, h8, -⟩ := h5.del ho (h.keys o ho k hkm) (by rw [h6, h3]; exact hkm)
      refine ⟨w3, ?_, ?_⟩
      · rw [h3] at h4
        simp [exec, mpopitem, h1, hrev, h4, lookup, hg, h7, MapSpec.run, e, hl]
      · simp only [MapSpec.run, e, hl]; exact h8
  case update o' kvs =>
    injection ht with ht; cases ht
    obtain ⟨w', h1, h2⟩ := update_pt o kvs h ho (fun kv hm => hk kv.1 (List.mem_map_of_mem hm))
    rcases hs : MapSpec.assignAll (refOf E) o kvs s with ⟨e | u, s1⟩
    all_goals
      rw [hs] at h1 h2
      refine ⟨w', ?_, ?_⟩
      · simp only [exec, M.bind_apply, h1, MapSpec.run, hs, M.pure_apply]
      · simp only [MapSpec.run, hs]; exact h2
  case clear o' =>
    injection ht with ht; cases ht
    obtain ⟨w1, h1, h2, h3⟩ := h.mkeys ho
    obtain ⟨w2, h4, h5⟩ := clear_pt (w.children o).keys h2 ho (by rw [h3])
    exact ⟨w2, by simp only [exec, mclear, M.bind_apply, h1, h4, M.pure_apply, MapSpec.run], h5⟩
  all_goals exact nomatch ht

/-- Whole histories. -/
theorem execAll_pt (hd : 0 < E.depth) (ops : List Op) {w : World} {s : MapSpec} (h : Rel E w s)
    (ho : MapHistory E (refOf E) ops s) :
    (execAll E ops w).1 = (MapSpec.runAll (refOf E) ops s).1 ∧
      Rel E (execAll E ops w).2 (MapSpec.runAll (refOf E) ops s).2 := by
  induction ops generalizing w s with
  | nil => exact ⟨rfl, h⟩
  | cons op r ih =>
    obtain ⟨w', h1, h2⟩ := exec_pt hd h op ho.1
    obtain ⟨h3, h4⟩ := ih h2 ho.2
    simp only [execAll, MapSpec.runAll, h1]
    exact ⟨by rw [h3], h4⟩

end
end Verif
