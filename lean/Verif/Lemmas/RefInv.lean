import Verif.Lemmas.Reference

/-! The invariant of forests of `Reference` trees. -/

namespace Verif

variable {E : Env}

/-- A tree whose nodes share the index `r`, which is exact. -/
structure LiveTree (E : Env) (w : World) (root : Oid) (r : Ref) : Prop where
  tree : RefTree E w root
  shared : ∀ x, InTree w root x → (w.objs x).index = some r
  exact : ∀ v x, (w.idxs r).get? v = some x ↔ ∃ u, v = some u ∧ InTree w root x ∧ HasUuid w x u
  real : ∀ x u, InTree w root x → HasUuid w x u → 0 < u

/-- Trees with the given roots, indexed apart from each other. -/
structure Forest (E : Env) (w : World) (Rs : List Oid) : Prop where
  wf : WF w
  pos : 0 < w.nuuid
  sole : Sole w
  bounds : ∀ p k c, Contains w p k c → c < w.nobj
  nodup : Rs.Nodup
  live : ∀ R ∈ Rs, ∃ r, LiveTree E w R r
  apart : ∀ R ∈ Rs, ∀ R' ∈ Rs, (w.objs R).index = (w.objs R').index → R = R'
  inj : ∀ R ∈ Rs, ∀ R' ∈ Rs, ∀ x y u, InTree w R x → InTree w R' y → HasUuid w x u → HasUuid w y u →
    x = y

theorem Calm.contains {w w' : World} (h : Calm w w') (p : Oid) (k : Key) (c : Oid) :
    Contains w' p k c ↔ Contains w p k c := by
  show (w'.children p).get? k = _ ↔ (w.children p).get? k = _
  rw [h.children]

theorem Calm.inTree {w w' : World} (h : Calm w w') {a x : Oid} : InTree w' a x ↔ InTree w a x :=
  InTree.congr h.contains

theorem RefTree.calm {w w' : World} {R : Oid} (ht : RefTree E w R) (h : Calm w w') :
    RefTree E w' R where
  sole p k p' k' c h1 h2 := ht.sole p k p' k' c ((h.contains _ _ _).mp h1) ((h.contains _ _ _).mp h2)
  top p k hc := ht.top p k ((h.contains _ _ _).mp hc)
  bound := by rw [h.nobj]; exact ht.bound
  bounds p k c hc := by rw [h.nobj]; exact ht.bounds p k c ((h.contains _ _ _).mp hc)
  cls x hx := by rw [h.clsOf]; exact ht.cls x (h.inTree.mp hx)
  keys x hx k hk := by rw [h.clsOf]; exact ht.keys x (h.inTree.mp hx) k (h.children x ▸ hk)
  uuid x hx := by
    obtain ⟨u, hu⟩ := ht.uuid x (h.inTree.mp hx)
    exact ⟨u, (h.uuid x).trans hu⟩
  inj x y u hx hy h1 h2 := ht.inj x y u (h.inTree.mp hx) (h.inTree.mp hy) ((h.uuid x).symm.trans h1)
    ((h.uuid y).symm.trans h2)

theorem LiveTree.calm {w w' : World} {R : Oid} {r : Ref} (ht : LiveTree E w R r) (h : Calm w w') :
    LiveTree E w' R r where
  tree := ht.tree.calm h
  shared x hx := (h.index x).trans (ht.shared x (h.inTree.mp hx))
  exact v x := by
    rw [h.idxs, ht.exact]
    simp only [HasUuid, h.uuid, h.inTree]
  real x u hx hu := ht.real x u (h.inTree.mp hx) ((h.uuid x).symm.trans hu)

theorem Forest.calm {w w' : World} {Rs : List Oid} (hf : Forest E w Rs) (h : Calm w w') :
    Forest E w' Rs where
  wf := h.wf
  pos := by rw [h.nuuid]; exact hf.pos
  sole p k p' k' c h1 h2 := hf.sole p k p' k' c ((h.contains _ _ _).mp h1) ((h.contains _ _ _).mp h2)
  bounds p k c hc := by rw [h.nobj]; exact hf.bounds p k c ((h.contains _ _ _).mp hc)
  nodup := hf.nodup
  live R hR := by
    obtain ⟨r, hr⟩ := hf.live R hR
    exact ⟨r, hr.calm h⟩
  apart R hR R' hR' e := hf.apart R hR R' hR' (by rw [← h.index R, ← h.index R', e])
  inj R hR R' hR' x y u hx hy h1 h2 := hf.inj R hR R' hR' x y u (h.inTree.mp hx) (h.inTree.mp hy)
    ((h.uuid x).symm.trans h1) ((h.uuid y).symm.trans h2)

/-- Different trees have no node in common. -/
theorem Forest.disjoint {w : World} {Rs : List Oid} (hf : Forest E w Rs) {R R' x : Oid} (hR : R ∈ Rs)
    (hR' : R' ∈ Rs) (h : InTree w R x) (h' : InTree w R' x) : R = R' := by
  have key : ∀ {A B}, A ∈ Rs → B ∈ Rs → InTree w A B → A = B := by
    intro A B _ hB hAB
    obtain ⟨r, hr⟩ := hf.live B hB
    rcases hAB.cases with e | ⟨p, k, -, hc⟩
    · exact e.symm
    · exact absurd hc (hr.tree.top p k)
  rcases h.meet hf.sole h' with h | h
  · exact key hR hR' h
  · exact (key hR' hR h).symm

/-! ### Deleting -/

/-- Un-indexing a subtree. -/
theorem referenceUnindex_spec {w : World} {R o n : Oid} {r : Ref} {k : Key} (ht : RefTree E w R)
    (hir : (w.objs o).index = some r)
    (hex : ∀ u x, InTree w R x → HasUuid w x u → (w.idxs r).get? (some u) = some x)
    (hw : WF w) (ho : InTree w R o) (hc : Contains w o k n) {w1 : World} (h1 : Rd w w1) :
    ∃ d w2, referenceUnindex E o (.node n) w1 = (.ok (), w2) ∧
      Shift w.children (upd w.idxs r d) (fun p => (w.objs p).index) w w2 ∧
      ∀ v x, d.get? v = some x ↔ (w.idxs r).get? v = some x ∧ ∀ u, SubUuid w n u → v ≠ some u := by
  obtain ⟨ks, hb⟩ := ho
  have hn := (InTree.child ⟨ks, hb⟩ hc : InTree w R n)
  have hbh : (bhvsOf E w1 n).contains .reference = true := by
    show (clsOf E w1 n).bhvs.contains _ = _
    rw [h1.calm.clsOf]; exact (ht.cls n hn).contains
  obtain ⟨us, w2, e1, e2, e3, e4⟩ := toDelete_spec ht (w1.nobj + 1) (hb.child hc)
    (by rw [h1.same.nobj]; omega) hw h1
  have hi : (w2.objs o).index = some r := (e2.same.obj o).index.trans hir
  obtain ⟨d, f1, f2, f3⟩ := indexDelete_spec (o := o) us hi e2.wf e3 (fun u hu => by
    obtain ⟨x, hx, hxu⟩ := (e4 u).mp hu
    rw [e2.same.idxs]
    exact Od.mem_keys_of_get? (hex u x (hn.trans hx) hxu))
  refine ⟨d, { w2 with idxs := upd w2.idxs r d }, ?_, ?_, fun v x => ?_⟩
  · simp only [referenceUnindex, M.bind_apply, M.getW_apply, hbh, if_true, e1, f1]
  · have hc2 := e2.calm
    exact ⟨hc2.wf.setIdx r f2, hc2.children, congrArg (upd · r d) hc2.idxs, hc2.index, hc2.cls, hc2.uuid,
      hc2.nidx, hc2.nobj, hc2.nuuid⟩
  · rw [f3 v, e2.same.idxs]
    simp only [← e4]
    split
    · rename_i h
      obtain ⟨u, hu, e⟩ := h
      exact ⟨fun h => (nomatch h), fun h => absurd e (h.2 u hu)⟩
    · rename_i h
      exact ⟨fun h' => ⟨h', fun u hu e => h ⟨u, hu, e⟩⟩, fun h' => h'.1⟩

theorem contains_chDel {w w' : World} {o : Oid} {k : Key} (hw : WF w)
    (h : ∀ p, w'.children p = chDel w o k p) (p : Oid) (j : Key) (c : Oid) :
    Contains w' p j c ↔ Contains w p j c ∧ ¬ (p = o ∧ j = k) := by
  show (w'.children p).get? j = _ ↔ (w.children p).get? j = _ ∧ _
  rw [h p]
  simp only [chDel]
  by_cases hp : p = o
  · subst hp
    rw [if_pos rfl, Od.get?_del (hw.children_nodup _)]
    by_cases hj : j = k
    · simp [hj]
    · simp [hj]
  · simp [hp]

/-- Deleting keeps trees what they are. -/
theorem RefTree.shrink {w w' : World} {R : Oid} (ht : RefTree E w R)
    (hcon : ∀ p k c, Contains w' p k c → Contains w p k c) (hn : w'.nobj = w.nobj)
    (hcls : ∀ p, (w'.objs p).cls = (w.objs p).cls) (hu : ∀ p, (w'.objs p).uuid = (w.objs p).uuid)
    (hk : ∀ p, ∀ k ∈ (w'.children p).keys, k ∈ (w.children p).keys) : RefTree E w' R := by
  have hi : ∀ x, InTree w' R x → InTree w R x := fun x hx =>
    hx.induct (P := InTree w R) (.refl R) fun p k c _ hc ih => ih.child (hcon p k c hc)
  have hcl : ∀ x, clsOf E w' x = clsOf E w x := fun x => congrArg E.cls (hcls x)
  exact {
    sole := fun p k p' k' c h1 h2 => ht.sole p k p' k' c (hcon _ _ _ h1) (hcon _ _ _ h2)
    top := fun p k hc => ht.top p k (hcon _ _ _ hc)
    bound := by rw [hn]; exact ht.bound
    bounds := fun p k c hc => by rw [hn]; exact ht.bounds p k c (hcon _ _ _ hc)
    cls := fun x hx => by rw [hcl]; exact ht.cls x (hi x hx)
    keys := fun x hx k hkk => by rw [hcl]; exact ht.keys x (hi x hx) k (hk x k hkk)
    uuid := fun x hx => by
      obtain ⟨u, h⟩ := ht.uuid x (hi x hx)
      exact ⟨u, (hu x).trans h⟩
    inj := fun x y u hx hy h1 h2 => ht.inj x y u (hi x hx) (hi y hy) ((hu x).symm.trans h1)
      ((hu y).symm.trans h2) }

/-- What deleting does. -/
theorem delitem_refTree {w : World} {R o : Oid} {r : Ref} {k : Key} {v : Val} (ht : RefTree E w R)
    (hir : (w.objs o).index = some r)
    (hex : ∀ u x, InTree w R x → HasUuid w x u → (w.idxs r).get? (some u) = some x) (hw : WF w) (ho : InTree w R o) (hv : (w.children o).get? k = some v) :
    ∃ d w', delitem E o k w = (.ok (), w') ∧
      Shift (chDel w o k) (upd w.idxs r d) (fun p => (w.objs p).index) w w' ∧
      ∀ j x, d.get? j = some x ↔ (w.idxs r).get? j = some x ∧
        ∀ n u, v = .node n → SubUuid w n u → j ≠ some u := by
  have hc := ht.cls o ho
  have hk := ht.keys o ho k (Od.mem_keys_of_get? hv)
  obtain ⟨l, q, e, hl, hq⟩ := hc.once
  obtain ⟨ix, w', e1, e2, d, rfl, hd⟩ := delPipe_ref (l := l) (r := q) hw hc hk
    (by rw [← e]; exact fun _ h => h) hl hq hv
    (Q := fun ix => ∃ d, ix = upd w.idxs r d ∧ ∀ j x, d.get? j = some x ↔
      (w.idxs r).get? j = some x ∧ ∀ n u, v = .node n → SubUuid w n u → j ≠ some u) (fun w1 h1 => by
      cases v with
      | data x =>
        refine ⟨_, w1, rfl, h1.calm, w.idxs r, (upd_self _ _).symm, fun j x => ?_⟩
        exact ⟨fun h => ⟨h, fun n u h => (nomatch h)⟩, fun h => h.1⟩
      | node n =>
        obtain ⟨d, w2, f1, f2, f3⟩ := referenceUnindex_spec ht hir hex hw ho hv h1
        refine ⟨_, w2, f1, f2, d, rfl, fun j x => (f3 j x).trans ⟨fun h => ⟨h.1, ?_⟩, fun h =>
          ⟨h.1, fun u => h.2 n u rfl⟩⟩⟩
        rintro _ u ⟨⟩
        exact h.2 u)
  refine ⟨d, w', ?_, e2, hd⟩
  show delPipe E (clsOf E w o).bhvs o k w = _
  rw [e]; exact e1

theorem delitem_ref {w : World} {R o : Oid} {r : Ref} {k : Key} {v : Val} (ht : LiveTree E w R r)
    (hw : WF w) (ho : InTree w R o) (hv : (w.children o).get? k = some v) :
    ∃ d w', delitem E o k w = (.ok (), w') ∧
      Shift (chDel w o k) (upd w.idxs r d) (fun p => (w.objs p).index) w w' ∧
      ∀ j x, d.get? j = some x ↔ (w.idxs r).get? j = some x ∧
        ∀ n u, v = .node n → SubUuid w n u → j ≠ some u :=
  delitem_refTree ht.tree (ht.shared o ho) (fun u x hx hu => (ht.exact (some u) x).mpr ⟨u, rfl, hx, hu⟩) hw ho hv

/-- Deleting keeps the forest. -/
theorem Forest.delitem {w : World} {Rs : List Oid} (hf : Forest E w Rs) {R o : Oid} {k : Key} {v : Val}
    (hR : R ∈ Rs) (ho : InTree w R o) (hv : (w.children o).get? k = some v) :
    ∃ w', Verif.delitem E o k w = (.ok (), w') ∧ Forest E w' Rs ∧
      (∀ p, w'.children p = chDel w o k p) ∧ (∀ p, (w'.objs p).uuid = (w.objs p).uuid) ∧
      (∀ p, (w'.objs p).cls = (w.objs p).cls) ∧ w'.nobj = w.nobj ∧ w'.nuuid = w.nuuid := by
  obtain ⟨r, hr⟩ := hf.live R hR
  obtain ⟨d, w', e1, e2, e3⟩ := delitem_ref hr hf.wf ho hv
  have hcon := contains_chDel hf.wf e2.children
  have hmono : ∀ p k c, Contains w' p k c → Contains w p k c := fun p j c h => ((hcon p j c).mp h).1
  have hin : ∀ {A x}, InTree w' A x → InTree w A x := fun {A x} hx =>
    hx.induct (P := InTree w A) (.refl A) fun p k c _ hc ih => ih.child (hmono p k c hc)
  have hkeys : ∀ p, ∀ j ∈ (w'.children p).keys, j ∈ (w.children p).keys := by
    intro p j hj
    rw [e2.children p] at hj
    simp only [chDel] at hj
    split at hj
    · rename_i e
      subst e
      rw [Od.keys_del (hf.wf.children_nodup _)] at hj
      exact (List.mem_filter.mp hj).1
    · exact hj
  have hhu : ∀ {x u}, HasUuid w' x u ↔ HasUuid w x u := fun {x u} => by
    simp only [HasUuid, e2.uuid]
  refine ⟨w', e1, ?_, e2.children, e2.uuid, e2.cls, e2.nobj, e2.nuuid⟩
  refine ⟨e2.wf, by rw [e2.nuuid]; exact hf.pos, fun p j p' j' c h1 h2 =>
    hf.sole p j p' j' c (hmono _ _ _ h1) (hmono _ _ _ h2), fun p j c h => by
      rw [e2.nobj]; exact hf.bounds p j c (hmono _ _ _ h), hf.nodup, fun A hA => ?_, fun A hA B hB e =>
    hf.apart A hA B hB (by rw [← e2.index A, ← e2.index B, e]), fun A hA B hB x y u hx hy h1 h2 =>
    hf.inj A hA B hB x y u (hin hx) (hin hy) (hhu.mp h1) (hhu.mp h2)⟩
  obtain ⟨a, ha⟩ := hf.live A hA
  refine ⟨a, ha.tree.shrink hmono e2.nobj e2.cls e2.uuid hkeys, fun x hx =>
    (e2.index x).trans (ha.shared x (hin hx)), fun j x => ?_, fun x u hx hu =>
      ha.real x u (hin hx) (hhu.mp hu)⟩
  rw [e2.idxs]
  by_cases hAR : A = R
  · subst hAR
    have har : a = r := Option.some.inj ((ha.shared A (.refl A)).symm.trans (hr.shared A (.refl A)))
    subst har
    rw [upd_same, e3 j x, ha.exact j x]
    simp only [hhu]
    cases v with
    | data v =>
      have : ∀ {x}, InTree w' A x ↔ InTree w A x := fun {x} => InTree.congr (fun p i c => by
        rw [hcon p i c]
        refine ⟨fun h => h.1, fun h => ⟨h, ?_⟩⟩
        rintro ⟨rfl, rfl⟩
        have : (w.children p).get? i = some (.node c) := h
        rw [hv] at this; cases this)
      simp only [this]
      exact ⟨fun h => h.1, fun h => ⟨h, fun n u hn => (nomatch hn)⟩⟩
    | node n =>
      have hc : Contains w o k n := hv
      simp only [InTree.removed hf.sole hc hcon ha.tree.top ho]
      constructor
      · rintro ⟨⟨u, rfl, hx, hu⟩, hn⟩
        exact ⟨u, rfl, ⟨hx, fun h => hn n u rfl ⟨x, h, hu⟩ rfl⟩, hu⟩
      · rintro ⟨u, rfl, ⟨hx, hn⟩, hu⟩
        refine ⟨⟨u, rfl, hx, hu⟩, ?_⟩
        rintro _ u' ⟨⟩ ⟨y, hy, hyu⟩ e
        cases e
        rw [ha.tree.inj x y u hx ((ho.child hc).trans hy) hu hyu] at hn
        exact hn hy
  · have har : a ≠ r := fun e => hAR (hf.apart A hA R hR (by
      rw [ha.shared A (.refl A), hr.shared R (.refl R), e]))
    rw [upd_other _ _ har, ha.exact j x]
    have : ∀ {x}, InTree w' A x ↔ InTree w A x := fun {x} =>
      InTree.rest hcon fun h => hAR (hf.disjoint hA hR h ho)
    simp only [hhu, this]

/-! ### Setting -/

theorem contains_chSet {w w' : World} {o : Oid} {k : Key} {v : Val}
    (h : ∀ p j, (w'.children p).get? j = (chSet w o k v p).get? j) (hk : k ∉ (w.children o).keys) (p : Oid) (j : Key)
    (c : Oid) : Contains w' p j c ↔ Contains w p j c ∨ p = o ∧ j = k ∧ v = .node c := by
  show (w'.children p).get? j = _ ↔ (w.children p).get? j = _ ∨ _
  rw [h p j]
  simp only [chSet]
  by_cases hp : p = o
  · subst hp
    rw [if_pos rfl, Od.get?_set]
    by_cases hj : j = k
    · subst hj
      have : (w.children p).get? j = none := (Od.get?_eq_none_iff _ _).mpr hk
      simp [this]
    · simp [hj]
  · simp [hp]

theorem Od.mem_keys_set {K V : Type} [DecidableEq K] {d : Od K V} {k j : K} {v : V} :
    j ∈ (d.set k v).keys ↔ j = k ∨ j ∈ d.keys := by
  rw [← Od.get?_isSome_iff, Od.get?_set, ← Od.get?_isSome_iff]
  by_cases h : j = k <;> simp [h]

theorem referenceCheck_ok {o c : Oid} {w : World} {si vi : Ref} (hw : WF w)
    (hc : RefClass (clsOf E w c)) (hs : (w.objs o).index = some si) (hv : (w.objs c).index = some vi)
    (hd : ∀ u ∈ (w.idxs si).keys, u ∉ (w.idxs vi).keys) :
    ∃ w', referenceCheck E o c w = (.ok (), w') ∧ Rd w w' := by
  obtain ⟨w1, h1, h2⟩ := iter_ref hw hc
  simp only [referenceCheck, M.bind_apply, h1]
  cases hk : (w.children c).keys with
  | nil => exact ⟨w1, rfl, h2⟩
  | cons a t =>
    have e1 : (w1.objs o).index = some si := (h2.same.obj o).index.trans hs
    have e2 : (w1.objs c).index = some vi := (h2.same.obj c).index.trans hv
    have e3 : (((w1.idxs si).keys).any fun u => (w1.idxs vi).keys.contains u) = false := by
      rw [h2.same.idxs, List.any_eq_false]
      intro u hu
      rw [List.contains_iff_mem]
      exact hd u hu
    simp only [M.bind_apply, indexRef, e1, e2, M.getW_apply, e3]
    exact ⟨w1, rfl, h2⟩

theorem referenceMerge_ok {o c : Oid} {w : World} {si vi : Ref} (hw : WF w)
    (hs : (w.objs o).index = some si) (hv : (w.objs c).index = some vi) :
    ∃ w', referenceMerge o c w = (.ok (), w') ∧
      Shift w.children (upd w.idxs si ((w.idxs si).update (w.idxs vi)))
        (upd (fun p => (w.objs p).index) c (some si)) w w' := by
  simp only [referenceMerge, M.bind_apply, indexRef, hs, hv, M.modifyW_apply, modO_apply]
  refine ⟨_, rfl, ?_⟩
  have hw1 := hw.setIdx si (Od.nodup_keys_update (e := w.idxs vi) (hw.iNd si))
  exact ⟨hw1.modO c (fun ob => { ob with index := some si }) rfl rfl rfl (fun r hr => by
      cases hr; exact hw.iLt hs),
    children_modO c (fun ob => { ob with index := some si }) rfl, rfl, fun p => by
      simp only [upd]; split <;> rfl,
    proj_upd Obj.cls w.objs c _ (by rfl), proj_upd Obj.uuid w.objs c _ (by rfl), rfl, rfl, rfl⟩

/-- Setting a node whose index has nothing in common. -/
theorem setitem_ref {w : World} {o c : Oid} {k : Key} {si vi : Ref} (hw : WF w)
    (hco : RefClass (clsOf E w o)) (hcc : RefClass (clsOf E w c)) (hk : KeyFor (clsOf E w o) k)
    (hs : (w.objs o).index = some si) (hv : (w.objs c).index = some vi)
    (hd : ∀ u ∈ (w.idxs si).keys, u ∉ (w.idxs vi).keys) :
    ∃ w', setitem E o k (.node c) w = (.ok (), w') ∧
      Shift (chSet w o k (.node c)) (upd w.idxs si ((w.idxs si).update (w.idxs vi)))
        (upd (fun p => (w.objs p).index) c (some si)) w w' := by
  obtain ⟨l, q, e, hl, hq⟩ := hco.once
  obtain ⟨w', e1, e2⟩ := setPipe_ref (l := l) (r := q) (k := k) (.refl hw) hco hk
    (by rw [← e]; exact fun _ h => h) hl hq
    (ix := upd w.idxs si ((w.idxs si).update (w.idxs vi)))
    (gi := upd (fun p => (w.objs p).index) c (some si)) (c := c) (fun w1 h1 => by
      obtain ⟨w2, f1, f2⟩ := referenceCheck_ok (E := E) (o := o) (c := c) h1.wf
        (by rw [h1.clsOf]; exact hcc) ((h1.index o).trans hs) ((h1.index c).trans hv)
        (by rw [h1.idxs]; exact hd)
      have h2 := h1.trans f2.calm
      obtain ⟨w3, g1, g2⟩ := referenceMerge_ok (o := o) (c := c) h2.wf ((h2.index o).trans hs)
        ((h2.index c).trans hv)
      rw [h2.idxs, index_calm h2, funext h2.children] at g2
      exact ⟨w2, w3, f1, g1, Shift.after h2 g2⟩)
  refine ⟨w', ?_, e2⟩
  show setPipe E (clsOf E w o).bhvs o k _ w = _
  rw [e]; exact e1

theorem mem_keys_chSet {w w' : World} {o : Oid} {k : Key} {v : Val}
    (h : ∀ p j, (w'.children p).get? j = (chSet w o k v p).get? j) {p : Oid} {j : Key} :
    j ∈ (w'.children p).keys ↔ j ∈ (chSet w o k v p).keys := by
  rw [← Od.get?_isSome_iff, h, Od.get?_isSome_iff]

/-- The indexes of two trees have nothing in common. -/
theorem Forest.apartKeys {w : World} {Rs : List Oid} (hf : Forest E w Rs) {R N : Oid} {r n : Ref}
    (hR : R ∈ Rs) (hN : N ∈ Rs) (hNR : N ≠ R) (hr : LiveTree E w R r) (hn : LiveTree E w N n) :
    ∀ u ∈ (w.idxs r).keys, u ∉ (w.idxs n).keys := by
  intro u h1 h2
  obtain ⟨x, hx⟩ := Od.get?_of_mem_keys h1
  obtain ⟨y, hy⟩ := Od.get?_of_mem_keys h2
  obtain ⟨u1, rfl, hx1, hx2⟩ := (hr.exact u x).mp hx
  obtain ⟨u2, e, hy1, hy2⟩ := (hn.exact _ y).mp hy
  cases e
  have := hf.inj R hR N hN x y u1 hx1 hy1 hx2 hy2
  subst this
  exact hNR (hf.disjoint hN hR hy1 hx1)

/-- Whatever stores a new leaf, at whatever position, and merges its index keeps the forest. -/
theorem Forest.leafShift {w w' : World} {Rs : List Oid} (hf : Forest E w Rs) {R o N : Oid} {k : Key} {r n : Ref}
    {ch : Oid → Od Key Val} (hR : R ∈ Rs) (ho : InTree w R o) (hN : N ∈ Rs) (hNR : N ≠ R)
    (hleaf : ∀ j c, ¬ Contains w N j c) (hk : k ∉ (w.children o).keys) (hkf : KeyFor (clsOf E w o) k)
    (hr : LiveTree E w R r) (hn : LiveTree E w N n)
    (e2 : Shift ch (upd w.idxs r ((w.idxs r).update (w.idxs n)))
      (upd (fun p => (w.objs p).index) N (some r)) w w')
    (hch : ∀ p j, (w'.children p).get? j = (chSet w o k (.node N) p).get? j) :
    Forest E w' (Rs.filter (· ≠ N)) := by
  have hNt : ∀ {x}, InTree w N x ↔ x = N := fun {x} => ⟨fun h => by
    rcases h.down with e | ⟨j, c, hc, -⟩
    · exact e
    · exact absurd hc (hleaf j c), fun e => by rw [e]; exact .refl N⟩
  have hoN : o ≠ N := fun e => hNR (hf.disjoint hN hR (.refl N) (e ▸ ho))
  have hcon : ∀ p j c, Contains w' p j c ↔ Contains w p j c ∨ p = o ∧ j = k ∧ c = N := fun p j c => by
    rw [contains_chSet hch hk p j c]
    simp only [Val.node.injEq, eq_comm]
  have hhu : ∀ {x u}, HasUuid w' x u ↔ HasUuid w x u := fun {x u} => by
    simp only [HasUuid, e2.uuid]
  have hin : ∀ {A x}, A ≠ N → (InTree w' A x ↔ InTree w A x ∨ x = N ∧ InTree w A o) := fun {A x} hA =>
    InTree.added hcon hleaf hoN hn.tree.top hA
  have hsole : Sole w' := by
    intro p j p' j' c h1 h2
    rcases (hcon _ _ _).mp h1 with h1 | ⟨a1, a2, a3⟩ <;> rcases (hcon _ _ _).mp h2 with h2 | ⟨b1, b2, b3⟩
    · exact hf.sole _ _ _ _ _ h1 h2
    · exact absurd h1 (b3 ▸ hn.tree.top _ _)
    · exact absurd h2 (a3 ▸ hn.tree.top _ _)
    · exact ⟨a1.trans b1.symm, a2.trans b2.symm⟩
  have hbd : ∀ p j c, Contains w' p j c → c < w'.nobj := by
    intro p j c h
    rw [e2.nobj]
    rcases (hcon _ _ _).mp h with h | ⟨-, -, rfl⟩
    · exact hf.bounds _ _ _ h
    · exact hn.tree.bound
  have hcl : ∀ x, clsOf E w' x = clsOf E w x := e2.clsOf
  -- every node of the new forest was in the old one
  have hold : ∀ A ∈ Rs, A ≠ N → ∀ x, InTree w' A x → ∃ B ∈ Rs, InTree w B x ∧ (B = A ∨ B = N) := by
    intro A hA hAN x hx
    rcases (hin hAN).mp hx with h | ⟨rfl, -⟩
    · exact ⟨A, hA, h, .inl rfl⟩
    · exact ⟨_, hN, .refl _, .inr rfl⟩
  have hmem : ∀ {A}, A ∈ Rs.filter (· ≠ N) → A ∈ Rs ∧ A ≠ N := fun h => by
    simpa using List.mem_filter.mp h
  have hix : ∀ A ∈ Rs, A ≠ N → (w'.objs A).index = (w.objs A).index := fun A _ h => by
    rw [e2.index, upd_other _ _ h]
  refine ⟨e2.wf, by rw [e2.nuuid]; exact hf.pos, hsole, hbd, hf.nodup.filter _, fun A hA => ?_,
    fun A hA B hB e => ?_, fun A hA B hB x y u hx hy h1 h2 => ?_⟩
  · have hA' := hmem hA
    clear hA
    obtain ⟨hA, hAN⟩ := hA'
    obtain ⟨a, ha⟩ := hf.live A hA
    have hcls : ∀ x, InTree w' A x → RefClass (clsOf E w' x) := by
      intro x hx
      rw [hcl]
      rcases (hin hAN).mp hx with h | ⟨rfl, -⟩
      · exact ha.tree.cls x h
      · exact hn.tree.cls _ (.refl _)
    refine ⟨a, ⟨hsole, fun p j h => ?_, by rw [e2.nobj]; exact ha.tree.bound, hbd, hcls, ?_, ?_, ?_⟩, ?_,
      ?_, ?_⟩
    · rcases (hcon _ _ _).mp h with h | ⟨-, -, e⟩
      · exact ha.tree.top _ _ h
      · exact hAN e
    · intro x hx j hj
      rw [hcl]
      rw [mem_keys_chSet hch] at hj
      simp only [chSet] at hj
      by_cases hxo : x = o
      · subst hxo
        rw [if_pos rfl, Od.mem_keys_set] at hj
        rcases hj with rfl | hj
        · exact hkf
        · exact hr.tree.keys x ho j hj
      · rw [if_neg hxo] at hj
        rcases (hin hAN).mp hx with h | ⟨rfl, -⟩
        · exact ha.tree.keys x h j hj
        · exact hn.tree.keys _ (.refl _) j hj
    · intro x hx
      obtain ⟨B, hB, hx, -⟩ := hold A hA hAN x hx
      obtain ⟨b, hb⟩ := hf.live B hB
      obtain ⟨u, hu⟩ := hb.tree.uuid x hx
      exact ⟨u, hhu.mpr hu⟩
    · intro x y u hx hy h1 h2
      obtain ⟨B, hB, hx, -⟩ := hold A hA hAN x hx
      obtain ⟨C, hC, hy, -⟩ := hold A hA hAN y hy
      exact hf.inj B hB C hC x y u hx hy (hhu.mp h1) (hhu.mp h2)
    · intro x hx
      rw [e2.index]
      rcases (hin hAN).mp hx with h | ⟨rfl, h⟩
      · have : x ≠ N := fun e => hAN (hf.disjoint hA hN (e ▸ h) (.refl N))
        rw [upd_other _ _ this]
        exact ha.shared x h
      · rw [upd_same]
        have := hf.disjoint hA hR h ho
        subst this
        exact (hr.shared A (.refl A)).symm.trans (ha.shared A (.refl A))
    · intro v x
      rw [e2.idxs]
      simp only [hhu, hin hAN]
      by_cases hAR : A = R
      · subst hAR
        have har : a = r := Option.some.inj ((ha.shared A (.refl A)).symm.trans (hr.shared A (.refl A)))
        subst har
        rw [upd_same, Od.get?_update (hf.wf.iNd n)]
        cases hg : (w.idxs n).get? v with
        | none =>
          simp only [Option.none_or, ha.exact v x]
          constructor
          · rintro ⟨u, rfl, h1, h2⟩; exact ⟨u, rfl, .inl h1, h2⟩
          · rintro ⟨u, rfl, h1 | ⟨rfl, -⟩, h2⟩
            · exact ⟨u, rfl, h1, h2⟩
            · have := (hn.exact (some u) x).mpr ⟨u, rfl, .refl _, h2⟩
              rw [hg] at this; cases this
        | some y =>
          obtain ⟨u, rfl, hy, hyu⟩ := (hn.exact _ y).mp hg
          have := hNt.mp hy
          subst this
          simp only [Option.some_or, Option.some.injEq]
          constructor
          · rintro rfl
            exact ⟨u, rfl, .inr ⟨rfl, ho⟩, hyu⟩
          · rintro ⟨u', e, h1 | ⟨rfl, -⟩, h2⟩
            · cases e
              exact hf.inj _ hN A hA _ x u hy h1 hyu h2
            · rfl
      · have har : a ≠ r := fun e => hAR (hf.apart A hA R hR (by
          rw [ha.shared A (.refl A), hr.shared R (.refl R), e]))
        rw [upd_other _ _ har, ha.exact v x]
        have : ¬ InTree w A o := fun h => hAR (hf.disjoint hA hR h ho)
        simp only [this, and_false, or_false]
    · intro x u hx hu
      obtain ⟨B, hB, hx, -⟩ := hold A hA hAN x hx
      obtain ⟨b, hb⟩ := hf.live B hB
      exact hb.real x u hx (hhu.mp hu)
  · obtain ⟨hA, hAN⟩ := hmem hA
    obtain ⟨hB, hBN⟩ := hmem hB
    rw [hix A hA hAN, hix B hB hBN] at e
    exact hf.apart A hA B hB e
  · obtain ⟨hA, hAN⟩ := hmem hA
    obtain ⟨hB, hBN⟩ := hmem hB
    obtain ⟨A', hA', hx, -⟩ := hold A hA hAN x hx
    obtain ⟨B', hB', hy, -⟩ := hold B hB hBN y hy
    exact hf.inj A' hA' B' hB' x y u hx hy (hhu.mp h1) (hhu.mp h2)

/-- Setting a new leaf keeps the forest. -/
theorem Forest.setLeaf {w : World} {Rs : List Oid} (hf : Forest E w Rs) {R o N : Oid} {k : Key}
    (hR : R ∈ Rs) (ho : InTree w R o) (hN : N ∈ Rs) (hNR : N ≠ R) (hleaf : ∀ j c, ¬ Contains w N j c)
    (hk : k ∉ (w.children o).keys) (hkf : KeyFor (clsOf E w o) k) :
    ∃ w', setitem E o k (.node N) w = (.ok (), w') ∧ Forest E w' (Rs.filter (· ≠ N)) ∧
      (∀ p, w'.children p = chSet w o k (.node N) p) ∧ (∀ p, (w'.objs p).uuid = (w.objs p).uuid) ∧
      (∀ p, (w'.objs p).cls = (w.objs p).cls) ∧ w'.nobj = w.nobj ∧ w'.nuuid = w.nuuid := by
  obtain ⟨r, hr⟩ := hf.live R hR
  obtain ⟨n, hn⟩ := hf.live N hN
  obtain ⟨w', e1, e2⟩ := setitem_ref (k := k) hf.wf (hr.tree.cls o ho) (hn.tree.cls N (.refl N)) hkf
    (hr.shared o ho) (hn.shared N (.refl N)) (hf.apartKeys hR hN hNR hr hn)
  exact ⟨w', e1, hf.leafShift hR ho hN hNR hleaf hk hkf hr hn e2 (fun p j => by rw [e2.children]),
    e2.children, e2.uuid, e2.cls, e2.nobj, e2.nuuid⟩

/-- Setting an ordinary value at a key that holds no node keeps the forest. -/
theorem Forest.setData {w : World} {Rs : List Oid} (hf : Forest E w Rs) {R o : Oid} {k : Key} {d : Data}
    (hR : R ∈ Rs) (ho : InTree w R o) (hk : ∀ c, ¬ Contains w o k c) (hkf : KeyFor (clsOf E w o) k)
    (hd : refuses (clsOf E w o) (.data d) = none) :
    ∃ w', setitem E o k (.data d) w = (.ok (), w') ∧ Forest E w' Rs ∧
      (∀ p, w'.children p = chSet w o k (.data d) p) ∧ (∀ p, (w'.objs p).uuid = (w.objs p).uuid) ∧
      (∀ p, (w'.objs p).cls = (w.objs p).cls) ∧ w'.nobj = w.nobj ∧ w'.nuuid = w.nuuid := by
  obtain ⟨r, hr⟩ := hf.live R hR
  obtain ⟨w', e1, e2⟩ := setPipe_below (E := E) (bs := (clsOf E w o).bhvs) (k := k) (v := .data d)
    (.refl hf.wf) (hr.tree.cls o ho) hkf (fun _ h => h) hd (fun _ => ⟨d, rfl⟩)
  have hcon : ∀ p j c, Contains w' p j c ↔ Contains w p j c := fun p j c => by
    show (w'.children p).get? j = _ ↔ (w.children p).get? j = _
    rw [e2.children p]
    simp only [chSet]
    by_cases hp : p = o
    · subst hp
      rw [if_pos rfl, Od.get?_set]
      by_cases hj : j = k
      · subst hj
        rw [if_pos rfl]
        exact ⟨fun h => (nomatch h), fun h => absurd h (hk c)⟩
      · rw [if_neg hj]
    · rw [if_neg hp]
  have hin : ∀ {A x}, InTree w' A x ↔ InTree w A x := InTree.congr hcon
  have hhu : ∀ {x u}, HasUuid w' x u ↔ HasUuid w x u := fun {x u} => by
    simp only [HasUuid, e2.uuid]
  refine ⟨w', e1, ?_, e2.children, e2.uuid, e2.cls, e2.nobj, e2.nuuid⟩
  refine ⟨e2.wf, by rw [e2.nuuid]; exact hf.pos, fun p j p' j' c h1 h2 =>
    hf.sole p j p' j' c ((hcon _ _ _).mp h1) ((hcon _ _ _).mp h2), fun p j c h => by
      rw [e2.nobj]; exact hf.bounds p j c ((hcon _ _ _).mp h), hf.nodup, fun A hA => ?_, fun A hA B hB e =>
    hf.apart A hA B hB (by rw [← e2.index A, ← e2.index B, e]), fun A hA B hB x y u hx hy h1 h2 =>
    hf.inj A hA B hB x y u (hin.mp hx) (hin.mp hy) (hhu.mp h1) (hhu.mp h2)⟩
  obtain ⟨a, ha⟩ := hf.live A hA
  refine ⟨a, ⟨fun p j p' j' c h1 h2 => hf.sole p j p' j' c ((hcon _ _ _).mp h1) ((hcon _ _ _).mp h2),
    fun p j h => ha.tree.top p j ((hcon _ _ _).mp h), by rw [e2.nobj]; exact ha.tree.bound,
    fun p j c h => by rw [e2.nobj]; exact hf.bounds p j c ((hcon _ _ _).mp h),
    fun x hx => by rw [e2.clsOf]; exact ha.tree.cls x (hin.mp hx), fun x hx j hj => ?_, fun x hx => ?_,
    fun x y u hx hy h1 h2 => ha.tree.inj x y u (hin.mp hx) (hin.mp hy) (hhu.mp h1) (hhu.mp h2)⟩,
    fun x hx => (e2.index x).trans (ha.shared x (hin.mp hx)), fun v x => ?_,
    fun x u hx hu => ha.real x u (hin.mp hx) (hhu.mp hu)⟩
  · rw [e2.clsOf]
    rw [e2.children x] at hj
    simp only [chSet] at hj
    by_cases hxo : x = o
    · subst hxo
      rw [if_pos rfl, Od.mem_keys_set] at hj
      rcases hj with rfl | hj
      · exact hkf
      · exact hr.tree.keys x ho j hj
    · rw [if_neg hxo] at hj
      exact ha.tree.keys x (hin.mp hx) j hj
  · obtain ⟨u, hu⟩ := ha.tree.uuid x (hin.mp hx)
    exact ⟨u, hhu.mpr hu⟩
  · rw [e2.idxs, ha.exact v x]
    simp only [hin, hhu]

/-! ### New nodes -/

/-- What constructing a `Reference` node does. -/
structure Born (w w' : World) (o : Oid) (c : ClassId) (u : Nat) : Prop where
  wf : WF w'
  children : ∀ p, p ≠ o → w'.children p = w.children p
  empty : w'.children o = []
  idxs : w'.idxs = upd w.idxs w.nidx [(some u, o)]
  index : ∀ p, (w'.objs p).index = if p = o then some w.nidx else (w.objs p).index
  cls : ∀ p, (w'.objs p).cls = if p = o then c else (w.objs p).cls
  uuid : ∀ p, (w'.objs p).uuid = if p = o then some u else (w.objs p).uuid
  nidx : w'.nidx = w.nidx + 1
  nobj : w'.nobj = w.nobj + 1
  le : w.nuuid ≤ u
  lt : u < w'.nuuid

theorem Born.calm {w w' w'' : World} {o : Oid} {c : ClassId} {u : Nat} (h : Born w w' o c u) (h' : Calm w' w'') :
    Born w w'' o c u :=
  ⟨h'.wf, fun p hp => (h'.children p).trans (h.children p hp), (h'.children o).trans h.empty,
    h'.idxs.trans h.idxs, fun p => (h'.index p).trans (h.index p), fun p => (h'.cls p).trans (h.cls p),
    fun p => (h'.uuid p).trans (h.uuid p), h'.nidx.trans h.nidx, h'.nobj.trans h.nobj,
    h.le, by rw [h'.nuuid]; exact h.lt⟩

/-- `UUIDAware.__init__`: the node gets another new uuid. -/
theorem Born.fresh {w w' : World} {o : Oid} {c : ClassId} {u : Nat} (h : Born w w' o c u) (hp : 0 < w.nuuid) :
    ∃ w'', (freshUuid >>= fun u => setUuidRef o (some u)) w' = (.ok (), w'') ∧ Born w w'' o c w'.nuuid := by
  have hlt := h.lt
  have hle := h.le
  have hiu : ∀ {u}, 0 < u → iuuid (some u) = some u := by
    intro u hu
    cases u with
    | zero => omega
    | succ n => rfl
  have hi : (w'.objs o).index = some w.nidx := by rw [h.index, if_pos rfl]
  have hu : (w'.objs o).uuid = some u := by rw [h.uuid, if_pos rfl]
  have hd : w'.idxs w.nidx = [(some u, o)] := by rw [h.idxs, upd_same]
  have hne : ¬ u = w'.nuuid := by omega
  have hg : Hidden w' ((freshUuid >>= fun u => setUuidRef o (some u)) w').2 :=
    pres_bind hidden_pre hidden_freshUuid (fun u => hidden_setUuidRef o (some u)) w'
  have heq : (freshUuid >>= fun u => setUuidRef o (some u)) w' = (.ok (), { w' with
      objs := upd w'.objs o { w'.objs o with uuid := some w'.nuuid }
      idxs := upd w'.idxs w.nidx [(some w'.nuuid, o)]
      nuuid := w'.nuuid + 1 }) := by
    simp only [M.bind_apply, freshUuid, setUuidRef, indexRef, hi, M.getW_apply, hiu (u := w'.nuuid) (by omega), hd,
      Od.get?, Option.some.injEq, hne, if_false, Option.any_none, Bool.false_eq_true, M.modifyW_apply, hu,
      hiu (u := u) (by omega), modO_apply]
    simp only [Od.del, Od.set, List.filter, decide_true, decide_false, ne_eq, not_true, Bool.not_true]
    rfl
  rw [heq] at hg
  have pr : ∀ {α : Type} (g : Obj → α), (∀ ob u, g { ob with uuid := u } = g ob) → ∀ p,
      g (upd w'.objs o { w'.objs o with uuid := some w'.nuuid } p) = g (w'.objs p) := fun g hg p =>
    proj_upd g w'.objs o _ (hg _ _) p
  refine ⟨_, heq, hg.wf h.wf, fun p hp => (hg.children p).trans (h.children p hp), (hg.children o).trans h.empty, ?_,
    fun p => (pr Obj.index (fun _ _ => rfl) p).trans (h.index p), fun p => (pr Obj.cls (fun _ _ => rfl) p).trans (h.cls p),
    fun p => ?_, h.nidx, h.nobj, by omega, Nat.lt_succ_self _⟩
  · show upd w'.idxs w.nidx _ = _
    rw [h.idxs, upd_upd]
  · show (upd w'.objs o { w'.objs o with uuid := some w'.nuuid } p).uuid = _
    by_cases hp : p = o
    · subst hp; rw [upd_same, if_pos rfl]
    · rw [upd_other _ _ hp, if_neg hp, h.uuid, if_neg hp]

theorem initPipe_below (mk : ClassId → M Oid) {all bs : List Bhv} {o : Oid} {name : Key}
    {parent : Option Oid} {w0 w : World} {c : ClassId} {u : Nat} (hb : Born w0 w o c u) (hp : 0 < w0.nuuid)
    (hall : Bhv.reference ∈ all) (hr : Bhv.reference ∉ bs) (hx : Bhv.fixedChildren ∉ bs) :
    ∃ w' u', initPipe E mk all bs o name parent w = (.ok (), w') ∧ Born w0 w' o c u' := by
  induction bs with
  | nil =>
    simp only [initPipe]
    split
    · have h1 := calm_name o name hb.wf
      exact ⟨_, u, rfl, hb.calm (h1.trans (calm_parent o parent h1.wf))⟩
    · exact ⟨w, u, rfl, hb⟩
  | cons b r ih =>
    have base := ih (fun h => hr (List.mem_cons_of_mem _ h)) (fun h => hx (List.mem_cons_of_mem _ h))
    cases b
    case lifecycle =>
      obtain ⟨w', u', e1, e2⟩ := base
      simp only [initPipe, M.bind_apply, e1]
      exact ⟨_, u', rfl, e2.calm (calm_notify _ e2.wf)⟩
    case uuidAware =>
      obtain ⟨w', u', e1, e2⟩ := base
      obtain ⟨w'', f1, f2⟩ := e2.fresh hp
      refine ⟨w'', _, ?_, f2⟩
      simp only [initPipe, List.contains_iff_mem.mpr hall, if_true]
      rw [M.bind_apply, e1]
      exact f1
    all_goals first
      | exact base
      | exact absurd List.mem_cons_self hr
      | exact absurd List.mem_cons_self hx

theorem referenceInit_born {w : World} {c : ClassId} (hw : WF w) (hp : 0 < w.nuuid) :
    ∃ w', referenceInit w.nobj (alloc c w).2 = (.ok (), w') ∧ Born w w' w.nobj c w.nuuid := by
  have hiu : iuuid (some w.nuuid) = some w.nuuid := by
    cases h : w.nuuid with
    | zero => omega
    | succ n => rfl
  have hw0 : WF (alloc c w).2 := (grow_alloc c w).wf hw
  have hgi := (hidden_referenceInit w.nobj (alloc c w).2)
  have heq : ∃ w', referenceInit w.nobj (alloc c w).2 = (.ok (), w') ∧
      w' = { w with
        objs := upd w.objs w.nobj { cls := c, index := some w.nidx, uuid := some w.nuuid }
        nobj := w.nobj + 1
        idxs := upd w.idxs w.nidx [(some w.nuuid, w.nobj)]
        nidx := w.nidx + 1
        nuuid := w.nuuid + 1 } := by
    refine ⟨_, ?_, rfl⟩
    simp only [referenceInit, alloc, M.bind_apply, M.modifyW_apply, freshUuid, setUuidRef, indexRef,
      upd_same, M.getW_apply, hiu, Od.get?, Option.any_none, Bool.false_eq_true, if_false, modO_apply,
      upd_upd]
    rfl
  obtain ⟨w', h1, h2⟩ := heq
  rw [h1] at hgi
  refine ⟨w', h1, hgi.wf hw0, fun p hp => ?_, ?_, by rw [h2], fun p => ?_, fun p => ?_, fun p => ?_,
    by rw [h2], by rw [h2], Nat.le_refl _, by rw [h2]; exact Nat.lt_succ_self _⟩
  · rw [hgi.children p]
    simp [World.children, alloc, upd, hp]
  · rw [hgi.children]
    simp [World.children, alloc]
  all_goals
    rw [h2]
    simp only [upd]
    split <;> rfl

theorem initPipe_ref (mk : ClassId → M Oid) {all l r : List Bhv} {name : Key}
    {parent : Option Oid} {w : World} {c : ClassId} (hw : WF w) (hp : 0 < w.nuuid)
    (hall : Bhv.reference ∈ all) (hl : Bhv.reference ∉ l) (hr : Bhv.reference ∉ r)
    (hx : Bhv.fixedChildren ∉ l ++ .reference :: r) :
    ∃ w' u, initPipe E mk all (l ++ .reference :: r) w.nobj name parent (alloc c w).2 = (.ok (), w') ∧
      Born w w' w.nobj c u := by
  induction l with
  | nil =>
    obtain ⟨w1, e1, e2⟩ := referenceInit_born (c := c) hw hp
    obtain ⟨w2, u, f1, f2⟩ := initPipe_below (E := E) mk (all := all) (bs := r) (o := w.nobj) (name := name)
      (parent := parent) e2 hp hall hr (fun h => hx (by simp [h]))
    simp only [List.nil_append, initPipe, M.bind_apply, e1, f1]
    exact ⟨w2, u, rfl, f2⟩
  | cons b l ih =>
    have base := ih (fun h => hl (List.mem_cons_of_mem _ h)) (fun h => hx (List.mem_cons_of_mem _ h))
    rw [List.cons_append]
    cases b
    case lifecycle =>
      obtain ⟨w', u, e1, e2⟩ := base
      simp only [initPipe, M.bind_apply, e1]
      exact ⟨_, u, rfl, e2.calm (calm_notify _ e2.wf)⟩
    case uuidAware =>
      obtain ⟨w', u, e1, e2⟩ := base
      obtain ⟨w'', f1, f2⟩ := e2.fresh hp
      refine ⟨w'', _, ?_, f2⟩
      simp only [initPipe, List.contains_iff_mem.mpr hall, if_true]
      rw [M.bind_apply, e1]
      exact f1
    all_goals first
      | exact base
      | exact absurd List.mem_cons_self hl
      | exact absurd List.mem_cons_self hx

theorem newNode_born {c : ClassId} {name : Key} {parent : Option Oid} {w : World} (hE : 0 < E.depth)
    (ha : (E.cls c).Accepts name parent) (hc : RefClass (E.cls c)) (hw : WF w) (hp : 0 < w.nuuid) :
    ∃ w' u, newNode E c name parent w = (.ok w.nobj, w') ∧ Born w w' w.nobj c u := by
  obtain ⟨l, q, e, hl, hq⟩ := hc.once
  rw [newNode_accepts ha]
  cases hd : E.depth with
  | zero => omega
  | succ n =>
    obtain ⟨w', u, e1, e2⟩ := initPipe_ref (E := E) (fun c' => newNodeN E n c' .none none)
      (all := (E.cls c).bhvs) (name := name) (parent := parent) (c := c) hw hp
      (by rw [e]; simp) hl hq (e ▸ hc.not (by decide))
    refine ⟨w', u, ?_, e2⟩
    simp only [newNodeN, M.bind_apply]
    rw [show alloc c w = (.ok w.nobj, (alloc c w).2) from rfl]
    simp only
    rw [show initPipe E (fun c' => newNodeN E n c' .none none) (E.cls c).bhvs (E.cls c).bhvs w.nobj name
      parent (alloc c w).2 = (.ok (), w') from by rw [← e1, ← e]]
    rfl

/-- No node of the forest has the uuid. -/
def Unused (w : World) (Rs : List Oid) (u : Nat) : Prop :=
  ∀ R ∈ Rs, ∀ x, InTree w R x → ¬ HasUuid w x u

/-- A new node is a new tree. -/
theorem Forest.new {w : World} {Rs : List Oid} (hf : Forest E w Rs) {c : ClassId} (name : Key)
    (parent : Option Oid) (hE : 0 < E.depth) (ha : (E.cls c).Accepts name parent) (hc : RefClass (E.cls c)) :
    ∃ w' u, newNode E c name parent w = (.ok w.nobj, w') ∧ Born w w' w.nobj c u ∧
      (Unused w Rs u → Forest E w' (w.nobj :: Rs)) := by
  obtain ⟨w', u0, e1, e2⟩ := newNode_born (name := name) (parent := parent) hE ha hc hf.wf hf.pos
  have hcon : ∀ p j c, Contains w' p j c ↔ p ≠ w.nobj ∧ Contains w p j c := fun p j c => by
    show (w'.children p).get? j = _ ↔ _ ∧ (w.children p).get? j = _
    by_cases hp : p = w.nobj
    · subst hp
      rw [e2.empty]
      exact ⟨fun h => (nomatch h), fun h => absurd rfl h.1⟩
    · rw [e2.children p hp]
      exact ⟨fun h => ⟨hp, h⟩, fun h => h.2⟩
  have hlt : ∀ {A x}, A < w.nobj → InTree w A x → x < w.nobj := fun {A x} hA hx =>
    hx.induct (P := (· < w.nobj)) hA fun p j c _ hc _ => hf.bounds p j c hc
  have hin : ∀ {A x}, A < w.nobj → (InTree w' A x ↔ InTree w A x) := fun {A x} hA =>
    ⟨fun hx => hx.induct (P := InTree w A) (.refl A) fun p j c _ h ih => ih.child ((hcon p j c).mp h).2,
      fun hx => hx.induct (P := InTree w' A) (.refl A) fun p j c hp h ih =>
        ih.child ((hcon p j c).mpr ⟨Nat.ne_of_lt (hlt hA hp), h⟩)⟩
  have hnew : ∀ {x}, InTree w' w.nobj x ↔ x = w.nobj := fun {x} => ⟨fun h => by
    rcases h.down with e | ⟨j, c, hc, -⟩
    · exact e
    · exact absurd rfl ((hcon _ j c).mp hc).1, fun e => by rw [e]; exact .refl _⟩
  have hcl : ∀ {x}, x < w.nobj → clsOf E w' x = clsOf E w x := fun {x} hx => by
    show E.cls _ = E.cls _
    rw [e2.cls, if_neg (Nat.ne_of_lt hx)]
  have hcn : clsOf E w' w.nobj = E.cls c := by
    show E.cls _ = E.cls _
    rw [e2.cls, if_pos rfl]
  have hhu : ∀ {x u}, x < w.nobj → (HasUuid w' x u ↔ HasUuid w x u) := fun {x u} hx => by
    simp only [HasUuid, e2.uuid, if_neg (Nat.ne_of_lt hx)]
  have hun : ∀ {u}, HasUuid w' w.nobj u ↔ u = u0 := fun {u} => by
    simp only [HasUuid, e2.uuid, if_true, Option.some.injEq, eq_comm]
  have hsole : Sole w' := fun p j p' j' c h1 h2 =>
    hf.sole p j p' j' c ((hcon _ _ _).mp h1).2 ((hcon _ _ _).mp h2).2
  have hbd : ∀ p j c, Contains w' p j c → c < w'.nobj := fun p j c h => by
    rw [e2.nobj]; exact Nat.lt_succ_of_lt (hf.bounds p j c ((hcon _ _ _).mp h).2)
  have hAlt : ∀ A ∈ Rs, A < w.nobj := fun A hA => by
    obtain ⟨a, ha⟩ := hf.live A hA
    exact ha.tree.bound
  refine ⟨w', u0, e1, e2, fun hfr => ⟨e2.wf, Nat.lt_of_le_of_lt (Nat.zero_le _) e2.lt, hsole, hbd,
    List.nodup_cons.mpr ⟨fun h => absurd (hAlt _ h) (by omega), hf.nodup⟩, ?_, ?_, ?_⟩⟩
  · intro A hA
    rcases List.mem_cons.mp hA with rfl | hA
    · refine ⟨w.nidx, ⟨hsole, fun p j h => ?_, by rw [e2.nobj]; omega, hbd, ?_, ?_, ?_, ?_⟩, ?_, ?_, ?_⟩
      · exact absurd (hf.bounds _ _ _ ((hcon _ _ _).mp h).2) (by omega)
      · intro x hx; rw [hnew.mp hx, hcn]; exact hc
      · intro x hx j hj
        rw [hnew.mp hx, e2.empty] at hj
        cases hj
      · intro x hx; rw [hnew.mp hx]; exact ⟨_, hun.mpr rfl⟩
      · intro x y u hx hy _ _; rw [hnew.mp hx, hnew.mp hy]
      · intro x hx; rw [hnew.mp hx, e2.index, if_pos rfl]
      · intro v x
        rw [e2.idxs, upd_same]
        simp only [Od.get?, hnew]
        constructor
        · intro h
          split at h
          · rename_i e
            cases h
            exact ⟨u0, e.symm, rfl, hun.mpr rfl⟩
          · cases h
        · rintro ⟨u, rfl, rfl, hu⟩
          rw [hun.mp hu, if_pos rfl]
      · intro x u hx hu
        rw [hnew.mp hx] at hu
        rw [hun.mp hu]; exact Nat.lt_of_lt_of_le hf.pos e2.le
    · obtain ⟨a, ha⟩ := hf.live A hA
      have hA' := hAlt A hA
      refine ⟨a, ⟨hsole, fun p j h => ha.tree.top p j ((hcon _ _ _).mp h).2, by rw [e2.nobj]; omega, hbd,
        ?_, ?_, ?_, ?_⟩, ?_, ?_, ?_⟩
      · intro x hx
        have hx := (hin hA').mp hx
        rw [hcl (hlt hA' hx)]; exact ha.tree.cls x hx
      · intro x hx j hj
        have hx := (hin hA').mp hx
        rw [e2.children x (Nat.ne_of_lt (hlt hA' hx))] at hj
        rw [hcl (hlt hA' hx)]; exact ha.tree.keys x hx j hj
      · intro x hx
        have hx := (hin hA').mp hx
        obtain ⟨u, hu⟩ := ha.tree.uuid x hx
        exact ⟨u, (hhu (hlt hA' hx)).mpr hu⟩
      · intro x y u hx hy h1 h2
        have hx := (hin hA').mp hx
        have hy := (hin hA').mp hy
        exact ha.tree.inj x y u hx hy ((hhu (hlt hA' hx)).mp h1) ((hhu (hlt hA' hy)).mp h2)
      · intro x hx
        have hx := (hin hA').mp hx
        rw [e2.index, if_neg (Nat.ne_of_lt (hlt hA' hx))]; exact ha.shared x hx
      · intro v x
        have : a ≠ w.nidx := Nat.ne_of_lt (hf.wf.iLt (ha.shared A (.refl A)))
        rw [e2.idxs, upd_other _ _ this, ha.exact v x]
        constructor
        · rintro ⟨u, rfl, hx, hu⟩
          exact ⟨u, rfl, (hin hA').mpr hx, (hhu (hlt hA' hx)).mpr hu⟩
        · rintro ⟨u, rfl, hx, hu⟩
          have hx := (hin hA').mp hx
          exact ⟨u, rfl, hx, (hhu (hlt hA' hx)).mp hu⟩
      · intro x u hx hu
        have hx := (hin hA').mp hx
        exact ha.real x u hx ((hhu (hlt hA' hx)).mp hu)
  · have key : ∀ A ∈ Rs, (w'.objs A).index ≠ (w'.objs w.nobj).index := by
      intro A hA
      obtain ⟨a, ha⟩ := hf.live A hA
      rw [e2.index, e2.index, if_neg (Nat.ne_of_lt (hAlt A hA)), if_pos rfl, ha.shared A (.refl A)]
      intro e
      have := hf.wf.iLt (ha.shared A (.refl A))
      cases e
      omega
    intro A hA B hB e
    rcases List.mem_cons.mp hA with rfl | hA <;> rcases List.mem_cons.mp hB with rfl | hB
    · rfl
    · exact absurd e.symm (key B hB)
    · exact absurd e (key A hA)
    · refine hf.apart A hA B hB ?_
      rw [e2.index, e2.index, if_neg (Nat.ne_of_lt (hAlt A hA)), if_neg (Nat.ne_of_lt (hAlt B hB))] at e
      exact e
  · have key : ∀ A ∈ Rs, ∀ x, InTree w' A x → ¬ HasUuid w' x u0 := by
      intro A hA x hx hu
      have hx := (hin (hAlt A hA)).mp hx
      exact hfr A hA x hx ((hhu (hlt (hAlt A hA) hx)).mp hu)
    intro A hA B hB x y u hx hy h1 h2
    rcases List.mem_cons.mp hA with rfl | hA <;> rcases List.mem_cons.mp hB with rfl | hB
    · rw [hnew.mp hx, hnew.mp hy]
    · rw [hnew.mp hx] at h1
      rw [hun.mp h1] at h2
      exact absurd h2 (key B hB y hy)
    · rw [hnew.mp hy] at h2
      rw [hun.mp h2] at h1
      exact absurd h1 (key A hA x hx)
    · have hx := (hin (hAlt A hA)).mp hx
      have hy := (hin (hAlt B hB)).mp hy
      exact hf.inj A hA B hB x y u hx hy ((hhu (hlt (hAlt A hA) hx)).mp h1)
        ((hhu (hlt (hAlt B hB) hy)).mp h2)

/-! ### Detaching -/

/-- Index `i` and the index references, after the nodes satisfying `P` have been put
into it. -/
structure Puts (w0 : World) (i : Ref) (P : Oid → Prop) (a b : World) : Prop where
  wf : WF b
  children : ∀ p, b.children p = a.children p
  cls : ∀ p, (b.objs p).cls = (a.objs p).cls
  uuid : ∀ p, (b.objs p).uuid = (a.objs p).uuid
  nidx : b.nidx = a.nidx
  nobj : b.nobj = a.nobj
  nuuid : b.nuuid = a.nuuid
  others : ∀ r, r ≠ i → b.idxs r = a.idxs r
  put : ∀ x u, P x → HasUuid w0 x u → (b.idxs i).get? (some u) = some x
  kept : ∀ v, (∀ x u, P x → HasUuid w0 x u → v ≠ some u) → (b.idxs i).get? v = (a.idxs i).get? v
  indexed : ∀ x, P x → (b.objs x).index = some i
  left : ∀ x, ¬ P x → (b.objs x).index = (a.objs x).index

theorem Puts.none {w0 a b : World} {i : Ref} (h : Calm a b) : Puts w0 i (fun _ => False) a b :=
  ⟨h.wf, h.children, h.cls, h.uuid, h.nidx, h.nobj, h.nuuid, fun r _ => by rw [h.idxs],
    fun _ _ h => h.elim, fun _ _ => by rw [h.idxs], fun _ h => h.elim, fun x _ => h.index x⟩

theorem Puts.trans {w0 a b c : World} {i : Ref} {P Q : Oid → Prop} (h : Puts w0 i P a b)
    (h' : Puts w0 i Q b c)
    (hinj : ∀ x y u, P x → Q y → HasUuid w0 x u → HasUuid w0 y u → x = y) :
    Puts w0 i (fun x => P x ∨ Q x) a c where
  wf := h'.wf
  children p := (h'.children p).trans (h.children p)
  cls p := (h'.cls p).trans (h.cls p)
  uuid p := (h'.uuid p).trans (h.uuid p)
  nidx := h'.nidx.trans h.nidx
  nobj := h'.nobj.trans h.nobj
  nuuid := h'.nuuid.trans h.nuuid
  others r hr := (h'.others r hr).trans (h.others r hr)
  put x u hx hu := by
    rcases hx with hx | hx
    · by_cases hex : ∃ y, Q y ∧ HasUuid w0 y u
      · obtain ⟨y, hy, hyu⟩ := hex
        rw [hinj x y u hx hy hu hyu]
        exact h'.put y u hy hyu
      · rw [h'.kept]
        · exact h.put x u hx hu
        · intro y u' hy hyu e
          cases e
          exact hex ⟨y, hy, hyu⟩
    · exact h'.put x u hx hu
  kept v hv := by
    rw [h'.kept v fun x u hx => hv x u (.inr hx), h.kept v fun x u hx => hv x u (.inl hx)]
  indexed x hx := by
    by_cases hq : Q x
    · exact h'.indexed x hq
    · rw [h'.left x hq]
      exact h.indexed x (hx.resolve_right hq)
  left x hx := by
    rw [h'.left x fun h => hx (.inr h), h.left x fun h => hx (.inl h)]

theorem Puts.congr {w0 a b : World} {i : Ref} {P Q : Oid → Prop} (h : Puts w0 i P a b)
    (hpq : ∀ x, P x ↔ Q x) : Puts w0 i Q a b := by
  have : P = Q := funext fun x => propext (hpq x)
  rw [← this]; exact h

end Verif
