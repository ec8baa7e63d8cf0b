import Verif.Lemmas.Insert
import Verif.Lemmas.RefInv

/-! `insertbefore` and `insertafter` in `Reference` trees. -/

namespace Verif

variable {E : Env}

/-- The children after inserting. -/
abbrev chInsert (w : World) (before : Bool) (o : Oid) (ref k : Key) (v : Val) (p : Oid) : Od Key Val :=
  if p = o then (if before then (w.children o).insertBefore ref k v else (w.children o).insertAfter ref k v)
  else w.children p

theorem storageInsert_shift {before : Bool} {o : Oid} {ref k : Key} {v : Val} {w : World} (hw : WF w)
    (hst : Stores (clsOf E w o))
    (hod : storageKind (clsOf E w o).bhvs = some .odictStorage) (href : ref ∈ (w.children o).keys)
    (hk : k ∉ (w.children o).keys) : ∃ w', storageInsert E before o ref k v w = (.ok (), w') ∧
      Shift (chInsert w before o ref k v) w.idxs (fun p => (w.objs p).index) w w' ∧ ∀ p, w'.loc p = w.loc p := by
  obtain ⟨s, w1, hr⟩ := hst.storageRef (E := E) (o := o) (w := w)
  have hq := storageRef_quiet E o w hw
  rw [hr] at hq
  obtain ⟨hw1, hs⟩ := hq
  have hsr := storageRef_ok hr
  have hc : w1.stores s = w.children o := (children_eq hsr).symm.trans (hs.children o)
  have hb : bhvsOf E w1 o = (clsOf E w o).bhvs := congrArg ClassDef.bhvs (congrArg E.cls (hs.obj o).cls)
  have hnd : (if before then (w1.stores s).insertBefore ref k v
      else (w1.stores s).insertAfter ref k v).keys.Nodup := by
    split
    · exact Od.nodup_insertBefore (hw1.sNd s) (by rw [hc]; exact hk) ref v
    · exact Od.nodup_insertAfter (hw1.sNd s) (by rw [hc]; exact hk) ref v
  have hch := children_setStore hw1 hsr (if before then (w1.stores s).insertBefore ref k v
      else (w1.stores s).insertAfter ref k v)
  refine ⟨{ w1 with stores := upd w1.stores s (if before then (w1.stores s).insertBefore ref k v
      else (w1.stores s).insertAfter ref k v) }, ?_, ⟨hw1.setStore s hnd, fun p => ?_, hs.idxs,
      fun p => (hs.obj p).index, fun p => (hs.obj p).cls, fun p => (hs.obj p).uuid, hs.nidx, hs.nobj, hs.nuuid⟩,
    hs.loc⟩
  · unfold storageInsert
    simp only [M.bind_apply, hr, M.getW_apply]
    rw [hb, if_pos hod, if_pos (show (w1.stores s).has ref = true by rw [hc]; exact (Od.has_iff ..).mpr href),
      if_neg (show ¬ (w1.stores s).has k = true by rw [hc]; exact fun h => hk ((Od.has_iff ..).mp h))]
    rfl
  · rw [hch]
    simp only [chInsert]
    split
    · rw [hc]
    · exact hs.children p

/-- The insertion and the assignment that follows. -/
theorem insertAt_ref {before : Bool} {o c ref : Oid} {w : World} {si vi : Ref} (hw : WF w)
    (hco : RefClass (clsOf E w o)) (hcc : RefClass (clsOf E w c)) (hk : KeyFor (clsOf E w o) (w.loc c).1)
    (hod : storageKind (clsOf E w o).bhvs = some .odictStorage)
    (hs : (w.objs o).index = some si) (hv : (w.objs c).index = some vi)
    (hd : ∀ u ∈ (w.idxs si).keys, u ∉ (w.idxs vi).keys) (hval : validateInsertion E o c w = (.ok (), w))
    (href : (w.loc ref).1 ∈ (w.children o).keys) (hnew : (w.loc c).1 ∉ (w.children o).keys) :
    ∃ w' ch, insertAt E before o c ref w = (.ok (), w') ∧
      Shift ch (upd w.idxs si ((w.idxs si).update (w.idxs vi)))
        (upd (fun p => (w.objs p).index) c (some si)) w w' ∧
      ∀ p j, (w'.children p).get? j = (chSet w o (w.loc c).1 (.node c) p).get? j := by
  obtain ⟨w1, e1, e2, e3⟩ := storageInsert_shift (before := before) (v := .node c) hw hco.concrete.stores hod href hnew
  obtain ⟨w2, f1, f2⟩ := setitem_ref (k := (w.loc c).1) (o := o) (c := c) (si := si) (vi := vi) e2.wf
    (by rw [e2.clsOf]; exact hco) (by rw [e2.clsOf]; exact hcc) (by rw [e2.clsOf]; exact hk)
    ((e2.index o).trans hs) ((e2.index c).trans hv) (by rw [e2.idxs]; exact hd)
  refine ⟨w2, chSet w1 o (w.loc c).1 (.node c), ?_, ⟨f2.wf, f2.children, by rw [f2.idxs, e2.idxs], fun p => ?_,
    fun p => (f2.cls p).trans (e2.cls p), fun p => (f2.uuid p).trans (e2.uuid p), f2.nidx.trans e2.nidx,
    f2.nobj.trans e2.nobj, f2.nuuid.trans e2.nuuid⟩, fun p j => ?_⟩
  · simp only [insertAt, M.bind_apply, hval, M.getW_apply]
    have : storageInsert E before o (w.objs ref).name (w.objs c).name (.node c) w = (.ok (), w1) := e1
    rw [this]
    exact f1
  · rw [f2.index]
    simp only [upd]
    split
    · rfl
    · exact e2.index p
  · rw [f2.children]
    simp only [chSet, e2.children, chInsert, if_true]
    split
    · rw [Od.get?_set, Od.get?_set]
      split
      · rfl
      · rename_i hj
        cases before
        · exact (Od.get?_insertAfter _ href hnew j).trans (if_neg hj)
        · exact (Od.get?_insertBefore _ href hnew j).trans (if_neg hj)
    · rfl

/-- Whatever only changes the order of children keeps the forest. -/
theorem Forest.reorder {w w' : World} {Rs : List Oid} (hf : Forest E w Rs) {ch : Oid → Od Key Val}
    (h : Shift ch w.idxs (fun p => (w.objs p).index) w w')
    (hch : ∀ p j, (w'.children p).get? j = (w.children p).get? j) : Forest E w' Rs := by
  have hcon : ∀ p k c, Contains w' p k c ↔ Contains w p k c := fun p k c => by
    show (w'.children p).get? k = _ ↔ (w.children p).get? k = _
    rw [hch]
  have hin : ∀ {a x}, InTree w' a x ↔ InTree w a x := InTree.congr hcon
  have hsole : Sole w' := fun p k p' k' c h1 h2 =>
    hf.sole p k p' k' c ((hcon _ _ _).mp h1) ((hcon _ _ _).mp h2)
  have hb : ∀ p k c, Contains w' p k c → c < w'.nobj := fun p k c hc => by
    rw [h.nobj]; exact hf.bounds p k c ((hcon _ _ _).mp hc)
  refine ⟨h.wf, by rw [h.nuuid]; exact hf.pos, hsole, hb, hf.nodup, fun R hR => ?_,
    fun R hR R' hR' e => hf.apart R hR R' hR' (by rw [← h.index R, ← h.index R', e]),
    fun R hR R' hR' x y u hx hy h1 h2 => hf.inj R hR R' hR' x y u (hin.mp hx) (hin.mp hy)
      ((h.uuid x).symm.trans h1) ((h.uuid y).symm.trans h2)⟩
  obtain ⟨r, hr⟩ := hf.live R hR
  refine ⟨r, ⟨hsole, fun p k hc => hr.tree.top p k ((hcon _ _ _).mp hc), by rw [h.nobj]; exact hr.tree.bound, hb,
    fun x hx => by rw [h.clsOf]; exact hr.tree.cls x (hin.mp hx), fun x hx k hk => ?_, fun x hx => ?_,
    fun x y u hx hy h1 h2 => hr.tree.inj x y u (hin.mp hx) (hin.mp hy) ((h.uuid x).symm.trans h1)
      ((h.uuid y).symm.trans h2)⟩, fun x hx => (h.index x).trans (hr.shared x (hin.mp hx)), fun v x => ?_,
    fun x u hx hu => hr.real x u (hin.mp hx) ((h.uuid x).symm.trans hu)⟩
  · rw [h.clsOf]
    refine hr.tree.keys x (hin.mp hx) k ?_
    rwa [← Od.get?_isSome_iff, ← hch, Od.get?_isSome_iff]
  · obtain ⟨u, hu⟩ := hr.tree.uuid x (hin.mp hx)
    exact ⟨u, (h.uuid x).trans hu⟩
  · rw [h.idxs, hr.exact]
    simp only [HasUuid, h.uuid, hin]

/-- Swapping keeps the forest, whatever it answers. -/
theorem Forest.swap {w : World} {Rs : List Oid} (hf : Forest E w Rs) (o a b : Oid) :
    Forest E (swapNodes E o a b w).2 Rs := by
  have hq := storageRef_quiet E o w hf.wf
  unfold swapNodes
  simp only [M.bind_apply]
  rcases hr : storageRef E o w with ⟨e | r, w1⟩
  · rw [hr] at hq
    exact hf.calm (Rd.calm ⟨hq.1, hq.2⟩)
  · rw [hr] at hq
    have hf1 : Forest E w1 Rs := hf.calm (Rd.calm ⟨hq.1, hq.2⟩)
    have hsr := storageRef_ok hr
    simp only [M.getW_apply]
    split
    · split
      · exact hf1
      · split
        · rename_i h1
          split
          · rename_i h2
            have ha := (Od.has_iff ..).mp h1
            have hb := (Od.has_iff ..).mp h2
            have hch := children_setStore hf1.wf hsr ((w1.stores r).swap (w1.objs a).name (w1.objs b).name)
            refine hf1.reorder ⟨hf1.wf.setStore r (Od.nodup_swap (hf1.wf.sNd r) _ _), hch, rfl, fun _ => rfl,
              fun _ => rfl, fun _ => rfl, rfl, rfl, rfl⟩ fun p j => ?_
            refine (congrArg (Od.get? · j) (hch p)).trans ?_
            split
            · rename_i hp
              subst hp
              rw [Od.get?_swap (hf1.wf.sNd r), children_eq hsr]
            · rfl
          · exact hf1
        · exact hf1
    · exact hf1

/-- The root of another tree, if it is named, is accepted for insertion. -/
theorem Forest.validInsertion {w : World} {Rs : List Oid} (hf : Forest E w Rs) {R o N : Oid}
    (hR : R ∈ Rs) (ho : InTree w R o) (hN : N ∈ Rs) (hNR : N ≠ R) (hname : (w.loc N).1 ≠ .none) :
    validateInsertion E o N w = (.ok (), w) := by
  obtain ⟨r, hr⟩ := hf.live R hR
  obtain ⟨n, hn⟩ := hf.live N hN
  obtain ⟨u, hu⟩ := hn.tree.uuid N (.refl N)
  have hg : (w.idxs r).get? (some u) = none := by
    cases hg : (w.idxs r).get? (some u) with
    | none => rfl
    | some x =>
      obtain ⟨v, e, hx, hxu⟩ := (hr.exact _ _).mp hg
      cases e
      have := hf.inj R hR N hN x N u hx (.refl N) hxu hu
      subst this
      exact absurd (hf.disjoint hN hR (.refl x) hx) hNR
  have h1 : (bhvsOf E w o).contains .reference = true := (hr.tree.cls o ho).contains
  have h2 : (bhvsOf E w N).contains .reference = true := (hn.tree.cls N (.refl N)).contains
  have hu' : (w.objs N).uuid = some u := hu
  unfold validateInsertion
  simp only [M.bind_apply, M.getW_apply]
  rw [if_neg (show ¬ (w.objs N).name = .none from hname), h1, h2]
  simp only [if_true, Bool.true_or, hu', M.bind_apply, indexRef, hr.shared o ho, hg, Option.isSome_none]
  rfl

theorem Forest.insertsRoot {w : World} {Rs : List Oid} (hf : Forest E w Rs) {R o N ref : Oid} {before : Bool}
    (hR : R ∈ Rs) (ho : InTree w R o) (hN : N ∈ Rs) (hNR : N ≠ R)
    (hod : storageKind (clsOf E w o).bhvs = some .odictStorage) (hname : (w.loc N).1 ≠ .none)
    (hk : (w.loc N).1 ∉ (w.children o).keys) (hkf : KeyFor (clsOf E w o) (w.loc N).1)
    (href : (w.loc ref).1 ∈ (w.children o).keys) : ∃ w', insertAt E before o N ref w = (.ok (), w') := by
  obtain ⟨r, hr⟩ := hf.live R hR
  obtain ⟨n, hn⟩ := hf.live N hN
  obtain ⟨w', ch, e1, -⟩ := insertAt_ref (before := before) (ref := ref) hf.wf (hr.tree.cls o ho)
    (hn.tree.cls N (.refl N)) hkf hod (hr.shared o ho) (hn.shared N (.refl N)) (hf.apartKeys hR hN hNR hr hn)
    (hf.validInsertion hR ho hN hNR hname) href hk
  exact ⟨w', e1⟩

/-- Inserting a new leaf keeps the forest; it succeeds if it is named and the reference node's name is a key. -/
theorem Forest.insertLeaf {w : World} {Rs : List Oid} (hf : Forest E w Rs) {R o N ref : Oid} {before : Bool}
    (hR : R ∈ Rs) (ho : InTree w R o) (hN : N ∈ Rs) (hNR : N ≠ R) (hleaf : ∀ j c, ¬ Contains w N j c)
    (hod : storageKind (clsOf E w o).bhvs = some .odictStorage) (hname : (w.loc N).1 ≠ .none)
    (hk : (w.loc N).1 ∉ (w.children o).keys) (hkf : KeyFor (clsOf E w o) (w.loc N).1)
    (href : (w.loc ref).1 ∈ (w.children o).keys) :
    ∃ w', insertAt E before o N ref w = (.ok (), w') ∧ Forest E w' (Rs.filter (· ≠ N)) := by
  obtain ⟨r, hr⟩ := hf.live R hR
  obtain ⟨n, hn⟩ := hf.live N hN
  obtain ⟨w', ch, e1, e2, e3⟩ := insertAt_ref (before := before) (ref := ref) hf.wf (hr.tree.cls o ho)
    (hn.tree.cls N (.refl N)) hkf hod (hr.shared o ho) (hn.shared N (.refl N)) (hf.apartKeys hR hN hNR hr hn)
    (hf.validInsertion hR ho hN hNR hname) href hk
  exact ⟨w', e1, hf.leafShift hR ho hN hNR hleaf hk hkf hr hn e2 e3⟩

/-- Inserting the root of another tree either changes nothing or meets all conditions. -/
theorem Forest.insertRoot {w : World} {Rs : List Oid} (hf : Forest E w Rs) {R o N ref : Oid} {before : Bool}
    (hR : R ∈ Rs) (ho : InTree w R o) (hN : N ∈ Rs) (hNR : N ≠ R) (hkf : KeyFor (clsOf E w o) (w.loc N).1) :
    (∃ e w', insertAt E before o N ref w = (.error e, w') ∧ Rd w w') ∨
    (storageKind (clsOf E w o).bhvs = some .odictStorage ∧ (w.loc N).1 ≠ .none ∧
      (w.loc N).1 ∉ (w.children o).keys ∧ (w.loc ref).1 ∈ (w.children o).keys) := by
  obtain ⟨r, hr⟩ := hf.live R hR
  have hi := storageInsert_out E before o (w.objs ref).name (w.objs N).name (.node N) hf.wf
  rcases insertAt_cases E before o N ref w with ⟨e, he, -⟩ | ⟨e, w1, -, hs, he⟩ | ⟨w1, hv, hs, -⟩
  · exact .inl ⟨e, w, he, .refl hf.wf⟩
  · rw [hs] at hi
    obtain ⟨a, b⟩ := hi.2 e rfl hf.wf
    exact .inl ⟨e, w1, he, a, b⟩
  · rw [hs] at hi
    have hi := hi.1 rfl
    refine .inr ⟨?_, fun h => ?_, hi.isNew, hi.hasRef⟩
    · obtain ⟨s, w2, hr2⟩ := (hr.tree.cls o ho).concrete.stores.storageRef (E := E) (o := o) (w := w)
      have hq := storageRef_quiet E o w hf.wf
      rw [hr2] at hq
      have hb : bhvsOf E w2 o = (clsOf E w o).bhvs :=
        congrArg ClassDef.bhvs (congrArg E.cls (hq.2.obj o).cls)
      unfold storageInsert at hs
      simp only [M.bind_apply, hr2, M.getW_apply] at hs
      rw [hb] at hs
      split at hs
      · assumption
      · cases hs
    · unfold validateInsertion at hv
      simp only [M.bind_apply, M.getW_apply] at hv
      rw [if_pos (show (w.objs N).name = .none from h)] at hv
      cases hv

/-- A node of the tree is not inserted again, and nothing changes. -/
theorem Forest.insertSame {w : World} {Rs : List Oid} (hf : Forest E w Rs) {R o n : Oid}
    (hR : R ∈ Rs) (ho : InTree w R o) (hn : InTree w R n) :
    ∃ e, validateInsertion E o n w = (.error e, w) := by
  obtain ⟨r, hr⟩ := hf.live R hR
  have hid := validateInsertion_id E o n w
  rcases hx : validateInsertion E o n w with ⟨e | u, w'⟩
  · rw [hx] at hid
    exact ⟨e, by rw [show w' = w from hid]⟩
  · exfalso
    obtain ⟨u, hu⟩ := hr.tree.uuid n hn
    have hg := (hr.exact (some u) n).mpr ⟨u, rfl, hn, hu⟩
    have hu' : (w.objs n).uuid = some u := hu
    have h1 : (bhvsOf E w o).contains .reference = true := (hr.tree.cls o ho).contains
    have h2 : (bhvsOf E w n).contains .reference = true := (hr.tree.cls n hn).contains
    unfold validateInsertion at hx
    simp only [M.bind_apply, M.getW_apply] at hx
    by_cases hname : (w.objs n).name = .none
    · rw [if_pos hname] at hx
      cases hx
    · rw [if_neg hname, h1, h2] at hx
      simp only [if_true, Bool.true_or, hu', M.bind_apply, indexRef, hr.shared o ho, hg, Option.isSome_some] at hx
      cases hx

/-- What inserting the leaf `N` at whatever position of `o` does to the forest. -/
theorem Forest.insertAny {w w' : World} {Rs : List Oid} (hf : Forest E w Rs) {R o N ref : Oid} {before : Bool}
    {x : Except Exc Unit} (hR : R ∈ Rs) (ho : InTree w R o) (hN : N ∈ Rs) (hNR : N ≠ R)
    (hleaf : ∀ j c, ¬ Contains w N j c) (hkf : KeyFor (clsOf E w o) (w.loc N).1)
    (e : insertAt E before o N ref w = (x, w')) :
    (x = .ok () ∧ Forest E w' (Rs.filter (· ≠ N))) ∨ (∃ a, x = .error a) ∧ Rd w w' := by
  rcases hf.insertRoot (before := before) (ref := ref) hR ho hN hNR hkf with ⟨a, w1, e1, e2⟩ | ⟨h1, h2, h3, h4⟩
  · cases e.symm.trans e1
    exact .inr ⟨⟨a, rfl⟩, e2⟩
  · obtain ⟨w1, e1, e2⟩ := hf.insertLeaf (before := before) (ref := ref) hR ho hN hNR hleaf h1 h2 h3 hkf h4
    cases e.symm.trans e1
    exact .inl ⟨rfl, e2⟩

/-- The same for `insertfirst` and `insertlast`. -/
theorem Forest.insertEnds {w w' : World} {Rs : List Oid} (hf : Forest E w Rs) {R o N : Oid} {first : Bool}
    {x : Except Exc Unit} (hR : R ∈ Rs) (ho : InTree w R o) (hN : N ∈ Rs) (hNR : N ≠ R)
    (hleaf : ∀ j c, ¬ Contains w N j c) (hkf : KeyFor (clsOf E w o) (w.loc N).1)
    (e : insertEnd E first o N w = (x, w')) :
    (x = .ok () ∧ Forest E w' (Rs.filter (· ≠ N))) ∨ (∃ a, x = .error a) ∧ Rd w w' := by
  obtain ⟨r, hr⟩ := hf.live R hR
  obtain ⟨w1, h1, h2⟩ := iter_ref hf.wf (hr.tree.cls o ho)
  have hks : mkeys E o w = (.ok (w.children o).keys, w1) := by
    simp only [mkeys, M.bind_apply, h1, endIter, M.pure_apply]
  have step : ∀ {w2 : World}, Rd w w2 → Forest E w2 Rs ∧ InTree w2 R o ∧ (∀ j c, ¬ Contains w2 N j c) ∧
      KeyFor (clsOf E w2 o) (w2.loc N).1 := fun {w2} h => by
    refine ⟨hf.calm h.calm, h.calm.inTree.mpr ho, fun j c hc => hleaf j c ((h.contains _ _ _).mp hc), ?_⟩
    rw [h.calm.clsOf, show w2.loc N = w.loc N from h.same.loc N]
    exact hkf
  unfold insertEnd at e
  simp only [M.bind_apply, hks] at e
  rcases hd : (if first = true then (w.children o).keys.head? else (w.children o).keys.getLast?) with _ | k
  · rw [hd] at e
    simp only [M.bind_apply, M.getW_apply] at e
    obtain ⟨a, b, c, d⟩ := step h2
    have h0 : (w.children o).keys = [] := by cases first <;> simpa using hd
    obtain ⟨w2, f1, f2, -⟩ := a.setLeaf hR b hN hNR c (k := (w1.loc N).1)
      (by rw [h2.same.children, h0]; exact List.not_mem_nil) d
    cases e.symm.trans f1
    exact .inl ⟨rfl, f2⟩
  · rw [hd] at e
    have hm : k ∈ (w.children o).keys := by
      cases first
      · exact List.mem_of_getLast? (by simpa using hd)
      · exact List.mem_of_mem_head? (by simpa using hd)
    obtain ⟨a, b, -, -⟩ := step h2
    obtain ⟨r1, hr1⟩ := a.live R hR
    obtain ⟨w2, g1, g2⟩ := getitem_ref (k := k) a.wf (hr1.tree.cls o b)
      (hr1.tree.keys o b k (by rw [h2.same.children]; exact hm))
    obtain ⟨v, hv⟩ := Od.get?_of_mem_keys hm
    rw [h2.same.children] at g1
    simp only [lookup, hv] at g1
    simp only [M.bind_apply, g1] at e
    have h3 := h2.trans g2
    obtain ⟨a, b, c, d⟩ := step h3
    cases v with
    | node ref =>
      rcases a.insertAny hR b hN hNR c d e with h | ⟨h, h'⟩
      · exact .inl h
      · exact .inr ⟨h, h3.trans h'⟩
    | data d' =>
      right
      simp only [M.bind_apply] at e
      have hv := validateInsertion_id E o N w2
      rcases hz : validateInsertion E o N w2 with ⟨e' | u, w3⟩
      · rw [hz] at hv e
        cases e
        rw [show w' = w2 from hv]
        exact ⟨⟨_, rfl⟩, h3⟩
      · rw [hz] at hv e
        cases e
        rw [show w' = w2 from hv]
        exact ⟨⟨_, rfl⟩, h3⟩

end Verif
