import Verif.Lemmas.NewNode

/-! Insertion into the storage at a position. -/

namespace Verif

/-- What `storage.insertbefore` / `insertafter` did. -/
structure Inserted (before : Bool) (o : Oid) (ref new : Key) (v : Val) (w w' : World) : Prop where
  wf : WF w'
  loc : LocSame w w'
  cls : ∀ p, (w'.objs p).cls = (w.objs p).cls
  nobj : w'.nobj = w.nobj
  hasRef : ref ∈ (w.children o).keys
  isNew : new ∉ (w.children o).keys
  here : w'.children o = if before then (w.children o).insertBefore ref new v
    else (w.children o).insertAfter ref new v
  other : ∀ p, p ≠ o → w'.children p = w.children p

theorem storageInsert_out (E : Env) (before : Bool) (o : Oid) (ref new : Key) (v : Val) {w : World}
    (hw : WF w) :
    ((storageInsert E before o ref new v w).1 = .ok () →
      Inserted before o ref new v w (storageInsert E before o ref new v w).2) ∧
    (∀ e, (storageInsert E before o ref new v w).1 = .error e →
      Quiet w (storageInsert E before o ref new v w).2) := by
  have hq := storageRef_quiet E o w
  unfold storageInsert
  simp only [M.bind_apply]
  rcases hr : storageRef E o w with ⟨e | r, w1⟩
  · rw [hr] at hq
    exact ⟨fun h => (nomatch h), fun _ _ => hq⟩
  · rw [hr] at hq
    obtain ⟨hw1, hs⟩ := hq hw
    have hsr := storageRef_ok hr
    have hc : w.children o = w1.stores r := (hs.children o).symm.trans (children_eq hsr)
    simp only [M.getW_apply]
    split
    · split
      · rename_i h1
        have href : ref ∈ (w1.stores r).keys := (Od.has_iff ..).mp h1
        split
        · exact ⟨fun h => (nomatch h), fun _ _ => hq⟩
        · rename_i h2
          have hnew : new ∉ (w1.stores r).keys := by rw [← Od.has_iff]; exact h2
          refine ⟨fun _ => ?_, fun e h => nomatch h⟩
          have hnd : (if before then (w1.stores r).insertBefore ref new v
              else (w1.stores r).insertAfter ref new v).keys.Nodup := by
            split
            · exact Od.nodup_insertBefore (hw1.sNd r) hnew ref v
            · exact Od.nodup_insertAfter (hw1.sNd r) hnew ref v
          have hch := children_setStore hw1 hsr (if before then (w1.stores r).insertBefore ref new v
              else (w1.stores r).insertAfter ref new v)
          refine ⟨hw1.setStore r hnd, hs.loc, fun p => (hs.obj p).cls, hs.nobj, hc ▸ href, hc ▸ hnew,
            ?_, fun p hp => ?_⟩
          · rw [hc]; exact (hch o).trans (if_pos rfl)
          · exact (hch p).trans ((if_neg hp).trans (hs.children p))
      · exact ⟨fun h => (nomatch h), fun _ _ => hq⟩
    · exact ⟨fun h => (nomatch h), fun _ _ => hq⟩

theorem Inserted.get? {before : Bool} {o : Oid} {ref new : Key} {v : Val} {w w' : World}
    (h : Inserted before o ref new v w w') (j : Key) :
    (w'.children o).get? j = if j = new then some v else (w.children o).get? j := by
  rw [h.here]
  cases before
  · exact Od.get?_insertAfter v h.hasRef h.isNew j
  · exact Od.get?_insertBefore v h.hasRef h.isNew j

theorem validateInsertion_id (E : Env) (o n : Oid) (w : World) :
    (validateInsertion E o n w).2 = w := by
  have := (pres_bind (R := fun w w' => w' = w) ⟨fun _ => rfl, fun a b => b.trans a⟩
    (pres_getW ⟨fun _ => rfl, fun a b => b.trans a⟩) (f := fun w => _) (fun w => ?_) : Pres _ (validateInsertion E o n))
  · exact this w
  · have hR : PreR (fun w w' : World => w' = w) := ⟨fun _ => rfl, fun a b => b.trans a⟩
    refine pres_ite hR (pres_raise hR _) ?_
    refine pres_ite hR ?_ (pres_ite hR (pres_raise hR _) (pres_pure hR _))
    refine pres_ite hR ?_ (pres_raise hR _)
    split
    · exact pres_raise hR _
    · refine pres_bind hR (indexRef_id _) fun i => ?_
      exact pres_ite hR (pres_raise hR _) (pres_pure hR _)

/-- The three stages of `insertbefore` / `insertafter`. -/
theorem insertAt_cases (E : Env) (before : Bool) (o n ref : Oid) (w : World) :
    (∃ e, insertAt E before o n ref w = (.error e, w) ∧ (validateInsertion E o n w).1 = .error e) ∨
    (∃ e w1, (validateInsertion E o n w).1 = .ok () ∧
      storageInsert E before o (w.objs ref).name (w.objs n).name (.node n) w = (.error e, w1) ∧
      insertAt E before o n ref w = (.error e, w1)) ∨
    (∃ w1, (validateInsertion E o n w).1 = .ok () ∧
      storageInsert E before o (w.objs ref).name (w.objs n).name (.node n) w = (.ok (), w1) ∧
      insertAt E before o n ref w = setitem E o (w.objs n).name (.node n) w1) := by
  have hv := validateInsertion_id E o n w
  unfold insertAt
  simp only [M.bind_apply]
  rcases hx : validateInsertion E o n w with ⟨e | u, w0⟩
  · rw [hx] at hv; simp only at hv; subst hv
    exact .inl ⟨e, rfl, rfl⟩
  · rw [hx] at hv; simp only at hv; subst hv
    simp only [M.getW_apply]
    rcases hy : storageInsert E before o (w0.objs ref).name (w0.objs n).name (.node n) w0 with ⟨e | u, w1⟩
    · exact .inr (.inl ⟨e, w1, trivial, rfl, rfl⟩)
    · exact .inr (.inr ⟨w1, trivial, rfl, rfl⟩)

/-- `insertfirst` / `insertlast` read and then assign or insert. -/
theorem insertEnd_cases {E : Env} (hE : NoFactory E) (first : Bool) (o n : Oid) {w : World}
    (hw : WF w) : ∃ w1, WF w1 ∧ Same w w1 ∧
    ((∃ e, insertEnd E first o n w = (.error e, w1)) ∨
     (insertEnd E first o n w = setitem E o (w.objs n).name (.node n) w1) ∨
     (∃ ref, insertEnd E first o n w = insertAt E first o n ref w1)) := by
  have hk := mkeys_quiet E o w
  unfold insertEnd
  simp only [M.bind_apply]
  rcases hx : mkeys E o w with ⟨e | ks, w1⟩
  · rw [hx] at hk; obtain ⟨a, b⟩ := hk hw
    exact ⟨w1, a, b, .inl ⟨e, rfl⟩⟩
  · rw [hx] at hk; obtain ⟨a, b⟩ := hk hw
    simp only
    generalize (if first = true then ks.head? else ks.getLast?) = hd
    cases hd with
    | none =>
      refine ⟨w1, a, b, .inr (.inl ?_)⟩
      simp only [M.bind_apply, M.getW_apply]
      rw [(b.obj n).name]
    | some k =>
      simp only [M.bind_apply]
      have hg := getitem_quiet hE o k w1
      rcases hy : getitem E o k w1 with ⟨e | v, w2⟩
      · rw [hy] at hg; obtain ⟨a', b'⟩ := hg a
        exact ⟨w2, a', b.trans b', .inl ⟨e, rfl⟩⟩
      · rw [hy] at hg; obtain ⟨a', b'⟩ := hg a
        refine ⟨w2, a', b.trans b', ?_⟩
        cases v with
        | node r => exact .inr (.inr ⟨r, rfl⟩)
        | data d =>
          left
          have hv := validateInsertion_id E o n w2
          simp only [M.bind_apply]
          rcases hz : validateInsertion E o n w2 with ⟨e | u, w3⟩
          · rw [hz] at hv; simp only at hv; subst hv; exact ⟨e, rfl⟩
          · rw [hz] at hv; simp only at hv; subst hv; exact ⟨_, rfl⟩

end Verif
