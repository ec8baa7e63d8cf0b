import Verif.Lemmas.RefDetach
import Verif.Model.Index

/-! Refused and repeated additions to `Reference` trees, and merging of trees. -/

namespace Verif

variable {E : Env}

/-- After adding a subtree. -/
theorem InTree.grafted {w w' : World} {o n : Oid} {k : Key}
    (h : ∀ p j c, Contains w' p j c ↔ Contains w p j c ∨ p = o ∧ j = k ∧ c = n)
    (hon : ¬ InTree w n o) {a x : Oid} :
    InTree w' a x ↔ InTree w a x ∨ InTree w n x ∧ InTree w a o := by
  constructor
  · intro hx
    refine hx.induct (P := fun x => InTree w a x ∨ InTree w n x ∧ InTree w a o) (.inl (.refl a))
      fun p j c _ hc ih => ?_
    rcases ih with ih | ⟨ih, ha⟩
    · rcases (h p j c).mp hc with hc | ⟨rfl, rfl, rfl⟩
      · exact .inl (ih.child hc)
      · exact .inr ⟨.refl c, ih⟩
    · rcases (h _ _ _).mp hc with hc | ⟨rfl, -⟩
      · exact .inr ⟨ih.child hc, ha⟩
      · exact (hon ih).elim
  · have mono : ∀ {a x}, InTree w a x → InTree w' a x := fun {a x} hx =>
      hx.induct (P := InTree w' a) (.refl a) fun p j c _ hc ih => ih.child ((h p j c).mpr (.inl hc))
    rintro (hx | ⟨hx, ho⟩)
    · exact mono hx
    · exact ((mono ho).child ((h _ _ _).mpr (.inr ⟨rfl, rfl, rfl⟩))).trans (mono hx)

theorem referenceCheck_leaf {o c : Oid} {w : World} (hw : WF w) (hc : RefClass (clsOf E w c))
    (hl : w.children c = []) : ∃ w', referenceCheck E o c w = (.ok (), w') ∧ Rd w w' := by
  obtain ⟨w1, h1, h2⟩ := iter_ref hw hc
  simp only [referenceCheck, M.bind_apply, h1, hl]
  exact ⟨w1, rfl, h2⟩

theorem referenceCheck_refuse {o c : Oid} {w : World} {si vi : Ref} {u : Option Nat} (hw : WF w)
    (hc : RefClass (clsOf E w c)) (hs : (w.objs o).index = some si) (hv : (w.objs c).index = some vi)
    (hne : w.children c ≠ []) (hu : u ∈ (w.idxs si).keys) (hu' : u ∈ (w.idxs vi).keys) :
    ∃ w', referenceCheck E o c w = (.error (.value "Node with uuid already exists"), w') ∧ Rd w w' := by
  obtain ⟨w1, h1, h2⟩ := iter_ref hw hc
  simp only [referenceCheck, M.bind_apply, h1]
  cases hk : (w.children c).keys with
  | nil =>
    refine absurd ?_ hne
    cases h : w.children c with
    | nil => rfl
    | cons a t => rw [h] at hk; cases hk
  | cons a t =>
    have e1 : (w1.objs o).index = some si := (h2.same.obj o).index.trans hs
    have e2 : (w1.objs c).index = some vi := (h2.same.obj c).index.trans hv
    have e3 : (((w1.idxs si).keys).any fun u => (w1.idxs vi).keys.contains u) = true := by
      rw [h2.same.idxs, List.any_eq_true]
      exact ⟨u, hu, by rw [List.contains_iff_mem]; exact hu'⟩
    simp only [M.bind_apply, indexRef, e1, e2, M.getW_apply, e3, if_true]
    exact ⟨w1, rfl, h2⟩

theorem Rd.loc {w w' : World} (h : Rd w w') (p : Oid) : w'.loc p = w.loc p := by
  simp only [World.loc, (h.same.obj p).name, (h.same.obj p).parent]

/-- A refusal by `Reference` leaves everything as it was. -/
theorem setPipe_refused {l r : List Bhv} {o : Oid} {k : Key} {c : Oid} {w0 w : World} {m : String}
    (h0 : Calm w0 w) (hc : RefClass (clsOf E w0 o)) (hk : KeyFor (clsOf E w0 o) k)
    (hsub : ∀ b ∈ l ++ .reference :: r, b ∈ (clsOf E w0 o).bhvs) (hl : Bhv.reference ∉ l)
    (hu : ∀ w1, Calm w0 w1 → ∃ w2, referenceCheck E o c w1 = (.error (.value m), w2) ∧ Rd w1 w2) :
    ∃ w', setPipe E (l ++ .reference :: r) o k (.node c) w = (.error (.value m), w') ∧
      Calm w w' ∧ ∀ p, w'.loc p = w.loc p := by
  have hcl : clsOf E w o = clsOf E w0 o := h0.clsOf o
  induction l generalizing w with
  | nil =>
    obtain ⟨w2, e1, e2⟩ := hu w h0
    simp only [List.nil_append, setPipe, referenceSet, M.bind_apply, e1]
    exact ⟨w2, rfl, e2.calm, e2.loc⟩
  | cons b l ih =>
    have ih' : ∀ {w1}, Calm w0 w1 → _ := fun {w1} h1 => ih h1
      (fun b hb => hsub b (List.mem_cons_of_mem _ hb)) (fun h => hl (List.mem_cons_of_mem _ h))
      (h1.clsOf o)
    have hb := hsub b List.mem_cons_self
    have base := ih' h0
    rw [List.cons_append]
    cases b
    case nodeChildValidate =>
      simp only [setPipe]
      rw [validateSet_ok (by rw [hcl]; exact hb) (by rw [hcl]; rfl)]
      exact base
    case nodespaces =>
      obtain ⟨s, rfl, hs⟩ := hk hb
      simp only [setPipe, nodespacesSet, not_reserved hs, Bool.false_eq_true, if_false]
      exact base
    case adopt =>
      have h1 := calm_name c k h0.wf
      have h3 : Calm w _ := h1.then (calm_parent c (some o) h1.wf)
      obtain ⟨w2, e1, e2, e3⟩ := ih' (h0.trans h3)
      have h4 := calm_name c (w.objs c).name e2.wf
      have h5 := h4.then (calm_parent c (w.objs c).parent h4.wf)
      refine ⟨_, ?_, h3.trans (e2.trans h5), fun p => ?_⟩
      · simp only [setPipe, adoptSet, M.bind_apply, getO_apply, M.catchIf_apply]
        simp only [modO_apply] at e1 ⊢
        rw [e1]
        simp only [Exc.isAKV, if_true]
        rfl
      · have := e3 p
        simp only [World.loc, modO_apply, upd, Prod.mk.injEq] at this ⊢
        by_cases hp : p = c
        · simp [hp]
        · simp only [hp, if_false] at this ⊢
          exact this
    case lifecycle =>
      obtain ⟨w2, e1, e2⟩ := base
      simp only [setPipe, lifecycleSet, M.bind_apply, e1]
      exact ⟨w2, rfl, e2⟩
    all_goals first
      | exact base
      | exact absurd hb (hc.not (by decide))
      | exact absurd List.mem_cons_self hl

/-- A node that has children and whose index overlaps is refused. -/
theorem setitem_refused {w : World} {o c : Oid} {k : Key} {si vi : Ref} {u : Option Nat} (hw : WF w)
    (hco : RefClass (clsOf E w o)) (hcc : RefClass (clsOf E w c)) (hk : KeyFor (clsOf E w o) k)
    (hs : (w.objs o).index = some si) (hv : (w.objs c).index = some vi)
    (hne : w.children c ≠ []) (hu : u ∈ (w.idxs si).keys) (hu' : u ∈ (w.idxs vi).keys) :
    ∃ w', setitem E o k (.node c) w = (.error (.value "Node with uuid already exists"), w') ∧
      Calm w w' ∧ ∀ p, w'.loc p = w.loc p := by
  obtain ⟨l, q, e, hl, hq⟩ := hco.once
  obtain ⟨w', e1, e2⟩ := setPipe_refused (l := l) (r := q) (k := k) (c := c) (.refl hw) hco hk
    (by rw [← e]; exact fun _ h => h) hl (fun w1 h1 =>
      referenceCheck_refuse (u := u) h1.wf (by rw [h1.clsOf]; exact hcc) ((h1.index o).trans hs)
        ((h1.index c).trans hv) (by rw [h1.children]; exact hne) (by rw [h1.idxs]; exact hu)
        (by rw [h1.idxs]; exact hu'))
  rw [← e] at e1
  exact ⟨w', e1, e2⟩

/-- Setting a leaf whose index is the same one. -/
theorem setitem_same {w : World} {o c : Oid} {k : Key} {si : Ref} (hw : WF w)
    (hco : RefClass (clsOf E w o)) (hcc : RefClass (clsOf E w c)) (hk : KeyFor (clsOf E w o) k)
    (hs : (w.objs o).index = some si) (hv : (w.objs c).index = some si) (hl : w.children c = []) :
    ∃ w', setitem E o k (.node c) w = (.ok (), w') ∧
      Shift (chSet w o k (.node c)) (upd w.idxs si ((w.idxs si).update (w.idxs si)))
        (upd (fun p => (w.objs p).index) c (some si)) w w' := by
  obtain ⟨l, q, e, hl', hq⟩ := hco.once
  obtain ⟨w', e1, e2⟩ := setPipe_ref (l := l) (r := q) (k := k) (.refl hw) hco hk
    (by rw [← e]; exact fun _ h => h) hl' hq
    (ix := upd w.idxs si ((w.idxs si).update (w.idxs si)))
    (gi := upd (fun p => (w.objs p).index) c (some si)) (c := c) (fun w1 h1 => by
      obtain ⟨w2, f1, f2⟩ := referenceCheck_leaf (E := E) (o := o) (c := c) h1.wf
        (by rw [h1.clsOf]; exact hcc) (by rw [h1.children]; exact hl)
      have h2 : Calm w w2 := h1.trans f2.calm
      obtain ⟨w3, g1, g2⟩ := referenceMerge_ok (o := o) (c := c) f2.wf ((h2.index o).trans hs)
        ((h2.index c).trans hv)
      refine ⟨w2, w3, f1, g1, ?_⟩
      rw [h2.idxs, index_calm h2] at g2
      exact Shift.after h2 ⟨g2.wf, fun p => (g2.children p).trans (h2.children p), g2.idxs, g2.index, g2.cls, g2.uuid,
        g2.nidx, g2.nobj, g2.nuuid⟩)
  rw [← e] at e1
  exact ⟨w', e1, e2⟩

end Verif
