import Verif.Lemmas.Remove
import Verif.Lemmas.DelOutcome
import Verif.Lemmas.Lookup

/-! `detach` around reading and deleting. -/

namespace Verif

variable {E : Env} {S : Oid → Prop}

/-- Nothing that can be seen through item access changed, on well-formed heaps. -/
structure Frame (w w' : World) : Prop where
  wf : WF w → WF w'
  children : WF w → ChSame w w'
  loc : WF w → LocSame w w'
  cls : WF w → ∀ p, (w'.objs p).cls = (w.objs p).cls
  nobj : WF w → w'.nobj = w.nobj

theorem frame_pre : PreR Frame :=
  ⟨fun w => ⟨id, fun _ => ChSame.refl w, fun _ => LocSame.refl w, fun _ _ => rfl, fun _ => rfl⟩,
   fun h h' => ⟨fun hw => h'.wf (h.wf hw), fun hw => (h.children hw).trans (h'.children (h.wf hw)),
    fun hw => (h.loc hw).trans (h'.loc (h.wf hw)),
    fun hw p => (h'.cls (h.wf hw) p).trans (h.cls hw p),
    fun hw => (h'.nobj (h.wf hw)).trans (h.nobj hw)⟩⟩

theorem Hidden.frame {w w' : World} (h : Hidden w w') : Frame w w' :=
  ⟨h.wf, fun _ => h.children, fun _ => h.loc, fun _ => h.cls, fun _ => h.nobj⟩

theorem frame_idle (hE : NoFactory E) : IdlePrims E Frame :=
  ⟨hE, frame_pre, fun _ _ h => ⟨fun hw => (h hw).1, fun hw => (h hw).2.children,
    fun hw => (h hw).2.loc, fun hw p => ((h hw).2.obj p).cls, fun hw => (h hw).2.nobj⟩,
    fun _ _ h => h.frame⟩

/-- `detach` is reading and deleting, after and before steps that cannot be seen; it
may fail in addition after the deletion (`Reference`). -/
theorem detachPipe_cases (bs : List Bhv) (hE : Bhv.reference ∈ bs → NoFactory E) (o : Oid) (k : Key) (w : World) :
    ∃ w1 x, Hidden w w1 ∧ detachEnd E o k w1 = x ∧ Frame x.2 (detachPipe E bs o k w).2 ∧
      (∀ v, (detachPipe E bs o k w).1 = .ok v → x.1 = .ok v) ∧
      (∀ e, x.1 = .error e → (detachPipe E bs o k w).1 = .error e) ∧
      (Bhv.reference ∉ bs → (detachPipe E bs o k w).1 = x.1) := by
  induction bs generalizing w with
  | nil => exact ⟨w, _, hidden_pre.refl w, rfl, frame_pre.refl _, fun _ => id, fun _ => id, fun _ => rfl⟩
  | cons b r ih =>
    replace ih := ih fun h => hE (List.mem_cons_of_mem _ h)
    cases b
    case reference =>
      have hid := frame_idle (hE List.mem_cons_self)
      obtain ⟨w1, x, h1, h2, h3, h4, h5, -⟩ := ih w
      refine ⟨w1, x, h1, h2, ?_, ?_, ?_, fun h => absurd List.mem_cons_self h⟩ <;>
        simp only [detachPipe, M.bind_apply]
      · revert h3
        generalize detachPipe E r o k w = y
        intro h3
        rcases y with ⟨e | v, w2⟩
        · exact h3
        · have := hid.referenceDetach v w2
          generalize hz : referenceDetach E v w2 = z at this
          rcases z with ⟨e | _, w3⟩ <;> simp only [hz] <;> exact frame_pre.trans h3 this
      · revert h4
        generalize detachPipe E r o k w = y
        intro h4
        rcases y with ⟨e | v, w2⟩
        · intro v hv; cases hv
        · intro v' hv
          simp only at hv
          generalize referenceDetach E v w2 = z at hv
          rcases z with ⟨e | _, w3⟩
          · cases hv
          · simp only [M.pure_apply] at hv; rw [← hv]; exact h4 v rfl
      · intro e he
        have := h5 e he
        revert this
        generalize detachPipe E r o k w = y
        intro this
        rcases y with ⟨e' | v, w2⟩
        · exact this
        · cases this
    case lifecycle =>
      obtain ⟨w1, x, h1, h2, h3, h4, h5, h6⟩ := ih (modO o (fun ob => { ob with suppress := true }) w).2
      have hh : Hidden w (modO o (fun ob => { ob with suppress := true }) w).2 :=
        hidden_modO o (fun ob => { ob with suppress := true }) (fun _ => rfl) (fun _ => rfl) (fun _ => rfl) (fun _ => rfl)
          (fun _ => rfl) (fun _ => rfl) (fun _ => rfl) (fun _ => rfl) w
      refine ⟨w1, x, hidden_pre.trans hh h1, h2, ?_, ?_, ?_, ?_⟩ <;>
        simp only [detachPipe, M.bind_apply, modO_apply] at h3 h4 h5 h6 ⊢
      · revert h3
        generalize detachPipe E r o k _ = y
        intro h3
        rcases y with ⟨e | v, w2⟩
        · exact h3
        · simp only [notify, M.modifyW_apply, M.pure_apply]
          refine frame_pre.trans h3 ?_
          refine frame_pre.trans (hidden_modO o (fun ob => { ob with suppress := false }) (fun _ => rfl) (fun _ => rfl)
            (fun _ => rfl) (fun _ => rfl) (fun _ => rfl) (fun _ => rfl) (fun _ => rfl) (fun _ => rfl) w2).frame ?_
          exact (hidden_notify (.detached v o k) _).frame
      · revert h4
        generalize detachPipe E r o k _ = y
        intro h4
        rcases y with ⟨e | v, w2⟩
        · intro v hv; cases hv
        · intro v' hv
          simp only [notify, M.modifyW_apply, M.pure_apply] at hv
          rw [← hv]; exact h4 v rfl
      · intro e he
        have := h5 e he
        revert this
        generalize detachPipe E r o k _ = y
        intro this
        rcases y with ⟨e' | v, w2⟩
        · exact this
        · cases this
      · intro hr
        have := h6 fun h => hr (List.mem_cons_of_mem _ h)
        rw [← this]
        generalize detachPipe E r o k _ = y
        rcases y with ⟨e | v, w2⟩
        · rfl
        · simp only [notify, M.modifyW_apply, M.pure_apply]
    all_goals
      obtain ⟨w1, x, h1, h2, h3, h4, h5, h6⟩ := ih w
      exact ⟨w1, x, h1, h2, h3, h4, h5, fun h => h6 fun h' => h (List.mem_cons_of_mem _ h')⟩

/-- Detaching from nodes of the class reads only what is there. -/
structure DetachReads (E : Env) (c : ClassDef) : Prop where
  item : NoFactory E ∨ Bhv.childFactory ∉ c.bhvs ∧ Bhv.fallback ∉ c.bhvs
  reference : Bhv.reference ∈ c.bhvs → NoFactory E

theorem DetachReads.del {c : ClassDef} (h : DetachReads E c) : DelReads E c := ⟨h.reference, fun _ => h.item⟩

theorem NoFactory.detachReads (h : NoFactory E) (c : ClassDef) : DetachReads E c := ⟨.inl h, fun _ => h⟩

theorem DetachReads.noFactory {c : ClassDef} {n : ClassId} (h : DetachReads E c) (hc : c = E.cls n) :
    Bhv.childFactory ∉ c.bhvs :=
  h.item.elim (fun h => hc ▸ h n) (·.1)

end Verif
