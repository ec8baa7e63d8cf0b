import Verif.Lemmas.Remove

/-! Assignment, with the revert of `Adopt` as one step. -/

namespace Verif

/-- `R` is respected by everything an assignment `o[..] = v` is made of; the
revert of `Adopt` goes back to what was read before. -/
structure SetSteps (E : Env) (R : World → World → Prop) (o : Oid) (v : Val) : Prop where
  pre : PreR R
  iter : ∀ c, v = .node c → Pres R (iter E c)
  setEnd : ∀ k, Pres R (setEnd E o k v)
  nsPut : ∀ k, Pres R (nsPut o k v)
  adopt : ∀ c k w, v = .node c → R w (modO c (fun ob => { ob with parent := some o })
    (modO c (fun ob => { ob with name := k }) w).2).2
  revert : ∀ c w w', v = .node c → R w w' →
    R w (modO c (fun ob => { ob with parent := (w.objs c).parent })
      (modO c (fun ob => { ob with name := (w.objs c).name }) w').2).2
  cacheDrop : ∀ k, Pres R (cacheDrop o k)
  merge : ∀ c, v = .node c → Pres R (referenceMerge o c)
  notify : ∀ e, Pres R (notify e)

theorem SetSteps.setPipe {E : Env} {R : World → World → Prop} {o : Oid} {v : Val}
    (h : SetSteps E R o v) (bs : List Bhv) (k : Key) : Pres R (setPipe E bs o k v) := by
  have hR := h.pre
  induction bs generalizing k with
  | nil => exact h.setEnd k
  | cons b r ih =>
    cases b
    case nodeChildValidate =>
      refine pres_bind hR (pres_getW hR) fun w => ?_
      exact pres_ite hR (pres_raise hR _) (pres_ite hR (pres_raise hR _) (ih k))
    case nodespaces =>
      show Pres R (nodespacesSet _ o k v)
      unfold nodespacesSet
      split
      · split
        · split
          · exact fun w => hR.trans (h.adopt _ _ w rfl) (h.nsPut _ _)
          · exact h.nsPut _
          · exact h.nsPut _
          · exact pres_raise hR _
        · exact ih _
      · exact pres_raise hR _
    case adopt =>
      show Pres R (adoptSet _ o k v)
      unfold adoptSet
      split
      · exact ih _
      · rename_i c
        intro w
        simp only [M.bind_apply, getO_apply, M.catchIf_apply]
        have h1 := hR.trans (h.adopt c k w rfl) (ih k _)
        simp only [modO_apply] at h1 ⊢
        revert h1
        generalize Verif.setPipe E r o k (.node c) _ = x
        intro h1
        rcases x with ⟨e | u, w3⟩
        · simp only
          split
          · exact h.revert c w w3 rfl h1
          · exact h1
        · exact h1
    case reference =>
      show Pres R (referenceSet E (Verif.setPipe E r o) o k v)
      cases v with
      | data d => exact ih k
      | node c =>
        refine pres_bind hR ?_ fun _ => pres_bind hR (h.merge c rfl) fun _ => ih k
        refine pres_bind hR (h.iter c rfl) fun it => ?_
        split
        · exact pres_pure hR _
        · exact pres_raise hR _
        · refine pres_bind hR (pres_of_id hR (indexRef_id _)) fun _ => ?_
          refine pres_bind hR (pres_of_id hR (indexRef_id _)) fun _ => ?_
          refine pres_bind hR (pres_getW hR) fun _ => ?_
          exact pres_ite hR (pres_raise hR _) (pres_pure hR _)
    case lifecycle =>
      refine pres_bind hR (ih k) fun _ => ?_
      refine pres_bind hR (pres_getO hR _) fun ob => ?_
      exact pres_ite hR (pres_pure hR _) (h.notify _)
    case attributesLifecycle =>
      exact pres_bind hR (ih k) fun _ => pres_notifyModified hR (fun _ => h.notify _) o
    case cache => exact pres_bind hR (h.cacheDrop k) fun _ => ih k
    case alias =>
      exact pres_bind hR (pres_of_id hR (unaliasKey_id E o k)) fun u =>
        pres_catchIf hR (ih u) fun _ => pres_raise hR _
    all_goals exact ih k

/-- Only the assigned node moves, and its parent is `o` or what it was. -/
structure Moves (o : Oid) (v : Val) (w w' : World) : Prop where
  cls : ∀ p, (w'.objs p).cls = (w.objs p).cls
  nobj : w'.nobj = w.nobj
  loc : ∀ p, v ≠ .node p → w'.loc p = w.loc p
  par : ∀ p, (w'.loc p).2 = (w.loc p).2 ∨ (w'.loc p).2 = some o

/-- From well-formed heaps. -/
def MovesR (o : Oid) (v : Val) (w w' : World) : Prop := WF w → WF w' ∧ Moves o v w w'

theorem Moves.refl (o : Oid) (v : Val) (w : World) : Moves o v w w :=
  ⟨fun _ => rfl, rfl, fun _ _ => rfl, fun _ => .inl rfl⟩

theorem Moves.trans {o : Oid} {v : Val} {a b c : World} (h : Moves o v a b) (h' : Moves o v b c) :
    Moves o v a c where
  cls p := (h'.cls p).trans (h.cls p)
  nobj := h'.nobj.trans h.nobj
  loc p hp := (h'.loc p hp).trans (h.loc p hp)
  par p := by
    rcases h'.par p with e | e
    · rw [e]; exact h.par p
    · exact .inr e

theorem moves_pre (o : Oid) (v : Val) : PreR (MovesR o v) :=
  ⟨fun w hw => ⟨hw, Moves.refl o v w⟩, fun h h' hw =>
    ⟨(h' (h hw).1).1, (h hw).2.trans (h' (h hw).1).2⟩⟩

theorem Moves.of_loc {o : Oid} {v : Val} {w w' : World}
    (hc : ∀ p, (w'.objs p).cls = (w.objs p).cls) (hn : w'.nobj = w.nobj) (h : LocSame w w') :
    Moves o v w w' := ⟨hc, hn, fun p _ => h p, fun p => .inl (by rw [h p])⟩

theorem moves_quiet {o : Oid} {v : Val} {w w' : World} (h : Quiet w w') : MovesR o v w w' :=
  fun hw => ⟨(h hw).1, .of_loc (fun p => ((h hw).2.obj p).cls) (h hw).2.nobj (h hw).2.loc⟩

theorem moves_hidden {o : Oid} {v : Val} {w w' : World} (h : Hidden w w') : MovesR o v w w' :=
  fun hw => ⟨h.wf hw, .of_loc h.cls h.nobj h.loc⟩

theorem moves_steps (E : Env) (o : Oid) (v : Val) : SetSteps E (MovesR o v) o v where
  pre := moves_pre o v
  iter c _ := fun w => moves_quiet (iter_quiet E c w)
  setEnd k := by
    refine pres_bind (moves_pre o v) (pres_getW (moves_pre o v)) fun w => ?_
    refine pres_ite (moves_pre o v) (pres_raise (moves_pre o v) _) ?_
    refine pres_ite (moves_pre o v) ?_ (pres_raise (moves_pre o v) _)
    exact pres_bind (moves_pre o v) (fun w => moves_quiet (storageRef_quiet E o w)) fun r => fun w hw =>
      ⟨hw.setStore r (Od.nodup_keys_set (hw.sNd r) k v), Moves.of_loc (fun _ => rfl) rfl fun _ => rfl⟩
  nsPut k :=
    pres_bind (moves_pre o v) (fun w => moves_quiet (nodespacesRef_quiet o w)) fun r => fun w hw =>
      ⟨hw.setNspace r (Od.nodup_keys_set (hw.nNd r) k v),
        Moves.of_loc (fun _ => rfl) rfl fun _ => rfl⟩
  adopt c k w hv := by
    subst hv
    intro hw
    have k1 := keep_setName c k w
    have k2 := keep_setParent c (some o) (modO c (fun ob => { ob with name := k }) w).2
    have hl := loc_set w c k (some o)
    refine ⟨k2.wf (k1.wf hw), fun p => (k2.cls p).trans (k1.cls p), rfl, fun p hp => ?_, fun p => ?_⟩
    · rw [hl p, if_neg fun e => hp (by rw [e])]
    · rw [hl p]
      split
      · exact .inr rfl
      · exact .inl rfl
  revert c w w' hv h := by
    subst hv
    intro hw
    obtain ⟨hw', h⟩ := h hw
    have k1 := keep_setName c (w.objs c).name w'
    have k2 := keep_setParent c (w.objs c).parent
      (modO c (fun ob => { ob with name := (w.objs c).name }) w').2
    have hl := loc_set w' c (w.objs c).name (w.objs c).parent
    refine ⟨k2.wf (k1.wf hw'), fun p => (k2.cls p).trans ((k1.cls p).trans (h.cls p)), h.nobj,
      fun p hp => ?_, fun p => ?_⟩
    · rw [hl p, if_neg fun e => hp (by rw [e])]; exact h.loc p hp
    · rw [hl p]
      split
      · rename_i e; subst e; exact .inl rfl
      · exact h.par p
  cacheDrop k := fun w => moves_quiet (cacheDrop_quiet o k w)
  merge c _ := fun w => moves_hidden (hidden_referenceMerge o c w)
  notify e := fun w => moves_hidden (hidden_notify e w)

theorem setitem_moves (E : Env) (o : Oid) (k : Key) (v : Val) : Pres (MovesR o v) (setitem E o k v) :=
  fun w => (moves_steps E o v).setPipe _ k w

end Verif
