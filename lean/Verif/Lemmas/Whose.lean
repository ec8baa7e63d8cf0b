import Verif.Lemmas.UncacheRel

/-! A cache dictionary stays with its node.  This also covers nodes that do not exist yet: creating
one takes the dictionary away, and it is never used again. -/

namespace Verif

/-- The dictionary `r` is the cache of nobody but `o`, and `o` is of class `c` if it has it. -/
structure Whose (r : Ref) (o : Oid) (c : ClassId) (w : World) : Prop where
  lt : r < w.ncache
  only : ∀ p, (w.objs p).cache = some r → p = o ∧ (w.objs p).cls = c

/-- It remains so. -/
def WhoseR (r : Ref) (o : Oid) (c : ClassId) (w w' : World) : Prop := Whose r o c w → Whose r o c w'

section
variable {r : Ref} {o : Oid} {c : ClassId}

theorem whose_pre : PreR (WhoseR r o c) := ⟨fun _ h => h, fun h h' x => h' (h x)⟩

theorem whose_same {w w' : World} (h1 : ∀ p, (w'.objs p).cache = (w.objs p).cache)
    (h2 : ∀ p, (w'.objs p).cls = (w.objs p).cls) (h3 : w'.ncache = w.ncache) : WhoseR r o c w w' := fun h =>
  ⟨by rw [h3]; exact h.lt, fun p hp => by rw [h2]; rw [h1] at hp; exact h.only p hp⟩

theorem whose_modO (p : Oid) (f : Obj → Obj) (h1 : ∀ b, (f b).cls = b.cls) (h2 : ∀ b, (f b).cache = b.cache) :
    Pres (WhoseR r o c) (modO p f) := fun w =>
  whose_same (proj_upd Obj.cache w.objs p _ (h2 _)) (proj_upd Obj.cls w.objs p _ (h1 _)) rfl

theorem whose_storageRef (E : Env) (p : Oid) : Pres (WhoseR r o c) (storageRef E p) := by
  intro w
  unfold storageRef
  split
  · exact whose_pre.refl w
  · exact whose_pre.refl w
  · split
    · exact whose_pre.refl w
    · exact whose_same (proj_upd Obj.cache w.objs p _ (by rfl)) (proj_upd Obj.cls w.objs p _ (by rfl)) rfl

theorem whose_nodespacesRef (p : Oid) : Pres (WhoseR r o c) (nodespacesRef p) := by
  intro w
  unfold nodespacesRef
  split
  · exact whose_pre.refl w
  · exact whose_same (proj_upd Obj.cache w.objs p _ (by rfl)) (proj_upd Obj.cls w.objs p _ (by rfl)) rfl

theorem whose_cacheRef (p : Oid) : Pres (WhoseR r o c) (cacheRef p) := by
  intro w h
  unfold cacheRef
  split
  · exact h
  · refine ⟨Nat.lt_succ_of_lt h.lt, fun q hq => ?_⟩
    dsimp only at hq ⊢
    unfold upd at hq ⊢
    split at hq
    · injection hq with hq
      exact absurd hq.symm (Nat.ne_of_lt h.lt)
    · rename_i hne
      rw [if_neg hne]
      exact h.only q hq

theorem whose_alloc (d : ClassId) : Pres (WhoseR r o c) (alloc d) := by
  intro w h
  refine ⟨h.lt, fun q hq => ?_⟩
  simp only [alloc, upd] at hq ⊢
  split at hq
  · cases hq
  · rename_i hne
    rw [if_neg hne]
    exact h.only q hq

theorem whose_notify (e : Event) : Pres (WhoseR r o c) (notify e) := fun _ =>
  whose_same (fun _ => rfl) (fun _ => rfl) rfl

theorem whose_setIdxs (i : Ref) (f : World → Od (Option Nat) Oid) :
    Pres (WhoseR r o c) (M.modifyW fun w => { w with idxs := upd w.idxs i (f w) }) := fun _ =>
  whose_same (fun _ => rfl) (fun _ => rfl) rfl

theorem whose_iterEnd (E : Env) (p : Oid) : Pres (WhoseR r o c) (iterEnd E p) := by
  intro w
  unfold iterEnd
  dsimp only
  split
  · exact whose_pre.refl w
  · split
    · exact whose_pre.refl w
    · have := whose_storageRef (r := r) (o := o) (c := c) E p w
      split
      · rename_i h; rw [h] at this; exact this
      · rename_i h; rw [h] at this; exact this
    · exact whose_pre.refl w

theorem whose_iter (E : Env) (p : Oid) : Pres (WhoseR r o c) (iter E p) := by
  intro w
  show WhoseR r o c w (iterPipe E (bhvsOf E w p) p w).2
  generalize bhvsOf E w p = bs
  suffices h : Pres (WhoseR r o c) (iterPipe E bs p) from h w
  induction bs with
  | nil => exact whose_iterEnd E p
  | cons b r ih =>
    cases b <;> first
      | exact ih
      | exact pres_bind whose_pre ih fun _ => pres_bind whose_pre (pres_getW whose_pre) fun _ =>
          pres_pure whose_pre _

theorem whose_cacheDrop (p : Oid) (k : Key) : Pres (WhoseR r o c) (cacheDrop p k) :=
  pres_bind whose_pre (whose_cacheRef p) fun _ => fun _ => whose_same (fun _ => rfl) (fun _ => rfl) rfl

theorem whose_setEnd (E : Env) (p : Oid) (k : Key) (v : Val) : Pres (WhoseR r o c) (setEnd E p k v) := by
  refine pres_bind whose_pre (pres_getW whose_pre) fun w => ?_
  refine pres_ite whose_pre (pres_raise whose_pre _) ?_
  refine pres_ite whose_pre ?_ (pres_raise whose_pre _)
  exact pres_bind whose_pre (whose_storageRef E p) fun _ => fun _ => whose_same (fun _ => rfl) (fun _ => rfl) rfl

theorem whose_nsPut (p : Oid) (k : Key) (v : Val) : Pres (WhoseR r o c) (nsPut p k v) :=
  pres_bind whose_pre (whose_nodespacesRef p) fun _ => fun _ => whose_same (fun _ => rfl) (fun _ => rfl) rfl

theorem whose_referenceMerge (p d : Oid) : Pres (WhoseR r o c) (referenceMerge p d) :=
  pres_bind whose_pre (pres_of_id whose_pre (indexRef_id p)) fun _ =>
    pres_bind whose_pre (pres_of_id whose_pre (indexRef_id d)) fun _ =>
      pres_bind whose_pre (whose_setIdxs _ _) fun _ => whose_modO d _ (fun _ => rfl) (fun _ => rfl)

theorem whose_setitem (E : Env) (p : Oid) (k : Key) (v : Val) : Pres (WhoseR r o c) (setitem E p k v) :=
  SetPrims.setitem
    { pre := whose_pre
      iter := fun d _ => whose_iter E d
      setEnd := fun k => whose_setEnd E p k v
      nsPut := fun k => whose_nsPut p k v
      name := fun d _ _ => whose_modO d _ (fun _ => rfl) (fun _ => rfl)
      parent := fun d _ _ => whose_modO d _ (fun _ => rfl) (fun _ => rfl)
      cacheDrop := fun k => whose_cacheDrop p k
      merge := fun d _ => whose_referenceMerge p d
      notify := fun e => whose_notify e } k

theorem whose_freshUuid : Pres (WhoseR r o c) freshUuid := fun _ =>
  whose_same (fun _ => rfl) (fun _ => rfl) rfl

theorem whose_setUuidRef (p : Oid) (u : Option Nat) : Pres (WhoseR r o c) (setUuidRef p u) := by
  refine pres_bind whose_pre (pres_of_id whose_pre (indexRef_id p)) fun i => ?_
  refine pres_bind whose_pre (pres_getW whose_pre) fun w => ?_
  refine pres_ite whose_pre (pres_raise whose_pre _) ?_
  exact pres_bind whose_pre (whose_setIdxs i _) fun _ => whose_modO p _ (fun _ => rfl) (fun _ => rfl)

theorem whose_referenceInit (p : Oid) : Pres (WhoseR r o c) (referenceInit p) := by
  refine pres_bind whose_pre (fun w => ?_) fun _ =>
    pres_bind whose_pre whose_freshUuid fun u => whose_setUuidRef p (some u)
  exact whose_same (proj_upd Obj.cache w.objs p _ (by rfl)) (proj_upd Obj.cls w.objs p _ (by rfl)) rfl

theorem whose_fixedLoop {mk : ClassId → M Oid} (hmk : ∀ d, Pres (WhoseR r o c) (mk d)) (p : Oid)
    (l : List (Key × ClassId)) : Pres (WhoseR r o c) (initPipe.loop mk p l) := by
  induction l with
  | nil => exact pres_pure whose_pre _
  | cons a t ih =>
    obtain ⟨k, d⟩ := a
    exact pres_bind whose_pre (hmk d) fun child =>
      pres_bind whose_pre (whose_modO _ _ (fun _ => rfl) (fun _ => rfl)) fun _ =>
      pres_bind whose_pre (whose_modO _ _ (fun _ => rfl) (fun _ => rfl)) fun _ =>
      pres_bind whose_pre (whose_modO _ _ (fun _ => rfl) (fun _ => rfl)) fun _ => ih

theorem whose_initPipe (E : Env) {mk : ClassId → M Oid} (hmk : ∀ d, Pres (WhoseR r o c) (mk d))
    (all bs : List Bhv) (p : Oid) (name : Key) (parent : Option Oid) :
    Pres (WhoseR r o c) (initPipe E mk all bs p name parent) := by
  induction bs with
  | nil =>
    unfold initPipe
    refine pres_ite whose_pre ?_ (pres_pure whose_pre _)
    exact pres_bind whose_pre (whose_modO _ _ (fun _ => rfl) (fun _ => rfl)) fun _ =>
      whose_modO _ _ (fun _ => rfl) (fun _ => rfl)
  | cons b r ih =>
    cases b
    case reference => exact pres_bind whose_pre (whose_referenceInit p) fun _ => ih
    case lifecycle => exact pres_bind whose_pre ih fun _ => whose_notify _
    case uuidAware =>
      exact pres_bind whose_pre ih fun _ => pres_bind whose_pre whose_freshUuid fun u =>
        pres_ite whose_pre (whose_setUuidRef p (some u)) (whose_modO _ _ (fun _ => rfl) (fun _ => rfl))
    case fixedChildren =>
      refine pres_bind whose_pre ih fun _ => ?_
      refine pres_bind whose_pre (whose_modO _ _ (fun _ => rfl) (fun _ => rfl)) fun _ => ?_
      exact pres_bind whose_pre (pres_getW whose_pre) fun w => whose_fixedLoop hmk p _
    all_goals exact ih

theorem whose_newNodeN (E : Env) (n : Nat) (d : ClassId) (name : Key) (parent : Option Oid) :
    Pres (WhoseR r o c) (newNodeN E n d name parent) := by
  induction n generalizing d name parent with
  | zero => exact pres_raise whose_pre _
  | succ n ih =>
    exact pres_bind whose_pre (whose_alloc d) fun p =>
      pres_bind whose_pre (whose_initPipe E (fun d' => ih d' .none none) _ _ p name parent) fun _ =>
        pres_pure whose_pre _

theorem whose_newNode (E : Env) (d : ClassId) (name : Key) (parent : Option Oid) :
    Pres (WhoseR r o c) (newNode E d name parent) := by
  rcases newNode_cases E d name parent with e | e
  · rw [e]; exact whose_newNodeN E _ d name parent
  · rw [e]; exact pres_raise whose_pre _

theorem whose_getEnd (E : Env) (p : Oid) (k : Key) : Pres (WhoseR r o c) (getEnd E p k) := by
  refine pres_bind whose_pre (pres_getW whose_pre) fun _ => ?_
  refine pres_ite whose_pre (pres_ofExcept whose_pre _) (pres_ite whose_pre ?_ (pres_raise whose_pre _))
  exact pres_bind whose_pre (whose_storageRef E p) fun _ =>
    pres_bind whose_pre (pres_getW whose_pre) fun _ => pres_ofExcept whose_pre _

/-- Reading below the cache. -/
theorem whose_getPipe (E : Env) (fb : Oid → Key → Exc → M Val) {l : List Bhv}
    (hl : ∀ b ∈ l, b.settled = true) (p : Oid) (k : Key) : Pres (WhoseR r o c) (getPipe E fb l p k) := by
  induction l generalizing k with
  | nil => exact whose_getEnd E p k
  | cons b l ih =>
    have hb := hl b List.mem_cons_self
    have ih := ih fun b hb => hl b (List.mem_cons_of_mem _ hb)
    cases b
    case nodespaces =>
      show Pres _ (nodespacesGet _ p k)
      cases k with
      | str s =>
        exact pres_ite whose_pre (pres_bind whose_pre (whose_nodespacesRef p) fun _ =>
          pres_bind whose_pre (pres_getW whose_pre) fun _ => pres_ofExcept whose_pre _) (ih _)
      | _ => exact ih _
    case childFactory =>
      refine pres_catchIf whose_pre (ih k) fun _ => pres_bind whose_pre (pres_getW whose_pre) fun w => ?_
      split
      · exact pres_raise whose_pre _
      · exact pres_bind whose_pre (whose_newNode E _ _ _) fun _ =>
          pres_bind whose_pre (whose_setitem E p k _) fun _ => pres_pure whose_pre _
    all_goals first
      | exact ih k
      | cases hb

end

end Verif
