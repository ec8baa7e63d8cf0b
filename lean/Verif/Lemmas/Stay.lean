import Verif.Lemmas.ApiGeneric

/-! Nodes keep their class and the dictionaries they have, in any heap: also in one where nodes share
dictionaries, as after `copy`. -/

namespace Verif

/-- The class is the same, and dictionaries that were there are still used. -/
structure SameDicts (a b : Obj) : Prop where
  cls : b.cls = a.cls
  storage : ∀ r, a.storage = some r → b.storage = some r
  cache : ∀ r, a.cache = some r → b.cache = some r
  nodespaces : ∀ r, a.nodespaces = some r → b.nodespaces = some r

theorem SameDicts.refl (a : Obj) : SameDicts a a := ⟨rfl, fun _ h => h, fun _ h => h, fun _ h => h⟩

theorem SameDicts.trans {a b c : Obj} (h : SameDicts a b) (h' : SameDicts b c) : SameDicts a c :=
  ⟨h'.cls.trans h.cls, fun r x => h'.storage r (h.storage r x), fun r x => h'.cache r (h.cache r x),
    fun r x => h'.nodespaces r (h.nodespaces r x)⟩

/-- So for the first `n` objects. -/
def DictsStay (n : Nat) (w w' : World) : Prop :=
  n ≤ w.nobj → n ≤ w'.nobj ∧ ∀ p, p < n → SameDicts (w.objs p) (w'.objs p)

variable {E : Env} {n : Nat}

theorem dicts_pre (n : Nat) : PreR (DictsStay n) :=
  ⟨fun _ h => ⟨h, fun _ _ => .refl _⟩, fun h h' hn =>
    ⟨(h' (h hn).1).1, fun p hp => ((h hn).2 p hp).trans ((h' (h hn).1).2 p hp)⟩⟩

theorem dicts_upd {w : World} {o : Oid} {b : Obj} (h : SameDicts (w.objs o) b) (p : Oid) :
    SameDicts (w.objs p) (upd w.objs o b p) := by
  unfold upd
  split
  · rename_i e; subst e; exact h
  · exact .refl _

theorem dicts_modO (o : Oid) {f : Obj → Obj} (hf : ∀ b, SameDicts b (f b)) : Pres (DictsStay n) (modO o f) :=
  fun _ hn => ⟨hn, fun p _ => dicts_upd (hf _) p⟩

theorem dicts_same {f : World → World} (ho : ∀ w, (f w).objs = w.objs) (hn : ∀ w, (f w).nobj = w.nobj) :
    Pres (DictsStay n) (M.modifyW f) := fun w h =>
  ⟨by show n ≤ (f w).nobj; rw [hn]; exact h, fun p _ => by
    show SameDicts _ ((f w).objs p)
    rw [ho]; exact .refl _⟩

theorem dicts_storageRef (o : Oid) : Pres (DictsStay n) (storageRef E o) := by
  intro w hn
  unfold storageRef
  split
  · exact ⟨hn, fun _ _ => .refl _⟩
  · exact ⟨hn, fun _ _ => .refl _⟩
  · split
    · exact ⟨hn, fun _ _ => .refl _⟩
    · rename_i h
      exact ⟨hn, fun p _ => dicts_upd (w := w) (b := { w.objs o with storage := some w.nstore })
        ⟨rfl, fun r x => (by rw [h] at x; cases x), fun _ x => x, fun _ x => x⟩ p⟩

theorem dicts_cacheRef (o : Oid) : Pres (DictsStay n) (cacheRef o) := by
  intro w hn
  unfold cacheRef
  split
  · exact ⟨hn, fun _ _ => .refl _⟩
  · rename_i h
    exact ⟨hn, fun p _ => dicts_upd (w := w) (b := { w.objs o with cache := some w.ncache })
      ⟨rfl, fun _ x => x, fun r x => (by rw [h] at x; cases x), fun _ x => x⟩ p⟩

theorem dicts_nodespacesRef (o : Oid) : Pres (DictsStay n) (nodespacesRef o) := by
  intro w hn
  unfold nodespacesRef
  split
  · exact ⟨hn, fun _ _ => .refl _⟩
  · rename_i h
    exact ⟨hn, fun p _ => dicts_upd (w := w) (b := { w.objs o with nodespaces := some w.nnspace })
      ⟨rfl, fun _ x => x, fun _ x => x, fun r x => (by rw [h] at x; cases x)⟩ p⟩

theorem dicts_notify (e : Event) : Pres (DictsStay n) (notify e) := fun _ hn => ⟨hn, fun _ _ => .refl _⟩

theorem dicts_cacheDrop (o : Oid) (k : Key) : Pres (DictsStay n) (cacheDrop o k) :=
  pres_bind (dicts_pre n) (dicts_cacheRef o) fun _ => dicts_same (fun _ => rfl) fun _ => rfl

theorem dicts_steps (E : Env) (n : Nat) : ReadSteps E (DictsStay n) where
  getEnd o k := by
    have hR := dicts_pre n
    refine pres_bind hR (pres_getW hR) fun w => pres_ite hR (pres_ofExcept hR _) (pres_ite hR ?_ (pres_raise hR _))
    exact pres_bind hR (dicts_storageRef o) fun _ => pres_bind hR (pres_getW hR) fun _ => pres_ofExcept hR _
  iter o := by
    have he : Pres (DictsStay n) (iterEnd E o) := by
      intro w
      have hs := dicts_storageRef (E := E) (n := n) o w
      simp only [iterEnd]
      split
      · exact (dicts_pre n).refl w
      · split
        · exact (dicts_pre n).refl w
        · rcases hx : storageRef E o w with ⟨e | x, w1⟩ <;> (rw [hx] at hs; exact hs)
        · exact (dicts_pre n).refl w
    have : ∀ bs, Pres (DictsStay n) (iterPipe E bs o) := by
      intro bs
      induction bs with
      | nil => exact he
      | cons b r ih =>
        cases b
        case alias =>
          exact pres_bind (dicts_pre n) ih fun _ => pres_bind (dicts_pre n) (pres_getW (dicts_pre n)) fun _ =>
            pres_pure (dicts_pre n) _
        all_goals exact ih
    exact fun w => this _ w
  spaceRef := dicts_nodespacesRef
  cacheRef := dicts_cacheRef
  cachePut _ _ _ := dicts_same (fun _ => rfl) fun _ => rfl
  cacheWipe _ := dicts_same (fun _ => rfl) fun _ => rfl
  cacheDrop := dicts_cacheDrop

theorem dicts_indexRef (o : Oid) : Pres (DictsStay n) (indexRef o) := fun w => by
  rw [indexRef_id]; exact (dicts_pre n).refl w

theorem dicts_setPrims (o : Oid) (v : Val) : SetPrims E (DictsStay n) o v where
  pre := dicts_pre n
  iter _ _ := (dicts_steps E n).iter _
  setEnd k := by
    have hR := dicts_pre n
    refine pres_bind hR (pres_getW hR) fun w => pres_ite hR (pres_raise hR _) (pres_ite hR ?_ (pres_raise hR _))
    exact pres_bind hR (dicts_storageRef _) fun _ => dicts_same (fun _ => rfl) fun _ => rfl
  nsPut k := pres_bind (dicts_pre n) (dicts_nodespacesRef _) fun _ => dicts_same (fun _ => rfl) fun _ => rfl
  name c k _ := dicts_modO _ fun _ => ⟨rfl, fun _ h => h, fun _ h => h, fun _ h => h⟩
  parent c p _ := dicts_modO _ fun _ => ⟨rfl, fun _ h => h, fun _ h => h, fun _ h => h⟩
  cacheDrop k := dicts_cacheDrop o k
  merge c _ := by
    have hR := dicts_pre n
    exact pres_bind hR (dicts_indexRef _) fun _ => pres_bind hR (dicts_indexRef _) fun _ =>
      pres_bind hR (dicts_same (fun _ => rfl) fun _ => rfl) fun _ =>
        dicts_modO _ fun _ => ⟨rfl, fun _ h => h, fun _ h => h, fun _ h => h⟩
  notify := dicts_notify

theorem dicts_setUuidRef (o : Oid) (u : Option Nat) : Pres (DictsStay n) (setUuidRef o u) := by
  have hR := dicts_pre n
  refine pres_bind hR (dicts_indexRef _) fun r => pres_bind hR (pres_getW hR) fun w =>
    pres_ite hR (pres_raise hR _) ?_
  exact pres_bind hR (dicts_same (fun _ => rfl) fun _ => rfl) fun _ =>
    dicts_modO _ fun _ => ⟨rfl, fun _ h => h, fun _ h => h, fun _ h => h⟩

theorem dicts_new (n : Nat) : NewPrims (DictsStay n) where
  pre := dicts_pre n
  alloc c w hn := ⟨Nat.le_succ_of_le hn, fun p hp => by
    show SameDicts _ (upd w.objs w.nobj _ p)
    rw [upd_other _ _ (by omega)]; exact .refl _⟩
  name _ _ := dicts_modO _ fun _ => ⟨rfl, fun _ h => h, fun _ h => h, fun _ h => h⟩
  parent _ _ := dicts_modO _ fun _ => ⟨rfl, fun _ h => h, fun _ h => h, fun _ h => h⟩
  fixed _ _ := dicts_modO _ fun _ => ⟨rfl, fun _ h => h, fun _ h => h, fun _ h => h⟩
  init o := by
    refine pres_bind (dicts_pre n) (fun w hn => ⟨hn, fun p _ => ?_⟩) fun _ =>
      pres_bind (dicts_pre n) (fun w hn => ⟨hn, fun p _ => .refl _⟩) fun u => dicts_setUuidRef o _
    exact dicts_upd (w := w) (b := { w.objs o with index := some w.nidx })
      ⟨rfl, fun _ h => h, fun _ h => h, fun _ h => h⟩ p
  notify := dicts_notify
  fresh _ hn := ⟨hn, fun _ _ => .refl _⟩
  uuidRef := dicts_setUuidRef
  uuid _ _ := dicts_modO _ fun _ => ⟨rfl, fun _ h => h, fun _ h => h, fun _ h => h⟩

theorem dicts_api (E : Env) (n : Nat) : ApiFine E (DictsStay n) where
  pre := dicts_pre n
  steps := dicts_steps E n
  fbGuard {α body} hb w := by
    unfold Verif.fbGuard
    split
    · exact (dicts_pre n).refl w
    · intro hn
      obtain ⟨h1, h2⟩ := hb _ { w with fb := some _ } hn
      exact ⟨h1, h2⟩
  setitem o k v := (dicts_setPrims o v).setitem k
  delEnd o k := by
    have hR := dicts_pre n
    refine pres_bind hR (pres_getW hR) fun w => pres_ite hR (pres_raise hR _) (pres_ite hR ?_ (pres_raise hR _))
    exact pres_bind hR (dicts_storageRef o) fun _ => pres_bind hR (pres_getW hR) fun _ =>
      pres_ite hR (dicts_same (fun _ => rfl) fun _ => rfl) (pres_raise hR _)
  nsDrop o k := by
    have hR := dicts_pre n
    exact pres_bind hR (dicts_nodespacesRef o) fun _ => pres_bind hR (pres_getW hR) fun _ =>
      pres_ite hR (dicts_same (fun _ => rfl) fun _ => rfl) (pres_raise hR _)
  attrsPut _ _ := dicts_same (fun _ => rfl) fun _ => rfl
  insert b o ref new c := by
    have hR := dicts_pre n
    refine pres_bind hR (dicts_storageRef o) fun _ => pres_bind hR (pres_getW hR) fun _ => ?_
    exact pres_ite hR (pres_ite hR (pres_ite hR (pres_raise hR _) (dicts_same (fun _ => rfl) fun _ => rfl))
      (pres_raise hR _)) (pres_raise hR _)
  swap o a b := by
    have hR := dicts_pre n
    refine pres_bind hR (dicts_storageRef o) fun _ => pres_bind hR (pres_getW hR) fun _ => ?_
    exact pres_ite hR (pres_ite hR (pres_raise hR _) (pres_ite hR (pres_ite hR
      (dicts_same (fun _ => rfl) fun _ => rfl) (pres_raise hR _)) (pres_raise hR _))) (pres_raise hR _)
  volatile o k := by
    have hR := dicts_pre n
    refine pres_bind hR (dicts_storageRef o) fun _ => pres_ite hR (dicts_same (fun _ => rfl) fun _ => rfl) ?_
    refine pres_bind hR (pres_bind hR ((dicts_steps E n).iter o) fun _ => pres_bind hR (pres_endIter hR _)
      fun _ => pres_pure hR _) fun _ => ?_
    exact pres_ite hR (dicts_same (fun _ => rfl) fun _ => rfl) (pres_raise hR _)
  newNode c m p := (dicts_new n).newNode c m p
  notify := dicts_notify
  unindex o us := by
    have hR := dicts_pre n
    induction us with
    | nil => exact pres_pure hR _
    | cons u r ih =>
      exact pres_bind hR (dicts_indexRef _) fun _ => pres_bind hR (pres_getW hR) fun _ => pres_ite hR
        (pres_bind hR (dicts_same (fun _ => rfl) fun _ => rfl) fun _ => ih) (pres_raise hR _)
  indexPut o c u w _ := by
    have hR := dicts_pre n
    have : Pres (DictsStay n) (Verif.indexPut o c u) := pres_bind hR (dicts_indexRef _) fun _ =>
      pres_bind hR (dicts_same (fun _ => rfl) fun _ => rfl) fun _ =>
        dicts_modO _ fun _ => ⟨rfl, fun _ h => h, fun _ h => h, fun _ h => h⟩
    exact this w
  indexOwn c u w _ := fun hn => ⟨hn, fun p _ => dicts_upd (w := w) (b := { w.objs c with index := some w.nidx })
      ⟨rfl, fun _ h => h, fun _ h => h, fun _ h => h⟩ p⟩
  suppress o b := dicts_modO _ fun _ => ⟨rfl, fun _ h => h, fun _ h => h, fun _ h => h⟩
  fallbackKey o k := dicts_modO _ fun _ => ⟨rfl, fun _ h => h, fun _ h => h, fun _ h => h⟩

/-- No operation of the API takes a dictionary away from a node, gives it another, or changes its class. -/
theorem dicts_exec (E : Env) (n : Nat) (op : Op) : Pres (DictsStay n) (exec E op) :=
  (dicts_api E n).exec op fun o u _ => dicts_setUuidRef o u

theorem dicts_execAll (E : Env) (n : Nat) (ops : List Op) (w : World) : DictsStay n w (execAll E ops w).2 := by
  induction ops generalizing w with
  | nil => exact (dicts_pre n).refl w
  | cons op r ih => exact (dicts_pre n).trans (dicts_exec E n op w) (ih _)

end Verif
