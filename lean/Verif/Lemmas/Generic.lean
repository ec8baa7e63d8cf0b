import Verif.Lemmas.SetOutcome

/-! Relations preserved by the building blocks are preserved by the pipelines. -/

namespace Verif

/-- `self.nodespaces[key] = val`, as in `nodespacesSet`. -/
def nsPut (o : Oid) (k : Key) (v : Val) : M Unit := do
  let r ← nodespacesRef o
  M.modifyW fun w => { w with nspaces := upd w.nspaces r ((w.nspaces r).set k v) }

/-- `R` is respected by everything an assignment `o[..] = v` is made of, events
apart. -/
structure SetPrims0 (E : Env) (R : World → World → Prop) (o : Oid) (v : Val) : Prop where
  pre : PreR R
  iter : ∀ c, v = .node c → Pres R (iter E c)
  setEnd : ∀ k, Pres R (setEnd E o k v)
  nsPut : ∀ k, Pres R (nsPut o k v)
  name : ∀ c k, v = .node c → Pres R (modO c fun ob => { ob with name := k })
  parent : ∀ c p, v = .node c → Pres R (modO c fun ob => { ob with parent := p })
  cacheDrop : ∀ k, Pres R (cacheDrop o k)
  merge : ∀ c, v = .node c → Pres R (referenceMerge o c)

/-- `R` is respected by everything an assignment `o[..] = v` is made of. -/
structure SetPrims (E : Env) (R : World → World → Prop) (o : Oid) (v : Val) : Prop
    extends SetPrims0 E R o v where
  notify : ∀ e, Pres R (notify e)

/-- A stack that emits lifecycle events. -/
def Loud (bs : List Bhv) : Prop := Bhv.lifecycle ∈ bs ∨ Bhv.attributesLifecycle ∈ bs

instance (bs : List Bhv) : Decidable (Loud bs) := inferInstanceAs (Decidable (_ ∨ _))

theorem Loud.cons {b : Bhv} {bs : List Bhv} (h : Loud bs) : Loud (b :: bs) :=
  h.imp (List.mem_cons_of_mem _) (List.mem_cons_of_mem _)

theorem pres_notifyModified {E : Env} {R : World → World → Prop} (hR : PreR R)
    (hn : ∀ p, Pres R (notify (.modified p))) (o : Oid) : Pres R (notifyModified E o) := by
  refine pres_bind hR (pres_getW hR) fun w => ?_
  split
  · exact pres_raise hR _
  · split
    · split
      · exact pres_pure hR _
      · exact hn _
    · exact pres_raise hR _

theorem SetPrims0.setPipe {E : Env} {R : World → World → Prop} {o : Oid} {v : Val}
    (h : SetPrims0 E R o v) (bs : List Bhv)
    (ha : Bhv.lifecycle ∈ bs → ∀ k, Pres R (notify (.added v o k)))
    (hm : Bhv.attributesLifecycle ∈ bs → ∀ p, Pres R (notify (.modified p))) (k : Key) :
    Pres R (setPipe E bs o k v) := by
  have hR := h.pre
  induction bs generalizing k with
  | nil => exact h.setEnd k
  | cons b r ih =>
    have ih := ih (fun hl => ha (List.mem_cons_of_mem _ hl)) fun hl => hm (List.mem_cons_of_mem _ hl)
    cases b
    case nodeChildValidate =>
      refine pres_bind hR (pres_getW hR) fun w => ?_
      exact pres_ite hR (pres_raise hR _) (pres_ite hR (pres_raise hR _) (ih k))
    case nodespaces =>
      show Pres R (nodespacesSet _ o k v)
      unfold nodespacesSet
      split
      · split
        · split
          · exact pres_bind hR (h.name _ _ rfl) fun _ =>
              pres_bind hR (h.parent _ _ rfl) fun _ => h.nsPut _
          · exact h.nsPut _
          · exact h.nsPut _
          · exact pres_raise hR _
        · exact ih _
      · exact pres_raise hR _
    case adopt =>
      show Pres R (adoptSet _ o k v)
      unfold adoptSet
      split
      · exact ih _
      · refine pres_bind hR (pres_getO hR _) fun old => ?_
        refine pres_bind hR (h.name _ _ rfl) fun _ => ?_
        refine pres_bind hR (h.parent _ _ rfl) fun _ => ?_
        refine pres_catchIf hR (ih _) fun e => ?_
        exact pres_bind hR (h.name _ _ rfl) fun _ =>
          pres_bind hR (h.parent _ _ rfl) fun _ => pres_raise hR _
    case reference =>
      show Pres R (referenceSet E (Verif.setPipe E r o) o k v)
      cases v with
      | data d => exact ih k
      | node c =>
        refine pres_bind hR ?_ fun _ => pres_bind hR (h.merge c rfl) fun _ => ih k
        refine pres_bind hR (h.iter c rfl) fun it => ?_
        split
        · exact pres_pure hR _
        · exact pres_raise hR _
        · refine pres_bind hR (pres_of_id hR (indexRef_id _)) fun _ => ?_
          refine pres_bind hR (pres_of_id hR (indexRef_id _)) fun _ => ?_
          refine pres_bind hR (pres_getW hR) fun _ => ?_
          exact pres_ite hR (pres_raise hR _) (pres_pure hR _)
    case lifecycle =>
      refine pres_bind hR (ih k) fun _ => ?_
      refine pres_bind hR (pres_getO hR _) fun ob => ?_
      exact pres_ite hR (pres_pure hR _) (ha List.mem_cons_self _)
    case attributesLifecycle =>
      exact pres_bind hR (ih k) fun _ =>
        pres_notifyModified hR (hm List.mem_cons_self) o
    case cache => exact pres_bind hR (h.cacheDrop k) fun _ => ih k
    case alias =>
      exact pres_bind hR (pres_of_id hR (unaliasKey_id E o k)) fun u =>
        pres_catchIf hR (ih u) fun _ => pres_raise hR _
    all_goals exact ih k

theorem SetPrims.setPipe {E : Env} {R : World → World → Prop} {o : Oid} {v : Val}
    (h : SetPrims E R o v) (bs : List Bhv) (k : Key) : Pres R (setPipe E bs o k v) :=
  h.toSetPrims0.setPipe bs (fun _ _ => h.notify _) (fun _ _ => h.notify _) k

theorem SetPrims.setitem {E : Env} {R : World → World → Prop} {o : Oid} {v : Val}
    (h : SetPrims E R o v) (k : Key) : Pres R (setitem E o k v) := fun w => h.setPipe _ k w

/-- `del self.nodespaces[key]`, as in `nodespacesDel`. -/
def nsDrop (o : Oid) (k : Key) : M Unit := do
  let r ← nodespacesRef o
  let w ← M.getW
  if (w.nspaces r).has k then
    M.modifyW fun w => { w with nspaces := upd w.nspaces r ((w.nspaces r).del k) }
  else M.raise (.key (.key k))

/-- `R` is respected by everything a deletion `del o[..]` is made of, events
apart. -/
structure DelPrims0 (E : Env) (R : World → World → Prop) (o : Oid) : Prop where
  pre : PreR R
  getitem : ∀ p k, Pres R (getitem E p k)
  iter : ∀ p, Pres R (iter E p)
  delEnd : ∀ k, Pres R (delEnd E o k)
  nsDrop : ∀ k, Pres R (nsDrop o k)
  cacheDrop : ∀ k, Pres R (cacheDrop o k)
  unindex : ∀ us, Pres R (indexDelete o us)

/-- `R` is respected by everything a deletion `del o[..]` is made of. -/
structure DelPrims (E : Env) (R : World → World → Prop) (o : Oid) : Prop
    extends DelPrims0 E R o where
  notify : ∀ e, Pres R (notify e)

theorem pres_toDelete {E : Env} {R : World → World → Prop} (hR : PreR R)
    (hg : ∀ p k, Pres R (getitem E p k)) (hi : ∀ p, Pres R (iter E p)) (n : Nat) (c : Oid) :
    Pres R (toDelete E n c) := by
  induction n generalizing c with
  | zero => exact pres_raise hR _
  | succ n ih =>
    have hloop : ∀ ks, Pres R (toDeleteLoop E (toDelete E n) c ks) := by
      intro ks
      induction ks with
      | nil => exact pres_pure hR _
      | cons k r ihk =>
        refine pres_bind hR (pres_catchIf hR ?_ fun _ => pres_pure hR _) fun _ =>
          pres_bind hR ihk fun _ => pres_pure hR _
        refine pres_bind hR (hg c k) fun v => ?_
        split
        · exact pres_raise hR _
        · refine pres_bind hR (pres_getW hR) fun w => ?_
          exact pres_ite hR (ih _) (pres_raise hR _)
    refine pres_bind hR (pres_getO hR _) fun ob => ?_
    split
    · exact pres_raise hR _
    · refine pres_bind hR (hi c) fun it => ?_
      refine pres_bind hR (hloop _) fun below => ?_
      split
      · exact pres_raise hR _
      · exact pres_pure hR _

theorem pres_referenceUnindex {E : Env} {R : World → World → Prop} (hR : PreR R)
    (hg : ∀ p k, Pres R (getitem E p k)) (hi : ∀ p, Pres R (iter E p)) {o : Oid}
    (hu : ∀ us, Pres R (indexDelete o us)) (v : Val) : Pres R (referenceUnindex E o v) := by
  unfold referenceUnindex
  split
  · exact pres_pure hR _
  · refine pres_bind hR (pres_getW hR) fun w => ?_
    refine pres_ite hR ?_ (pres_pure hR _)
    exact pres_bind hR (pres_toDelete hR hg hi _ _) fun us => hu us

theorem DelPrims0.unindexed {E : Env} {R : World → World → Prop} {o : Oid} (h : DelPrims0 E R o)
    (v : Val) : Pres R (referenceUnindex E o v) := pres_referenceUnindex h.pre h.getitem h.iter h.unindex v

theorem DelPrims0.delPipe {E : Env} {R : World → World → Prop} {o : Oid} (h : DelPrims0 E R o)
    (bs : List Bhv) (ha : Bhv.lifecycle ∈ bs → ∀ v k, Pres R (notify (.removed v o k)))
    (hm : Bhv.attributesLifecycle ∈ bs → ∀ p, Pres R (notify (.modified p))) (k : Key) :
    Pres R (delPipe E bs o k) := by
  have hR := h.pre
  induction bs generalizing k with
  | nil => exact h.delEnd k
  | cons b r ih =>
    have ih := ih (fun hl => ha (List.mem_cons_of_mem _ hl)) fun hl => hm (List.mem_cons_of_mem _ hl)
    cases b
    case nodespaces =>
      show Pres R (nodespacesDel _ o k)
      unfold nodespacesDel
      split
      · split
        · exact h.nsDrop _
        · exact ih _
      · exact pres_raise hR _
    case reference =>
      exact pres_bind hR (h.getitem o k) fun v => pres_bind hR (h.unindexed v) fun _ => ih k
    case lifecycle =>
      refine pres_bind hR (h.getitem o k) fun v => pres_bind hR (ih k) fun _ => ?_
      refine pres_bind hR (pres_getO hR _) fun ob => ?_
      exact pres_ite hR (pres_pure hR _) (ha List.mem_cons_self _ _)
    case attributesLifecycle =>
      exact pres_bind hR (ih k) fun _ =>
        pres_notifyModified hR (hm List.mem_cons_self) o
    case cache => exact pres_bind hR (h.cacheDrop k) fun _ => ih k
    case alias =>
      exact pres_bind hR (pres_of_id hR (unaliasKey_id E o k)) fun u =>
        pres_catchIf hR (ih u) fun _ => pres_raise hR _
    all_goals exact ih k

/-- The same without behaviors that read the item before it is deleted. -/
theorem pres_delPipe_unread {E : Env} {R : World → World → Prop} {o : Oid} (hR : PreR R)
    (he : ∀ k, Pres R (delEnd E o k)) (hn : ∀ k, Pres R (nsDrop o k)) (hc : ∀ k, Pres R (cacheDrop o k))
    (bs : List Bhv) (hl : Bhv.lifecycle ∉ bs) (hr : Bhv.reference ∉ bs)
    (hm : Bhv.attributesLifecycle ∈ bs → ∀ p, Pres R (notify (.modified p))) (k : Key) :
    Pres R (delPipe E bs o k) := by
  induction bs generalizing k with
  | nil => exact he k
  | cons b r ih =>
    have ih := ih (fun h => hl (List.mem_cons_of_mem _ h)) (fun h => hr (List.mem_cons_of_mem _ h))
      fun h => hm (List.mem_cons_of_mem _ h)
    cases b
    case nodespaces =>
      show Pres R (nodespacesDel _ o k)
      unfold nodespacesDel
      split
      · split
        · exact hn _
        · exact ih _
      · exact pres_raise hR _
    case reference => exact absurd List.mem_cons_self hr
    case lifecycle => exact absurd List.mem_cons_self hl
    case attributesLifecycle =>
      exact pres_bind hR (ih k) fun _ => pres_notifyModified hR (hm List.mem_cons_self) o
    case cache => exact pres_bind hR (hc k) fun _ => ih k
    case alias =>
      exact pres_bind hR (pres_of_id hR (unaliasKey_id E o k)) fun u =>
        pres_catchIf hR (ih u) fun _ => pres_raise hR _
    all_goals exact ih k

/-- What stands left of the notifying behavior respects `R` if reading does. -/
theorem pres_delPipe_append {E : Env} {R : World → World → Prop} {o : Oid} (hR : PreR R)
    (hg : ∀ k, Pres R (getitem E o k)) (hu : ∀ v, Pres R (referenceUnindex E o v))
    (hn : ∀ k, Pres R (nsDrop o k)) (hc : ∀ k, Pres R (cacheDrop o k)) {l r : List Bhv} (hl : ¬ Loud l)
    (hr : ∀ k, Pres R (delPipe E r o k)) (k : Key) : Pres R (delPipe E (l ++ r) o k) := by
  induction l generalizing k with
  | nil => exact hr k
  | cons b l ih =>
    have ih := ih fun h => hl h.cons
    cases b
    case nodespaces =>
      show Pres R (nodespacesDel _ o k)
      unfold nodespacesDel
      split
      · split
        · exact hn _
        · exact ih _
      · exact pres_raise hR _
    case reference => exact pres_bind hR (hg k) fun v => pres_bind hR (hu v) fun _ => ih k
    case lifecycle => exact absurd (.inl List.mem_cons_self) hl
    case attributesLifecycle => exact absurd (.inr List.mem_cons_self) hl
    case cache => exact pres_bind hR (hc k) fun _ => ih k
    case alias =>
      exact pres_bind hR (pres_of_id hR (unaliasKey_id E o k)) fun u =>
        pres_catchIf hR (ih u) fun _ => pres_raise hR _
    all_goals exact ih k

theorem DelPrims.delPipe {E : Env} {R : World → World → Prop} {o : Oid} (h : DelPrims E R o)
    (bs : List Bhv) (k : Key) : Pres R (delPipe E bs o k) :=
  h.toDelPrims0.delPipe bs (fun _ _ _ => h.notify _) (fun _ _ => h.notify _) k

theorem DelPrims.delitem {E : Env} {R : World → World → Prop} {o : Oid} (h : DelPrims E R o)
    (k : Key) : Pres R (delitem E o k) := fun w => h.delPipe _ k w

end Verif
