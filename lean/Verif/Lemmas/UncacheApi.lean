import Verif.Lemmas.UncacheItems
import Verif.Lemmas.OdOrder
import Verif.Lemmas.NewNode
import Verif.Lemmas.ChildInv

/-! The rest of the API with and without caches. -/

namespace Verif

section
variable {E : Env} {o : Oid} {α β : Type}

theorem relOn_grow {m m' : M α} {f f' : α → M β} (hm : CRelOn E (fun w => o < w.nobj) m m')
    (hg : Pres Grow m) (hf : ∀ a, CRelOn E (fun w => o < w.nobj) (f a) (f' a)) :
    CRelOn E (fun w => o < w.nobj) (m >>= f) (m' >>= f') :=
  relOn_bind hm (fun w _ ho => Nat.lt_of_lt_of_le ho (hg w).nobj) hf

theorem relOn_forU_del (hE : ∀ c, CacheSafe (E.cls c)) (ks : List Key) :
    CRelOn E (fun w => o < w.nobj) (forU (delitem E o) ks) (forU (delitem E.uncached o) ks) := by
  induction ks with
  | nil => exact (rel_pure _).on
  | cons k r ih => exact relOn_grow (rel_delitem hE o k) (grow_delitem E o k) fun _ => ih

theorem rel_mkeys (o : Oid) : CRel E (mkeys E o) (mkeys E.uncached o) := rel_mute (eqv_mkeys E o) (mute_mkeys E o)

theorem rel_endIter (e : Option Exc) : CRel E (endIter e) (endIter e) := by
  cases e
  · exact rel_pure _
  · exact rel_raise _

theorem rel_mvalues (hE : ∀ c, CacheSafe (E.cls c)) (o : Oid) : CRel E (mvalues E o) (mvalues E.uncached o) :=
  rel_bind (rel_iter o) fun _ => rel_bind (rel_forM' (rel_getitem hE o) _) fun _ =>
    rel_bind (rel_endIter _) fun _ => rel_pure _

theorem rel_mitems (hE : ∀ c, CacheSafe (E.cls c)) (o : Oid) : CRel E (mitems E o) (mitems E.uncached o) :=
  rel_bind (rel_iter o) fun _ => rel_bind (rel_forM' (fun k => rel_bind (rel_getitem hE o k) fun _ =>
    rel_pure _) _) fun _ => rel_bind (rel_endIter _) fun _ => rel_pure _

theorem rel_mupdate (hE : ∀ c, CacheSafe (E.cls c)) (o : Oid) (kvs : List (Key × Val)) :
    CRel E (mupdate E o kvs) (mupdate E.uncached o kvs) := by
  unfold mupdate
  exact rel_forU (fun kv => rel_setitem hE o kv.1 kv.2) kvs

theorem rel_mclear (hE : ∀ c, CacheSafe (E.cls c)) (o : Oid) :
    CRelOn E (fun w => o < w.nobj) (mclear E o) (mclear E.uncached o) :=
  relOn_grow (rel_mkeys o).on (grow_mkeys E o) fun ks => relOn_forU_del hE ks

theorem rel_taken (hE : ∀ c, CacheSafe (E.cls c)) (o : Oid) (k : Key) :
    CRelOn E (fun w => o < w.nobj) (detachEnd E o k) (detachEnd E.uncached o k) :=
  relOn_grow (rel_getitem hE o k).on (grow_getitem E o k) fun _ =>
    relOn_then (rel_delitem hE o k) fun _ => rel_pure _

theorem rel_mpop (hE : ∀ c, CacheSafe (E.cls c)) (o : Oid) (k : Key) (d : Option Val) :
    CRelOn E (fun w => o < w.nobj) (mpop E o k d) (mpop E.uncached o k d) :=
  relOn_catch (rel_taken hE o k) fun e => by
    cases d
    · exact rel_raise _
    · exact rel_pure _

theorem rel_mpopitem (hE : ∀ c, CacheSafe (E.cls c)) (o : Oid) :
    CRelOn E (fun w => o < w.nobj) (mpopitem E o) (mpopitem E.uncached o) :=
  relOn_grow (rel_mkeys o).on (grow_mkeys E o) fun ks => by
    cases ks.reverse with
    | nil => exact (rel_raise _).on
    | cons k _ =>
      exact relOn_grow (rel_getitem hE o k).on (grow_getitem E o k) fun _ =>
        relOn_then (rel_delitem hE o k) fun _ => rel_pure _

/-! ### Detaching -/

theorem eqv_indexPut (o c : Oid) (u : Nat) : Eqv (indexPut o c u) (indexPut o c u) :=
  eqv_bind (eqv_indexRef o) fun i =>
    eqv_bind (eqv_setIdxs i (f := fun w => (w.idxs i).set (some u) c) fun _ => rfl) fun _ =>
      eqv_modO c fun _ => rfl

theorem rel_indexPut (o c : Oid) (u : Nat) : CRel E (indexPut o c u) (indexPut o c u) :=
  rel_mute (eqv_indexPut o c u) (hidden_indexPut mute_pre (fun _ _ h => h.mute) o c u
    (f := fun _ => pure ()) (pres_pure mute_pre _))

theorem rel_indexOwn (c : Oid) (u : Nat) : CRel E (indexOwn c u) (indexOwn c u) :=
  rel_hidden (eqv_newIdx c [(some u, c)])
    (hidden_newIdx c (fun _ => [(some u, c)]) (fun _ => by simp [Od.keys]))

theorem indexPut_bind (o c : Oid) (u : Nat) (f : Unit → M β) :
    (do
      let i ← indexRef o
      M.modifyW fun w => { w with idxs := upd w.idxs i ((w.idxs i).set (some u) c) }
      modO c fun ob => { ob with index := some i }
      f ()) = indexPut o c u >>= f := by
  funext w
  simp only [indexPut, M.bind_apply]
  rcases indexRef o w with ⟨_ | _, _⟩ <;> rfl

theorem rel_indexNodes (hE : ∀ c, CacheSafe (E.cls c)) (n : Nat) (o : Oid) :
    CRel E (indexNodes E n o) (indexNodes E.uncached n o) := by
  induction n generalizing o with
  | zero => exact rel_raise _
  | succ n ih =>
    refine rel_bind (rel_mvalues hE o) fun vs => rel_forU (fun v => ?_) vs
    cases v with
    | data d => exact rel_pure _
    | node c =>
      refine rel_getW fun w => ?_
      rw [bhvsOf_uncached, contains_unc (by decide), contains_unc (by decide)]
      refine rel_ite ?_ (rel_pure _)
      show CRel E _ (match (w.objs c).uuid with
        | none => _
        | some u => _)
      cases (w.objs c).uuid with
      | none => exact rel_raise _
      | some u =>
        dsimp only
        rw [indexPut_bind (f := fun _ => if (bhvsOf E w c).contains .reference then indexNodes E n c
            else M.raise .attr),
          indexPut_bind (f := fun _ => if (bhvsOf E w c).contains .reference then indexNodes E.uncached n c
            else M.raise .attr)]
        exact rel_bind (rel_indexPut o c u) fun _ => rel_ite (ih c) (rel_raise _)

theorem rel_referenceDetach (hE : ∀ c, CacheSafe (E.cls c)) (v : Val) :
    CRel E (referenceDetach E v) (referenceDetach E.uncached v) := by
  cases v with
  | data d => exact rel_raise _
  | node c =>
    refine rel_getW fun w => ?_
    rw [bhvsOf_uncached, contains_unc (by decide), contains_unc (by decide)]
    refine rel_ite ?_ (rel_raise _)
    show CRel E _ (match (w.objs c).uuid with
      | none => _
      | some u => _)
    cases (w.objs c).uuid with
    | none => exact rel_raise _
    | some u => exact rel_bind (rel_indexOwn c u) fun _ => rel_ite (rel_indexNodes hE _ c) (rel_raise _)

theorem hidden_suppress (o : Oid) (b : Bool) : Pres Hidden (modO o fun ob => { ob with suppress := b }) :=
  hidden_modO o (fun ob => { ob with suppress := b }) (fun _ => rfl) (fun _ => rfl) (fun _ => rfl)
    (fun _ => rfl) (fun _ => rfl) (fun _ => rfl) (fun _ => rfl) (fun _ => rfl)

theorem rel_suppress (o : Oid) (b : Bool) : CRel E (modO o fun ob => { ob with suppress := b })
    (modO o fun ob => { ob with suppress := b }) :=
  rel_hidden (eqv_modO o fun _ => rfl) (hidden_suppress o b)

theorem rel_detachPipe (hE : ∀ c, CacheSafe (E.cls c)) (l : List Bhv) (k : Key) :
    CRelOn E (fun w => o < w.nobj) (detachPipe E l o k) (detachPipe E.uncached (unc l) o k) := by
  induction l with
  | nil => exact rel_taken hE o k
  | cons b r ih =>
    by_cases hb : b = .cache
    · subst hb; rw [unc_cache]; exact ih
    · rw [unc_cons hb]
      cases b
      case cache => exact absurd rfl hb
      case reference => exact relOn_then ih fun v => rel_bind (rel_referenceDetach hE v) fun _ => rel_pure _
      case lifecycle =>
        refine relOn_grow (rel_suppress o true).on (fun w => ?_) fun _ => relOn_then ih fun v =>
          rel_bind (rel_suppress o false) fun _ => rel_bind (rel_hidden (eqv_notify _) (hidden_notify _)) fun _ =>
            rel_pure _
        exact grow_modO o (fun ob => { ob with suppress := true }) (fun _ => rfl) (fun _ => rfl) (fun _ => rfl)
          (fun _ => rfl) (fun _ => rfl) w
      all_goals exact ih

theorem rel_detach (hE : ∀ c, CacheSafe (E.cls c)) (o : Oid) (k : Key) :
    CRelOn E (fun w => o < w.nobj) (detach E o k) (detach E.uncached o k) := fun w hw ho =>
  rel_detachPipe hE (bhvsOf E w o) k w hw ho

/-! ### Invalidation -/

theorem rel_invalidateVolatile (o : Oid) (k : Key) :
    CRelOn E (fun w => Uncached E o k w ∧ (k = .none → Bhv.cache ∉ (clsOf E w o).bhvs))
      (invalidateVolatile E o k) (invalidateVolatile E.uncached o k) := by
  intro w hw hp
  refine relAt_bind (rel_mute (eqv_storageRef E o) (mute_storageRef E o) w hw) fun r w1 hx hw1 => ?_
  have hm := mute_storageRef E o w
  rw [hx] at hm
  have hp1 : Uncached E o k w1 := hp.1.mute hw hm
  have hr := storageRef_ok hx
  by_cases hk : k = .none
  · rw [if_pos hk, if_pos hk]
    refine ⟨rfl, hw1.setStore hr (by simp [Od.keys]) fun j u hc => ?_⟩
    rw [hm.clsOf] at hc
    exact absurd hc (hp.2 hk)
  · rw [if_neg hk, if_neg hk]
    refine relAt_bind (rel_mkeys o w1 hw1) fun ks w2 hy hw2 => ?_
    have hm2 := mute_mkeys E o w1
    rw [hy] at hm2
    have hr2 : (w2.objs o).storage = some r := by
      have := stoKeep_mkeys E o w1
      rw [hy] at this
      exact this o r hr
    show CRelAt E (if ks.contains k then _ else _) (if ks.contains k then _ else _) w2
    by_cases hh : ks.contains k = true
    · rw [if_pos hh]
      refine ⟨rfl, hw2.setStore hr2 (Od.nodup_keys_del (hw2.wf.sNd _) _) ?_⟩
      intro j u hc hj hu
      rw [Od.get?_del (hw2.wf.sNd _)]
      split
      · rename_i e; subst e; rw [(hp1.mute hw1 hm2) hc] at hj; cases hj
      · rw [← children_eq hr2]; exact hu
    · rw [if_neg hh]; exact ⟨rfl, hw2⟩

theorem rel_invalidateDel (hE : ∀ c, CacheSafe (E.cls c)) (o : Oid) (k : Key) :
    CRelOn E (fun w => o < w.nobj) (invalidateDel E o k) (invalidateDel E.uncached o k) :=
  relOn_ite (rel_mclear hE o) (rel_delitem hE o k)

theorem rel_invalidatePipe (hE : ∀ c, CacheSafe (E.cls c)) (all l : List Bhv) (k : Key) :
    CRelOn E (fun w => o < w.nobj ∧ (k = .none → Bhv.cache ∉ (clsOf E w o).bhvs) ∧
        (Bhv.cache ∈ l → Bhv.cache ∈ (clsOf E w o).bhvs) ∧ (Bhv.cache ∉ l → Uncached E o k w))
      (invalidatePipe E all l o k) (invalidatePipe E.uncached (unc all) (unc l) o k) := by
  induction l with
  | nil =>
    have hf : (unc all).find? (fun b => b == .invalidate || b == .volatileInvalidate) =
        all.find? fun b => b == .invalidate || b == .volatileInvalidate := find_unc rfl all
    unfold invalidatePipe unc
    dsimp only [List.filter_nil]
    show CRelOn E _ _ (match (unc all).find? (fun b => b == .invalidate || b == .volatileInvalidate) with
      | some .invalidate => _
      | some _ => _
      | none => _)
    rw [hf]
    generalize all.find? (fun b => b == .invalidate || b == .volatileInvalidate) = fo
    rcases fo with _ | b
    · exact (rel_raise _).on
    · have hv := (rel_invalidateVolatile (E := E) o k).weaken
        (Q := fun w => o < w.nobj ∧ (k = .none → Bhv.cache ∉ (clsOf E w o).bhvs) ∧
          (Bhv.cache ∈ ([] : List Bhv) → Bhv.cache ∈ (clsOf E w o).bhvs) ∧
          (Bhv.cache ∉ ([] : List Bhv) → Uncached E o k w)) fun w h => ⟨h.2.2.2 nofun, h.2.1⟩
      cases b
      case invalidate => exact (rel_invalidateDel hE o k).weaken fun w h => h.1
      all_goals exact hv
  | cons b r ih =>
    by_cases hb : b = .cache
    · subst hb
      rw [unc_cache]
      intro w hw hp
      have hm := hp.2.2.1 List.mem_cons_self
      have hk : k ≠ .none := fun e => hp.2.1 e hm
      obtain ⟨w1, h1, h2, h3, h4, h5, h7⟩ := cacheDrop_runs (E := E) o k hw hm
      have hcls : clsOf E w1 o = clsOf E w o := congrArg E.cls (h5 o)
      have h6 := ih w1 h3 ⟨by rw [h7]; exact hp.1, fun e => absurd e hk, fun _ => by rw [hcls]; exact hm,
        fun _ => h4⟩
      have e : invalidatePipe E all (.cache :: r) o k w = invalidatePipe E all r o k w1 := by
        simp only [invalidatePipe, if_neg hk, M.bind_apply, h1]
      unfold CRelAt at h6 ⊢
      rw [e, ← h2]; exact h6
    · rw [unc_cons hb]
      have h := ih.weaken (Q := fun w => o < w.nobj ∧ (k = .none → Bhv.cache ∉ (clsOf E w o).bhvs) ∧
        (Bhv.cache ∈ b :: r → Bhv.cache ∈ (clsOf E w o).bhvs) ∧ (Bhv.cache ∉ b :: r → Uncached E o k w))
        fun w h => ⟨h.1, h.2.1, fun hm => h.2.2.1 (List.mem_cons_of_mem _ hm), fun hm => h.2.2.2 fun hc =>
          (List.mem_cons.mp hc).elim (fun e => hb e.symm) hm⟩
      cases b
      case cache => exact absurd rfl hb
      all_goals exact h

theorem rel_invalidate (hE : ∀ c, CacheSafe (E.cls c)) (o : Oid) (k : Key) :
    CRelOn E (fun w => o < w.nobj ∧ (k = .none → Bhv.cache ∉ (clsOf E w o).bhvs))
      (invalidate E o k) (invalidate E.uncached o k) := fun w hw hp =>
  rel_invalidatePipe hE (bhvsOf E w o) (bhvsOf E w o) k w hw ⟨hp.1, hp.2, id, fun h hc => absurd hc h⟩

/-! ### Order -/

theorem eqv_validateInsertion (o n : Oid) : Eqv (validateInsertion E o n) (validateInsertion E.uncached o n) := by
  refine eqv_getW fun w => ?_
  rw [bhvsOf_uncached, bhvsOf_uncached, contains_unc (by decide), contains_unc (by decide),
    contains_unc (by decide), contains_unc (by decide)]
  refine eqv_ite (eqv_raise _) (eqv_ite (eqv_ite ?_ (eqv_raise _)) (eqv_ite (eqv_raise _) (eqv_pure _)))
  show Eqv _ (match (w.objs n).uuid with
    | none => _
    | some u => _)
  cases (w.objs n).uuid with
  | none => exact eqv_raise _
  | some u => exact eqv_bind (eqv_indexRef o) fun i => eqv_ite (eqv_raise _) (eqv_pure _)

theorem rel_validateInsertion (o n : Oid) : CRel E (validateInsertion E o n) (validateInsertion E.uncached o n) :=
  rel_mute (eqv_validateInsertion o n) (by
    refine pres_bind mute_pre (pres_getW mute_pre) fun w => ?_
    refine pres_ite mute_pre (pres_raise mute_pre _) (pres_ite mute_pre ?_
      (pres_ite mute_pre (pres_raise mute_pre _) (pres_pure mute_pre _)))
    refine pres_ite mute_pre ?_ (pres_raise mute_pre _)
    split
    · exact pres_raise mute_pre _
    · exact pres_bind mute_pre (pres_of_id mute_pre (indexRef_id o)) fun i =>
        pres_ite mute_pre (pres_raise mute_pre _) (pres_pure mute_pre _))

theorem relAt_ite {c : Prop} [Decidable c] {a a' b b' : M α} {w : World} (h : c → CRelAt E a a' w)
    (h' : ¬c → CRelAt E b b' w) : CRelAt E (if c then a else b) (if c then a' else b') w := by
  split
  · exact h ‹_›
  · exact h' ‹_›

theorem rel_storageInsert (before : Bool) (o : Oid) (ref new : Key) (v : Val) :
    CRel E (storageInsert E before o ref new v) (storageInsert E.uncached before o ref new v) := by
  intro w hw
  refine relAt_bind (rel_mute (eqv_storageRef E o) (mute_storageRef E o) w hw) fun r w1 hx hw1 => ?_
  have hr := storageRef_ok hx
  have hs : storageKind (bhvsOf E.uncached w1.uncache o) = storageKind (bhvsOf E w1 o) := by
    rw [bhvsOf_uncached]; exact storageKind_unc _
  show CRelAt E (if storageKind (bhvsOf E w1 o) = some .odictStorage then _ else _)
    (if storageKind (bhvsOf E.uncached w1.uncache o) = some .odictStorage then _ else _) w1
  rw [hs]
  refine relAt_ite (fun _ => ?_) fun _ => ⟨rfl, hw1⟩
  refine relAt_ite (c := (w1.stores r).has ref = true) (fun h2 => ?_) fun _ => ⟨rfl, hw1⟩
  refine relAt_ite (c := (w1.stores r).has new = true) (fun _ => ⟨rfl, hw1⟩) fun h3 => ?_
  have hn : new ∉ (w1.stores r).keys := fun h => h3 ((Od.has_iff _ _).mpr h)
  have hm : ref ∈ (w1.stores r).keys := (Od.has_iff _ _).mp h2
  refine ⟨rfl, hw1.setStore hr ?_ fun j u _ _ hu => ?_⟩
  · split
    · exact Od.nodup_insertBefore (hw1.wf.sNd _) hn _ _
    · exact Od.nodup_insertAfter (hw1.wf.sNd _) hn _ _
  · rw [children_eq hr] at hu
    have hj : j ≠ new := fun e => hn (e ▸ Od.mem_keys_of_get? hu)
    split
    · rw [Od.get?_insertBefore v hm hn, if_neg hj]; exact hu
    · rw [Od.get?_insertAfter v hm hn, if_neg hj]; exact hu

theorem rel_insertAt (hE : ∀ c, CacheSafe (E.cls c)) (before : Bool) (o n ref : Oid) :
    CRel E (insertAt E before o n ref) (insertAt E.uncached before o n ref) :=
  rel_bind (rel_validateInsertion o n) fun _ => rel_getW fun _ =>
    rel_bind (rel_storageInsert before o _ _ _) fun _ => rel_setitem hE o _ _

theorem rel_insertEnd (hE : ∀ c, CacheSafe (E.cls c)) (first : Bool) (o n : Oid) :
    CRel E (insertEnd E first o n) (insertEnd E.uncached first o n) := by
  refine rel_bind (rel_mkeys o) fun ks => ?_
  cases (if first then ks.head? else ks.getLast?) with
  | none => exact rel_getW fun _ => rel_setitem hE o _ _
  | some k =>
    refine rel_bind (rel_getitem hE o k) fun v => ?_
    cases v with
    | node ref => exact rel_insertAt hE first o n ref
    | data d => exact rel_bind (rel_validateInsertion o n) fun _ => rel_raise _

theorem rel_swapNodes (o a b : Oid) : CRel E (swapNodes E o a b) (swapNodes E.uncached o a b) := by
  intro w hw
  refine relAt_bind (rel_mute (eqv_storageRef E o) (mute_storageRef E o) w hw) fun r w1 hx hw1 => ?_
  have hr := storageRef_ok hx
  have hs : storageKind (bhvsOf E.uncached w1.uncache o) = storageKind (bhvsOf E w1 o) := by
    rw [bhvsOf_uncached]; exact storageKind_unc _
  show CRelAt E (if storageKind (bhvsOf E w1 o) = some .odictStorage then _ else _)
    (if storageKind (bhvsOf E.uncached w1.uncache o) = some .odictStorage then _ else _) w1
  rw [hs]
  refine relAt_ite (fun _ => ?_) fun _ => ⟨rfl, hw1⟩
  refine relAt_ite (c := (w1.objs a).name = (w1.objs b).name) (fun _ => ⟨rfl, hw1⟩) fun _ => ?_
  refine relAt_ite (c := (w1.stores r).has (w1.objs a).name = true) (fun _ => ?_) fun _ => ⟨rfl, hw1⟩
  refine relAt_ite (c := (w1.stores r).has (w1.objs b).name = true) (fun _ => ?_) fun _ => ⟨rfl, hw1⟩
  refine ⟨rfl, hw1.setStore hr (Od.nodup_swap (hw1.wf.sNd _) _ _) fun j u _ _ hu => ?_⟩
  rw [Od.get?_swap (hw1.wf.sNd _), ← children_eq hr]; exact hu

/-! ### Attributes -/

theorem rel_attrs (o : Oid) : CRelOn E (fun w => o < w.nobj) (attrs E o) (attrs E.uncached o) := by
  refine relOn_getW fun w0 => ?_
  rw [bhvsOf_uncached, contains_unc (by decide), contains_unc (by decide)]
  refine relOn_ite ?_ (rel_raise _).on
  intro w hw ho
  refine relAt_bind (rel_mute (eqv_nodespacesRef o) (mute_nodespacesRef o) w hw) fun r w1 hx hw1 => ?_
  have hm := mute_nodespacesRef o w
  rw [hx] at hm
  have hr := nodespacesRef_ok hx
  have ho1 : o < w1.nobj := by have := hm.nobj; simp only at this; rw [this]; exact ho
  show CRelAt E (match (w1.nspaces r).get? attrsKey with
      | some (.node a) => _
      | some (.data _) => _
      | none => _)
    (match (w1.nspaces r).get? attrsKey with
      | some (.node a) => _
      | some (.data _) => _
      | none => _) w1
  cases hg : (w1.nspaces r).get? attrsKey with
  | some v =>
    cases v with
    | node a => exact ⟨rfl, hw1⟩
    | data d => exact ⟨rfl, hw1⟩
  | none =>
    dsimp only
    refine relAt_bind (rel_newNode _ attrsKey (some o) w1 hw1) fun a w2 hy hw2 => ?_
    obtain ⟨-, -, hold, -⟩ := newNode_builds E (clsOf E w1 o).attrsFactory attrsKey (some o) hw1.wf
    rw [hy] at hold
    have hr2 : (w2.objs o).nodespaces = some r := by rw [hold.spaces o ho1]; exact hr
    have hv : w2.nspaces r = w1.nspaces r := by
      rw [← nsview_eq hr2, ← nsview_eq hr]; exact hold.nsview o ho1
    refine ⟨rfl, hw2.setNspace hr2 (Od.nodup_keys_set (hw2.wf.nNd _) _ _) fun j u _ _ _ hu => ?_⟩
    rw [nsview_eq hr2] at hu
    rw [Od.get?_set]
    split
    · rename_i e; subst e; rw [hv, hg] at hu; cases hu
    · exact hu

/-! ### All operations -/

theorem rel_exec (hE : ∀ c, CacheSafe (E.cls c)) (op : Op) {w : World} (hw : Fresh E w)
    (h : op.Fits E w) : CRelAt E (exec E op) (exec E.uncached op) w := by
  have hr : ∀ {α : Type} {m m' : M α} (f : α → Res), CRelAt E m m' w →
      CRelAt E (do let x ← m; pure (f x)) (do let x ← m'; pure (f x)) w := fun f h =>
    relAt_bind h fun _ w' _ hw' => rel_pure _ w' hw'
  have ho : ∀ {o}, Val.node o ∈ op.vals → o < w.nobj := fun h' => h.1 _ h'
  cases op
  case new c n p => exact hr _ (rel_newNode c n p w hw)
  case get o k => exact hr _ (rel_getitem hE o k w hw)
  case set o k v => exact hr (fun _ => .unit) (rel_setitem hE o k v w hw)
  case del o k => exact hr (fun _ => .unit) (rel_delitem hE o k w hw (ho (by simp [Op.vals])))
  case getD o k d => exact hr _ (rel_catchIf (rel_getitem hE o k) (fun _ => rel_pure _) w hw)
  case contains o k =>
    exact hr _ (rel_catchIf (rel_bind (rel_getitem hE o k) fun _ => rel_pure _) (fun _ => rel_pure _) w hw)
  case keys o => exact hr _ (rel_mkeys o w hw)
  case values o => exact hr _ (rel_mvalues hE o w hw)
  case items o => exact hr _ (rel_mitems hE o w hw)
  case len o => exact hr _ (rel_bind (rel_mkeys o) (fun _ => rel_pure _) w hw)
  case setdefault o k v =>
    exact hr _ (rel_catchIf (rel_getitem hE o k) (fun _ => rel_bind (rel_setitem hE o k v) fun _ =>
      rel_pure _) w hw)
  case pop o k d => exact hr _ (rel_mpop hE o k d w hw (ho (by simp [Op.vals])))
  case popitem o => exact hr _ (rel_mpopitem hE o w hw (ho (by simp [Op.vals])))
  case update o kvs =>
    exact hr (fun _ => .unit) (rel_mupdate hE o kvs w hw)
  case clear o => exact hr (fun _ => .unit) (rel_mclear hE o w hw (ho (by simp [Op.vals])))
  case detach o k => exact hr _ (rel_detach hE o k w hw (ho (by simp [Op.vals])))
  case invalidate o k =>
    exact hr (fun _ => .unit) (rel_invalidate hE o k w hw ⟨ho (by simp [Op.vals]), fun e => h.2 o (by rw [e])⟩)
  case insertBefore o n ref => exact hr (fun _ => .unit) (rel_insertAt hE true o n ref w hw)
  case insertAfter o n ref => exact hr (fun _ => .unit) (rel_insertAt hE false o n ref w hw)
  case insertFirst o n => exact hr (fun _ => .unit) (rel_insertEnd hE true o n w hw)
  case insertLast o n => exact hr (fun _ => .unit) (rel_insertEnd hE false o n w hw)
  case swap o a b => exact hr (fun _ => .unit) (rel_swapNodes o a b w hw)
  case attrs o => exact hr _ (rel_attrs o w hw (ho (by simp [Op.vals])))
  case setUuid o u =>
    exact hr (fun _ => .unit) (rel_hidden (eqv_setUuidRef o u) (hidden_setUuidRef o u) w hw)
  case setFallbackKey o k =>
    exact hr (fun _ => .unit) (rel_hidden (eqv_modO o fun _ => rfl) (hidden_setFallbackKey o k) w hw)

theorem rel_execAll (hE : ∀ c, CacheSafe (E.cls c)) (ops : List Op) {w : World} (hw : Fresh E w)
    (h : FitsAll E ops w) :
    execAll E.uncached ops w.uncache = ((execAll E ops w).1, (execAll E ops w).2.uncache) ∧
      Fresh E (execAll E ops w).2 := by
  induction ops generalizing w with
  | nil => exact ⟨rfl, hw⟩
  | cons op r ih =>
    obtain ⟨h1, h2⟩ := rel_exec hE op hw h.1
    obtain ⟨h3, h4⟩ := ih h2 h.2
    refine ⟨?_, h4⟩
    simp only [execAll, h1, h3]

end

end Verif
