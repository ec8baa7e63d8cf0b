import Verif.Spec.Shown
import Verif.Lemmas.Lookup

/-! `node[k]` returns what the node has under `k`, whatever its class. -/

namespace Verif

variable {E : Env}

/-- What a hit does to the heap: nothing but the caches of the node itself. -/
structure Hit (o : Oid) (w w' : World) : Prop where
  wf : WF w'
  same : Same w w'
  keep : CacheKeep w w'
  cached : ∀ p, p ≠ o → w'.cached p = w.cached p

theorem Hit.refl {w : World} (o : Oid) (hw : WF w) : Hit o w w :=
  ⟨hw, Same.refl w, fun _ _ h => h, fun _ _ => rfl⟩

theorem Hit.trans {o : Oid} {a b c : World} (h : Hit o a b) (h' : Hit o b c) : Hit o a c :=
  ⟨h'.wf, h.same.trans h'.same, fun p r x => h'.keep p r (h.keep p r x),
   fun p hp => (h'.cached p hp).trans (h.cached p hp)⟩

theorem Same.clsOf {w w' : World} (h : Same w w') (p : Oid) : Verif.clsOf E w' p = Verif.clsOf E w p :=
  congrArg E.cls (h.obj p).cls

theorem stored_same {w w' : World} (h : Same w w') (o : Oid) (k : Key) :
    w'.stored E o k = w.stored E o k := by
  unfold World.stored
  rw [h.clsOf, h.children, (h.obj o).fixed]

theorem shownBy_same {w w' : World} (h : Same w w') {o : Oid} (hc : w'.cached o = w.cached o)
    (bs : List Bhv) (k : Key) : w'.shownBy E o bs k = w.shownBy E o bs k := by
  induction bs generalizing k with
  | nil => exact stored_same h o k
  | cons b r ih =>
    cases b <;> simp only [World.shownBy, ih, h.clsOf, hc, h.nsview]

theorem shown_same {w w' : World} (h : Same w w') {o : Oid} (hc : w'.cached o = w.cached o) (k : Key) :
    w'.shown E o k = w.shown E o k := by
  unfold World.shown
  rw [h.clsOf, shownBy_same h hc]

theorem getEnd_stored {o : Oid} {k : Key} {v : Val} {w : World} (hw : WF w)
    (h : w.stored E o k = some v) : ∃ w', getEnd E o k w = (.ok v, w') ∧ Hit o w w' := by
  unfold World.stored at h
  by_cases hf : Bhv.fixedChildren ∈ (clsOf E w o).bhvs
  · rw [if_pos hf] at h
    refine ⟨w, ?_, .refl o hw⟩
    simp only [getEnd, M.bind_apply, M.getW_apply]
    rw [if_pos (show (bhvsOf E w o).contains .fixedChildren = true from List.contains_iff_mem.mpr hf)]
    simp [M.ofExcept_apply, lookup, h]
  · rw [if_neg hf] at h
    have hs : Stores (clsOf E w o) := by
      refine ⟨?_, hf⟩
      unfold storageKind
      cases hk : (clsOf E w o).bhvs.find? Bhv.isStorage with
      | none => rw [hk] at h; cases h
      | some b =>
        refine ⟨b, rfl, fun e => ?_⟩
        subst e; rw [hk] at h; cases h
    have hch : (w.children o).get? k = some v := by
      obtain ⟨b, hb, hne⟩ := hs.kind
      unfold storageKind at hb
      rw [hb] at h
      cases b <;> first | exact absurd rfl hne | exact h
    obtain ⟨r, w1, hr⟩ := hs.storageRef
    have hv := vis_storageRef E o hw
    have hq := storageRef_quiet E o w hw
    have hk := cacheKeep_storageRef (E := E) o w
    rw [hr] at hv hq hk
    refine ⟨w1, ?_, hq.1, hq.2, hk, fun p _ => hv.cached p⟩
    simp only [getEnd, M.bind_apply, M.getW_apply]
    rw [show (bhvsOf E w o).contains .fixedChildren = false from hs.fixed,
        show (bhvsOf E w o).any Bhv.isStorage = true from hs.any]
    simp only [Bool.false_eq_true, if_false, if_true, M.bind_apply, hr, M.getW_apply, M.ofExcept_apply]
    rw [← children_eq (storageRef_ok hr), hq.2.children o]
    simp [lookup, hch]

theorem cacheKeep_nodespacesRef (o : Oid) (w : World) : CacheKeep w (nodespacesRef o w).2 := by
  unfold nodespacesRef
  split
  · exact fun _ _ h => h
  · intro p r h; exact (proj_upd Obj.cache w.objs o _ (by rfl) p).trans h

/-- The pipeline returns what it shows. -/
theorem getPipe_shown (fb : Oid → Key → Exc → M Val) (bs : List Bhv) {o : Oid} {k : Key} {v : Val}
    {w : World} (hw : WF w) (h : w.shownBy E o bs k = some v) :
    ∃ w', getPipe E fb bs o k w = (.ok v, w') ∧ Hit o w w' := by
  induction bs generalizing k v w with
  | nil => exact getEnd_stored hw h
  | cons b r ih =>
    cases b
    case nodespaces =>
      cases k with
      | str s =>
        simp only [World.shownBy] at h
        by_cases hs : Reserved s
        · rw [if_pos hs] at h
          obtain ⟨rn, w1, hr⟩ := nodespacesRef_isOk o w
          have hv := vis_nodespacesRef o hw
          have hq := nodespacesRef_quiet o w hw
          have hk := cacheKeep_nodespacesRef o w
          rw [hr] at hv hq hk
          refine ⟨w1, ?_, hq.1, hq.2, hk, fun p _ => hv.cached p⟩
          simp only [getPipe, nodespacesGet, (reserved_iff s).mpr hs, if_true, M.bind_apply, hr,
            M.getW_apply, M.ofExcept_apply]
          rw [← nsview_eq (nodespacesRef_ok hr), hq.2.nsview]
          simp [lookup, h]
        · rw [if_neg hs] at h
          simp only [getPipe, nodespacesGet, not_reserved hs, Bool.false_eq_true, if_false]
          exact ih hw h
      | _ => exact ih hw h
    case cache =>
      obtain ⟨rc, w1, hr⟩ := cacheRef_isOk o w
      have hv := vis_cacheRef o hw
      have hq := cacheRef_quiet o w hw
      have hkp := cacheKeep_cacheRef o w
      have hro := cacheRef_ok hr
      rw [hr] at hv hq hkp
      have h1 : Hit o w w1 := ⟨hq.1, hq.2, hkp, fun p _ => hv.cached p⟩
      simp only [getPipe, cacheGet, M.bind_apply, hr, M.getW_apply]
      rw [← cached_eq hro, hv.cached]
      simp only [World.shownBy] at h
      cases hg : (w.cached o).get? k with
      | some x =>
        rw [hg] at h
        injection h with h
        subst h
        exact ⟨w1, rfl, h1⟩
      | none =>
        rw [hg] at h
        rw [← shownBy_same h1.same (hv.cached o)] at h
        obtain ⟨w2, h2, hh2⟩ := ih h1.wf h
        simp only [M.bind_apply, h2]
        have hro2 := hh2.keep o rc hro
        refine ⟨_, ?_, h1.trans (hh2.trans (c := { w2 with
          caches := upd w2.caches rc ((w2.caches rc).set k v) }) ?_)⟩
        · simp [lookup, Od.get?_set]
        · have hq3 := setCache_quiet (w := w2) rc ((w2.caches rc).set k v)
            (fun h => Od.nodup_keys_set (h.cNd rc) _ _) hh2.wf
          refine ⟨hq3.1, hq3.2, fun _ _ h => h, fun p hp => ?_⟩
          rw [cached_setCache hh2.wf hro2, if_neg hp]
    case alias =>
      simp only [World.shownBy] at h
      simp only [getPipe, M.bind_apply, unaliasKey]
      have keyed : ∀ {u : Key}, w.shownBy E o r u = some v →
          ∃ w', rekey k (getPipe E fb r o u) w = (.ok v, w') ∧ Hit o w w' := fun hu => by
        obtain ⟨w', h1, h2⟩ := ih hw hu
        refine ⟨w', ?_, h2⟩
        simp only [rekey, M.catchIf_apply, h1]
      cases ha : (clsOf E w o).aliaser with
      | none =>
        rw [ha] at h
        exact keyed h
      | some a =>
        rw [ha] at h
        simp only at h ⊢
        by_cases ht : a.truthy
        · rw [if_pos ht] at h ⊢
          cases hu : a.unalias k with
          | error e => rw [hu] at h; cases h
          | ok u => rw [hu] at h; exact keyed h
        · rw [if_neg ht] at h ⊢
          exact keyed h
    case childFactory =>
      obtain ⟨w', h1, h2⟩ := ih hw h
      exact ⟨w', by simp only [getPipe, childFactoryGet, M.catchIf_apply, h1], h2⟩
    case fallback =>
      obtain ⟨w', h1, h2⟩ := ih hw h
      exact ⟨w', by simp only [getPipe, M.catchIf_apply, h1], h2⟩
    all_goals exact ih hw h

/-- `node[k]` is what the node has under `k`. -/
theorem getitem_shown {o : Oid} {k : Key} {v : Val} {w : World} (hw : WF w)
    (h : w.shown E o k = some v) : ∃ w', getitem E o k w = (.ok v, w') ∧ Hit o w w' :=
  getPipe_shown (fbHandler E) _ hw h

/-- Without `Cache` what is shown does not depend on cached values. -/
theorem shownBy_noCache {w w' : World} (h : Same w w') {o : Oid} {bs : List Bhv}
    (hb : Bhv.cache ∉ bs) (k : Key) : w'.shownBy E o bs k = w.shownBy E o bs k := by
  induction bs generalizing k with
  | nil => exact stored_same h o k
  | cons b r ih =>
    have ih := ih fun x => hb (List.mem_cons_of_mem _ x)
    cases b
    case cache => exact absurd List.mem_cons_self hb
    all_goals simp only [World.shownBy, ih, h.clsOf, h.nsview]

/-- What is shown stays as it is when a reading behavior list keeps it. -/
theorem shownBy_cons {w w' : World} (h : Same w w') {o : Oid} {b : Bhv} {r : List Bhv} (hb : b ≠ .cache)
    (hr : ∀ j, w'.shownBy E o r j = w.shownBy E o r j) (j : Key) :
    w'.shownBy E o (b :: r) j = w.shownBy E o (b :: r) j := by
  cases b
  case cache => exact absurd rfl hb
  all_goals simp only [World.shownBy, hr, h.clsOf, h.nsview]

/-- After the read, with at most one `Cache`: everything is shown as before. -/
theorem getPipe_stable (fb : Oid → Key → Exc → M Val) (bs : List Bhv) {o : Oid} {k : Key} {v : Val}
    {w : World} (hw : WF w) (h : w.shownBy E o bs k = some v) :
    ∃ w', getPipe E fb bs o k w = (.ok v, w') ∧ Hit o w w' ∧ w'.shownBy E o bs k = some v ∧
      (Bhv.cache ∉ bs → w'.cached o = w.cached o) ∧
      (bs.count .cache ≤ 1 → ∀ r, r <:+ bs → ∀ j, w'.shownBy E o r j = w.shownBy E o r j) := by
  induction bs generalizing k v w with
  | nil =>
    obtain ⟨w', h1, h2⟩ := getEnd_stored hw h
    refine ⟨w', h1, h2, (stored_same h2.same o k).trans h, fun _ => ?_, fun _ r hr j => ?_⟩
    rotate_left
    · obtain rfl := List.suffix_nil.mp hr
      exact stored_same h2.same o j
    have : Pres (fun a b => ∀ p, b.cached p = a.cached p) (getEnd E o k) := by
      have pre : PreR fun a b : World => ∀ p, b.cached p = a.cached p :=
        ⟨fun _ _ => rfl, fun h h' p => (h' p).trans (h p)⟩
      refine pres_bind pre
        (pres_getW pre) fun w => ?_
      refine pres_ite pre
        (pres_ofExcept pre _) ?_
      refine pres_ite pre ?_
        (pres_raise pre _)
      exact pres_bind pre (storageRef_cached E o) fun _ =>
        pres_bind pre
          (pres_getW pre) fun _ =>
          pres_ofExcept pre _
    have := this w o
    rwa [h1] at this
  | cons b r ih =>
    /- a behavior that hands the same key on -/
    have pass : b ≠ .cache → ∀ {u : Key} (w1 : M Val), w.shownBy E o r u = some v →
        (∀ {w'}, getPipe E fb r o u w = (.ok v, w') → w1 w = (.ok v, w')) →
        (∀ {w'}, Same w w' → w'.shownBy E o r u = some v → w'.shownBy E o (b :: r) k = some v) →
        ∃ w', w1 w = (.ok v, w') ∧ Hit o w w' ∧ w'.shownBy E o (b :: r) k = some v ∧
          (Bhv.cache ∉ b :: r → w'.cached o = w.cached o) ∧
          ((b :: r).count .cache ≤ 1 → ∀ r', r' <:+ b :: r → ∀ j, w'.shownBy E o r' j = w.shownBy E o r' j) := by
      intro hb u w1 hu he hs
      obtain ⟨w', h1, h2, h3, h4, h5⟩ := ih hw hu
      refine ⟨w', he h1, h2, hs h2.same h3, fun hc => h4 fun x => hc (List.mem_cons_of_mem _ x),
        fun hc r' hr => ?_⟩
      rw [List.count_cons_of_ne hb] at hc
      rcases List.suffix_cons_iff.mp hr with e | hr
      · subst e; exact shownBy_cons h2.same hb (h5 hc r (List.suffix_refl r))
      · exact h5 hc r' hr
    cases b
    case nodespaces =>
      cases k with
      | str s =>
        simp only [World.shownBy] at h
        by_cases hs : Reserved s
        · rw [if_pos hs] at h
          obtain ⟨w', h1, h2⟩ := getPipe_shown fb (.nodespaces :: r) (o := o) (k := .str s) (v := v) hw
            (by simp only [World.shownBy, if_pos hs, h])
          have hc : w'.cached o = w.cached o := by
            obtain ⟨rn, w1, hr⟩ := nodespacesRef_isOk o w
            have hv := vis_nodespacesRef o hw
            rw [hr] at hv
            simp only [getPipe, nodespacesGet, (reserved_iff s).mpr hs, if_true, M.bind_apply, hr,
              M.getW_apply, M.ofExcept_apply] at h1
            rw [← (Prod.mk.inj h1).2]
            exact hv.cached o
          refine ⟨w', h1, h2, ?_, fun _ => hc, fun _ _ _ j => shownBy_same h2.same hc _ j⟩
          rw [shownBy_same h2.same hc]
          simp only [World.shownBy, if_pos hs, h]
        · rw [if_neg hs] at h
          refine pass nofun _ h (fun h => ?_) fun _ h => ?_
          · simp only [getPipe, nodespacesGet, not_reserved hs, Bool.false_eq_true, if_false]
            exact h
          · simp only [World.shownBy, if_neg hs]; exact h
      | _ => exact pass nofun _ h (fun h => h) fun _ h => h
    case cache =>
      obtain ⟨rc, w1, hr⟩ := cacheRef_isOk o w
      have hv := vis_cacheRef o hw
      have hq := cacheRef_quiet o w hw
      have hkp := cacheKeep_cacheRef o w
      have hro := cacheRef_ok hr
      rw [hr] at hv hq hkp
      have h1 : Hit o w w1 := ⟨hq.1, hq.2, hkp, fun p _ => hv.cached p⟩
      simp only [getPipe, cacheGet, M.bind_apply, hr, M.getW_apply]
      rw [← cached_eq hro, hv.cached]
      have h0 := h
      simp only [World.shownBy] at h
      cases hg : (w.cached o).get? k with
      | some x =>
        rw [hg] at h
        injection h with h
        subst h
        exact ⟨w1, rfl, h1, (shownBy_same h1.same (hv.cached o) _ _).trans h0, fun _ => hv.cached o,
          fun _ _ _ j => shownBy_same h1.same (hv.cached o) _ j⟩
      | none =>
        rw [hg] at h
        have hin := h
        rw [← shownBy_same h1.same (hv.cached o)] at h
        obtain ⟨w2, h2, hh2, -, hcn, -⟩ := ih h1.wf h
        simp only [M.bind_apply, h2]
        have hro2 := hh2.keep o rc hro
        have hq3 := setCache_quiet (w := w2) rc ((w2.caches rc).set k v)
          (fun h => Od.nodup_keys_set (h.cNd rc) _ _) hh2.wf
        have hh3 : Hit o w2 { w2 with caches := upd w2.caches rc ((w2.caches rc).set k v) } :=
          ⟨hq3.1, hq3.2, fun _ _ h => h, fun p hp => by rw [cached_setCache hh2.wf hro2, if_neg hp]⟩
        have hcs : World.cached { w2 with caches := upd w2.caches rc ((w2.caches rc).set k v) } o =
            (w2.cached o).set k v := by
          rw [cached_setCache hh2.wf hro2, if_pos rfl, cached_eq hro2]
        have hall := h1.trans (hh2.trans hh3)
        refine ⟨_, ?_, hall, ?_, fun hc => absurd List.mem_cons_self hc, fun hc r' hr j => ?_⟩
        · simp [lookup, Od.get?_set]
        · simp only [World.shownBy, hcs, Od.get?_set, if_true]
        · have hnc : Bhv.cache ∉ r := by
            rw [List.count_cons_self] at hc
            exact List.count_eq_zero.mp (by omega)
          rcases List.suffix_cons_iff.mp hr with e | hr
          rotate_left
          · exact shownBy_noCache hall.same (fun x => hnc (hr.mem x)) j
          subst e
          simp only [World.shownBy, hcs, Od.get?_set, hcn hnc, hv.cached, shownBy_noCache hall.same hnc]
          by_cases e : j = k
          · subst e; simp only [if_true, hg, hin]
          · simp only [e, if_false]
    case alias =>
      simp only [World.shownBy] at h
      cases ha : (clsOf E w o).aliaser with
      | none =>
        rw [ha] at h
        refine pass nofun _ h (fun h => ?_) fun hs h => ?_
        · simp only [getPipe, M.bind_apply, unaliasKey, ha, rekey, M.catchIf_apply, h]
        · simp only [World.shownBy, hs.clsOf, ha, h]
      | some a =>
        rw [ha] at h
        simp only at h
        by_cases ht : a.truthy
        · rw [if_pos ht] at h
          cases hu : a.unalias k with
          | error e => rw [hu] at h; cases h
          | ok u =>
            rw [hu] at h
            refine pass nofun _ h (fun h => ?_) fun hs h => ?_
            · simp only [getPipe, M.bind_apply, unaliasKey, ha, if_pos ht, hu, rekey, M.catchIf_apply, h]
            · simp only [World.shownBy, hs.clsOf, ha, if_pos ht, hu, h]
        · rw [if_neg ht] at h
          refine pass nofun _ h (fun h => ?_) fun hs h => ?_
          · simp only [getPipe, M.bind_apply, unaliasKey, ha, if_neg ht, rekey, M.catchIf_apply, h]
          · simp only [World.shownBy, hs.clsOf, ha, if_neg ht, h]
    case childFactory =>
      exact pass nofun _ h (fun h => by simp only [getPipe, childFactoryGet, M.catchIf_apply, h]) fun _ h => h
    case fallback =>
      exact pass nofun _ h (fun h => by simp only [getPipe, M.catchIf_apply, h]) fun _ h => h
    all_goals exact pass nofun _ h (fun h => h) fun _ h => h

end Verif
