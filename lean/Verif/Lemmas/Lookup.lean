import Verif.Lemmas.PassThrough

/-! Reading an item of any class that does not translate keys. -/

namespace Verif

variable {E : Env} {S : Oid → Prop}

/-- Reading an item is looking it up among the children. -/
theorem getPipe_look (fb : Oid → Key → Exc → M Val) {bs : List Bhv}
    (hb : Bhv.alias ∉ bs) {o : Oid} {k : Key} (hk : Plain bs k) {w : World} (hw : WF w)
    (hh : k ∈ (w.children o).keys ∨ Bhv.childFactory ∉ bs ∧ Bhv.fallback ∉ bs)
    (hcoh : Coh E S w) (hS : S o) (hc : Stores (clsOf E w o))
    (hca : Bhv.cache ∈ bs → Bhv.cache ∈ (clsOf E w o).bhvs) :
    ∃ w', getPipe E fb bs o k w = (lookup (w.children o) k, w') ∧ ReadOut E S w w' := by
  induction bs generalizing w with
  | nil => exact getEnd_pt hw hcoh hc
  | cons b r ih =>
    have hb' : Bhv.alias ∉ r := fun h => hb (List.mem_cons_of_mem _ h)
    have hh' : k ∈ (w.children o).keys ∨ Bhv.childFactory ∉ r ∧ Bhv.fallback ∉ r :=
      hh.imp id fun h => ⟨fun x => h.1 (List.mem_cons_of_mem _ x), fun x => h.2 (List.mem_cons_of_mem _ x)⟩
    have hit : k ∈ (w.children o).keys → ∃ v, lookup (w.children o) k = .ok v := fun h => by
      obtain ⟨v, hv⟩ := Od.get?_of_mem_keys h
      exact ⟨v, by simp [lookup, hv]⟩
    have hca' : Bhv.cache ∈ r → Bhv.cache ∈ (clsOf E w o).bhvs :=
      fun h => hca (List.mem_cons_of_mem _ h)
    cases b
    case nodespaces =>
      obtain ⟨s, rfl, hs⟩ := hk List.mem_cons_self
      simp only [getPipe, nodespacesGet, not_reserved hs, Bool.false_eq_true, if_false]
      exact ih hb' hk.tail hw hh' hcoh hc hca'
    case cache =>
      obtain ⟨rc, w1, hr⟩ := cacheRef_isOk o w
      have hv := vis_cacheRef o hw
      have hq := cacheRef_quiet o w hw
      have hkp := cacheKeep_cacheRef o w
      have hro := cacheRef_ok hr
      rw [hr] at hv hq hkp
      have h1 : ReadOut E S w w1 := ⟨hq.1, hq.2, hcoh.vis hv, hkp⟩
      simp only [getPipe, cacheGet, M.bind_apply, hr, M.getW_apply]
      rw [← cached_eq hro, hv.cached]
      cases hg : (w.cached o).get? k with
      | some v =>
        refine ⟨w1, ?_, h1⟩
        have := hcoh o hS (hca List.mem_cons_self) k v hg
        simp [lookup, this]
      | none =>
        obtain ⟨w2, h2, hro2⟩ := ih (w := w1) hb' hk.tail h1.wf (by rw [h1.same.children]; exact hh') h1.coh (h1.clsOf o ▸ hc)
          (h1.clsOf o ▸ hca')
        rw [h1.same.children o] at h2
        simp only [M.bind_apply, h2]
        cases hl : lookup (w.children o) k with
        | error e => exact ⟨w2, rfl, h1.trans hro2⟩
        | ok v =>
          have hro2' := hro2.keep o rc hro
          have hch : (w.children o).get? k = some v := by
            unfold lookup at hl
            split at hl
            · rename_i h; injection hl with hl; exact hl ▸ h
            · cases hl
          refine ⟨_, ?_, h1.trans (hro2.trans (c := { w2 with
            caches := upd w2.caches rc ((w2.caches rc).set k v) }) ?_)⟩
          · simp [lookup, Od.get?_set]
          · have hq3 := setCache_quiet (w := w2) rc ((w2.caches rc).set k v)
              (fun h => Od.nodup_keys_set (h.cNd rc) _ _) hro2.wf
            refine ⟨hq3.1, hq3.2, ?_, fun _ _ h => h⟩
            intro p hSp hcp j x hj
            have hp := hro2.coh p hSp hcp
            rw [cached_setCache hro2.wf hro2'] at hj
            show (w2.children p).get? j = some x
            by_cases e : p = o
            · subst e
              simp only [if_true] at hj
              rw [← cached_eq hro2', Od.get?_set] at hj
              split at hj
              · rename_i e2; injection hj with hj; subst hj; subst e2
                rw [(h1.trans hro2).same.children]; exact hch
              · exact hp j x hj
            · simp only [e, if_false] at hj; exact hp j x hj
    case alias => exact absurd List.mem_cons_self hb
    case childFactory =>
      rcases hh with h | h
      · obtain ⟨v, hl⟩ := hit h
        obtain ⟨w', h1, h2⟩ := ih hb' hk.tail hw hh' hcoh hc hca'
        refine ⟨w', ?_, h2⟩
        rw [hl] at h1 ⊢
        simp only [getPipe, childFactoryGet, M.catchIf_apply, h1]
      · exact absurd List.mem_cons_self h.1
    case fallback =>
      rcases hh with h | h
      · obtain ⟨v, hl⟩ := hit h
        obtain ⟨w', h1, h2⟩ := ih hb' hk.tail hw hh' hcoh hc hca'
        refine ⟨w', ?_, h2⟩
        rw [hl] at h1 ⊢
        simp only [getPipe, M.catchIf_apply, h1]
      · exact absurd List.mem_cons_self h.2
    all_goals exact ih hb' hk.tail hw hh' hcoh hc hca'

/-- A key that `node[k]` looks up among the children: the class has a storage and no
`Alias`, the key is not taken by `Nodespaces`. -/
structure Looks (c : ClassDef) (k : Key) : Prop where
  stores : Stores c
  noAlias : Bhv.alias ∉ c.bhvs
  plain : Plain c.bhvs k

theorem Looks.dest {c : ClassDef} {k : Key} (h : Looks c k) (al : Option Aliaser) :
    dest al c.bhvs k = some (.child k) := by
  have h1 := h.noAlias
  have h2 := h.plain
  revert h1 h2
  generalize c.bhvs = bs
  intro h1 h2
  induction bs with
  | nil => rfl
  | cons b r ih =>
    have hr := ih (fun x => h1 (List.mem_cons_of_mem _ x)) h2.tail
    cases b
    case alias => exact absurd List.mem_cons_self h1
    case nodespaces =>
      obtain ⟨s, rfl, hs⟩ := h2 List.mem_cons_self
      simp only [Verif.dest, if_neg hs]
      exact hr
    all_goals exact hr

/-- `node[k]` for a key that is there. -/
theorem getitem_hit {o : Oid} {k : Key} {w : World} (hl : Looks (clsOf E w o) k) (hw : WF w)
    (hcoh : Coh E S w) (hS : S o) {v : Val} (hv : (w.children o).get? k = some v) :
    ∃ w', getitem E o k w = (.ok v, w') ∧ ReadOut E S w w' := by
  obtain ⟨w', h1, h2⟩ := getPipe_look (E := E) (fbHandler E) hl.noAlias hl.plain hw
    (.inl (Od.mem_keys_of_get? hv)) hcoh hS hl.stores id
  refine ⟨w', ?_, h2⟩
  simp only [lookup, hv] at h1
  exact h1

/-- `node[k]` for a class without `ChildFactory` and `Fallback`. -/
theorem getitem_look {o : Oid} {k : Key} {w : World} (hl : Looks (clsOf E w o) k) (hw : WF w)
    (hcoh : Coh E S w) (hS : S o) (hf : Bhv.childFactory ∉ (clsOf E w o).bhvs)
    (hb : Bhv.fallback ∉ (clsOf E w o).bhvs) :
    ∃ w', getitem E o k w = (lookup (w.children o) k, w') ∧ ReadOut E S w w' :=
  getPipe_look (E := E) (fbHandler E) hl.noAlias hl.plain hw (.inr ⟨hf, hb⟩) hcoh hS hl.stores id

/-! ### All values -/

/-- A node whose values can be read one by one: a storage, no key translation or
factory, no stored key taken by `Nodespaces`, no cache or one that agrees with the
storage. -/
structure Open (E : Env) (w : World) (o : Oid) : Prop where
  concrete : Concrete (clsOf E w o)
  keys : ∀ k ∈ (w.omap o).keys, KeyFor (clsOf E w o) k
  cache : Bhv.cache ∈ (clsOf E w o).bhvs →
    ∀ j v, (w.cached o).get? j = some v → (w.omap o).val j = some v

theorem Open.coh {w : World} {o : Oid} (h : Open E w o) : Coh E (· = o) w := fun p hp hc j v hv => by
  subst hp; exact h.cache hc j v hv

theorem forM'_getitem (ks : List Key) {w : World} {o : Oid} (hw : WF w) (h : Concrete (clsOf E w o))
    (hp : ∀ k ∈ ks, KeyFor (clsOf E w o) k) (hcoh : Coh E S w) (hS : S o)
    (hk : ∀ k ∈ ks, k ∈ (w.children o).keys) :
    ∃ w', forM' (getitem E o) ks w = (.ok (ks.filterMap (w.children o).get?), w') ∧
      ReadOut E S w w' := by
  induction ks generalizing w with
  | nil => exact ⟨w, rfl, .refl hw hcoh⟩
  | cons a t ih =>
    obtain ⟨v, hv⟩ := Od.get?_of_mem_keys (hk a List.mem_cons_self)
    obtain ⟨w1, h1, h2⟩ := getitem_hit (E := E) ⟨h.stores, h.noAlias, hp a List.mem_cons_self⟩ hw hcoh
      hS hv
    obtain ⟨w2, h3, h4⟩ := ih (w := w1) h2.wf (by rw [h2.clsOf]; exact h)
      (fun k hk' => by rw [h2.clsOf]; exact hp k (List.mem_cons_of_mem _ hk')) h2.coh
      fun k hk' => by rw [h2.same.children]; exact hk k (List.mem_cons_of_mem _ hk')
    refine ⟨w2, ?_, h2.trans h4⟩
    simp only [forM', M.bind_apply, h1, h3, M.pure_apply, List.filterMap_cons, hv, h2.same.children]

theorem iter_open {w : World} {o : Oid} (h : Concrete (clsOf E w o)) (hw : WF w) (hcoh : Coh E S w) :
    ∃ w', iter E o w = (.ok ((w.children o).keys, none), w') ∧ ReadOut E S w w' := by
  obtain ⟨r, w', hr, hi⟩ := h.iter
  have hq := storageRef_quiet E o w hw
  have hv := vis_storageRef E o hw
  have hk := cacheKeep_storageRef (E := E) o w
  rw [hr] at hq hv hk
  refine ⟨w', ?_, hq.1, hq.2, hcoh.vis hv, hk⟩
  rw [hi, ← hq.2.children o, children_eq (storageRef_ok hr)]

/-- `values()` of such a node. -/
theorem mvalues_open {w : World} {o : Oid} (h : Open E w o) (hw : WF w) (hcoh : Coh E S w) (hS : S o) :
    ∃ w', mvalues E o w = (.ok (w.omap o).values, w') ∧ ReadOut E S w w' := by
  obtain ⟨w1, h1, h2⟩ := iter_open (S := S) h.concrete hw hcoh
  obtain ⟨w2, h3, h4⟩ := forM'_getitem (E := E) (S := S) (w.children o).keys h2.wf (o := o)
    (by rw [h2.clsOf]; exact h.concrete) (fun k hk => by rw [h2.clsOf]; exact h.keys k hk) h2.coh hS
    (fun k hk => by rw [h2.same.children]; exact hk)
  refine ⟨w2, ?_, h2.trans h4⟩
  simp only [mvalues, M.bind_apply, h1, h3, endIter, M.pure_apply, h2.same.children]
  rfl

/-- `items()` of such a node. -/
theorem mitems_open {w : World} {o : Oid} (h : Open E w o) (hw : WF w) (hcoh : Coh E S w) (hS : S o) :
    ∃ w', mitems E o w = (.ok (w.omap o).items, w') ∧ ReadOut E S w w' := by
  have key : ∀ (ks : List Key) {w : World}, WF w → Concrete (clsOf E w o) → (∀ k ∈ ks, KeyFor (clsOf E w o) k) →
      Coh E S w → (∀ k ∈ ks, k ∈ (w.children o).keys) →
      ∃ w', forM' (fun k => do let v ← getitem E o k; pure (k, v)) ks w =
        (.ok (ks.filterMap fun k => ((w.children o).get? k).map fun v => (k, v)), w') ∧ ReadOut E S w w' := by
    intro ks
    induction ks with
    | nil => exact fun {w} hw _ _ hcoh _ => ⟨w, rfl, .refl hw hcoh⟩
    | cons a t ih =>
      intro w hw h hp hcoh hk
      obtain ⟨v, hv⟩ := Od.get?_of_mem_keys (hk a List.mem_cons_self)
      obtain ⟨w1, h1, h2⟩ := getitem_hit (E := E) ⟨h.stores, h.noAlias, hp a List.mem_cons_self⟩ hw hcoh hS hv
      obtain ⟨w2, h3, h4⟩ := ih (w := w1) h2.wf (by rw [h2.clsOf]; exact h)
        (fun k hk' => by rw [h2.clsOf]; exact hp k (List.mem_cons_of_mem _ hk')) h2.coh
        fun k hk' => by rw [h2.same.children]; exact hk k (List.mem_cons_of_mem _ hk')
      refine ⟨w2, ?_, h2.trans h4⟩
      simp only [forM', M.bind_apply, h1, h3, M.pure_apply, List.filterMap_cons, hv, h2.same.children, Option.map_some]
  obtain ⟨w1, h1, h2⟩ := iter_open (S := S) h.concrete hw hcoh
  obtain ⟨w2, h3, h4⟩ := key (w.children o).keys h2.wf
    (by rw [h2.clsOf]; exact h.concrete) (fun k hk => by rw [h2.clsOf]; exact h.keys k hk) h2.coh
    (fun k hk => by rw [h2.same.children]; exact hk)
  refine ⟨w2, ?_, h2.trans h4⟩
  simp only [mitems, M.bind_apply, h1, h3, endIter, M.pure_apply, h2.same.children]
  rfl

end Verif
