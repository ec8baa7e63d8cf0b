import Verif.Lemmas.Lookup
import Verif.Lemmas.OMap
import Verif.Props.C28
import Verif.Sample

/-!
# C66: all ways of reading a node agree

`keys`, `values`, `items`, `len`, `in`, `[]` and `get` describe the same ordered list of pairs.
True for classes that look their children up in a storage, whatever else they do on assignment
and deletion; false with `Nodespaces`, whose namespaces are `in` the node but no keys of it.
-/

namespace Verif

/-- C66, what is true of it: there is one list of pairs without repeated keys that every way of
reading shows. -/
theorem c66_readers_partial {E : Env} {w : World} {o : Oid} (hw : WF w) (h : Open E w o)
    (hb : Bhv.fallback ∉ (clsOf E w o).bhvs) :
    ∃ d : List (Key × Val), (d.map Prod.fst).Nodup ∧
      (mkeys E o w).1 = .ok (d.map Prod.fst) ∧ (mvalues E o w).1 = .ok (d.map Prod.snd) ∧
      (mitems E o w).1 = .ok d ∧ (mlen E o w).1 = .ok d.length ∧
      ∀ k, KeyFor (clsOf E w o) k →
        ((mcontains E o k w).1 = .ok true ↔ k ∈ d.map Prod.fst) ∧
        ((mcontains E o k w).1 = .ok false ↔ k ∉ d.map Prod.fst) ∧
        (∀ v, (getitem E o k w).1 = .ok v ↔ (k, v) ∈ d) ∧
        (k ∉ d.map Prod.fst → (getitem E o k w).1 = .error (.key (.key k))) ∧
        (∀ x v, (mget E o k x w).1 = .ok v ↔ (k, v) ∈ d ∨ k ∉ d.map Prod.fst ∧ v = x) := by
  have hn := hw.children_nodup o
  obtain ⟨w1, h1, -⟩ := iter_open (S := (· = o)) h.concrete hw h.coh
  obtain ⟨w2, h2, -⟩ := mvalues_open (S := (· = o)) h hw h.coh rfl
  obtain ⟨w3, h3, -⟩ := mitems_open (S := (· = o)) h hw h.coh rfl
  have hi : (w.omap o).items = w.children o := toMap_items hn
  have hk : mkeys E o w = (.ok (w.children o).keys, w1) := by
    simp only [mkeys, M.bind_apply, h1, endIter, M.pure_apply]
  refine ⟨w.children o, hn, by rw [hk]; rfl, ?_, by rw [h3, hi], ?_, fun k hkf => ?_⟩
  · rw [h2]
    show Except.ok ((w.children o).keys.filterMap (w.children o).get?) = _
    congr 1
    have : ∀ (l : List (Key × Val)), (∀ kv ∈ l, (w.children o).get? kv.1 = some kv.2) →
        (l.map Prod.fst).filterMap (w.children o).get? = l.map Prod.snd := by
      intro l hl
      induction l with
      | nil => rfl
      | cons a t ih =>
        simp only [List.map_cons, List.filterMap_cons, hl a List.mem_cons_self]
        rw [ih fun kv hkv => hl kv (List.mem_cons_of_mem _ hkv)]
    exact this _ fun kv hkv => Od.get?_of_mem hn hkv
  · simp only [mlen, M.bind_apply, hk, M.pure_apply]
    exact congrArg Except.ok (by simp [Od.keys])
  · obtain ⟨w4, h4, -⟩ := getitem_look (E := E) (S := (· = o)) ⟨h.concrete.stores, h.concrete.noAlias, hkf⟩ hw h.coh rfl
      h.concrete.noFactory hb
    have hmem : ∀ v, (w.children o).get? k = some v ↔ (k, v) ∈ w.children o := fun v =>
      ⟨Od.get?_some_mem, Od.get?_of_mem hn⟩
    rcases lookup_eq (w.children o) k with ⟨v, e1, e2, e3⟩ | ⟨e1, e2, e3⟩
    · have e3' : k ∈ (w.children o).map Prod.fst := e3
      have hu : ∀ v', (k, v') ∈ w.children o ↔ v' = v := fun v' => by
        rw [← hmem, e1, Option.some.injEq]; exact eq_comm
      simp only [mcontains, mget, M.catchIf_apply, M.bind_apply, h4, e2, M.pure_apply]
      simp [e3', hu]
      exact fun v' => eq_comm
    · have e3' : k ∉ (w.children o).map Prod.fst := e3
      have hu : ∀ v', (k, v') ∉ w.children o := fun v' hh => by
        rw [← hmem, e1] at hh; cases hh
      simp only [mcontains, mget, M.catchIf_apply, M.bind_apply, h4, e2, M.pure_apply]
      simp [e3', hu, Exc.isKey]
      exact fun _ _ => eq_comm

/-- C66 with `Fallback` too: the listing readers agree, and `[]`, `in` and `get` answer with the listed value for every
listed key.  For other keys `in` and `get` answer as `[]` does, which may find a value in a fallback. -/
theorem c66_fallback_partial {E : Env} {w : World} {o : Oid} (hw : WF w) (h : Open E w o) :
    ∃ d : List (Key × Val), (d.map Prod.fst).Nodup ∧
      (mkeys E o w).1 = .ok (d.map Prod.fst) ∧ (mvalues E o w).1 = .ok (d.map Prod.snd) ∧
      (mitems E o w).1 = .ok d ∧ (mlen E o w).1 = .ok d.length ∧
      ∀ k, (∀ v, (k, v) ∈ d → (mcontains E o k w).1 = .ok true ∧ (getitem E o k w).1 = .ok v ∧
          ∀ x, (mget E o k x w).1 = .ok v) ∧
        ((mcontains E o k w).1 = .ok true ↔ ∃ v, (getitem E o k w).1 = .ok v) ∧
        ∀ v, (getitem E o k w).1 = .ok v → ∀ x, (mget E o k x w).1 = .ok v := by
  have hn := hw.children_nodup o
  obtain ⟨w1, h1, -⟩ := iter_open (S := (· = o)) h.concrete hw h.coh
  obtain ⟨w2, h2, -⟩ := mvalues_open (S := (· = o)) h hw h.coh rfl
  obtain ⟨w3, h3, -⟩ := mitems_open (S := (· = o)) h hw h.coh rfl
  have hi : (w.omap o).items = w.children o := toMap_items hn
  have hk : mkeys E o w = (.ok (w.children o).keys, w1) := by
    simp only [mkeys, M.bind_apply, h1, endIter, M.pure_apply]
  refine ⟨w.children o, hn, by rw [hk]; rfl, ?_, by rw [h3, hi], ?_, fun k => ⟨fun v hv => ?_, ?_, fun v hv x => ?_⟩⟩
  · rw [h2]
    show Except.ok ((w.children o).keys.filterMap (w.children o).get?) = _
    congr 1
    have : ∀ (l : List (Key × Val)), (∀ kv ∈ l, (w.children o).get? kv.1 = some kv.2) →
        (l.map Prod.fst).filterMap (w.children o).get? = l.map Prod.snd := by
      intro l hl
      induction l with
      | nil => rfl
      | cons a t ih =>
        simp only [List.map_cons, List.filterMap_cons, hl a List.mem_cons_self]
        rw [ih fun kv hkv => hl kv (List.mem_cons_of_mem _ hkv)]
    exact this _ fun kv hkv => Od.get?_of_mem hn hkv
  · simp only [mlen, M.bind_apply, hk, M.pure_apply]
    exact congrArg Except.ok (by simp [Od.keys])
  · obtain ⟨w4, h4, -⟩ := getitem_hit (E := E) (S := (· = o)) ⟨h.concrete.stores, h.concrete.noAlias, h.keys k (List.mem_map.mpr ⟨_, hv, rfl⟩)⟩ hw h.coh rfl
      (Od.get?_of_mem hn hv)
    simp only [mcontains, mget, M.catchIf_apply, M.bind_apply, h4, M.pure_apply]
    simp
  · simp only [mcontains, M.catchIf_apply, M.bind_apply]
    rcases getitem E o k w with ⟨e | v, w4⟩
    · simp only [M.pure_apply]
      split <;> simp
    · simp [M.pure_apply]
  · rcases h4 : getitem E o k w with ⟨e | v', w4⟩
    · rw [h4] at hv; cases hv
    · rw [h4] at hv
      simp only [mget, M.catchIf_apply, h4]
      exact hv

/-- The pairs an aliased node shows: the aliases of the stored keys that have one, with the values. -/
def aliasPairs (a : Aliaser) (l : List (Key × Val)) : List (Key × Val) :=
  l.filterMap fun kv => (a.alias kv.1).toOption.map fun k => (k, kv.2)

section
variable {E : Env} {o : Oid} {w : World} {l r : List Bhv} {a : Aliaser}
  (hinv : ∀ u k, a.alias u = .ok k → a.unalias k = .ok u)

theorem toOption_some {ε α : Type} {x : Except ε α} {y : α} (h : x.toOption = some y) : x = .ok y := by
  cases x with
  | ok z => cases h; rfl
  | error z => cases h

theorem mem_aliasPairs {d : List (Key × Val)} {k : Key} {v : Val} :
    (k, v) ∈ aliasPairs a d ↔ ∃ u, (u, v) ∈ d ∧ a.alias u = .ok k := by
  unfold aliasPairs
  rw [List.mem_filterMap]
  constructor
  · rintro ⟨⟨u, v'⟩, hm, e⟩
    obtain ⟨k', hk, e⟩ := Option.map_eq_some_iff.mp e
    cases e
    exact ⟨u, hm, toOption_some hk⟩
  · rintro ⟨u, hm, e⟩
    exact ⟨(u, v), hm, by simp [e, Except.toOption]⟩

theorem aliasPairs_fst (d : List (Key × Val)) :
    (aliasPairs a d).map Prod.fst = (d.map Prod.fst).filterMap fun u => (a.alias u).toOption := by
  induction d with
  | nil => rfl
  | cons x t ih =>
    unfold aliasPairs at ih ⊢
    simp only [List.filterMap_cons, List.map_cons]
    cases (a.alias x.1).toOption <;> simp [ih]

include hinv in
theorem aliasPairs_nodup {d : List (Key × Val)} (h : (d.map Prod.fst).Nodup) : ((aliasPairs a d).map Prod.fst).Nodup := by
  rw [aliasPairs_fst]
  generalize d.map Prod.fst = ks at h
  induction ks with
  | nil => exact List.nodup_nil
  | cons u t ih =>
    obtain ⟨h1, h2⟩ := List.nodup_cons.mp h
    rw [List.filterMap_cons]
    cases hu : a.alias u with
    | error e => exact ih h2
    | ok k =>
      refine List.nodup_cons.mpr ⟨fun hm => ?_, ih h2⟩
      obtain ⟨u', hu', e⟩ := List.mem_filterMap.mp hm
      have : Except.ok (ε := Exc) u' = .ok u := (hinv _ _ (toOption_some e)).symm.trans (hinv _ _ hu)
      cases this
      exact h1 hu'

include hinv in
/-- Reading a list of aliases of stored keys one after the other. -/
theorem forM'_alias {β : Type} (f : Key → Val → β) : ∀ (d : List (Key × Val)) {w : World},
    AliasClass (clsOf E w o) l r a → WF w → Coh E (· = o) w → (∀ kv ∈ d, (w.children o).get? kv.1 = some kv.2) →
    (∀ kv ∈ d, Plain r kv.1) →
    ∃ w', forM' (fun k => do let v ← getitem E o k; pure (f k v)) ((aliasPairs a d).map Prod.fst) w =
      (.ok ((aliasPairs a d).map fun kv => f kv.1 kv.2), w') ∧ ReadOut E (· = o) w w'
  | [], w, _, hw, hc, _, _ => ⟨w, rfl, .refl hw hc⟩
  | (u, v) :: t, w, h, hw, hc, hd, hp => by
    have hd' := fun kv hkv => hd kv (List.mem_cons_of_mem _ hkv)
    have hp' := fun kv hkv => hp kv (List.mem_cons_of_mem _ hkv)
    cases hu : a.alias u with
    | error e =>
      have : aliasPairs a ((u, v) :: t) = aliasPairs a t := by simp [aliasPairs, hu, Except.toOption]
      rw [this]
      exact forM'_alias f t h hw hc hd' hp'
    | ok k =>
      have : aliasPairs a ((u, v) :: t) = (k, v) :: aliasPairs a t := by simp [aliasPairs, hu, Except.toOption]
      rw [this]
      obtain ⟨w1, h1, h2⟩ := getitem_alias h hw hc (hinv u k hu) (hp _ List.mem_cons_self)
      rw [hd _ List.mem_cons_self] at h1
      obtain ⟨w2, h3, h4⟩ := forM'_alias f t (w := w1) (by rw [h2.clsOf]; exact h) h2.wf h2.coh
        (fun kv hkv => by rw [h2.same.children]; exact hd' kv hkv) hp'
      exact ⟨w2, by simp only [List.map_cons, forM', M.bind_apply, h1, h3, M.pure_apply], h2.trans h4⟩

include hinv in
/-- C66 for an aliased node: again one list of pairs, those of the storage with the aliases as keys; keys
that are the alias of something are looked up in it. -/
theorem c66_alias_partial (h : AliasClass (clsOf E w o) l r a) (hw : WF w) (hc : CacheAgrees E w o)
    (hall : a.enumerable = true ∨ ∀ u ∈ (w.omap o).keys, ∃ k, a.alias u = .ok k) (hp : ∀ u ∈ (w.omap o).keys, Plain r u) :
    ∃ d : List (Key × Val), (d.map Prod.fst).Nodup ∧
      (mkeys E o w).1 = .ok (d.map Prod.fst) ∧ (mvalues E o w).1 = .ok (d.map Prod.snd) ∧
      (mitems E o w).1 = .ok d ∧ (mlen E o w).1 = .ok d.length ∧
      (∀ k v, (k, v) ∈ d ↔ ∃ u, a.alias u = .ok k ∧ (w.omap o).val u = some v) ∧
      ∀ u k, a.alias u = .ok k → Plain r u →
        ((mcontains E o k w).1 = .ok true ↔ k ∈ d.map Prod.fst) ∧
        ((mcontains E o k w).1 = .ok false ↔ k ∉ d.map Prod.fst) ∧
        (∀ v, (getitem E o k w).1 = .ok v ↔ (k, v) ∈ d) ∧
        (k ∉ d.map Prod.fst → (getitem E o k w).1 = .error (.key (.key k))) ∧
        (∀ x v, (mget E o k x w).1 = .ok v ↔ (k, v) ∈ d ∨ k ∉ d.map Prod.fst ∧ v = x) := by
  have hn := hw.children_nodup o
  have hval : ∀ {u v}, (u, v) ∈ w.children o ↔ (w.omap o).val u = some v := fun {u v} =>
    ⟨fun hm => Od.get?_of_mem hn hm, fun hm => Od.get?_some_mem hm⟩
  have hmem : ∀ k v, (k, v) ∈ aliasPairs a (w.children o) ↔ ∃ u, a.alias u = .ok k ∧ (w.omap o).val u = some v := by
    intro k v
    rw [mem_aliasPairs]
    exact ⟨fun ⟨u, h1, h2⟩ => ⟨u, h2, hval.mp h1⟩, fun ⟨u, h1, h2⟩ => ⟨u, hval.mpr h2, h1⟩⟩
  obtain ⟨w1, h1, ⟨h2, h3⟩, h4, h5⟩ := iter_alias h hw
  rw [aliasIter_eq h.truthy (w.children o).keys hall] at h1
  have hk : mkeys E o w = (.ok ((aliasPairs a (w.children o)).map Prod.fst), w1) := by
    rw [aliasPairs_fst]
    simp only [mkeys, M.bind_apply, h1, endIter, M.pure_apply]
    rfl
  have hcl : clsOf E w1 o = clsOf E w o := congrArg E.cls (h3.obj o).cls
  have hcoh := hc.coh.vis h4
  have rd := fun {β : Type} (f : Key → Val → β) => forM'_alias (E := E) (o := o) hinv f (w.children o) (w := w1)
    (by rw [hcl]; exact h) h2 hcoh (fun kv hkv => by rw [h3.children]; exact Od.get?_of_mem hn hkv)
    fun kv hkv => hp kv.1 (List.mem_map.mpr ⟨kv, hkv, rfl⟩)
  refine ⟨aliasPairs a (w.children o), aliasPairs_nodup hinv hn, by rw [hk], ?_, ?_, ?_, hmem, fun u k hu hpu => ?_⟩
  · obtain ⟨w2, e, -⟩ := rd fun _ v => v
    have hf : (fun k => getitem E o k >>= fun v => (pure v : M Val)) = fun k => getitem E o k := by
      funext k w
      simp only [M.bind_apply]
      rcases getitem E o k w with ⟨_ | _, _⟩ <;> rfl
    rw [hf] at e
    have e' : forM' (getitem E o) ((aliasPairs a (w.children o)).map Prod.fst) w1 =
        (.ok ((aliasPairs a (w.children o)).map Prod.snd), w2) := e
    rw [aliasPairs_fst] at e'
    simp only [mvalues, M.bind_apply, h1]
    rw [show (w.children o).keys = (w.children o).map Prod.fst from rfl, e']
    rfl
  · obtain ⟨w2, e, -⟩ := rd fun k v => (k, v)
    rw [aliasPairs_fst] at e
    simp only [mitems, M.bind_apply, h1]
    rw [show (w.children o).keys = (w.children o).map Prod.fst from rfl, e]
    simp [endIter, M.pure_apply]
  · simp only [mlen, M.bind_apply, hk, M.pure_apply, List.length_map]
  · obtain ⟨w4, h6, -⟩ := getitem_alias h hw hc.coh (hinv u k hu) hpu
    have hone : ∀ v, (k, v) ∈ aliasPairs a (w.children o) ↔ (w.children o).get? u = some v := fun v => by
      rw [hmem]
      refine ⟨fun ⟨u', e1, e2⟩ => ?_, fun e => ⟨u, hu, e⟩⟩
      have : Except.ok (ε := Exc) u' = .ok u := (hinv _ _ e1).symm.trans (hinv _ _ hu)
      cases this; exact e2
    have hin : k ∈ (aliasPairs a (w.children o)).map Prod.fst ↔ ∃ v, (w.children o).get? u = some v := by
      rw [List.mem_map]
      exact ⟨fun ⟨⟨k', v⟩, h1, h2⟩ => ⟨v, (hone v).mp (h2 ▸ h1)⟩, fun ⟨v, hv⟩ => ⟨(k, v), (hone v).mpr hv, rfl⟩⟩
    simp only [mcontains, mget, M.catchIf_apply, M.bind_apply, h6, hin, hone]
    cases (w.children o).get? u with
    | some v => simp [M.pure_apply]
    | none => simp [M.pure_apply, Exc.isKey]; exact fun _ _ => eq_comm

end

/-- C66 is false: a `Node` without children has no keys and length zero, but `__children__` is
`in` it and can be read. -/
theorem c66_refuted : ∃ w : World, Reachable sampleEnv w ∧ ∃ o k,
    (mkeys sampleEnv o w).1 = .ok [] ∧ (mlen sampleEnv o w).1 = .ok 0 ∧
    (mcontains sampleEnv o k w).1 = .ok true ∧ (getitem sampleEnv o k w).1 = .ok (.node o) :=
  ⟨after sampleEnv [.new 2 .none none], reachable_after .., 0, childrenKey,
    by decide +kernel, by decide +kernel, by decide +kernel, by decide +kernel⟩

/-- A node with two children that agree in every reading. -/
def c66W : World := after sampleEnv
  [.new 1 .none none, .new 1 .none none, .set 0 ka (.node 1), .new 1 .none none, .set 0 kb (.node 2)]

example : Open sampleEnv c66W 0 ∧ Bhv.fallback ∉ (clsOf sampleEnv c66W 0).bhvs ∧
    (mitems sampleEnv 0 c66W).1 = .ok [(ka, .node 1), (kb, .node 2)] ∧
    (mcontains sampleEnv 0 kb c66W).1 = .ok true ∧ (mcontains sampleEnv 0 kc c66W).1 = .ok false :=
  ⟨⟨by constructor <;> decide +kernel, fun _ _ => fun h => absurd h (by decide +kernel),
    fun h => absurd h (by decide +kernel)⟩, by decide +kernel, by decide +kernel, by decide +kernel, by decide +kernel⟩

/-- A node with a fallback: `b` is not listed, but found below the sibling that is the fallback. -/
def c66F : World := after sampleEnv
  [.new 10 (.str ['r']) none, .setFallbackKey 0 ka, .new 10 .none none, .set 0 ka (.node 1), .set 1 kb (.data (.int 1)),
    .new 10 .none none, .set 0 kc (.node 2), .set 2 ka (.data (.int 2))]

example : Open sampleEnv c66F 2 ∧ (mitems sampleEnv 2 c66F).1 = .ok [(ka, .data (.int 2))] ∧
    (mcontains sampleEnv 2 ka c66F).1 = .ok true ∧ (getitem sampleEnv 2 kb c66F).1 = .ok (.data (.int 1)) ∧
    (mcontains sampleEnv 2 kb c66F).1 = .ok true :=
  ⟨⟨by constructor <;> decide +kernel, fun _ _ => fun h => absurd h (by decide +kernel),
    fun h => absurd h (by decide +kernel)⟩, by decide +kernel, by decide +kernel, by decide +kernel, by decide +kernel⟩

/-! An aliased node: the keys carry the prefix in every reader, the storage does not have it. -/

example : AliasClass (clsOf sampleEnv c28W 0) [] [.nodify, .dictStorage] (.pre "p-".toList) ∧
    (∀ u k, (Aliaser.pre "p-".toList).alias u = .ok k → (Aliaser.pre "p-".toList).unalias k = .ok u) ∧
    (∀ u ∈ (c28W.omap 0).keys, ∃ k, (Aliaser.pre "p-".toList).alias u = .ok k) ∧
    (mitems sampleEnv 0 c28W).1 = .ok [(kpa, .data (.int 1)), (.str ['p', '-', 'b'], .data (.int 2))] ∧
    (mvalues sampleEnv 0 c28W).1 = .ok [.data (.int 1), .data (.int 2)] ∧ (c28W.omap 0).keys = [ka, kb] ∧
    (mcontains sampleEnv 0 kpa c28W).1 = .ok true :=
  ⟨⟨⟨rfl, by decide, rfl, rfl⟩, by decide, .inl (by decide)⟩, fun u k h => c27_inverse_partial (.pre "p-".toList) trivial h,
    by
      intro u hu
      rw [show (c28W.omap 0).keys = [ka, kb] by decide +kernel] at hu
      rcases List.mem_cons.mp hu with rfl | hu
      · exact ⟨_, rfl⟩
      · cases List.mem_singleton.mp hu
        exact ⟨_, rfl⟩,
    by decide +kernel, by decide +kernel, by decide +kernel, by decide +kernel⟩

end Verif
