import Verif.Lemmas.RefInv
import Verif.Model.Api

/-!
# The mapping methods of trees of `Reference` nodes

`keys`, `values`, `items`, `len`, `get` and `in` read; `pop`, `popitem` and `clear` take children out one by
one; `setdefault` reads or stores.
-/

namespace Verif

variable {E : Env}

theorem mitems_ref {o : Oid} {w : World} (hw : WF w) (hc : RefClass (clsOf E w o))
    (hk : ∀ k ∈ (w.children o).keys, KeyFor (clsOf E w o) k) :
    ∃ w', mitems E o w = (.ok (w.omap o).items, w') ∧ Rd w w' := by
  obtain ⟨w', h1, h2⟩ := mitems_open (E := E) (S := (· = o)) (o := o)
    ⟨hc.concrete, hk, fun h => absurd h (hc.not (by decide))⟩ hw hc.coh rfl
  exact ⟨w', h1, h2.wf, h2.same⟩

theorem mkeys_ref {o : Oid} {w : World} (hw : WF w) (hc : RefClass (clsOf E w o)) :
    ∃ w', mkeys E o w = (.ok (w.children o).keys, w') ∧ Rd w w' := by
  obtain ⟨w', h1, h2⟩ := iter_ref hw hc
  exact ⟨w', by simp only [mkeys, M.bind_apply, h1, endIter, M.pure_apply], h2⟩

/-- The operations that read. -/
inductive Op.ReadsAt (E : Env) (w : World) (o : Oid) : Op → Prop
  | keys : ReadsAt E w o (.keys o)
  | values : ReadsAt E w o (.values o)
  | items : ReadsAt E w o (.items o)
  | len : ReadsAt E w o (.len o)
  | get {k : Key} : KeyFor (clsOf E w o) k → ReadsAt E w o (.get o k)
  | getD {k : Key} {d : Val} : KeyFor (clsOf E w o) k → ReadsAt E w o (.getD o k d)
  | contains {k : Key} : KeyFor (clsOf E w o) k → ReadsAt E w o (.contains o k)

theorem Forest.reads {w : World} {Rs : List Oid} (hf : Forest E w Rs) {R o : Oid} (hR : R ∈ Rs) (ho : InTree w R o)
    {op : Op} (h : op.ReadsAt E w o) : Rd w (exec E op w).2 := by
  obtain ⟨r, hr⟩ := hf.live R hR
  have hc := hr.tree.cls o ho
  have hk := hr.tree.keys o ho
  cases h with
  | keys =>
    obtain ⟨w', h1, h2⟩ := mkeys_ref hf.wf hc
    simp only [exec, M.bind_apply, h1, M.pure_apply]
    exact h2
  | values =>
    obtain ⟨w', h1, h2⟩ := mvalues_ref hf.wf hc hk
    simp only [exec, M.bind_apply, h1, M.pure_apply]
    exact h2
  | items =>
    obtain ⟨w', h1, h2⟩ := mitems_ref hf.wf hc hk
    simp only [exec, M.bind_apply, h1, M.pure_apply]
    exact h2
  | len =>
    obtain ⟨w', h1, h2⟩ := mkeys_ref hf.wf hc
    simp only [exec, mlen, M.bind_apply, h1, M.pure_apply]
    exact h2
  | @get k hk =>
    obtain ⟨w', h1, h2⟩ := getitem_ref hf.wf hc hk
    simp only [exec, M.bind_apply, h1]
    cases lookup (w.children o) k <;> exact h2
  | @getD k d hk =>
    obtain ⟨w', h1, h2⟩ := getitem_ref hf.wf hc hk
    simp only [exec, mget, M.bind_apply, M.catchIf_apply, h1, lookup]
    cases (w.children o).get? k <;> exact h2
  | @contains k hk =>
    obtain ⟨w', h1, h2⟩ := getitem_ref hf.wf hc hk
    simp only [exec, mcontains, M.bind_apply, M.catchIf_apply, h1, lookup]
    cases (w.children o).get? k <;> exact h2

/-- The node a child was taken from stays where it was. -/
theorem Forest.stays {w w' : World} {Rs : List Oid} (hf : Forest E w Rs) {R o : Oid} {k : Key} {v : Val}
    (hR : R ∈ Rs) (ho : InTree w R o) (hv : (w.children o).get? k = some v)
    (hch : ∀ p, w'.children p = chDel w o k p) : InTree w' R o := by
  obtain ⟨r, hr⟩ := hf.live R hR
  have hcon := contains_chDel hf.wf hch
  cases v with
  | data d =>
    refine (InTree.congr fun p j c => ?_).mpr ho
    rw [hcon]
    refine ⟨(·.1), fun h => ⟨h, ?_⟩⟩
    rintro ⟨rfl, rfl⟩
    replace h : (w.children p).get? j = _ := h
    rw [hv] at h
    cases h
  | node n =>
    exact (InTree.removed hf.sole hv hcon hr.tree.top ho).mpr ⟨ho, fun h => ho.acyclic hf.sole hr.tree.top hv h⟩

/-- `node.clear()`. -/
theorem Forest.clearKeys {Rs : List Oid} {R o : Oid} (hR : R ∈ Rs) : ∀ (ks : List Key) {w : World},
    Forest E w Rs → InTree w R o → ks.Nodup → (∀ k ∈ ks, k ∈ (w.children o).keys) →
    ∃ w', forU (Verif.delitem E o) ks w = (.ok (), w') ∧ Forest E w' Rs
  | [], w, hf, _, _, _ => ⟨w, rfl, hf⟩
  | k :: ks, w, hf, ho, hn, hk => by
    obtain ⟨v, hv⟩ := Option.isSome_iff_exists.mp ((Od.get?_isSome_iff _ _).mpr (hk k List.mem_cons_self))
    obtain ⟨w1, e1, e2, e3, -⟩ := hf.delitem hR ho hv
    obtain ⟨hn1, hn2⟩ := List.nodup_cons.mp hn
    obtain ⟨w2, e4, e5⟩ := clearKeys hR ks e2 (hf.stays hR ho hv e3) hn2 (fun j hj => by
      rw [e3 o]
      simp only [chDel, if_pos]
      rw [Od.keys_del (hf.wf.children_nodup o), List.mem_filter]
      exact ⟨hk j (List.mem_cons_of_mem _ hj), by simpa using fun e : j = k => hn1 (e ▸ hj)⟩)
    exact ⟨w2, by simp only [forU, M.bind_apply, e1]; exact e4, e5⟩

theorem Forest.clear {w : World} {Rs : List Oid} (hf : Forest E w Rs) {R o : Oid} (hR : R ∈ Rs) (ho : InTree w R o) :
    ∃ w', mclear E o w = (.ok (), w') ∧ Forest E w' Rs := by
  obtain ⟨r, hr⟩ := hf.live R hR
  obtain ⟨w1, e1, e2⟩ := mkeys_ref hf.wf (hr.tree.cls o ho)
  obtain ⟨w2, e3, e4⟩ := Forest.clearKeys (E := E) (R := R) (o := o) hR (w.children o).keys (hf.calm e2.calm)
    (e2.calm.inTree.mpr ho) (hf.wf.children_nodup o) (fun k h => by rw [e2.same.children]; exact h)
  exact ⟨w2, by simp only [mclear, M.bind_apply, e1]; exact e3, e4⟩

/-- `node.pop(k)`, with or without default. -/
theorem Forest.pop {w : World} {Rs : List Oid} (hf : Forest E w Rs) {R o : Oid} (hR : R ∈ Rs) (ho : InTree w R o)
    {k : Key} (hk : KeyFor (clsOf E w o) k) (d : Option Val) : Forest E (mpop E o k d w).2 Rs := by
  obtain ⟨r, hr⟩ := hf.live R hR
  obtain ⟨w1, e1, e2⟩ := getitem_ref hf.wf (hr.tree.cls o ho) hk
  have hf1 := hf.calm e2.calm
  cases hv : (w.children o).get? k with
  | none =>
    simp only [mpop, M.catchIf_apply, M.bind_apply, e1, lookup, hv, Exc.isKey, if_true]
    cases d <;> exact hf1
  | some v =>
    obtain ⟨w2, e3, e4, -⟩ := hf1.delitem (v := v) hR (e2.calm.inTree.mpr ho) (by rw [e2.same.children]; exact hv)
    simp only [mpop, M.catchIf_apply, M.bind_apply, e1, lookup, hv, e3, M.pure_apply]
    exact e4

/-- `node.popitem()`. -/
theorem Forest.popitem {w : World} {Rs : List Oid} (hf : Forest E w Rs) {R o : Oid} (hR : R ∈ Rs) (ho : InTree w R o) :
    Forest E (mpopitem E o w).2 Rs := by
  obtain ⟨r, hr⟩ := hf.live R hR
  obtain ⟨w1, e1, e2⟩ := mkeys_ref hf.wf (hr.tree.cls o ho)
  have hf1 := hf.calm e2.calm
  simp only [mpopitem, M.bind_apply, e1]
  cases hl : (w.children o).keys.reverse with
  | nil => exact hf1
  | cons k t =>
    have hm : k ∈ (w.children o).keys := List.mem_reverse.mp (hl ▸ List.mem_cons_self)
    have hkf := hr.tree.keys o ho k hm
    obtain ⟨v, hv⟩ := Option.isSome_iff_exists.mp ((Od.get?_isSome_iff _ _).mpr hm)
    have hc1 : clsOf E w1 o = clsOf E w o := congrArg E.cls (e2.same.obj o).cls
    obtain ⟨w2, e3, e4⟩ := getitem_ref (E := E) (o := o) hf1.wf (by rw [hc1]; exact hr.tree.cls o ho)
      (by rw [hc1]; exact hkf)
    rw [e2.same.children] at e3
    have h2 := e2.trans e4
    obtain ⟨w3, e5, e6, -⟩ := (hf.calm h2.calm).delitem (v := v) hR (h2.calm.inTree.mpr ho)
      (by rw [h2.same.children]; exact hv)
    simp only [M.bind_apply, e3, lookup, hv, e5, M.pure_apply]
    exact e6

/-- `node.setdefault(k, value)` for a key that is there. -/
theorem Forest.setdefaultThere {w : World} {Rs : List Oid} (hf : Forest E w Rs) {R o : Oid} (hR : R ∈ Rs)
    (ho : InTree w R o) {k : Key} (hk : k ∈ (w.children o).keys) (v : Val) : Forest E (msetdefault E o k v w).2 Rs := by
  obtain ⟨r, hr⟩ := hf.live R hR
  obtain ⟨w1, e1, e2⟩ := getitem_ref hf.wf (hr.tree.cls o ho) (hr.tree.keys o ho k hk)
  obtain ⟨x, hx⟩ := Option.isSome_iff_exists.mp ((Od.get?_isSome_iff _ _).mpr hk)
  simp only [msetdefault, M.catchIf_apply, e1, lookup, hx]
  exact hf.calm e2.calm

/-- For another key it stores. -/
theorem Forest.setdefaultNew {w : World} {Rs : List Oid} (hf : Forest E w Rs) {R o : Oid} (hR : R ∈ Rs)
    (ho : InTree w R o) {k : Key} (hk : k ∉ (w.children o).keys) (hkf : KeyFor (clsOf E w o) k) (v : Val) :
    ∃ w1, Rd w w1 ∧ (msetdefault E o k v w).2 = (setitem E o k v w1).2 := by
  obtain ⟨r, hr⟩ := hf.live R hR
  obtain ⟨w1, e1, e2⟩ := getitem_ref hf.wf (hr.tree.cls o ho) hkf
  have hx : (w.children o).get? k = none := Option.not_isSome_iff_eq_none.mp fun h => hk ((Od.get?_isSome_iff _ _).mp h)
  refine ⟨w1, e2, ?_⟩
  simp only [msetdefault, M.catchIf_apply, e1, lookup, hx, Exc.isKey, if_true, M.bind_apply]
  rcases setitem E o k v w1 with ⟨_ | _, _⟩ <;> rfl

/-- Pairs `update` stores as new children of `o` in the tree `R`: keys not in use, values the class takes, and
nodes that are alone; no key and no node twice. -/
structure NewPairs (E : Env) (w : World) (Rs : List Oid) (R o : Oid) (kvs : List (Key × Val)) : Prop where
  keys : kvs.Pairwise fun a b => a.1 ≠ b.1
  nodes : kvs.Pairwise fun a b => ∀ N, a.2 = .node N → b.2 ≠ .node N
  unused : ∀ kv ∈ kvs, kv.1 ∉ (w.children o).keys
  key : ∀ kv ∈ kvs, KeyFor (clsOf E w o) kv.1
  data : ∀ k d, (k, Val.data d) ∈ kvs → refuses (clsOf E w o) (.data d) = none
  leaf : ∀ k N, (k, Val.node N) ∈ kvs → N ∈ Rs ∧ N ≠ R ∧ ∀ j c, ¬ Contains w N j c

theorem NewPairs.calm {w w' : World} {Rs : List Oid} {R o : Oid} {kvs : List (Key × Val)} (h : NewPairs E w Rs R o kvs)
    (hc : Calm w w') : NewPairs E w' Rs R o kvs where
  keys := h.keys
  nodes := h.nodes
  unused kv hkv := by rw [hc.children]; exact h.unused kv hkv
  key kv hkv := by rw [show clsOf E w' o = clsOf E w o from congrArg E.cls (hc.cls o)]; exact h.key kv hkv
  data k d hkv := by rw [show clsOf E w' o = clsOf E w o from congrArg E.cls (hc.cls o)]; exact h.data k d hkv
  leaf k N hkv := ⟨(h.leaf k N hkv).1, (h.leaf k N hkv).2.1, fun j c hj =>
    (h.leaf k N hkv).2.2 j c ((hc.contains N j c).mp hj)⟩

/-- The roots that are left after the pairs were stored. -/
def rootsLeft (Rs : List Oid) (kvs : List (Key × Val)) : List Oid := Rs.filter fun N => kvs.all fun kv => kv.2 ≠ .node N

theorem rootsLeft_data {Rs : List Oid} {k : Key} {d : Data} {r : List (Key × Val)} :
    rootsLeft Rs ((k, .data d) :: r) = rootsLeft Rs r := by
  simp [rootsLeft]

theorem rootsLeft_node {Rs : List Oid} {k : Key} {N : Oid} {r : List (Key × Val)} :
    rootsLeft Rs ((k, .node N) :: r) = rootsLeft (Rs.filter (· ≠ N)) r := by
  simp only [rootsLeft, List.filter_filter]
  refine List.filter_congr fun x _ => ?_
  by_cases h : x = N
  · subst h
    simp
  · have : N ≠ x := fun e => h e.symm
    simp [h, this]

/-- `node.update(pairs)`. -/
theorem Forest.update {R o : Oid} : ∀ (kvs : List (Key × Val)) {w : World} {Rs : List Oid}, Forest E w Rs → R ∈ Rs →
    InTree w R o → NewPairs E w Rs R o kvs →
    ∃ w', mupdate E o kvs w = (.ok (), w') ∧ Forest E w' (rootsLeft Rs kvs)
  | [], w, Rs, hf, _, _, _ => ⟨w, rfl, by
      have : rootsLeft Rs [] = Rs := by simp [rootsLeft]
      rw [this]
      exact hf⟩
  | (k, .data d) :: r, w, Rs, hf, hR, ho, hp => by
    have hk := hp.unused _ List.mem_cons_self
    obtain ⟨w1, e1, e2, e3, -, e5, -⟩ := hf.setData (d := d) hR ho
      (fun c hc => hk (Od.mem_keys_of_get? hc)) (hp.key _ List.mem_cons_self) (hp.data k d List.mem_cons_self)
    have hcon := contains_chSet (fun p j => by rw [e3]) hk
    have hcon' : ∀ p j c, Contains w1 p j c ↔ Contains w p j c := fun p j c => by
      rw [hcon]
      refine ⟨fun h => h.elim id fun h => (nomatch h.2.2), .inl⟩
    have hcl : clsOf E w1 o = clsOf E w o := congrArg E.cls (e5 o)
    obtain ⟨w2, e6, e7⟩ := update r e2 hR ((InTree.congr hcon').mpr ho)
      { keys := (List.pairwise_cons.mp hp.keys).2
        nodes := (List.pairwise_cons.mp hp.nodes).2
        unused := fun kv hkv => by
          rw [e3 o]
          simp only [chSet, if_pos]
          rw [Od.mem_keys_set]
          exact fun h => h.elim (fun h => (List.pairwise_cons.mp hp.keys).1 kv hkv h.symm)
            (hp.unused kv (List.mem_cons_of_mem _ hkv))
        key := fun kv hkv => by rw [hcl]; exact hp.key kv (List.mem_cons_of_mem _ hkv)
        data := fun k d h => by rw [hcl]; exact hp.data k d (List.mem_cons_of_mem _ h)
        leaf := fun k N h => by
          obtain ⟨h1, h2, h3⟩ := hp.leaf k N (List.mem_cons_of_mem _ h)
          exact ⟨h1, h2, fun j c hc => h3 j c ((hcon' N j c).mp hc)⟩ }
    rw [rootsLeft_data]
    exact ⟨w2, by simp only [mupdate, forU, M.bind_apply, e1]; exact e6, e7⟩
  | (k, .node N) :: r, w, Rs, hf, hR, ho, hp => by
    have hk := hp.unused _ List.mem_cons_self
    obtain ⟨hN, hNR, hl⟩ := hp.leaf k N List.mem_cons_self
    obtain ⟨w1, e1, e2, e3, -, e5, -⟩ := hf.setLeaf hR ho hN hNR hl hk (hp.key _ List.mem_cons_self)
    have hcon := contains_chSet (fun p j => by rw [e3]) hk
    have hcl : clsOf E w1 o = clsOf E w o := congrArg E.cls (e5 o)
    have ho1 : InTree w1 R o := ho.induct (P := InTree w1 R) (.refl R) fun p j c _ hc ih =>
      ih.child ((hcon p j c).mpr (.inl hc))
    obtain ⟨w2, e6, e7⟩ := update r e2 (List.mem_filter.mpr ⟨hR, by simpa using fun e => hNR e.symm⟩) ho1
      { keys := (List.pairwise_cons.mp hp.keys).2
        nodes := (List.pairwise_cons.mp hp.nodes).2
        unused := fun kv hkv => by
          rw [e3 o]
          simp only [chSet, if_pos]
          rw [Od.mem_keys_set]
          exact fun h => h.elim (fun h => (List.pairwise_cons.mp hp.keys).1 kv hkv h.symm)
            (hp.unused kv (List.mem_cons_of_mem _ hkv))
        key := fun kv hkv => by rw [hcl]; exact hp.key kv (List.mem_cons_of_mem _ hkv)
        data := fun k d h => by rw [hcl]; exact hp.data k d (List.mem_cons_of_mem _ h)
        leaf := fun k' N' h => by
          obtain ⟨h1, h2, h3⟩ := hp.leaf k' N' (List.mem_cons_of_mem _ h)
          have hne : N' ≠ N := fun e => (List.pairwise_cons.mp hp.nodes).1 _ h N rfl (e ▸ rfl)
          refine ⟨List.mem_filter.mpr ⟨h1, by simpa using hne⟩, h2, fun j c hc => ?_⟩
          rcases (hcon N' j c).mp hc with hc | ⟨e, -⟩
          · exact h3 j c hc
          · exact h2 (hf.disjoint h1 hR (.refl N') (e ▸ ho)) }
    rw [rootsLeft_node]
    exact ⟨w2, by simp only [mupdate, forU, M.bind_apply, e1]; exact e6, e7⟩

end Verif
