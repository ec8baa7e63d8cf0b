import Verif.Props.C84
import Verif.Props.C43

/-!
# C85 pop, popitem, setdefault, update and clear

The methods of mapping.py:171-226 that are built on reading, writing and deleting, for every
composition of behaviors and every well-formed heap.  `World.shown` and `slot` are the
specification (Spec/Shown.lean).  False where deleting does not make a key disappear
(`c85_refuted`, as C84), and for `pop` with a default where reading finds what deleting
does not (`c85_pop_refuted`).
-/

namespace Verif

variable {E : Env} {w w' : World} {o : Oid} {k : Key} {v d x : Val}

/-! ### pop -/

theorem left_delitem (hE : Unasked E w o k) (hw : WF w) (hu : Unread (clsOf E w o).bhvs)
    (h : delitem E o k w = (.ok (), w')) : Left E (clsOf E w o).bhvs o k w w' :=
  left_delPipe _ hu hE.once (fun _ => hE) (List.suffix_refl _) hw h

/-- C85: `node.pop(k)` that returns, returns what the node has under `k`, and then the node
has nothing there. -/
theorem c85_pop_partial (hw : WF w) (ho : o < w.nobj) (hu : Unread (clsOf E w o).bhvs)
    (hs : w.shown E o k = some v) (h : mpop E o k none w = (.ok x, w')) :
    x = v ∧ WF w' ∧ w'.shown E o k = none := by
  obtain ⟨w1, h1, hw1, hsame, -, -⟩ := c82_get hw hs
  simp only [mpop, M.catchIf_apply, M.bind_apply, h1] at h
  rcases h2 : delitem E o k w1 with ⟨e | _, w2⟩
  · rw [h2] at h
    simp only [M.raise_apply] at h
    split at h <;> cases h
  · rw [h2] at h
    obtain ⟨rfl, rfl⟩ : v = x ∧ w2 = w' := by simpa [M.pure_apply] using h
    exact ⟨rfl, c84_gone_partial hw1 (by rw [hsame.nobj]; exact ho) (by rw [hsame.clsOf]; exact hu) h2⟩

/-- C85: with a default too, unless deleting what was read raised `KeyError`. -/
theorem c85_pop_found_partial (hw : WF w) (ho : o < w.nobj) (hu : Unread (clsOf E w o).bhvs)
    (hs : w.shown E o k = some v) (h : mpop E o k (some d) w = (.ok x, w')) :
    (x = v ∧ WF w' ∧ w'.shown E o k = none) ∨
      (x = d ∧ ∃ e, e.isKey = true ∧ delitem E o k (getitem E o k w).2 = (.error e, w')) := by
  obtain ⟨w1, h1, hw1, hsame, -, -⟩ := c82_get hw hs
  simp only [mpop, M.catchIf_apply, M.bind_apply, h1] at h
  rw [h1]
  rcases h2 : delitem E o k w1 with ⟨e | _, w2⟩
  · rw [h2] at h
    simp only [M.pure_apply] at h
    split at h
    · rename_i he
      obtain ⟨rfl, rfl⟩ : d = x ∧ w2 = w' := by simpa using h
      exact .inr ⟨rfl, e, he, rfl⟩
    · cases h
  · rw [h2] at h
    obtain ⟨rfl, rfl⟩ : v = x ∧ w2 = w' := by simpa [M.pure_apply] using h
    exact .inl ⟨rfl, c84_gone_partial hw1 (by rw [hsame.nobj]; exact ho) (by rw [hsame.clsOf]; exact hu) h2⟩

/-- C85: `node.pop(k)` raises `KeyError` if the node has nothing under `k`, `node.pop(k, d)`
returns `d`, and nothing visible changes.  As in C84 no factory or fallback may have to be
asked, and the alias table has to know the key. -/
theorem c85_pop_absent_partial (hw : WF w) (hf : Bhv.childFactory ∉ (clsOf E w o).bhvs)
    (hb : Bhv.fallback ∉ (clsOf E w o).bhvs) (h : w.shown E o k = none)
    (hs : ∃ d, slot (clsOf E w o).aliaser (clsOf E w o).bhvs k = some d)
    (hst : ∀ u, slot (clsOf E w o).aliaser (clsOf E w o).bhvs k = some (.child u) →
      Stores (clsOf E w o) ∨ Bhv.fixedChildren ∈ (clsOf E w o).bhvs) (d : Val) :
    ∃ w', mpop E o k none w = (.error (.key (.key k)), w') ∧ mpop E o k (some d) w = (.ok d, w') ∧
      WF w' ∧ ∀ p j, w'.shown E p j = w.shown E p j := by
  obtain ⟨w', h1, h2, h3⟩ := c84_absent hw hf hb h hs hst
  refine ⟨w', ?_, ?_, h2, h3⟩ <;>
    simp only [mpop, M.catchIf_apply, M.bind_apply, h1, Exc.isKey, if_true, M.raise_apply, M.pure_apply]

/-- C85: whatever else there is, is there after `pop`. -/
theorem c85_pop_frame_partial (hE : Unasked E w o k) (hw : WF w) (hu : Unread (clsOf E w o).bhvs)
    (hs : w.shown E o k = some v) (h : mpop E o k none w = (.ok x, w')) :
    (∀ p, p ≠ o → ∀ j, w'.shown E p j = w.shown E p j) ∧
    ∀ j, slot (clsOf E w o).aliaser (clsOf E w o).bhvs j ≠ slot (clsOf E w o).aliaser (clsOf E w o).bhvs k →
      w'.shown E o j = w.shown E o j := by
  obtain ⟨w1, h1, hw1, hsame, -, -⟩ := c82_get hw hs
  have hst := c82_stable hw hs hE.once
  rw [h1] at hst
  simp only [mpop, M.catchIf_apply, M.bind_apply, h1] at h
  have hc1 := hsame.clsOf (E := E) o
  rcases h2 : delitem E o k w1 with ⟨e | _, w2⟩
  · rw [h2] at h
    simp only [M.raise_apply] at h
    split at h <;> cases h
  · rw [h2] at h
    obtain ⟨rfl, rfl⟩ : v = x ∧ w2 = w' := by simpa [M.pure_apply] using h
    have hu1 : Unread (clsOf E w1 o).bhvs := by rw [hc1]; exact hu
    have hE1 : Unasked E w1 o k := ⟨by rw [hc1]; exact hE.once,
      by rw [hc1, hst]; exact hE.quiet, by rw [hc1]; exact hE.below⟩
    exact ⟨fun p hp j => (c84_others_partial hE1 hw1 hu1 h2 hp j).trans (hst p j), fun j hj =>
      (c84_keys_partial hE1 hw1 hu1 h2 (by rw [hc1]; exact hj)).trans (hst o j)⟩

/-! ### popitem -/

/-- C85: `node.popitem()` returns the last key of `node.keys()` with what the node has under
it, and then the node has nothing there. -/
theorem c85_popitem_partial (hw : WF w) (ho : o < w.nobj) (hu : Unread (clsOf E w o).bhvs)
    (h : mpopitem E o w = (.ok (k, x), w')) :
    (∃ ks, (mkeys E o w).1 = .ok ks ∧ ks.getLast? = some k) ∧
      (∀ v, w.shown E o k = some v → x = v ∧ WF w' ∧ w'.shown E o k = none) := by
  have hm := mute_mkeys E o w
  simp only [mpopitem, M.bind_apply] at h
  rcases hk : mkeys E o w with ⟨_ | ks, w1⟩
  · rw [hk] at h; cases h
  · rw [hk] at h hm
    simp only at h
    replace hm : Mute w w1 := hm
    cases hr : ks.reverse with
    | nil => rw [hr] at h; cases h
    | cons k' r =>
      rw [hr] at h
      simp only at h
      have hlast : ks.getLast? = some k' := by
        rw [List.getLast?_eq_head?_reverse, hr]; rfl
      rcases h1 : getitem E o k' w1 with ⟨_ | y, w2⟩
      · simp only [M.bind_apply, h1] at h; cases h
      · rcases h2 : delitem E o k' w2 with ⟨_ | _, w3⟩
        · simp only [M.bind_apply, h1, h2] at h; cases h
        · simp only [M.bind_apply, h1, h2, M.pure_apply] at h
          obtain ⟨⟨rfl, rfl⟩, rfl⟩ : (k' = k ∧ y = x) ∧ w3 = w' := by simpa using h
          refine ⟨⟨ks, rfl, hlast⟩, fun v hv => ?_⟩
          have hv1 : w1.shown E o k' = some v := by
            unfold World.shown at hv ⊢
            rw [hm.clsOf, shownBy_mute hm hw]; exact hv
          obtain ⟨w2', g1, hw2, hsame, -, -⟩ := c82_get (hm.wf hw) hv1
          rw [h1] at g1
          obtain ⟨rfl, rfl⟩ : y = v ∧ w2 = w2' := by simpa using g1
          exact ⟨rfl, c84_gone_partial hw2 (by rw [hsame.nobj, hm.nobj]; exact ho)
            (by rw [hsame.clsOf, hm.clsOf]; exact hu) h2⟩

/-! ### setdefault -/

/-- C85: `node.setdefault(k, d)` returns what the node has under `k`, and does no more than
reading it does. -/
theorem c85_setdefault_there (hw : WF w) (hs : w.shown E o k = some v) (d : Val) :
    msetdefault E o k d w = (.ok v, (getitem E o k w).2) := by
  obtain ⟨w1, h1, -⟩ := c82_get hw hs
  simp only [msetdefault, M.catchIf_apply, h1]

/-- C85: if `node[k]` raises `KeyError`, `node.setdefault(k, d)` that returns, returns `d`, and
`node[k]` is `d` then. -/
theorem c85_setdefault_absent (hw : WF w) {e : Exc} (he : e.isKey = true)
    (hs : (getitem E o k w).1 = .error e) (h : msetdefault E o k d w = (.ok x, w')) :
    x = d ∧ WF w' ∧ w'.shown E o k = some d ∧ (getitem E o k w').1 = .ok d := by
  have hg := (grow_getitem E o k w).wf hw
  rcases h1 : getitem E o k w with ⟨e' | _, w1⟩
  · rw [h1] at hs hg
    obtain rfl : e' = e := by simpa using hs
    simp only [msetdefault, M.catchIf_apply, h1, he, if_true, M.bind_apply] at h
    rcases h2 : setitem E o k d w1 with ⟨_ | _, w2⟩
    · rw [h2] at h; cases h
    · rw [h2] at h
      obtain ⟨rfl, rfl⟩ : d = x ∧ w2 = w' := by simpa [M.pure_apply] using h
      obtain ⟨a, b⟩ := c83_shown hg h2
      exact ⟨rfl, a, b, (c83_read hg h2 d).1⟩
  · rw [h1] at hs; cases hs

/-! ### update -/

/-- C85: `node.update(pairs)` leaves alone what other nodes have, and what the node has under
keys that are about other entries. -/
theorem c85_update_frame {kvs : List (Key × Val)} (hw : WF w) (h : mupdate E o kvs w = (.ok (), w')) :
    WF w' ∧ clsOf E w' o = clsOf E w o ∧ (∀ p, p ≠ o → ∀ j, w'.shown E p j = w.shown E p j) ∧
    ((clsOf E w o).bhvs.count .cache ≤ 1 → ∀ j, (∀ kv ∈ kvs,
        slot (clsOf E w o).aliaser (clsOf E w o).bhvs j ≠ slot (clsOf E w o).aliaser (clsOf E w o).bhvs kv.1) →
      w'.shown E o j = w.shown E o j) := by
  induction kvs generalizing w with
  | nil =>
    obtain rfl : w = w' := (Prod.mk.inj h).2
    exact ⟨hw, rfl, fun _ _ _ => rfl, fun _ _ _ => rfl⟩
  | cons kv r ih =>
    obtain ⟨k, v⟩ := kv
    simp only [mupdate, forU, M.bind_apply] at h
    rcases h1 : setitem E o k v w with ⟨_ | _, w1⟩
    · rw [h1] at h; cases h
    · rw [h1] at h
      have i := wrote_setitem hw h1
      have hc : clsOf E w1 o = clsOf E w o := i.clsOf o
      obtain ⟨a, b, c, e⟩ := ih i.wf h
      refine ⟨a, b.trans hc, fun p hp j => (c p hp j).trans (c83_others hw h1 hp j), fun hcc j hj => ?_⟩
      rw [hc] at e
      exact (e hcc j fun kv hkv => hj kv (List.mem_cons_of_mem _ hkv)).trans
        (c83_keys hw h1 hcc (hj (k, v) List.mem_cons_self))

/-- C85: after `node.update(pairs)` the node has for every key the last value given for it. -/
theorem c85_update {l r : List (Key × Val)} (hw : WF w) (hc : (clsOf E w o).bhvs.count .cache ≤ 1)
    (hr : ∀ kv ∈ r, slot (clsOf E w o).aliaser (clsOf E w o).bhvs k ≠
      slot (clsOf E w o).aliaser (clsOf E w o).bhvs kv.1)
    (h : mupdate E o (l ++ (k, v) :: r) w = (.ok (), w')) : w'.shown E o k = some v ∧ (getitem E o k w').1 = .ok v := by
  suffices hx : w'.shown E o k = some v ∧ WF w' by
    obtain ⟨w2, h2, -⟩ := c82_get hx.2 hx.1
    exact ⟨hx.1, by rw [h2]⟩
  induction l generalizing w with
  | nil =>
    simp only [List.nil_append, mupdate, forU, M.bind_apply] at h
    rcases h1 : setitem E o k v w with ⟨_ | _, w1⟩
    · rw [h1] at h; cases h
    · rw [h1] at h
      obtain ⟨hw1, hs⟩ := c83_shown hw h1
      have hc1 : clsOf E w1 o = clsOf E w o := (wrote_setitem hw h1).clsOf o
      obtain ⟨a, -, -, e⟩ := c85_update_frame hw1 h
      rw [hc1] at e
      exact ⟨(e hc k hr).trans hs, a⟩
  | cons kv l ih =>
    simp only [List.cons_append, mupdate, forU, M.bind_apply] at h
    rcases h1 : setitem E o kv.1 kv.2 w with ⟨_ | _, w1⟩
    · rw [h1] at h; cases h
    · rw [h1] at h
      have i := wrote_setitem hw h1
      have hc1 : clsOf E w1 o = clsOf E w o := i.clsOf o
      exact ih i.wf (by rw [hc1]; exact hc) (by rw [hc1]; exact hr) h

/-! ### clear -/

theorem forU_del {ks : List Key} (hE : Unasking E (clsOf E w o)) (hw : WF w) (ho : o < w.nobj)
    (hu : Unread (clsOf E w o).bhvs) (h : forU (delitem E o) ks w = (.ok (), w')) :
    WF w' ∧ clsOf E w' o = clsOf E w o ∧ (∀ k ∈ ks, w'.shown E o k = none) ∧
    (∀ j, w.shown E o j = none → w'.shown E o j = none) ∧
    (∀ p, p ≠ o → ∀ j, w'.shown E p j = w.shown E p j) ∧
    (∀ j, (∀ k ∈ ks, slot (clsOf E w o).aliaser (clsOf E w o).bhvs j ≠
        slot (clsOf E w o).aliaser (clsOf E w o).bhvs k) → w'.shown E o j = w.shown E o j) ∧
    ∀ j, (w.children o).get? j = none → (w'.children o).get? j = none := by
  induction ks generalizing w with
  | nil =>
    obtain rfl : w = w' := (Prod.mk.inj h).2
    exact ⟨hw, rfl, by simp, fun _ h => h, fun _ _ _ => rfl, fun _ _ => rfl, fun _ h => h⟩
  | cons k r ih =>
    simp only [forU, M.bind_apply] at h
    have hg := grow_delitem E o k w
    rcases h1 : delitem E o k w with ⟨_ | _, w1⟩
    · rw [h1] at h; cases h
    · rw [h1] at h hg
      have l := left_delitem (hE.at k) hw hu h1
      have hc : clsOf E w1 o = clsOf E w o := l.clsOf o
      obtain ⟨a, b, c, n, e, f, g⟩ := ih (w := w1) (by rw [hc]; exact hE) l.wf (Nat.lt_of_lt_of_le ho hg.nobj) (by rw [hc]; exact hu) h
      rw [hc] at f
      have hnone : ∀ j, w.shown E o j = none → w1.shown E o j = none := fun j hj => by
        unfold World.shown at hj ⊢
        rw [hc]; exact l.noneStays j hj
      refine ⟨a, b.trans hc, ?_, fun j hj => n j (hnone j hj),
        fun p hp j => (e p hp j).trans (c84_others_partial (hE.at k) hw hu h1 hp j), fun j hj => ?_,
        fun j hj => g j (l.fewer j hj)⟩
      · intro j hj
        rcases List.mem_cons.mp hj with rfl | hj
        · exact n j (c84_gone_partial hw ho hu h1).2
        · exact c j hj
      · exact (f j fun x hx => hj x (List.mem_cons_of_mem _ hx)).trans
          (c84_keys_partial (hE.at k) hw hu h1 (hj k List.mem_cons_self))

/-- C85: after `node.clear()` the node has nothing under any of the keys it listed; all other
entries, and all other nodes, keep what they have. -/
theorem c85_clear_partial (hE : Unasking E (clsOf E w o)) (hw : WF w) (ho : o < w.nobj)
    (hu : Unread (clsOf E w o).bhvs) (h : mclear E o w = (.ok (), w')) :
    ∃ ks, (mkeys E o w).1 = .ok ks ∧ WF w' ∧ (∀ k ∈ ks, w'.shown E o k = none) ∧
      (∀ p, p ≠ o → ∀ j, w'.shown E p j = w.shown E p j) ∧
      ∀ j, (∀ k ∈ ks, slot (clsOf E w o).aliaser (clsOf E w o).bhvs j ≠
        slot (clsOf E w o).aliaser (clsOf E w o).bhvs k) → w'.shown E o j = w.shown E o j := by
  have hm := mute_mkeys E o w
  simp only [mclear, M.bind_apply] at h
  rcases hk : mkeys E o w with ⟨_ | ks, w1⟩
  · rw [hk] at h; cases h
  · rw [hk] at h hm
    replace hm : Mute w w1 := hm
    have hsh : ∀ p j, w1.shown E p j = w.shown E p j := fun p j => by
      unfold World.shown
      rw [hm.clsOf, shownBy_mute hm hw]
    obtain ⟨a, -, c, -, e, f, -⟩ := forU_del (by rw [hm.clsOf]; exact hE) (hm.wf hw) (by rw [hm.nobj]; exact ho)
      (by rw [hm.clsOf]; exact hu) h
    rw [hm.clsOf] at f
    exact ⟨ks, rfl, a, c, fun p hp j => (e p hp j).trans (hsh p j), fun j hj => (f j hj).trans (hsh o j)⟩

/-- What is stored under a key that no behavior redirects is shown, unless the cache holds
something else. -/
theorem shownBy_ne_none {bs : List Bhv} (ha : Bhv.alias ∉ bs) {j : Key}
    (hj : Bhv.nodespaces ∈ bs → ∀ s, j = .str s → ¬ Reserved s) (h : w.stored E o j ≠ none) :
    w.shownBy E o bs j ≠ none := by
  induction bs with
  | nil => exact h
  | cons b r ih =>
    have ih := ih (fun x => ha (List.mem_cons_of_mem _ x)) fun x => hj (List.mem_cons_of_mem _ x)
    cases b
    case alias => exact absurd List.mem_cons_self ha
    case nodespaces =>
      cases j with
      | str s =>
        simp only [World.shownBy]
        rw [if_neg (hj List.mem_cons_self s rfl)]
        exact ih
      | _ => exact ih
    case cache =>
      simp only [World.shownBy]
      split
      · exact Option.some_ne_none _
      · exact ih
    all_goals exact ih

/-- C85: a node of a concrete class lists nothing after `node.clear()`: `list(node) == []` and
`len(node) == 0`. -/
theorem c85_clear_empty_partial (hE : Unasking E (clsOf E w o)) (hw : WF w) (ho : o < w.nobj)
    (hu : Unread (clsOf E w o).bhvs) (hcon : Concrete (clsOf E w o))
    (hres : Bhv.nodespaces ∈ (clsOf E w o).bhvs → ∀ s, Key.str s ∈ (w.children o).keys → ¬ Reserved s)
    (h : mclear E o w = (.ok (), w')) : (mkeys E o w').1 = .ok [] ∧ (mlen E o w').1 = .ok 0 := by
  have hkeys : ∀ {w : World}, WF w → Concrete (clsOf E w o) → ∃ w1, mkeys E o w = (.ok (w.children o).keys, w1) := by
    intro w hw hcon
    obtain ⟨r, w1, hr, hi⟩ := hcon.iter
    have hq := storageRef_quiet E o w hw
    rw [hr] at hq
    refine ⟨w1, ?_⟩
    simp only [mkeys, M.bind_apply, hi, endIter, M.pure_apply]
    rw [← hq.2.children o, children_eq (storageRef_ok hr)]
  have hm := mute_mkeys E o w
  obtain ⟨w1, hk⟩ := hkeys hw hcon
  simp only [mclear, M.bind_apply, hk] at h
  rw [hk] at hm
  replace hm : Mute w w1 := hm
  obtain ⟨a, b, c, -, -, -, g⟩ := forU_del (by rw [hm.clsOf]; exact hE) (hm.wf hw) (by rw [hm.nobj]; exact ho)
    (by rw [hm.clsOf]; exact hu) h
  have hc' : clsOf E w' o = clsOf E w o := b.trans (hm.clsOf o)
  have hempty : (w'.children o).keys = [] := by
    refine List.eq_nil_iff_forall_not_mem.mpr fun j hj => ?_
    have hj' : (w'.children o).get? j ≠ none := fun h0 => ((Od.get?_eq_none_iff _ _).mp h0) hj
    have hin : j ∈ (w.children o).keys := Decidable.byContradiction fun hn =>
      hj' (g j (by rw [hm.children hw]; exact (Od.get?_eq_none_iff _ _).mpr hn))
    have hn := c j hin
    unfold World.shown at hn
    refine shownBy_ne_none (by rw [hc']; exact hcon.noAlias) (j := j) (fun hx s e => ?_) ?_ hn
    · rw [hc'] at hx; exact hres hx s (e ▸ hin)
    · unfold World.stored
      rw [hc', if_neg hcon.noFixed]
      obtain ⟨b, hb, hne⟩ := hcon.kind
      unfold storageKind at hb
      rw [hb]
      cases b <;> first | exact absurd rfl hne | exact hj'
  obtain ⟨w2, hk2⟩ := hkeys a (by rw [hc']; exact hcon)
  rw [hempty] at hk2
  simp only [mlen, M.bind_apply, hk2, M.pure_apply, List.length_nil, and_self]

/-! ### The claim is false in two places -/

/-- C85 does not hold as C84 does not: after `clear` and `pop` the child is still there. -/
theorem c85_refuted : (∃ w, Reachable lateCache w ∧ (mclear lateCache 0 w).1 = .ok () ∧
      (mkeys lateCache 0 w).1 = .ok [ka] ∧ (getitem lateCache 0 ka (mclear lateCache 0 w).2).1 = .ok (.node 1)) ∧
    ∃ w, Reachable lateCache w ∧ (mpop lateCache 0 ka none w).1 = .ok (.node 1) ∧
      (getitem lateCache 0 ka (mpop lateCache 0 ka none w).2).1 = .ok (.node 1) :=
  ⟨⟨_, reachable_after lateCache (lateOps.take 3), by decide +kernel, by decide +kernel, by decide +kernel⟩,
   ⟨_, reachable_after lateCache (lateOps.take 3), by decide +kernel, by decide +kernel⟩⟩

/-- C85 does not hold for fallback values: `attrs['c']` is read, `attrs.pop('c', d)` is `d`. -/
theorem c85_pop_refuted : ∃ w, Reachable fallEnv w ∧ (getitem fallEnv 10 kc w).1 = .ok (.data (.int 3)) ∧
    (mpop fallEnv 10 kc (some (.data (.int 0))) w).1 = .ok (.data (.int 0)) :=
  ⟨_, reachable_after fallEnv fallOps, by decide +kernel, by decide +kernel⟩

/-! ### Instances -/

/-- `'p-a'`, `'p-b'` -/
def aKey : Key := .str ['p', '-', 'a']
@[inherit_doc aKey] def bKey : Key := .str ['p', '-', 'b']

/-- Two children, one of them cached, and a nodespace. -/
def derivedOps : List Op := [.new 0 .none none, .new 0 .none none, .new 0 .none none, .new 0 .none none,
  .set 0 aKey (.node 1), .set 0 bKey (.node 2), .set 0 (.str "__x__".toList) (.node 3), .get 0 bKey]

example : (mpop earlyCache 0 aKey none (after earlyCache derivedOps)).1 = .ok (.node 1) ∧
    (after earlyCache derivedOps).shown earlyCache 0 aKey = some (.node 1) := by decide +kernel

example : (mpopitem earlyCache 0 (after earlyCache derivedOps)).1 = .ok (bKey, .node 2) ∧
    (after earlyCache derivedOps).shown earlyCache 0 bKey = some (.node 2) := by decide +kernel

example : (mclear earlyCache 0 (after earlyCache derivedOps)).1 = .ok () ∧
    (mkeys earlyCache 0 (after earlyCache derivedOps)).1 = .ok [aKey, bKey] := by decide +kernel

theorem derived_keys : (mkeys earlyCache 0 (after earlyCache derivedOps)).1 = .ok [aKey, bKey] := by decide +kernel

theorem derived_clear : (mclear earlyCache 0 (after earlyCache derivedOps)).1 = .ok () := by decide +kernel

/-- The nodespace survives `clear`. -/
example : (mclear earlyCache 0 (after earlyCache derivedOps)).2.shown earlyCache 0 (.str "__x__".toList) =
    some (.node 3) := by
  have h0 : (after earlyCache derivedOps).shown earlyCache 0 (.str "__x__".toList) = some (.node 3) := by
    decide +kernel
  have h5 : ∀ k ∈ [aKey, bKey], slot (earlyCache.cls 0).aliaser (earlyCache.cls 0).bhvs (.str "__x__".toList) ≠
      slot (earlyCache.cls 0).aliaser (earlyCache.cls 0).bhvs k := by decide +kernel
  have hw := (reachable_after earlyCache derivedOps).wf
  have ho : 0 < (after earlyCache derivedOps).nobj := by decide +kernel
  have h1 := derived_clear
  have h4 := derived_keys
  generalize after earlyCache derivedOps = w at h0 hw ho h1 h4
  obtain ⟨ks, h2, -, -, -, h3⟩ := c85_clear_partial (early_unasking _) hw ho
    (show Unread (earlyCache.cls 0).bhvs by decide +kernel) (Prod.ext h1 rfl)
  obtain rfl : [aKey, bKey] = ks := Except.ok.inj (h4.symm.trans h2)
  exact (h3 _ h5).trans h0

/-- A pair given twice: the last value counts. -/
example : (getitem mixedEnv 0 aKey (mupdate mixedEnv 0 [(aKey, .node 1), (bKey, .node 1), (aKey, .node 2)]
    (after mixedEnv mixedOps)).2).1 = .ok (.node 2) := by
  have h1 : (mupdate mixedEnv 0 [(aKey, .node 1), (bKey, .node 1), (aKey, .node 2)]
    (after mixedEnv mixedOps)).1 = .ok () := by decide +kernel
  exact (c85_update (l := [(aKey, .node 1), (bKey, .node 1)]) (r := [])
    (reachable_after mixedEnv mixedOps).wf (by decide +kernel) (by simp) (Prod.ext h1 rfl)).2

example : (msetdefault earlyCache 0 aKey (.node 2) (after earlyCache (derivedOps.take 4))).1 = .ok (.node 2) ∧
    (getitem earlyCache 0 aKey (after earlyCache (derivedOps.take 4))).1 = .error (.key (.key aKey)) := by
  decide +kernel

/-- A concrete class that can be emptied. -/
example : Concrete (sampleEnv.cls 2) ∧ Unread (sampleEnv.cls 2).bhvs :=
  ⟨⟨⟨.odictStorage, by decide +kernel, by decide +kernel⟩, by decide +kernel, by decide +kernel, by decide +kernel⟩,
    by decide +kernel⟩

end Verif
