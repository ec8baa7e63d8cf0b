import Verif.Lemmas.Insert
import Verif.Lemmas.Lookup
import Verif.Props.C08

/-!
# C21 `insertbefore` and `insertafter`, C22 `insertfirst` and `insertlast`,
# C23 `swap`, C24 Failed insertions

C21 and C23 hold for every class without `Alias` (with `Alias` the assignment that
follows the insertion uses another key).  C22 in addition for nodes that can be read
and whose children are named by their keys.  C24 is false; it holds for classes made
of pass-through behaviors.
-/

namespace Verif

/-- `m'` is `m` with the new key `k` directly before (after) `ref`. -/
def Placed (before : Bool) (m m' : OMap Key Val) (ref k : Key) (v : Val) : Prop :=
  k ∉ m.keys ∧ (∃ l r, m.keys = l ++ ref :: r ∧
    m'.keys = if before then l ++ k :: ref :: r else l ++ ref :: k :: r) ∧
  ∀ j, m'.val j = if j = k then some v else m.val j

theorem Inserted.placed {before : Bool} {o : Oid} {ref k : Key} {v : Val} {w w' : World} (hw : WF w)
    (h : Inserted before o ref k v w w') : Placed before (w.omap o) (w'.omap o) ref k v := by
  refine ⟨h.isNew, ?_, h.get?⟩
  obtain ⟨l, r, e⟩ := List.append_of_mem h.hasRef
  have hl : ref ∉ l := fun hm => by
    have := hw.children_nodup o
    rw [e] at this
    exact (List.nodup_append.mp this).2.2 ref hm ref List.mem_cons_self rfl
  refine ⟨l, r, e, ?_⟩
  show (w'.children o).keys = _
  rw [h.here]
  cases before
  · exact Od.keys_insertAfter_at v e hl
  · exact Od.keys_insertBefore_at v e hl

/-- Assigning the value a key already has changes nothing. -/
theorem OMap.set_same {m m' : OMap Key Val} {k : Key} {v : Val} (hk : k ∈ m.keys)
    (hv : m.val k = some v) (h : m' = m.set k v) : m' = m := by
  subst h
  refine OMap.ext (if_pos hk) (funext fun j => ?_)
  show (if j = k then some v else m.val j) = _
  split
  · rename_i e; rw [e, hv]
  · rfl

/-- The assignment after the insertion changes no mapping. -/
theorem Inserted.setitem {E : Env} {before : Bool} {o n : Oid} {ref k : Key} {w w1 w' : World}
    (h : Inserted before o ref k (.node n) w w1) (hn : Bhv.alias ∉ (clsOf E w o).bhvs)
    (hs : setitem E o k (.node n) w1 = (.ok (), w')) : MapsSame w1 w' := by
  have hcls : clsOf E w1 o = clsOf E w o := congrArg E.cls (h.cls o)
  rcases c02_set_ok E o k (.node n) h.wf hs with ⟨j, h1, h2, h3⟩ | ⟨j, -, h2⟩
  · rw [hcls] at h1
    have := noAlias_dest _ hn h1
    subst this
    intro p
    by_cases hp : p = o
    · subst hp
      refine OMap.set_same ?_ ?_ h2
      · exact Od.mem_keys_of_get? (by rw [h.get?, if_pos rfl])
      · exact (h.get? j).trans (if_pos rfl)
    · exact h3 p hp
  · exact h2

section
variable {E : Env} (before : Bool) (o n ref : Oid) {w w' : World} (hw : WF w)
  (hn : Bhv.alias ∉ (clsOf E w o).bhvs)
include hw hn

/-- C21: a successful insertion puts the node directly before (after) the reference
node's key, and changes no other mapping. -/
theorem c21_placed_partial (h : insertAt E before o n ref w = (.ok (), w')) :
    Placed before (w.omap o) (w'.omap o) (w.loc ref).1 (w.loc n).1 (.node n) ∧
    ∀ p, p ≠ o → w'.omap p = w.omap p := by
  have hi := storageInsert_out E before o (w.objs ref).name (w.objs n).name (.node n) hw
  rcases insertAt_cases E before o n ref w with ⟨e, he, -⟩ | ⟨e, w1, -, hs, he⟩ | ⟨w1, -, hs, he⟩
  · rw [he] at h; cases h
  · rw [he] at h; cases h
  · rw [hs] at hi; rw [he] at h
    have hi := hi.1 rfl
    have hm := hi.setitem hn h
    refine ⟨?_, fun p hp => ?_⟩
    · rw [hm o]; exact hi.placed hw
    · rw [hm p]
      show (w1.children p).toMap = _
      rw [hi.other p hp]; rfl

/-- C21: and the node is adopted. -/
theorem c21_adopted_partial (ha : Bhv.adopt ∈ (clsOf E w o).bhvs)
    (h : insertAt E before o n ref w = (.ok (), w')) :
    w'.loc n = ((w.loc n).1, some o) ∧ ∀ p, p ≠ n → w'.loc p = w.loc p := by
  have hi := storageInsert_out E before o (w.objs ref).name (w.objs n).name (.node n) hw
  rcases insertAt_cases E before o n ref w with ⟨e, he, -⟩ | ⟨e, w1, -, hs, he⟩ | ⟨w1, -, hs, he⟩
  · rw [he] at h; cases h
  · rw [he] at h; cases h
  · rw [hs] at hi; rw [he] at h
    have hi := hi.1 rfl
    have hcls : clsOf E w1 o = clsOf E w o := congrArg E.cls (hi.cls o)
    obtain ⟨h1, h2⟩ := c06_adopted E o _ n hi.wf (by rw [hcls]; exact ha) (by rw [hcls]; exact hn) h
    exact ⟨h1, fun p hp => (h2 p hp).trans (hi.loc p)⟩

end

theorem cached_storageInsert (E : Env) (o : Oid) (before : Bool) (r k : Key) (v : Val) {u : World} (hu : WF u) :
    ∀ p, (storageInsert E before o r k v u).2.cached p = u.cached p := by
  have hv := vis_storageRef E o hu
  intro p
  unfold storageInsert
  simp only [M.bind_apply]
  rcases hr : storageRef E o u with ⟨e | s, w1⟩
  · rw [hr] at hv; exact hv.cached p
  · rw [hr] at hv
    simp only [M.getW_apply]
    split
    · split
      · split
        · exact hv.cached p
        · exact hv.cached p
      · exact hv.cached p
    · exact hv.cached p

/-! ### When insertions succeed -/

section
variable {E : Env} {o n ref : Oid} {w : World} (hw : WF w) (hmc : MapClass (clsOf E w o))
  (hc : Bhv.cache ∈ (clsOf E w o).bhvs → ∀ j x, (w.cached o).get? j = some x →
    (w.omap o).val j = some x)
  (hname : (w.loc n).1 ≠ .none) (hk : KeyFor (clsOf E w o) (w.loc n).1)
include hw hmc hc hname hk

omit hw hc hk in
theorem validateInsertion_map (hg : Bhv.getattrChildren ∉ (clsOf E w o).bhvs) :
    validateInsertion E o n w = (.ok (), w) := by
  have hg : (bhvsOf E w o).contains .getattrChildren = false := by
    rw [Bool.eq_false_iff]
    exact fun h => hg (List.contains_iff_mem.mp h)
  have hr : (bhvsOf E w o).contains .reference = false := by
    rw [Bool.eq_false_iff]
    intro h
    have := hmc.passes _ (List.contains_iff_mem.mp h)
    cases this
  unfold validateInsertion
  simp only [M.bind_apply, M.getW_apply]
  rw [if_neg (show ¬ (w.objs n).name = .none from hname), hr, hg]
  rfl

omit hw hname in
/-- The assignment after the insertion succeeds. -/
theorem insert_then_set {before : Bool} {r : Key} {w1 : World}
    (h : Inserted before o r (w.loc n).1 (.node n) w w1) (hcw : ∀ p, w1.cached p = w.cached p) :
    (setitem E o (w.loc n).1 (.node n) w1).1 = .ok () := by
  have hcls : clsOf E w1 o = clsOf E w o := congrArg E.cls (h.cls o)
  have hcoh : Coh E (· = o) w1 := fun p hp hx j y hy => by
    subst hp
    rw [hcls] at hx
    rw [hcw] at hy
    have h1 := hc hx j y hy
    rw [h.get?]
    split
    · rename_i e
      exact absurd (Od.mem_keys_of_get? h1) (e ▸ h.isNew)
    · exact h1
  obtain ⟨w2, h1, -⟩ := setitem_pt (E := E) (o := o) (k := (w.loc n).1) (by rw [hcls]; exact hmc) h.wf
    hcoh rfl (.node n) (by rw [hcls]; exact hk)
  rw [h1]; rfl

/-- C21: in pass-through classes above an `OdictStorage` without `GetattrChildren`, a node named by an unused
key is inserted beside every child. -/
theorem c21_succeeds (before : Bool) (hod : storageKind (clsOf E w o).bhvs = some .odictStorage)
    (hg : Bhv.getattrChildren ∉ (clsOf E w o).bhvs)
    (hnew : (w.loc n).1 ∉ (w.omap o).keys) (href : (w.loc ref).1 ∈ (w.omap o).keys) :
    (insertAt E before o n ref w).1 = .ok () := by
  have hi := storageInsert_out E before o (w.objs ref).name (w.objs n).name (.node n) hw
  have hcw := cached_storageInsert E o before (w.objs ref).name (w.objs n).name (.node n) hw
  rcases insertAt_cases E before o n ref w with ⟨e, -, hv⟩ | ⟨e, w1, -, hs, -⟩ | ⟨w1, -, hs, he⟩
  · rw [validateInsertion_map hmc hname hg] at hv; cases hv
  · exfalso
    obtain ⟨s, w2, hr⟩ := hmc.concrete.stores.storageRef (E := E) (o := o) (w := w)
    have hq := storageRef_quiet E o w hw
    rw [hr] at hq
    have hch : w2.stores s = w.children o := by
      rw [← hq.2.children o, children_eq (storageRef_ok hr)]
    have hb : bhvsOf E w2 o = (clsOf E w o).bhvs :=
      congrArg ClassDef.bhvs (congrArg E.cls (hq.2.obj o).cls)
    unfold storageInsert at hs
    simp only [M.bind_apply, hr, M.getW_apply] at hs
    rw [hb, if_pos hod, hch, if_pos (show (w.children o).has (w.objs ref).name = true from
      (Od.has_iff ..).mpr href), if_neg (show ¬ (w.children o).has (w.objs n).name = true from
      fun h => hnew ((Od.has_iff ..).mp h))] at hs
    cases hs
  · rw [he]
    rw [hs] at hi hcw
    exact insert_then_set hmc hc hk (hi.1 rfl) hcw

/-- C24 for pass-through classes: if an insertion raises, no mapping, order or
location changed. -/
theorem c24_failed_partial (before : Bool) {e : Exc} {w' : World}
    (h : insertAt E before o n ref w = (.error e, w')) : MapsSame w w' ∧ ∀ p, w'.loc p = w.loc p := by
  have hi := storageInsert_out E before o (w.objs ref).name (w.objs n).name (.node n) hw
  have hcw := cached_storageInsert E o before (w.objs ref).name (w.objs n).name (.node n) hw
  rcases insertAt_cases E before o n ref w with ⟨e, he, -⟩ | ⟨e, w1, -, hs, he⟩ | ⟨w1, -, hs, he⟩
  · rw [he] at h; injection h with _ h; subst h
    exact ⟨fun _ => rfl, fun _ => rfl⟩
  · rw [he] at h; injection h with _ h; subst h
    rw [hs] at hi
    obtain ⟨-, hq⟩ := hi.2 e rfl hw
    exact ⟨MapsSame.of hq.children, hq.loc⟩
  · exfalso
    rw [hs] at hi hcw
    have := insert_then_set hmc hc hk (hi.1 rfl) hcw
    have h' : setitem E o (w.loc n).1 (.node n) w1 = (.error e, w') := he.symm.trans h
    simp only [h'] at this
    cases this

end

/-- C24, every class: a failed insertion changed nothing, or the storage has the node
already and the assignment raised. -/
theorem c24_cause (E : Env) (before : Bool) (o n ref : Oid) {w w' : World} (hw : WF w) {e : Exc}
    (h : insertAt E before o n ref w = (.error e, w')) :
    (MapsSame w w' ∧ ∀ p, w'.loc p = w.loc p) ∨
    ∃ w1, Placed before (w.omap o) (w1.omap o) (w.loc ref).1 (w.loc n).1 (.node n) ∧
      (∀ p, p ≠ o → w1.omap p = w.omap p) ∧ (∀ p, w1.loc p = w.loc p) ∧
      setitem E o (w.loc n).1 (.node n) w1 = (.error e, w') := by
  have hi := storageInsert_out E before o (w.objs ref).name (w.objs n).name (.node n) hw
  rcases insertAt_cases E before o n ref w with ⟨e, he, -⟩ | ⟨e, w1, -, hs, he⟩ | ⟨w1, -, hs, he⟩
  · rw [he] at h; injection h with _ h; subst h
    exact .inl ⟨fun _ => rfl, fun _ => rfl⟩
  · rw [he] at h; injection h with _ h; subst h
    rw [hs] at hi
    obtain ⟨-, hq⟩ := hi.2 e rfl hw
    exact .inl ⟨MapsSame.of hq.children, hq.loc⟩
  · rw [hs] at hi; rw [he] at h
    have hi := hi.1 rfl
    refine .inr ⟨w1, hi.placed hw, fun p hp => ?_, hi.loc, h⟩
    show (w1.children p).toMap = _
    rw [hi.other p hp]; rfl

/-! ### C22 -/

section
variable {E : Env} {o n : Oid} {w w' : World} (hw : WF w) (ho : Open E w o)
  (hl : ∀ k c, (w.omap o).val k = some (.node c) → (w.loc c).1 = k)
  (first : Bool) (hnew : (w.loc n).1 ∉ (w.omap o).keys)
include hw ho hl hnew

omit hnew in
/-- What `insertfirst` / `insertlast` come down to. -/
theorem insertEnd_open : ∃ w1, WF w1 ∧ Same w w1 ∧
    ((w.omap o).keys = [] ∧ insertEnd E first o n w = setitem E o (w.loc n).1 (.node n) w1 ∨
     (∃ k ref, (if first then (w.omap o).keys.head? else (w.omap o).keys.getLast?) = some k ∧
       (w.loc ref).1 = k ∧ insertEnd E first o n w = insertAt E first o n ref w1) ∨
     ∃ e, insertEnd E first o n w = (.error e, w1)) := by
  obtain ⟨w1, h1, h2⟩ := iter_open (S := (· = o)) ho.concrete hw ho.coh
  have hks : mkeys E o w = (.ok (w.children o).keys, w1) := by
    simp only [mkeys, M.bind_apply, h1, endIter, M.pure_apply]
  unfold insertEnd
  simp only [M.bind_apply, hks]
  show ∃ w1, WF w1 ∧ Same w w1 ∧ ((w.children o).keys = [] ∧ _ ∨
    (∃ k ref, (if first then (w.children o).keys.head? else (w.children o).keys.getLast?) = some k ∧ _) ∨ _)
  rcases hd : (if first = true then (w.children o).keys.head? else (w.children o).keys.getLast?) with _ | k
  · refine ⟨w1, h2.wf, h2.same, .inl ⟨?_, ?_⟩⟩
    · cases first
      · simpa using hd
      · simpa using hd
    · simp only [M.bind_apply, M.getW_apply]
      rw [(h2.same.obj n).name]
      rfl
  · have hm : k ∈ (w.children o).keys := by
      cases first
      · exact List.mem_of_getLast? (by simpa using hd)
      · exact List.mem_of_mem_head? (by simpa using hd)
    obtain ⟨v, hv⟩ := Od.get?_of_mem_keys hm
    have hcls : clsOf E w1 o = clsOf E w o := h2.clsOf o
    obtain ⟨w2, h3, h4⟩ := getitem_hit (E := E) (o := o) (k := k) (w := w1)
      (by rw [hcls]; exact ⟨ho.concrete.stores, ho.concrete.noAlias, ho.keys k hm⟩) h2.wf h2.coh rfl
      (v := v) (by rw [h2.same.children]; exact hv)
    simp only [M.bind_apply, h3]
    cases v with
    | node ref =>
      exact ⟨w2, h4.wf, h2.same.trans h4.same, .inr (.inl ⟨k, ref, rfl, hl k ref hv, rfl⟩)⟩
    | data d =>
      have hv := validateInsertion_id E o n w2
      simp only [M.bind_apply]
      rcases hz : validateInsertion E o n w2 with ⟨e | u, w3⟩
      · rw [hz] at hv; simp only at hv; subst hv
        exact ⟨w3, h4.wf, h2.same.trans h4.same, .inr (.inr ⟨e, rfl⟩)⟩
      · rw [hz] at hv; simp only at hv; subst hv
        exact ⟨w3, h4.wf, h2.same.trans h4.same, .inr (.inr ⟨_, rfl⟩)⟩

/-- C22: a successful `insertfirst` (`insertlast`) of a node named by an unused key
puts it in front of (behind) all keys and keeps the rest; for empty and non-empty
nodes.  Reserved names are taken by the nodespaces if the node is empty. -/
theorem c22_ends_partial (hk : KeyFor (clsOf E w o) (w.loc n).1)
    (h : insertEnd E first o n w = (.ok (), w')) :
    (w'.omap o).keys = (if first then (w.loc n).1 :: (w.omap o).keys
      else (w.omap o).keys ++ [(w.loc n).1]) ∧
    (∀ j, (w'.omap o).val j = if j = (w.loc n).1 then some (.node n) else (w.omap o).val j) ∧
    ∀ p, p ≠ o → w'.omap p = w.omap p := by
  have ha := ho.concrete.noAlias
  have hnd := hw.children_nodup o
  obtain ⟨w1, hw1, hs, ⟨h0, h1⟩ | ⟨k, ref, h1, h2, h3⟩ | ⟨e, h1⟩⟩ := insertEnd_open hw ho hl first
  · rw [h1] at h
    have hcls : clsOf E w1 o = clsOf E w o := congrArg E.cls (hs.obj o).cls
    have hset := c02_set_ok E o _ _ hw1 h
    rw [hcls, Looks.dest ⟨ho.concrete.stores, ha, hk⟩] at hset
    have hom : ∀ p, w1.omap p = w.omap p := fun p => by
      show (w1.children p).toMap = _
      rw [hs.children]; rfl
    rcases hset with ⟨j, a, b, c⟩ | ⟨j, a, -⟩
    · injection a with a; injection a with a; subst a
      rw [hom] at b
      refine ⟨?_, fun j => by rw [b]; rfl, fun p hp => (c p hp).trans (hom p)⟩
      rw [b]
      show (if _ then _ else _) = _
      rw [if_neg hnew, h0]
      cases first <;> rfl
    · injection a with a; cases a
  · rw [h3] at h
    have hcls : clsOf E w1 o = clsOf E w o := congrArg E.cls (hs.obj o).cls
    obtain ⟨⟨-, ⟨l, r, e1, e2⟩, hv⟩, hoth⟩ := c21_placed_partial first o n ref hw1 (by rw [hcls]; exact ha) h
    have hom : ∀ p, w1.omap p = w.omap p := fun p => by
      show (w1.children p).toMap = _
      rw [hs.children]; rfl
    rw [hs.loc, hs.loc] at *
    rw [h2, hom] at *
    refine ⟨?_, hv, fun p hp => (hoth p hp).trans (hom p)⟩
    rw [e2]
    change (w.children o).keys.Nodup at hnd
    have e1' : (w.children o).keys = l ++ k :: r := e1
    rw [e1'] at hnd
    cases first
    · simp only [Bool.false_eq_true, if_false] at h1 ⊢
      rw [e1] at h1 ⊢
      have : r = [] := by
        rcases List.eq_nil_or_concat r with rfl | ⟨r', x, rfl⟩
        · rfl
        · exfalso
          have hx : (l ++ k :: (r' ++ [x])).getLast? = some x := by
            rw [show l ++ k :: (r' ++ [x]) = (l ++ k :: r') ++ [x] by simp, List.getLast?_concat]
          rw [List.concat_eq_append, hx] at h1
          injection h1 with h1
          subst h1
          have := (List.nodup_append.mp hnd).2.1
          simp at this
      subst this
      simp
    · simp only [if_true] at h1 ⊢
      rw [e1] at h1 ⊢
      cases l with
      | nil => rfl
      | cons x l' =>
        exfalso
        simp only [List.cons_append, List.head?_cons, Option.some.injEq] at h1
        subst h1
        have := (List.nodup_cons.mp hnd).1
        simp at this
  · rw [h1] at h; cases h

end

/-! ### C23 -/

/-- Two keys exchanged in a sequence. -/
def exchange (a b : Key) (l : List Key) : List Key :=
  l.map fun k => if k = a then b else if k = b then a else k

/-- C23: a successful `swap` exchanges the positions of the two names, both of which
are keys, and keeps every other position and all values. -/
theorem c23_swap (E : Env) (o a b : Oid) {w w' : World} (hw : WF w)
    (h : swapNodes E o a b w = (.ok (), w')) :
    (w.loc a).1 ∈ (w.omap o).keys ∧ (w.loc b).1 ∈ (w.omap o).keys ∧
    (w'.omap o).keys = exchange (w.loc a).1 (w.loc b).1 (w.omap o).keys ∧
    (w'.omap o).val = (w.omap o).val ∧ (∀ p, p ≠ o → w'.omap p = w.omap p) ∧
    ∀ p, w'.loc p = w.loc p := by
  have hq := storageRef_quiet E o w
  unfold swapNodes at h
  simp only [M.bind_apply] at h
  rcases hr : storageRef E o w with ⟨e | r, w1⟩
  · rw [hr] at h; cases h
  · rw [hr] at h hq
    obtain ⟨hw1, hs⟩ := hq hw
    have hsr := storageRef_ok hr
    have hc : w.children o = w1.stores r := (hs.children o).symm.trans (children_eq hsr)
    simp only [M.getW_apply] at h
    have hna : (w1.objs a).name = (w.loc a).1 := (hs.obj a).name
    have hnb : (w1.objs b).name = (w.loc b).1 := (hs.obj b).name
    rw [hna, hnb, ← hc] at h
    split at h
    · split at h
      · cases h
      · split at h
        · rename_i h1
          split at h
          · rename_i h2
            have ha : (w.loc a).1 ∈ (w.children o).keys := (Od.has_iff ..).mp h1
            have hb : (w.loc b).1 ∈ (w.children o).keys := (Od.has_iff ..).mp h2
            injection h with _ h
            have hch := children_setStore hw1 hsr ((w1.stores r).swap (w.loc a).1 (w.loc b).1)
            have hw' : ∀ p, w'.children p = if p = o then (w.children o).swap (w.loc a).1 (w.loc b).1
                else w1.children p := fun p => by
              rw [hc, ← h]
              have := hch p
              rw [← hna, ← hnb] at this ⊢
              exact this
            refine ⟨ha, hb, ?_, ?_, fun p hp => ?_, fun p => ?_⟩
            · show (w'.children o).keys = _
              rw [hw' o, if_pos rfl, Od.keys_swap ha hb]; rfl
            · funext j
              show (w'.children o).get? j = _
              rw [hw' o, if_pos rfl, Od.get?_swap (hw.children_nodup o)]; rfl
            · show (w'.children p).toMap = _
              rw [hw' p, if_neg hp, hs.children]; rfl
            · rw [← h]; exact hs.loc p
          · cases h
        · cases h
    · cases h

/-- Exchanging twice restores the order. -/
theorem exchange_exchange (a b : Key) (l : List Key) : exchange a b (exchange a b l) = l := by
  unfold exchange
  rw [List.map_map]
  conv => rhs; rw [← List.map_id l]
  refine List.map_congr_left fun k _ => ?_
  simp only [Function.comp, id]
  by_cases h1 : k = a
  · subst h1
    by_cases h2 : b = k
    · simp [h2]
    · simp [h2]
  · by_cases h2 : k = b
    · subst h2; simp [h1]
    · simp [h1, h2]

/-- C23: swapping twice restores the mapping. -/
theorem c23_involutive (E : Env) (o a b : Oid) {w w1 w2 : World} (hw : WF w) (hw1 : WF w1)
    (h : swapNodes E o a b w = (.ok (), w1)) (h' : swapNodes E o a b w1 = (.ok (), w2)) :
    MapsSame w w2 := by
  obtain ⟨-, -, h3, h4, h5, h6⟩ := c23_swap E o a b hw h
  obtain ⟨-, -, k3, k4, k5, k6⟩ := c23_swap E o a b hw1 h'
  intro p
  by_cases hp : p = o
  · subst hp
    refine OMap.ext ?_ (k4.trans h4)
    rw [k3, h6, h6, h3, exchange_exchange]
  · rw [k5 p hp, h5 p hp]

/-- C23: swapping two different children named by their keys succeeds in classes above
an `OdictStorage`. -/
theorem c23_succeeds (E : Env) (o a b : Oid) {w : World} (hw : WF w) (hs : Stores (clsOf E w o))
    (hod : storageKind (clsOf E w o).bhvs = some .odictStorage)
    (ha : (w.loc a).1 ∈ (w.omap o).keys) (hb : (w.loc b).1 ∈ (w.omap o).keys)
    (hab : (w.loc a).1 ≠ (w.loc b).1) : (swapNodes E o a b w).1 = .ok () := by
  obtain ⟨s, w2, hr⟩ := hs.storageRef (E := E) (o := o) (w := w)
  have hq := storageRef_quiet E o w hw
  rw [hr] at hq
  have hch : w2.stores s = w.children o := by
    rw [← hq.2.children o, children_eq (storageRef_ok hr)]
  have hb' : bhvsOf E w2 o = (clsOf E w o).bhvs :=
    congrArg ClassDef.bhvs (congrArg E.cls (hq.2.obj o).cls)
  unfold swapNodes
  simp only [M.bind_apply, hr, M.getW_apply]
  have hna : (w2.objs a).name = (w.loc a).1 := (hq.2.obj a).name
  have hnb : (w2.objs b).name = (w.loc b).1 := (hq.2.obj b).name
  rw [hb', if_pos hod, hna, hnb, hch, if_neg hab, if_pos ((Od.has_iff ..).mpr ha),
    if_pos ((Od.has_iff ..).mpr hb)]
  rfl

/-! ### Instances -/

/-- An ordering class without `Reference`. -/
def orderNode : ClassDef :=
  { bhvs := [.nodeChildValidate, .nodespaces, .adopt, .order, .defaultInit, .nodify, .odictStorage] }

/-- All nodes are of this class. -/
def orderEnv : Env where
  cls _ := orderNode

theorem mapClass_orderNode : MapClass orderNode := ⟨by decide, by decide, by decide⟩

/-- Two children and two named nodes. -/
def c21Ops : List Op := [.new 0 .none none, .new 0 .none none, .new 0 .none none, .new 0 kc none,
  .new 0 (.str ['d']) none, .set 0 ka (.node 1), .set 0 kb (.node 2)]

theorem c21_open : Open orderEnv (after orderEnv c21Ops) 0 := by
  have hcls : clsOf orderEnv (after orderEnv c21Ops) 0 = orderNode := rfl
  refine ⟨?_, fun k hk _ => ?_, fun hc => ?_⟩
  · rw [hcls]; exact ⟨by decide, by decide, by decide, by decide⟩
  · have : k ∈ [ka, kb] := hk
    rcases List.mem_cons.mp this with rfl | h
    · exact ⟨_, rfl, by decide⟩
    · rw [List.mem_singleton.mp h]; exact ⟨_, rfl, by decide⟩
  · rw [hcls] at hc; exact absurd hc (by decide)

example : ∃ w', insertAt orderEnv true 0 3 2 (after orderEnv c21Ops) = (.ok (), w') ∧
    (w'.omap 0).keys = [ka, kc, kb] ∧
    Placed true ((after orderEnv c21Ops).omap 0) (w'.omap 0) kb kc (.node 3) := by
  have hw := (reachable_after orderEnv c21Ops).wf
  have h := c21_succeeds (E := orderEnv) (o := 0) (n := 3) (ref := 2) hw mapClass_orderNode
    (fun hc => absurd hc (by decide)) (by decide) (fun _ => ⟨_, rfl, by decide⟩) true rfl
    (by decide) (by decide +kernel) (by decide +kernel)
  refine ⟨_, Prod.ext h rfl, by decide +kernel, ?_⟩
  exact (c21_placed_partial true 0 3 2 hw (by decide) (Prod.ext h rfl)).1

example : ∃ w', insertEnd orderEnv true 0 3 (after orderEnv c21Ops) = (.ok (), w') ∧
    (w'.omap 0).keys = [kc, ka, kb] := by
  have hw := (reachable_after orderEnv c21Ops).wf
  have h : insertEnd orderEnv true 0 3 (after orderEnv c21Ops) = (.ok (), _) :=
    Prod.ext (by decide +kernel) rfl
  refine ⟨_, h, ?_⟩
  refine (c22_ends_partial hw c21_open (fun k c hk => ?_) true (by decide +kernel)
    (fun _ => ⟨_, rfl, by decide⟩) h).1
  have hm : k ∈ [ka, kb] := Od.mem_keys_of_get? hk
  rcases List.mem_cons.mp hm with rfl | hm
  · have : some (Val.node 1) = some (.node c) := hk
    injection this with this; injection this with this; subst this; rfl
  · rw [List.mem_singleton.mp hm] at hk ⊢
    have : some (Val.node 2) = some (.node c) := hk
    injection this with this; injection this with this; subst this; rfl

example : ((swapNodes orderEnv 0 1 2 (after orderEnv c21Ops)).2.omap 0).keys = [kb, ka] := by
  have hw := (reachable_after orderEnv c21Ops).wf
  have h := c23_succeeds orderEnv 0 1 2 hw ⟨by decide, by decide⟩ rfl (by decide +kernel)
    (by decide +kernel) (by decide +kernel)
  have h' : swapNodes orderEnv 0 1 2 (after orderEnv c21Ops) =
      (.ok (), (swapNodes orderEnv 0 1 2 (after orderEnv c21Ops)).2) := Prod.ext h rfl
  refine (c23_swap orderEnv 0 1 2 hw h').2.2.1.trans ?_
  decide +kernel

/-- An insertion beside a node that is no child fails and changes nothing. -/
example : ∃ w', insertAt orderEnv true 0 3 4 (after orderEnv c21Ops) =
      (.error (.value "Given reference node not child of self."), w') ∧
    MapsSame (after orderEnv c21Ops) w' := by
  have hw := (reachable_after orderEnv c21Ops).wf
  have h : insertAt orderEnv true 0 3 4 (after orderEnv c21Ops) =
      (.error (.value "Given reference node not child of self."), _) :=
    Prod.ext (by decide +kernel) rfl
  exact ⟨_, h, (c24_failed_partial (E := orderEnv) (o := 0) hw mapClass_orderNode (fun hc => absurd hc (by decide)) (by decide)
    (fun _ => ⟨_, rfl, by decide⟩) true h).1⟩

/-- C24 is false for `Node`: inserting a node named by a number raises
`AttributeError` after it was put into the storage. -/
theorem c24_refuted : ∃ ops,
    (insertAt sampleEnv true 0 2 1 (after sampleEnv ops)).1 = .error .attr ∧
    ((after sampleEnv ops).omap 0).keys = [ka] ∧
    ((insertAt sampleEnv true 0 2 1 (after sampleEnv ops)).2.omap 0).keys = [.int 5, ka] :=
  ⟨[.new 2 .none none, .new 2 .none none, .new 2 (.int 5) none, .set 0 ka (.node 1)],
    by decide +kernel, by decide +kernel, by decide +kernel⟩

/-- A more ordinary case: a subtree containing a node already indexed. -/
theorem c24_refuted_reference : ∃ ops,
    (insertAt sampleEnv true 0 2 1 (after sampleEnv ops)).1 =
      .error (.value "Node with uuid already exists") ∧
    ((after sampleEnv ops).omap 0).keys = [ka, kb] ∧
    ((insertAt sampleEnv true 0 2 1 (after sampleEnv ops)).2.omap 0).keys = [kc, ka, kb] :=
  ⟨[.new 2 .none none, .new 2 .none none, .new 2 kc none, .new 2 .none none, .set 0 ka (.node 1),
    .set 0 kb (.node 3), .set 2 ka (.node 3)],
    by decide +kernel, by decide +kernel, by decide +kernel⟩

/-! ### Aliased nodes

`insertbefore` hands the names of the nodes to the storage, and then assigns through the aliaser. -/

/-- An ordering class with a prefix aliaser, names given below the aliaser. -/
def aliasOrderEnv : Env where
  cls _ := { bhvs := [.alias, .adopt, .order, .defaultInit, .nodify, .odictStorage],
             aliaser := some (.pre "p-".toList) }

/-- A node with one child `a`, shown as `p-a`, and a node named `p-c`. -/
def c21Alias : List Op := [.new 0 .none none, .new 0 .none none, .new 0 (.str ['p', '-', 'c']) none,
  .set 0 (.str ['p', '-', 'a']) (.node 1)]

/-- C21 is false for aliased nodes: `insertbefore` returns, and the new node is a child twice, once
before the reference node under a key nobody asked for and once at the end. -/
theorem c21_refuted : ∃ (E : Env) (w w' : World), Reachable E w ∧
    (mkeys E 0 w).1 = .ok [.str ['p', '-', 'a']] ∧ (w.loc 2).1 = .str ['p', '-', 'c'] ∧
    insertAt E true 0 2 1 w = (.ok (), w') ∧
    (mitems E 0 w').1 = .ok [(.str ['p', '-', 'p', '-', 'c'], .node 2), (.str ['p', '-', 'a'], .node 1),
      (.str ['p', '-', 'c'], .node 2)] :=
  ⟨aliasOrderEnv, after aliasOrderEnv c21Alias, _, reachable_after .., by decide +kernel, by decide +kernel,
    Prod.ext (by decide +kernel) rfl, by decide +kernel⟩

/-- C22 is false for aliased nodes: after `insertfirst` of a node named `p-c` the first key is
another one. -/
theorem c22_refuted : ∃ (E : Env) (w w' : World), Reachable E w ∧
    (mkeys E 0 w).1 = .ok [.str ['p', '-', 'a']] ∧ (w.loc 2).1 = .str ['p', '-', 'c'] ∧
    insertEnd E true 0 2 w = (.ok (), w') ∧
    (mkeys E 0 w').1 = .ok [.str ['p', '-', 'p', '-', 'c'], .str ['p', '-', 'a'], .str ['p', '-', 'c']] :=
  ⟨aliasOrderEnv, after aliasOrderEnv c21Alias, _, reachable_after .., by decide +kernel, by decide +kernel,
    Prod.ext (by decide +kernel) rfl, by decide +kernel⟩

end Verif
