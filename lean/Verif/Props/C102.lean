import Verif.Props.C13
import Verif.Props.C21
import Verif.Props.C90

/-!
# C102: what was added can be taken out, what was taken out can be put back

Adding a node - by assignment to a new key, by `insertbefore`, `insertafter`, `insertfirst` or
`insertlast` - and deleting it leaves all mappings as they were, order included
(`c102_set_partial`, `c102_insert_partial`, `c102_end_partial`).  Deleting a child and inserting it
beside its old neighbour does so too (`c102_back_partial`), and so does detaching
(`c102_detach_partial`).  False for aliased nodes, where an insertion
leaves a second entry behind (`c102_refuted`).
-/

namespace Verif

variable {E : Env} {o n ref : Oid} {w w1 w2 : World}

theorem omap_absent {k : Key} (h : k ∉ (w.omap o).keys) : (w.omap o).val k = none := by
  cases hv : (w.omap o).val k with
  | none => rfl
  | some v => exact absurd (Od.mem_keys_of_get? (show (w.children o).get? k = some v from hv)) h

theorem filter_absent {k : Key} {l : List Key} (h : k ∉ l) : l.filter (fun j => j ≠ k) = l :=
  List.filter_eq_self.2 fun j hj => by simpa using fun e : j = k => h (e ▸ hj)

/-- Removing a new key. -/
theorem del_added {k : Key} {v : Val} {m' : OMap Key Val} (hk : k ∉ (w.omap o).keys)
    (h1 : m'.keys.filter (fun j => j ≠ k) = (w.omap o).keys)
    (h2 : ∀ j, m'.val j = if j = k then some v else (w.omap o).val j) : m'.del k = w.omap o := by
  refine OMap.ext h1 (funext fun j => ?_)
  show (if j = k then none else m'.val j) = _
  split
  · rename_i e; rw [e, omap_absent hk]
  · rename_i e; rw [h2 j, if_neg e]

theorem maps_back {k : Key} {d : MapsDel w1 w2 o (some (.child k))} (h : (w1.omap o).del k = w.omap o)
    (hp : ∀ p, p ≠ o → w1.omap p = w.omap p) : MapsSame w w2 := by
  rcases d with ⟨j, h1, -, h3, h4⟩ | ⟨j, h1, -⟩
  · cases h1
    intro p
    by_cases e : p = o
    · subst e; exact h3.trans h
    · exact (h4 p e).trans (hp p e)
  · cases h1

section
variable (hw : WF w) (ho : o < w.nobj) (hr : DelReads E (clsOf E w o)) (hs : Stores (clsOf E w o))
  (ha : Bhv.alias ∉ (clsOf E w o).bhvs)
include hw ho hr hs ha

/-- C102: assigning to a new key and deleting it leaves all mappings as they were. -/
theorem c102_set_partial {k : Key} {v : Val} (hk : KeyFor (clsOf E w o) k) (hn : k ∉ (w.omap o).keys)
    (h1 : setitem E o k v w = (.ok (), w1)) (h2 : delitem E o k w1 = (.ok (), w2)) : MapsSame w w2 := by
  have hg : Grow w w1 := by have := grow_setitem E o k v w; rwa [h1] at this
  have hcls : clsOf E w1 o = clsOf E w o := congrArg E.cls (hg.cls o ho)
  have hd := c02_del_ok o k (by rw [hcls]; exact hr) (hg.wf hw) h2
  rw [hcls, Looks.dest ⟨hs, ha, hk⟩] at hd
  have hset := c02_set_ok E o k v hw h1
  rw [Looks.dest ⟨hs, ha, hk⟩] at hset
  rcases hset with ⟨j, e, g1, g2⟩ | ⟨j, e, -⟩
  · cases e
    refine maps_back (d := hd) ?_ g2
    rw [g1]
    refine del_added hn ?_ fun _ => rfl
    show (if k ∈ (w.omap o).keys then _ else _ : List Key).filter _ = _
    rw [if_neg hn, List.filter_append, filter_absent hn]
    simp
  · cases e

/-- C102: `insertbefore` or `insertafter` and deleting the new node by its name leave all mappings as
they were. -/
theorem c102_insert_partial {before : Bool} (hk : KeyFor (clsOf E w o) (w.loc n).1)
    (h1 : insertAt E before o n ref w = (.ok (), w1)) (h2 : delitem E o (w.loc n).1 w1 = (.ok (), w2)) :
    MapsSame w w2 := by
  have hg : Grow w w1 := by have := grow_insertAt E before o n ref w; rwa [h1] at this
  have hcls : clsOf E w1 o = clsOf E w o := congrArg E.cls (hg.cls o ho)
  have hd := c02_del_ok o (w.loc n).1 (by rw [hcls]; exact hr) (hg.wf hw) h2
  rw [hcls, Looks.dest ⟨hs, ha, hk⟩] at hd
  obtain ⟨⟨p1, ⟨l, r, p2, p3⟩, p4⟩, p5⟩ := c21_placed_partial before o n ref hw ha h1
  refine maps_back (d := hd) (del_added p1 ?_ p4) p5
  rw [p3, p2]
  rw [p2] at p1
  have hl : (w.loc n).1 ∉ l := fun h => p1 (List.mem_append_left _ h)
  have hr' : (w.loc n).1 ∉ (w.loc ref).1 :: r := fun h => p1 (List.mem_append_right _ h)
  have hne : (w.loc ref).1 ≠ (w.loc n).1 := fun e => hr' (e ▸ List.mem_cons_self)
  have hrr : (w.loc n).1 ∉ r := fun h => hr' (List.mem_cons_of_mem _ h)
  cases before
  · simp only [Bool.false_eq_true, if_false]
    rw [List.filter_append, filter_absent hl, List.filter_cons_of_pos (by simpa using hne),
      List.filter_cons_of_neg (by simp), filter_absent hrr]
  · simp only [if_true]
    rw [List.filter_append, filter_absent hl, List.filter_cons_of_neg (by simp), filter_absent hr']

end

/-- C102: `insertfirst` or `insertlast` and deleting the new node by its name leave all mappings as
they were. -/
theorem c102_end_partial (hw : WF w) (ho : o < w.nobj) (hr : DelReads E (clsOf E w o)) (hop : Open E w o)
    (hl : ∀ k c, (w.children o).get? k = some (.node c) → (w.objs c).name = k) {first : Bool}
    (hn : (w.loc n).1 ∉ (w.omap o).keys) (hk : KeyFor (clsOf E w o) (w.loc n).1)
    (h1 : insertEnd E first o n w = (.ok (), w1)) (h2 : delitem E o (w.loc n).1 w1 = (.ok (), w2)) :
    MapsSame w w2 := by
  have hg : Grow w w1 := by have := grow_insertEnd E first o n w; rwa [h1] at this
  have hcls : clsOf E w1 o = clsOf E w o := congrArg E.cls (hg.cls o ho)
  have hd := c02_del_ok o (w.loc n).1 (by rw [hcls]; exact hr) (hg.wf hw) h2
  rw [hcls, Looks.dest ⟨hop.concrete.stores, hop.concrete.noAlias, hk⟩] at hd
  obtain ⟨g1, g2, g3⟩ := c22_ends_partial hw hop hl first hn hk h1
  refine maps_back (d := hd) (del_added hn ?_ g2) g3
  rw [g1]
  cases first
  · simp only [Bool.false_eq_true, if_false]
    rw [List.filter_append, filter_absent hn]
    simp
  · simp only [if_true]
    rw [List.filter_cons_of_neg (by simp), filter_absent hn]

theorem split_unique {x : Key} : ∀ {a b c d : List Key}, a ++ x :: b = c ++ x :: d → x ∉ a → x ∉ c → a = c ∧ b = d
  | [], _, [], _, h, _, _ => ⟨rfl, by injection h⟩
  | [], _, _ :: _, _, h, _, hc => by injection h with h _; exact absurd (h ▸ List.mem_cons_self) hc
  | _ :: _, _, [], _, h, ha, _ => by injection h with h _; exact absurd (h ▸ List.mem_cons_self) ha
  | y :: a, b, z :: c, d, h, ha, hc => by
    simp only [List.cons_append, List.cons.injEq] at h
    obtain ⟨e1, e2⟩ := split_unique h.2 (fun m => ha (List.mem_cons_of_mem _ m)) (fun m => hc (List.mem_cons_of_mem _ m))
    exact ⟨by rw [h.1, e1], e2⟩

/-- A child that was taken out of a node goes back to its place. -/
theorem put_back (hw : WF w) (ho : o < w.nobj) (ha : Bhv.alias ∉ (clsOf E w o).bhvs)
    {before : Bool} {l r : List Key} (hv : (w.omap o).val (w.loc n).1 = some (.node n))
    (hks : (w.omap o).keys = if before then l ++ (w.loc n).1 :: (w.loc ref).1 :: r
      else l ++ (w.loc ref).1 :: (w.loc n).1 :: r)
    (hg : Grow w w1) (hn : w1.loc n = w.loc n) (hrf : w1.loc ref = w.loc ref)
    (hd : MapsDel w w1 o (some (.child (w.loc n).1))) (h2 : insertAt E before o n ref w1 = (.ok (), w2)) :
    MapsSame w w2 := by
  have hcls : clsOf E w1 o = clsOf E w o := congrArg E.cls (hg.cls o ho)
  obtain ⟨⟨p1, ⟨l', r', p2, p3⟩, p4⟩, p5⟩ := c21_placed_partial before o n ref (hg.wf hw) (by rw [hcls]; exact ha) h2
  rw [hn] at p1 p3 p4
  rw [hrf] at p2 p3
  rcases hd with ⟨j, e, -, g3, g4⟩ | ⟨j, e, -⟩
  · cases e
    have hnd : (w.omap o).keys.Nodup := hw.children_nodup o
    have hnd1 : (w1.omap o).keys.Nodup := (hg.wf hw).children_nodup o
    have hk1 : (w1.omap o).keys = l ++ (w.loc ref).1 :: r := by
      rw [g3]
      show (w.omap o).keys.filter _ = _
      rw [hks] at hnd ⊢
      cases before
      · simp only [Bool.false_eq_true, if_false] at hnd ⊢
        have hd := List.nodup_append.1 hnd
        have hc := List.nodup_cons.1 hd.2.1
        rw [List.filter_append, filter_absent fun h => hd.2.2 _ h _ (List.mem_cons_of_mem _ List.mem_cons_self) rfl,
          List.filter_cons_of_pos (by simpa using fun e : (w.loc ref).1 = (w.loc n).1 => hc.1 (e ▸ List.mem_cons_self)),
          List.filter_cons_of_neg (by simp), filter_absent (List.nodup_cons.1 hc.2).1]
      · simp only [if_true] at hnd ⊢
        have hd := List.nodup_append.1 hnd
        have hc := List.nodup_cons.1 hd.2.1
        rw [List.filter_append, filter_absent fun h => hd.2.2 _ h _ List.mem_cons_self rfl,
          List.filter_cons_of_neg (by simp), filter_absent hc.1]
    have out : ∀ {a b : List Key}, (w1.omap o).keys = a ++ (w.loc ref).1 :: b → (w.loc ref).1 ∉ a := fun e h => by
      rw [e] at hnd1
      exact (List.nodup_append.1 hnd1).2.2 _ h _ List.mem_cons_self rfl
    obtain ⟨rfl, rfl⟩ := split_unique (hk1.symm.trans p2) (out hk1) (out p2)
    intro p
    by_cases e : p = o
    · subst e
      refine OMap.ext ?_ (funext fun j => ?_)
      · rw [p3, hks]
      · rw [p4 j]
        split
        · rename_i e; rw [e, hv]
        · rename_i e
          rw [g3]
          exact if_neg e
    · exact (p5 p e).trans (g4 p e)
  · cases e

/-- C102: deleting a child and inserting it before the child that followed it, or after the child that
preceded it, leaves all mappings as they were. -/
theorem c102_back_partial (hw : WF w) (ho : o < w.nobj) (hno : n < w.nobj) (hro : ref < w.nobj)
    (hr : DelReads E (clsOf E w o)) (hs : Stores (clsOf E w o)) (ha : Bhv.alias ∉ (clsOf E w o).bhvs)
    {before : Bool} {l r : List Key} (hv : (w.omap o).val (w.loc n).1 = some (.node n))
    (hks : (w.omap o).keys = if before then l ++ (w.loc n).1 :: (w.loc ref).1 :: r
      else l ++ (w.loc ref).1 :: (w.loc n).1 :: r)
    (hk : KeyFor (clsOf E w o) (w.loc n).1)
    (h1 : delitem E o (w.loc n).1 w = (.ok (), w1)) (h2 : insertAt E before o n ref w1 = (.ok (), w2)) :
    MapsSame w w2 := by
  have hg : Grow w w1 := by have := grow_delitem E o (w.loc n).1 w; rwa [h1] at this
  have hex : (execAll E [.del o (w.loc n).1] w).2 = w1 := by
    simp only [execAll, exec, M.bind_apply, h1, M.pure_apply]
  have hloc : ∀ p, p < w.nobj → w1.loc p = w.loc p := fun p hp => by
    have := c90_location (E := E) hw hp (ops := [.del o (w.loc n).1]) (fun op hop => by
      rw [List.mem_singleton.1 hop]; simp [Op.given])
    rwa [hex] at this
  have hd := c02_del_ok o (w.loc n).1 hr hw h1
  rw [Looks.dest ⟨hs, ha, hk⟩] at hd
  exact put_back hw ho ha hv hks hg (hloc n hno) (hloc ref hro) hd h2

/-- C102: and so does detaching a child and inserting it beside its old neighbour. -/
theorem c102_detach_partial (hw : WF w) (ho : o < w.nobj)
    (hr : DetachReads E (clsOf E w o)) (hs : Stores (clsOf E w o)) (ha : Bhv.alias ∉ (clsOf E w o).bhvs)
    {before : Bool} {l r : List Key} (hv : (w.omap o).val (w.loc n).1 = some (.node n))
    (hks : (w.omap o).keys = if before then l ++ (w.loc n).1 :: (w.loc ref).1 :: r
      else l ++ (w.loc ref).1 :: (w.loc n).1 :: r)
    (hk : KeyFor (clsOf E w o) (w.loc n).1) {v : Val}
    (h1 : detach E o (w.loc n).1 w = (.ok v, w1)) (h2 : insertAt E before o n ref w1 = (.ok (), w2)) :
    MapsSame w w2 := by
  have hg : Grow w w1 := by have := grow_detach E o (w.loc n).1 w; rwa [h1] at this
  obtain ⟨hd, hloc⟩ := c13_removes o _ hr hw h1
  rw [Looks.dest ⟨hs, ha, hk⟩] at hd
  exact put_back hw ho ha hv hks hg (hloc n) (hloc ref) hd h2

/-- C102: in pass-through classes the deletion does succeed. -/
theorem c102_succeeds {k : Key} {v : Val} (hw : WF w) (ho : o < w.nobj) (hmc : MapClass (clsOf E w o))
    (hcoh : Coh E (· = o) w) (hk : KeyFor (clsOf E w o) k)
    (h1 : setitem E o k v w = (.ok (), w1)) : (delitem E o k w1).1 = .ok () := by
  obtain ⟨w', e1, hp⟩ := setitem_pt (E := E) hmc hw hcoh rfl v hk
  rw [e1, Prod.mk.injEq] at h1
  obtain ⟨h1, rfl⟩ := h1
  have hn : refuses (clsOf E w o) v = none := by
    cases hr : refuses (clsOf E w o) v with
    | none => rfl
    | some m => rw [hr] at h1; cases h1
  have hcls : clsOf E w' o = clsOf E w o := by
    have := grow_setitem E o k v w
    rw [e1] at this
    exact congrArg E.cls (this.cls o ho)
  obtain ⟨w2, e2, -⟩ := delitem_pt (E := E) (o := o) (by rw [hcls]; exact hmc) hp.wf hp.coh rfl (k := k)
    (by rw [hcls]; exact hk)
  rw [e2]
  show (if _ then _ else _ : Except Exc Unit) = _
  rw [if_pos]
  rw [hp.children, if_pos ⟨rfl, hn⟩]
  exact Od.mem_keys_of_get? (by rw [Od.get?_set, if_pos rfl])

/-! ### Concrete cases -/

theorem c102_reads : DelReads orderEnv orderNode := ⟨fun h => absurd h (by decide), fun h => absurd h (by decide)⟩

theorem c102_detaches : DetachReads orderEnv orderNode :=
  ⟨.inr ⟨by decide, by decide⟩, fun h => absurd h (by decide)⟩

/-- A node put between two others and deleted. -/
example : ∃ w1 w2, insertAt orderEnv true 0 3 2 (after orderEnv c21Ops) = (.ok (), w1) ∧
    (w1.omap 0).keys = [ka, kc, kb] ∧ delitem orderEnv 0 kc w1 = (.ok (), w2) ∧
    MapsSame (after orderEnv c21Ops) w2 := by
  have h1 : insertAt orderEnv true 0 3 2 (after orderEnv c21Ops) = (.ok (), _) := Prod.ext (by decide +kernel) rfl
  have h2 : delitem orderEnv 0 kc (insertAt orderEnv true 0 3 2 (after orderEnv c21Ops)).2 = (.ok (), _) :=
    Prod.ext (by decide +kernel) rfl
  exact ⟨_, _, h1, by decide +kernel, h2, c102_insert_partial (reachable_after _ _).wf (by decide +kernel) c102_reads
    ⟨by decide, by decide⟩ (by decide) (fun _ => ⟨_, rfl, by decide⟩) h1 h2⟩

/-- The first of two children deleted and put back before the other one. -/
example : ∃ w1 w2, delitem orderEnv 0 ka (after orderEnv c21Ops) = (.ok (), w1) ∧ (w1.omap 0).keys = [kb] ∧
    insertAt orderEnv true 0 1 2 w1 = (.ok (), w2) ∧ MapsSame (after orderEnv c21Ops) w2 := by
  have h1 : delitem orderEnv 0 ka (after orderEnv c21Ops) = (.ok (), _) := Prod.ext (by decide +kernel) rfl
  have h2 : insertAt orderEnv true 0 1 2 (delitem orderEnv 0 ka (after orderEnv c21Ops)).2 = (.ok (), _) :=
    Prod.ext (by decide +kernel) rfl
  exact ⟨_, _, h1, by decide +kernel, h2, c102_back_partial (l := []) (r := []) (reachable_after _ _).wf (by decide +kernel)
    (by decide +kernel) (by decide +kernel) c102_reads ⟨by decide, by decide⟩ (by decide) (by decide +kernel)
    (by decide +kernel) (fun _ => ⟨_, rfl, by decide⟩) h1 h2⟩

/-- The second of two children detached and put back after the other one. -/
example : ∃ w1 w2, detach orderEnv 0 kb (after orderEnv c21Ops) = (.ok (.node 2), w1) ∧ (w1.omap 0).keys = [ka] ∧
    insertAt orderEnv false 0 2 1 w1 = (.ok (), w2) ∧ MapsSame (after orderEnv c21Ops) w2 := by
  have h1 : detach orderEnv 0 kb (after orderEnv c21Ops) = (.ok (.node 2), _) := Prod.ext (by decide +kernel) rfl
  have h2 : insertAt orderEnv false 0 2 1 (detach orderEnv 0 kb (after orderEnv c21Ops)).2 = (.ok (), _) :=
    Prod.ext (by decide +kernel) rfl
  exact ⟨_, _, h1, by decide +kernel, h2, c102_detach_partial (l := []) (r := []) (reachable_after _ _).wf
    (by decide +kernel) c102_detaches ⟨by decide, by decide⟩ (by decide)
    (by decide +kernel) (by decide +kernel) (fun _ => ⟨_, rfl, by decide⟩) h1 h2⟩

/-- C102 is false for aliased nodes: a node that was inserted and deleted by its name is still there,
under another key. -/
theorem c102_refuted : ∃ (E : Env) (w w1 w2 : World), Reachable E w ∧
    (mkeys E 0 w).1 = .ok [.str ['p', '-', 'a']] ∧ insertAt E true 0 2 1 w = (.ok (), w1) ∧
    delitem E 0 (w.loc 2).1 w1 = (.ok (), w2) ∧
    (mitems E 0 w2).1 = .ok [(.str ['p', '-', 'p', '-', 'c'], .node 2), (.str ['p', '-', 'a'], .node 1)] :=
  ⟨aliasOrderEnv, after aliasOrderEnv c21Alias, _, _, reachable_after .., by decide +kernel,
    Prod.ext (by decide +kernel) rfl, Prod.ext (by decide +kernel) rfl, by decide +kernel⟩

end Verif
