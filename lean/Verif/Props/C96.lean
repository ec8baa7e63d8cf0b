import Verif.Props.C74

/-!
# C96 Any order can be reached

Sequences of `swap` sort: for every order of the keys of an ordered node there are calls of `swap`, fewer
than there are children, which bring the children into this order.  Beyond the order nothing changes.
-/

namespace Verif

/-- Every value of `o` is a node named after its key. -/
def AllNamed (w : World) (o : Oid) : Prop :=
  ∀ k ∈ (w.omap o).keys, ∃ c, (w.omap o).val k = some (.node c) ∧ (w.loc c).1 = k

/-- The calls of `swap` on `o`. -/
def swapOps (o : Oid) (ps : List (Oid × Oid)) : List Op := ps.map fun p => .swap o p.1 p.2

/-- The contents of `o` are the same up to their order, everything else is the same. -/
structure SameButOrder (o : Oid) (w w' : World) : Prop where
  val : (w'.omap o).val = (w.omap o).val
  other : ∀ p, p ≠ o → w'.omap p = w.omap p
  loc : ∀ p, w'.loc p = w.loc p
  uuid : ∀ p, (w'.objs p).uuid = (w.objs p).uuid
  ref : ∀ p u, (refNode p u w').1 = (refNode p u w).1
  spaces : ∀ p, w'.nmap p = w.nmap p

theorem SameButOrder.refl (o : Oid) (w : World) : SameButOrder o w w :=
  ⟨rfl, fun _ _ => rfl, fun _ => rfl, fun _ => rfl, fun _ _ => rfl, fun _ => rfl⟩

theorem SameButOrder.trans {o : Oid} {w w1 w2 : World} (h : SameButOrder o w w1) (h' : SameButOrder o w1 w2) :
    SameButOrder o w w2 :=
  ⟨h'.val.trans h.val, fun p hp => (h'.other p hp).trans (h.other p hp), fun p => (h'.loc p).trans (h.loc p),
    fun p => (h'.uuid p).trans (h.uuid p), fun p u => (h'.ref p u).trans (h.ref p u),
    fun p => (h'.spaces p).trans (h.spaces p)⟩

/-- What `swap` leaves alone whether it succeeds or not. -/
theorem swap_aside {E : Env} {o a b : Oid} {w : World} (hw : WF w) :
    (∀ p, ((swapNodes E o a b w).2.objs p).uuid = (w.objs p).uuid) ∧
    (∀ p u, (refNode p u (swapNodes E o a b w).2).1 = (refNode p u w).1) ∧
    ∀ p, (swapNodes E o a b w).2.nmap p = w.nmap p := by
  have hq := storageRef_quiet E o w hw
  unfold swapNodes
  simp only [M.bind_apply]
  rcases hr : storageRef E o w with ⟨e | r, w1⟩
  all_goals
    rw [hr] at hq
    have hs := hq.2
    have base : (∀ p, (w1.objs p).uuid = (w.objs p).uuid) ∧
        (∀ p u, (refNode p u w1).1 = (refNode p u w).1) ∧ ∀ p, w1.nmap p = w.nmap p :=
      ⟨fun p => (hs.obj p).uuid, (NothingChanged.quiet hs).2.2.2, (NothingChanged.quiet hs).2.1⟩
  · exact base
  · simp only [M.getW_apply]
    split
    · split
      · exact base
      · split
        · split
          · refine ⟨base.1, fun p u => ?_, base.2.2⟩
            rw [← base.2.1 p u]
            simp only [refNode, M.bind_apply, indexRef, M.modifyW]
            cases (w1.objs p).index <;> rfl
          · exact base
        · exact base
    · exact base

theorem exchange_absent {a b : Key} {l : List Key} (ha : a ∉ l) (hb : b ∉ l) : exchange a b l = l := by
  unfold exchange
  conv => rhs; rw [← List.map_id l]
  refine List.map_congr_left fun k hk => ?_
  have h1 : k ≠ a := fun h => ha (h ▸ hk)
  have h2 : k ≠ b := fun h => hb (h ▸ hk)
  rw [if_neg h1, if_neg h2, id]

/-- Two keys of a sequence without repetition exchanged. -/
theorem exchange_split {p u v : List Key} {k t : Key} (h : (p ++ k :: (u ++ t :: v)).Nodup) :
    exchange k t (p ++ k :: (u ++ t :: v)) = p ++ t :: (u ++ k :: v) := by
  obtain ⟨-, h2, h3⟩ := List.nodup_append.mp h
  obtain ⟨hk, h4⟩ := List.nodup_cons.mp h2
  obtain ⟨-, h5, h6⟩ := List.nodup_append.mp h4
  obtain ⟨ht, -⟩ := List.nodup_cons.mp h5
  have hkt : k ≠ t := fun e => hk (List.mem_append.mpr (.inr (e ▸ List.mem_cons_self)))
  have ep : exchange k t p = p := exchange_absent (fun hm => h3 k hm k List.mem_cons_self rfl)
    (fun hm => h3 t hm t (List.mem_cons_of_mem _ (List.mem_append.mpr (.inr List.mem_cons_self))) rfl)
  have eu : exchange k t u = u := exchange_absent (fun hm => hk (List.mem_append.mpr (.inl hm)))
    (fun hm => h6 t hm t List.mem_cons_self rfl)
  have ev : exchange k t v = v := exchange_absent
    (fun hm => hk (List.mem_append.mpr (.inr (List.mem_cons_of_mem _ hm)))) ht
  unfold exchange at ep eu ev ⊢
  rw [List.map_append, List.map_cons, List.map_append, List.map_cons, ep, eu, ev, if_pos rfl,
    if_neg (fun e => hkt e.symm), if_pos rfl]

/-- The rest of the keys sorted by calls of `swap`. -/
theorem swaps_sort {E : Env} {o : Oid} : ∀ (ts pre rs : List Key) {w : World}, WF w → o < w.nobj →
    Stores (clsOf E w o) → storageKind (clsOf E w o).bhvs = some .odictStorage → AllNamed w o →
    (w.omap o).keys = pre ++ rs → ts.Perm rs →
    ∃ (ps : List (Oid × Oid)) (w' : World), ps.length ≤ ts.length - 1 ∧
      (∀ p ∈ ps, ∃ x y, (w.omap o).val x = some (.node p.1) ∧ (w.omap o).val y = some (.node p.2)) ∧
      execAll E (swapOps o ps) w = (ps.map fun _ => .ok .unit, w') ∧
      (w'.omap o).keys = pre ++ ts ∧ SameButOrder o w w' := by
  intro ts
  induction ts with
  | nil =>
    intro pre rs w hw ho hs hod hn hk hp
    have := hp.nil_eq
    subst this
    exact ⟨[], w, Nat.le_refl _, fun _ h => (nomatch h), rfl, hk, .refl _ _⟩
  | cons t ts ih =>
    intro pre rs w hw ho hs hod hn hk hp
    have htr : t ∈ rs := hp.mem_iff.mp List.mem_cons_self
    cases rs with
    | nil => cases htr
    | cons k rs =>
    by_cases hkt : k = t
    · subst hkt
      obtain ⟨ps, w', hl, hc, he, hk', hr⟩ := ih (pre ++ [k]) rs hw ho hs hod hn
        (by rw [hk, List.append_assoc]; rfl) (List.perm_cons k |>.mp hp)
      refine ⟨ps, w', Nat.le_trans hl ?_, hc, he, by rw [hk', List.append_assoc]; rfl, hr⟩
      simp only [List.length_cons]; omega
    · have ht : t ∈ rs := (List.mem_cons.mp htr).resolve_left fun e => hkt e.symm
      obtain ⟨u, v, rfl⟩ := List.append_of_mem ht
      have hmk : k ∈ (w.omap o).keys := by rw [hk]; simp
      have hmt : t ∈ (w.omap o).keys := by rw [hk]; simp
      obtain ⟨a, hva, hna⟩ := hn k hmk
      obtain ⟨b, hvb, hnb⟩ := hn t hmt
      have hok := c23_succeeds E o a b hw hs hod (by rw [hna]; exact hmk) (by rw [hnb]; exact hmt)
        (by rw [hna, hnb]; exact hkt)
      have hx : swapNodes E o a b w = (.ok (), (swapNodes E o a b w).2) := Prod.ext hok rfl
      obtain ⟨-, -, h3, h4, h5, h6⟩ := c23_swap E o a b hw hx
      have hg := grow_swapNodes E o a b w
      have haside := swap_aside (E := E) (o := o) (a := a) (b := b) hw
      generalize (swapNodes E o a b w).2 = w1 at hx h3 h4 h5 h6 hg haside
      have hnd : (pre ++ k :: (u ++ t :: v)).Nodup := by
        rw [← hk]; exact hw.children_nodup o
      rw [hna, hnb, hk, exchange_split hnd] at h3
      have hcls : clsOf E w1 o = clsOf E w o := congrArg E.cls (hg.cls o ho)
      have hn1 : AllNamed w1 o := by
        intro j hj
        have hj' : j ∈ (w.omap o).keys := by
          rw [h3] at hj; rw [hk]
          simp only [List.mem_append, List.mem_cons] at hj ⊢
          rcases hj with h | h | h | h | h <;> simp [h]
        obtain ⟨c, hc, hl⟩ := hn j hj'
        exact ⟨c, by rw [h4]; exact hc, by rw [h6]; exact hl⟩
      have hperm : ts.Perm (u ++ k :: v) := by
        have h1 : (t :: ts).Perm (t :: (k :: (u ++ v))) :=
          hp.trans (((List.perm_middle).cons k).trans (List.Perm.swap _ _ _))
        exact ((List.perm_cons t).mp h1).trans List.perm_middle.symm
      obtain ⟨ps, w', hl, hc, he, hk', hr⟩ := ih (pre ++ [t]) (u ++ k :: v) (hg.wf hw)
        (Nat.lt_of_lt_of_le ho hg.nobj) (hcls ▸ hs) (hcls ▸ hod) hn1
        (by rw [h3, List.append_assoc]; rfl) hperm
      have hlen : ts.length = u.length + (v.length + 1) := by
        rw [hperm.length_eq, List.length_append, List.length_cons]
      refine ⟨(a, b) :: ps, w', ?_, ?_, ?_, by rw [hk', List.append_assoc]; rfl,
        .trans ⟨h4, h5, h6, haside.1, haside.2.1, haside.2.2⟩ hr⟩
      · simp only [List.length_cons]; omega
      · intro p hm
        rcases List.mem_cons.mp hm with rfl | hm
        · exact ⟨k, t, hva, hvb⟩
        · obtain ⟨x, y, hx, hy⟩ := hc p hm
          exact ⟨x, y, by rw [← h4]; exact hx, by rw [← h4]; exact hy⟩
      · have he1 : exec E (.swap o a b) w = (.ok .unit, w1) := by
          simp only [exec, M.bind_apply, hx, M.pure_apply]
        show execAll E (.swap o a b :: swapOps o ps) w = _
        simp only [execAll, he1, he, List.map_cons]

/-- C96: for every order of the keys of an ordered node whose values are nodes named after their keys there
are calls of `swap` for pairs of its children, fewer than there are children (or none), which all succeed
and bring the keys into this order; which value is found under which key, the contents of the other nodes and
all names and parents stay the same. -/
theorem c96_sort {E : Env} {o : Oid} {w : World} (hr : Reachable E w) (ho : o < w.nobj)
    (hs : Stores (clsOf E w o)) (hod : storageKind (clsOf E w o).bhvs = some .odictStorage)
    (hn : AllNamed w o) {l : List Key} (hl : l.Perm (w.omap o).keys) :
    ∃ (ps : List (Oid × Oid)) (w' : World), ps.length ≤ l.length - 1 ∧
      (∀ p ∈ ps, ∃ x y, (w.omap o).val x = some (.node p.1) ∧ (w.omap o).val y = some (.node p.2)) ∧
      execAll E (swapOps o ps) w = (ps.map fun _ => .ok .unit, w') ∧
      (w'.omap o).keys = l ∧ SameButOrder o w w' :=
  swaps_sort l [] _ hr.wf ho hs hod hn rfl hl

/-- A refused `swap` changes nothing. -/
theorem swap_refused {E : Env} {o a b : Oid} {w w' : World} {e : Exc} (hw : WF w)
    (h : swapNodes E o a b w = (.error e, w')) : (∀ p, w'.omap p = w.omap p) ∧ ∀ p, w'.loc p = w.loc p := by
  have hq := storageRef_quiet E o w hw
  unfold swapNodes at h
  simp only [M.bind_apply] at h
  rcases hr : storageRef E o w with ⟨e | r, w1⟩
  · rw [hr] at h hq
    injection h with _ h
    subst h
    exact ⟨fun p => congrArg Od.toMap (hq.2.children p), hq.2.loc⟩
  · rw [hr] at h hq
    simp only [M.getW_apply] at h
    have : w' = w1 := by
      split at h
      · split at h
        · injection h with _ h; exact h.symm
        · split at h
          · split at h
            · cases h
            · injection h with _ h; exact h.symm
          · injection h with _ h; exact h.symm
      · injection h with _ h; exact h.symm
    subst this
    exact ⟨fun p => congrArg Od.toMap (hq.2.children p), hq.2.loc⟩

/-- C96: conversely calls of `swap`, whatever they raise, change nothing but the order of the keys. -/
theorem c96_only_order {E : Env} {o : Oid} : ∀ (ps : List (Oid × Oid)) {w : World} (_ : Reachable E w),
    ((execAll E (swapOps o ps) w).2.omap o).keys.Perm (w.omap o).keys ∧
    SameButOrder o w (execAll E (swapOps o ps) w).2 := by
  intro ps
  suffices H : ∀ {w : World}, WF w → ((execAll E (swapOps o ps) w).2.omap o).keys.Perm (w.omap o).keys ∧
      SameButOrder o w (execAll E (swapOps o ps) w).2 from fun {_} hr => H hr.wf
  induction ps with
  | nil => exact fun _ => ⟨.refl _, .refl _ _⟩
  | cons p ps ih =>
    intro w hw
    have hg := grow_swapNodes E o p.1 p.2 w
    have hstep : (((swapNodes E o p.1 p.2 w).2).omap o).keys.Perm (w.omap o).keys ∧
        SameButOrder o w (swapNodes E o p.1 p.2 w).2 := by
      have haside := swap_aside (E := E) (o := o) (a := p.1) (b := p.2) hw
      rcases hx : swapNodes E o p.1 p.2 w with ⟨e | x, w1⟩ <;> rw [hx] at haside
      · have := swap_refused hw hx
        exact ⟨by rw [this.1 o], ⟨by rw [this.1 o], fun q _ => this.1 q, this.2, haside.1,
          haside.2.1, haside.2.2⟩⟩
      · obtain ⟨h1, h2, h3, h4, h5, h6⟩ := c23_swap E o p.1 p.2 hw hx
        refine ⟨?_, ⟨h4, h5, h6, haside.1, haside.2.1, haside.2.2⟩⟩
        rw [hx] at hg
        refine (List.perm_ext_iff_of_nodup ((hg.wf hw).children_nodup o) (hw.children_nodup o)).mpr fun j => ?_
        have e1 : ∀ {x : World}, j ∈ (x.children o).keys ↔ ∃ v, (x.omap o).val j = some v := by
          intro x
          refine ⟨fun h => ?_, fun ⟨v, h⟩ => Od.mem_keys_of_get? h⟩
          exact (Od.get?_of_mem_keys h)
        rw [e1, e1, h4]
    have hex : (execAll E (swapOps o (p :: ps)) w).2 =
        (execAll E (swapOps o ps) (swapNodes E o p.1 p.2 w).2).2 := by
      show (execAll E (.swap o p.1 p.2 :: swapOps o ps) w).2 = _
      have : (exec E (.swap o p.1 p.2) w).2 = (swapNodes E o p.1 p.2 w).2 := by
        simp only [exec, M.bind_apply]
        rcases swapNodes E o p.1 p.2 w with ⟨e | x, w1⟩ <;> rfl
      simp only [execAll, this]
    rw [hex]
    obtain ⟨h1, h2⟩ := ih (hg.wf hw)
    exact ⟨h1.trans hstep.1, hstep.2.trans h2⟩

/-! ### Instances -/

/-- Three children. -/
def c96Ops : List Op := [.new 0 .none none, .new 0 .none none, .new 0 .none none, .new 0 .none none,
  .set 0 ka (.node 1), .set 0 kb (.node 2), .set 0 kc (.node 3)]

theorem c96_named : AllNamed (after orderEnv c96Ops) 0 := by
  intro k hk
  have : k ∈ [ka, kb, kc] := hk
  simp only [List.mem_cons, List.not_mem_nil, or_false] at this
  rcases this with rfl | rfl | rfl
  · exact ⟨1, rfl, by decide +kernel⟩
  · exact ⟨2, rfl, by decide +kernel⟩
  · exact ⟨3, rfl, by decide +kernel⟩

example : ∃ (ps : List (Oid × Oid)) (w' : World), ps.length ≤ 2 ∧
    execAll orderEnv (swapOps 0 ps) (after orderEnv c96Ops) = (ps.map fun _ => .ok .unit, w') ∧
    (w'.omap 0).keys = [kc, ka, kb] ∧ SameButOrder 0 (after orderEnv c96Ops) w' := by
  have hk : ((after orderEnv c96Ops).omap 0).keys = [ka, kb, kc] := by decide +kernel
  obtain ⟨ps, w', h1, -, h2, h3, h4⟩ := c96_sort (E := orderEnv) (o := 0) (l := [kc, ka, kb])
    (reachable_after orderEnv c96Ops) (by decide +kernel) ⟨⟨_, rfl, by decide⟩, by decide⟩ rfl c96_named
    (by rw [hk]; decide +kernel)
  exact ⟨ps, w', h1, h2, h3, h4⟩

end Verif
