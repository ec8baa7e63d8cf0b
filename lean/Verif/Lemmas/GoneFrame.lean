import Verif.Lemmas.Gone

/-! What a deletion leaves as it is, for classes without factories and fallback. -/

namespace Verif

variable {E : Env}

/-- Nothing makes up values, and there is one `Cache` at most. -/
structure Sober (cd : ClassDef) : Prop where
  factory : Bhv.childFactory ∉ cd.bhvs
  fallback : Bhv.fallback ∉ cd.bhvs
  once : cd.bhvs.count .cache ≤ 1

/-- Nothing under the key: the read raises and leaves everything visible as it is. -/
theorem getPipe_none (fb : Oid → Key → Exc → M Val) {bs : List Bhv} (hf : Bhv.childFactory ∉ bs)
    (hb : Bhv.fallback ∉ bs) {o : Oid} {k : Key} {w : World} (hw : WF w)
    (h : w.shownBy E o bs k = none) :
    ∃ e w', getPipe E fb bs o k w = (.error e, w') ∧ Mute w w' := by
  induction bs generalizing k w with
  | nil =>
    replace h : w.stored E o k = none := h
    have hm := mute_getEnd E o k w
    rcases hx : getEnd E o k w with ⟨e | v, w'⟩
    · rw [hx] at hm
      exact ⟨e, w', hx, hm⟩
    · exfalso
      unfold World.stored at h
      simp only [getEnd, M.bind_apply, M.getW_apply] at hx
      by_cases hF : Bhv.fixedChildren ∈ (clsOf E w o).bhvs
      · rw [if_pos hF] at h
        rw [if_pos (show (bhvsOf E w o).contains .fixedChildren = true from List.contains_iff_mem.mpr hF)] at hx
        simp [M.ofExcept_apply, lookup, h] at hx
      · rw [if_neg hF] at h
        rw [if_neg (show ¬ (bhvsOf E w o).contains .fixedChildren = true from
          fun x => hF (List.contains_iff_mem.mp x))] at hx
        split at hx
        · simp only [M.bind_apply] at hx
          have hm := mute_storageRef E o w
          rcases hr : storageRef E o w with ⟨_ | r, w1⟩
          · rw [hr] at hx; cases hx
          · rw [hr] at hx hm
            simp only [M.getW_apply, M.ofExcept_apply] at hx
            rw [← children_eq (storageRef_ok hr), hm.children hw] at hx
            have hch : (w.children o).get? k = none := by
              unfold storageRef storageKind at hr
              rw [show bhvsOf E w o = (clsOf E w o).bhvs from rfl] at hr
              cases hk : (clsOf E w o).bhvs.find? Bhv.isStorage with
              | none => simp [hk] at hr
              | some b =>
                rw [hk] at h
                cases b <;> first | exact h | simp [hk] at hr
            simp [lookup, hch] at hx
        · cases hx
  | cons b r ih =>
    have ih := fun {k : Key} {w : World} => @ih (fun x => hf (List.mem_cons_of_mem _ x))
      (fun x => hb (List.mem_cons_of_mem _ x)) k w
    cases b
    case nodespaces =>
      cases k with
      | str s =>
        simp only [World.shownBy] at h
        by_cases hR : Reserved s
        · rw [if_pos hR] at h
          obtain ⟨rn, w1, hr⟩ := nodespacesRef_isOk o w
          have hm := mute_nodespacesRef o w
          rw [hr] at hm
          refine ⟨.key (.key (.str s)), w1, ?_, hm⟩
          simp only [getPipe, nodespacesGet, (reserved_iff s).mpr hR, if_true, M.bind_apply, hr,
            M.getW_apply, M.ofExcept_apply]
          rw [← nsview_eq (nodespacesRef_ok hr), hm.nsview hw]
          simp [lookup, h]
        · rw [if_neg hR] at h
          simp only [getPipe, nodespacesGet, not_reserved hR, Bool.false_eq_true, if_false]
          exact ih hw h
      | _ => exact ih hw h
    case cache =>
      simp only [World.shownBy] at h
      obtain ⟨rc, w1, hr⟩ := cacheRef_isOk o w
      have hm := mute_cacheRef o w
      have hro := cacheRef_ok hr
      rw [hr] at hm
      simp only [getPipe, cacheGet, M.bind_apply, hr, M.getW_apply]
      rw [← cached_eq hro, hm.cached hw]
      cases hg : (w.cached o).get? k with
      | some x => rw [hg] at h; cases h
      | none =>
        rw [hg] at h
        obtain ⟨e, w2, h2, hm2⟩ := ih (k := k) (w := w1) (hm.wf hw) ((shownBy_mute hm hw o r k).trans h)
        refine ⟨e, w2, ?_, mute_pre.trans hm hm2⟩
        simp only [M.bind_apply, h2]
    case alias =>
      simp only [World.shownBy] at h
      simp only [getPipe, M.bind_apply, unaliasKey]
      have keyed : ∀ {u : Key}, w.shownBy E o r u = none →
          ∃ e w', rekey k (getPipe E fb r o u) w = (.error e, w') ∧ Mute w w' := fun a => by
        obtain ⟨e, w', h1, h2⟩ := ih hw a
        simp only [rekey, M.catchIf_apply, h1]
        split
        · exact ⟨_, w', rfl, h2⟩
        · exact ⟨_, w', rfl, h2⟩
      cases ha : (clsOf E w o).aliaser with
      | none =>
        rw [ha] at h
        exact keyed h
      | some a =>
        rw [ha] at h
        simp only at h ⊢
        by_cases ht : a.truthy
        · rw [if_pos ht] at h ⊢
          cases hu : a.unalias k with
          | error e => exact ⟨e, w, rfl, mute_pre.refl w⟩
          | ok u =>
            rw [hu] at h
            exact keyed h
        · rw [if_neg ht] at h ⊢
          exact keyed h
    case childFactory => exact absurd List.mem_cons_self hf
    case fallback => exact absurd List.mem_cons_self hb
    all_goals exact ih hw h

/-- Every node shows what it did, behind every number of its behaviors. -/
structure Seen (E : Env) (w w' : World) : Prop where
  wf : WF w'
  cls : ∀ p, (w'.objs p).cls = (w.objs p).cls
  fixed : ∀ p, (w'.objs p).fixed = (w.objs p).fixed
  nobj : w'.nobj = w.nobj
  nsview : ∀ p, w'.nsview p = w.nsview p
  children : ∀ p, w'.children p = w.children p
  shown : ∀ q r, r <:+ (clsOf E w q).bhvs → ∀ j, w'.shownBy E q r j = w.shownBy E q r j

theorem Seen.clsOf {w w' : World} (h : Seen E w w') (p : Oid) : Verif.clsOf E w' p = Verif.clsOf E w p :=
  congrArg E.cls (h.cls p)

def SeenR (E : Env) (w w' : World) : Prop := WF w → Seen E w w'

theorem Mute.seen {w w' : World} (h : Mute w w') : SeenR E w w' := fun hw =>
  ⟨h.wf hw, h.cls, h.fixed, h.nobj, h.nsview hw, h.children hw, fun q r _ j => shownBy_mute h hw q r j⟩

theorem seen_pre : PreR (SeenR E) :=
  ⟨fun w => (mute_pre.refl w).seen, fun h h' hw => by
    have a := h hw
    have b := h' a.wf
    exact ⟨b.wf, fun p => (b.cls p).trans (a.cls p), fun p => (b.fixed p).trans (a.fixed p), b.nobj.trans a.nobj,
      fun p => (b.nsview p).trans (a.nsview p), fun p => (b.children p).trans (a.children p), fun q r hr j =>
        (b.shown q r (by rw [a.clsOf]; exact hr) j).trans (a.shown q r hr j)⟩⟩

theorem seen_getitemAt {o : Oid} {k : Key} {w : World} (hc : (clsOf E w o).bhvs.count .cache ≤ 1)
    (hn : w.shown E o k = none → Bhv.childFactory ∉ (clsOf E w o).bhvs ∧ Bhv.fallback ∉ (clsOf E w o).bhvs)
    (hw : WF w) : Seen E w (getitem E o k w).2 := by
  cases h : w.shown E o k with
  | none =>
    obtain ⟨e, w', h1, hm⟩ := getPipe_none (fbHandler E) (hn h).1 (hn h).2 hw h
    have h1 : getitem E o k w = (.error e, w') := h1
    rw [h1]
    exact hm.seen hw
  | some v =>
    obtain ⟨w', h1, h2, -, -, h5⟩ := getPipe_stable (fbHandler E) (clsOf E w o).bhvs hw h
    have h1 : getitem E o k w = (.ok v, w') := h1
    rw [h1]
    refine ⟨h2.wf, fun p => (h2.same.obj p).cls, fun p => (h2.same.obj p).fixed, h2.same.nobj, h2.same.nsview,
      h2.same.children, fun q r hr j => ?_⟩
    by_cases e : q = o
    · subst e; exact h5 hc r hr j
    · exact shownBy_same h2.same (h2.cached q e) r j

theorem seen_getitem (hE : ∀ c, Sober (E.cls c)) (o : Oid) (k : Key) : Pres (SeenR E) (getitem E o k) :=
  fun w hw => seen_getitemAt (hE (w.objs o).cls).once
    (fun _ => ⟨(hE (w.objs o).cls).factory, (hE (w.objs o).cls).fallback⟩) hw

/-- If a behavior reads `k` on the way to its deletion, it runs no factory and no search: the class has
none, or it has no `Alias` and the item is there. `Reference` also reads the nodes below. -/
structure Unasked (E : Env) (w : World) (o : Oid) (k : Key) : Prop where
  once : (clsOf E w o).bhvs.count .cache ≤ 1
  quiet : Bhv.reference ∈ (clsOf E w o).bhvs ∨ Bhv.lifecycle ∈ (clsOf E w o).bhvs →
    (Bhv.childFactory ∉ (clsOf E w o).bhvs ∧ Bhv.fallback ∉ (clsOf E w o).bhvs) ∨
    (Bhv.alias ∉ (clsOf E w o).bhvs ∧ w.shown E o k ≠ none)
  below : Bhv.reference ∈ (clsOf E w o).bhvs → ∀ c, Sober (E.cls c)

theorem Unasked.seen {w w' : World} {o : Oid} {k : Key} (h : Unasked E w o k) (hs : Seen E w w') : Unasked E w' o k := by
  have hc := hs.clsOf o
  refine ⟨by rw [hc]; exact h.once, ?_, by rw [hc]; exact h.below⟩
  rw [hc]
  intro hx
  rcases h.quiet hx with h | ⟨h1, h2⟩
  · exact .inl h
  · refine .inr ⟨h1, ?_⟩
    unfold World.shown at h2 ⊢
    rw [hc, hs.shown o _ (List.suffix_refl _)]
    exact h2

theorem Unasked.read {w : World} {o : Oid} {k : Key} (h : Unasked E w o k) (hw : WF w)
    (hx : Bhv.reference ∈ (clsOf E w o).bhvs ∨ Bhv.lifecycle ∈ (clsOf E w o).bhvs) :
    Seen E w (getitem E o k w).2 :=
  seen_getitemAt h.once (fun hn => (h.quiet hx).elim id fun x => absurd hn x.2) hw

/-- The same for every key: one `Cache` at most; with `Reference` or `Lifecycle` neither `ChildFactory`
nor `Fallback`; and with `Reference` all classes so. -/
structure Unasking (E : Env) (cd : ClassDef) : Prop where
  once : cd.bhvs.count .cache ≤ 1
  quiet : Bhv.reference ∈ cd.bhvs ∨ Bhv.lifecycle ∈ cd.bhvs →
    Bhv.childFactory ∉ cd.bhvs ∧ Bhv.fallback ∉ cd.bhvs
  below : Bhv.reference ∈ cd.bhvs → ∀ c, Sober (E.cls c)

theorem Unasking.at {w : World} {o : Oid} (h : Unasking E (clsOf E w o)) (k : Key) : Unasked E w o k :=
  ⟨h.once, fun x => .inl (h.quiet x), h.below⟩

theorem seen_unindex (hE : ∀ c, Sober (E.cls c)) (o : Oid) (v : Val) :
    Pres (SeenR E) (referenceUnindex E o v) := by
  unfold referenceUnindex
  split
  · exact pres_pure seen_pre _
  · refine pres_bind seen_pre (pres_getW seen_pre) fun w => ?_
    refine pres_ite seen_pre ?_ (pres_pure seen_pre _)
    exact pres_bind seen_pre (pres_toDelete seen_pre (seen_getitem hE)
      (fun p w => (mute_iter E p w).seen) _ _) fun us w => (mute_of_hidden (hidden_indexDelete o us) w).seen

/-- Nothing is added to the dictionaries of `o`: what was not shown is not shown. -/
theorem shownBy_fewer {w w' : World} {o : Oid} (hcls : (w'.objs o).cls = (w.objs o).cls)
    (hf : (w'.objs o).fixed = (w.objs o).fixed)
    (hc : ∀ j, (w.cached o).get? j = none → (w'.cached o).get? j = none)
    (hch : ∀ j, (w.children o).get? j = none → (w'.children o).get? j = none)
    (hns : ∀ j, (w.nsview o).get? j = none → (w'.nsview o).get? j = none) (bs : List Bhv) {j : Key}
    (h : w.shownBy E o bs j = none) : w'.shownBy E o bs j = none := by
  have hco : clsOf E w' o = clsOf E w o := congrArg E.cls hcls
  induction bs generalizing j with
  | nil =>
    replace h : w.stored E o j = none := h
    show w'.stored E o j = none
    unfold World.stored at h ⊢
    rw [hco, hf]
    split
    · rename_i hx; rw [if_pos hx] at h; exact h
    · rename_i hx
      rw [if_neg hx] at h
      revert h
      split
      · exact id
      · exact id
      · exact hch j
  | cons b r ih =>
    cases b
    case alias =>
      simp only [World.shownBy, hco] at h ⊢
      split
      · rename_i ha; rw [ha] at h; exact ih h
      · rename_i a ha
        rw [ha] at h
        simp only at h
        split
        · rename_i ht
          rw [if_pos ht] at h
          split
          · rename_i u hu; rw [hu] at h; exact ih h
          · rfl
        · rename_i ht
          rw [if_neg ht] at h
          exact ih h
    case nodespaces =>
      cases j with
      | str s =>
        simp only [World.shownBy] at h ⊢
        split
        · rename_i hs; rw [if_pos hs] at h; exact hns _ h
        · rename_i hs; rw [if_neg hs] at h; exact ih h
      | _ => exact ih h
    case cache =>
      simp only [World.shownBy] at h ⊢
      split at h
      · cases h
      · rename_i hx
        rw [hc _ hx]
        exact ih h
    all_goals exact ih h

/-- What a finished deletion leaves as it was. -/
structure Left (E : Env) (bs : List Bhv) (o : Oid) (k : Key) (w w' : World) : Prop where
  wf : WF w'
  cls : ∀ p, (w'.objs p).cls = (w.objs p).cls
  fixed : ∀ p, (w'.objs p).fixed = (w.objs p).fixed
  other : ∀ q, q ≠ o → ∀ r, r <:+ (clsOf E w q).bhvs → ∀ j, w'.shownBy E q r j = w.shownBy E q r j
  space : ∀ j, slot (clsOf E w o).aliaser bs k ≠ some (.nodespace j) →
    (w'.nsview o).get? j = (w.nsview o).get? j
  noCache : Bhv.cache ∉ bs → Bhv.reference ∉ bs → Bhv.lifecycle ∉ bs → w'.cached o = w.cached o
  frame : ∀ j, slot (clsOf E w o).aliaser bs j ≠ slot (clsOf E w o).aliaser bs k →
    w'.shownBy E o bs j = w.shownBy E o bs j
  noneStays : ∀ j, w.shownBy E o bs j = none → w'.shownBy E o bs j = none
  spaceNone : ∀ j, (w.nsview o).get? j = none → (w'.nsview o).get? j = none
  fewer : ∀ j, (w.children o).get? j = none → (w'.children o).get? j = none

namespace Left

variable {bs : List Bhv} {o : Oid} {k : Key} {w w1 w2 : World}

theorem clsOf (h : Left E bs o k w w1) (p : Oid) : Verif.clsOf E w1 p = Verif.clsOf E w p :=
  congrArg E.cls (h.cls p)

theorem pre (hm : Mute w w1) (hw : WF w) (h : Left E bs o k w1 w2) : Left E bs o k w w2 where
  wf := h.wf
  cls p := (h.cls p).trans (hm.cls p)
  fixed p := (h.fixed p).trans (hm.fixed p)
  other q hq r hr j := (h.other q hq r (by rw [hm.clsOf]; exact hr) j).trans (shownBy_mute hm hw q r j)
  space j hj := (h.space j (by rw [hm.clsOf]; exact hj)).trans (by rw [hm.nsview hw])
  noCache a b c := (h.noCache a b c).trans (hm.cached hw o)
  frame j hj := (h.frame j (by rw [hm.clsOf]; exact hj)).trans (shownBy_mute hm hw o bs j)
  noneStays j hj := h.noneStays j ((shownBy_mute hm hw o bs j).trans hj)
  spaceNone j hj := h.spaceNone j (by rw [hm.nsview hw]; exact hj)
  fewer j hj := h.fewer j (by rw [hm.children hw]; exact hj)

theorem post (h : Left E bs o k w w1) (hm : Mute w1 w2) : Left E bs o k w w2 where
  wf := hm.wf h.wf
  cls p := (hm.cls p).trans (h.cls p)
  fixed p := (hm.fixed p).trans (h.fixed p)
  other q hq r hr j := (shownBy_mute hm h.wf q r j).trans (h.other q hq r hr j)
  space j hj := by rw [hm.nsview h.wf]; exact h.space j hj
  noCache a b c := (hm.cached h.wf o).trans (h.noCache a b c)
  frame j hj := (shownBy_mute hm h.wf o bs j).trans (h.frame j hj)
  noneStays j hj := (shownBy_mute hm h.wf o bs j).trans (h.noneStays j hj)
  spaceNone j hj := by rw [hm.nsview h.wf]; exact h.spaceNone j hj
  fewer j hj := by rw [hm.children h.wf]; exact h.fewer j hj

/-- A behavior reading hands the key through. -/
theorem pass {b : Bhv} {r : List Bhv} (h : Left E r o k w w1)
    (hs : ∀ w' : World, ∀ j, w'.shownBy E o (b :: r) j = w'.shownBy E o r j)
    (hd : ∀ al j, slot al (b :: r) j = slot al r j) : Left E (b :: r) o k w w1 :=
  { h with
    noCache := fun a b c => h.noCache (fun x => a (List.mem_cons_of_mem _ x))
      (fun x => b (List.mem_cons_of_mem _ x)) fun x => c (List.mem_cons_of_mem _ x)
    space := fun j hj => h.space j (by rw [hd] at hj; exact hj)
    frame := fun j hj => by
      rw [hd, hd] at hj
      rw [hs, hs]; exact h.frame j hj
    noneStays := fun j hj => by rw [hs] at hj ⊢; exact h.noneStays j hj }

/-- A behavior that reads first. -/
theorem read {b : Bhv} {r : List Bhv} (hm : Seen E w w1) (h : Left E r o k w1 w2)
    (hb : b :: r <:+ (Verif.clsOf E w o).bhvs) (he : b = .reference ∨ b = .lifecycle) :
    Left E (b :: r) o k w w2 where
  wf := h.wf
  cls p := (h.cls p).trans (hm.cls p)
  fixed p := (h.fixed p).trans (hm.fixed p)
  other q hq r hr j := (h.other q hq r (by rw [hm.clsOf]; exact hr) j).trans (hm.shown q r hr j)
  space j hj := (h.space j (by rw [hm.clsOf]; rcases he with rfl | rfl <;> exact hj)).trans (by rw [hm.nsview])
  noCache a b c := by
    rcases he with rfl | rfl
    · exact absurd List.mem_cons_self b
    · exact absurd List.mem_cons_self c
  frame j hj := by
    have e : ∀ w' : World, w'.shownBy E o (b :: r) j = w'.shownBy E o r j := by
      intro w'; rcases he with rfl | rfl <;> rfl
    rw [e, e]
    exact (h.frame j (by rw [hm.clsOf]; rcases he with rfl | rfl <;> exact hj)).trans
      (hm.shown o r ((List.suffix_cons b r).trans hb) j)
  noneStays j hj := by
    have e : ∀ w' : World, w'.shownBy E o (b :: r) j = w'.shownBy E o r j := by
      intro w'; rcases he with rfl | rfl <;> rfl
    rw [e] at hj ⊢
    exact h.noneStays j ((hm.shown o r ((List.suffix_cons b r).trans hb) j).trans hj)
  spaceNone j hj := h.spaceNone j (by rw [hm.nsview]; exact hj)
  fewer j hj := h.fewer j (by rw [hm.children]; exact hj)

end Left

theorem left_delEnd {o : Oid} {k : Key} {w w' : World} (hw : WF w)
    (h : delEnd E o k w = (.ok (), w')) : Left E [] o k w w' := by
  unfold delEnd at h
  simp only [M.bind_apply, M.getW_apply] at h
  split at h
  · cases h
  · split at h
    · simp only [M.bind_apply] at h
      have hm := mute_storageRef E o w
      rcases hs : storageRef E o w with ⟨_ | r, w1⟩
      · rw [hs] at h; cases h
      · rw [hs] at h hm
        replace hm : Mute w w1 := hm
        have hr := storageRef_ok hs
        have hw1 : WF w1 := hm.wf hw
        simp only [M.getW_apply] at h
        split at h
        · obtain rfl : { w1 with stores := upd w1.stores r ((w1.stores r).del k) } = w' := (Prod.mk.inj h).2
          have hch := fun p => children_setStore hw1 hr ((w1.stores r).del k) p
          refine Left.pre hm hw ⟨hw1.setStore r (Od.nodup_keys_del (hw1.sNd r) k), fun _ => rfl, fun _ => rfl,
            fun q hq l _ j => ?_, fun _ _ => rfl, fun _ _ _ => rfl, fun j hj => ?_, fun j hj => ?_,
            fun _ h => h, fun j hj => ?_⟩
          · induction l generalizing j with
            | nil =>
              show World.stored E _ q j = World.stored E w1 q j
              unfold World.stored
              rw [hch, if_neg hq]
              rfl
            | cons b t ih =>
              have ih := fun j => ih ((List.suffix_cons b t).trans ‹_›) j
              cases b <;> simp only [World.shownBy, ih] <;> rfl
          · refine shownBy_slot (w := w1) (w' := { w1 with stores := upd w1.stores r ((w1.stores r).del k) })
              (d := .child k) rfl rfl rfl (fun i hi => ?_) (fun _ _ => rfl) [] j hj
            rw [hch, if_pos rfl, Od.get?_del (hw1.sNd r), if_neg (fun e => hi (by rw [e])), children_eq hr]
          · refine shownBy_fewer (w := w1) (w' := { w1 with stores := upd w1.stores r ((w1.stores r).del k) })
              rfl rfl (fun _ h => h) (fun i hi => ?_) (fun _ h => h) [] hj
            rw [hch, if_pos rfl, Od.get?_del (hw1.sNd r)]
            split
            · rfl
            · rw [← children_eq hr]; exact hi
          · rw [hch, if_pos rfl, Od.get?_del (hw1.sNd r)]
            split
            · rfl
            · rw [← children_eq hr]; exact hj
        · cases h
    · cases h

theorem left_nsDrop {o : Oid} {s : Str} {w w' : World} {r : List Bhv} (hw : WF w) (hs : Reserved s)
    (h : nsDrop o (.str s) w = (.ok (), w')) : Left E (.nodespaces :: r) o (.str s) w w' := by
  simp only [nsDrop, M.bind_apply] at h
  have hm := mute_nodespacesRef o w
  obtain ⟨rn, w1, hr⟩ := nodespacesRef_isOk o w
  rw [hr] at h hm
  have hro := nodespacesRef_ok hr
  replace hm : Mute w w1 := hm
  have hw1 : WF w1 := hm.wf hw
  simp only [M.getW_apply] at h
  split at h
  · obtain rfl : { w1 with nspaces := upd w1.nspaces rn ((w1.nspaces rn).del (.str s)) } = w' :=
      (Prod.mk.inj h).2
    have hns := fun p => nsview_setNspace hw1 hro ((w1.nspaces rn).del (.str s)) p
    refine Left.pre hm hw ⟨hw1.setNspace rn (Od.nodup_keys_del (hw1.nNd rn) (.str s)), fun _ => rfl, fun _ => rfl,
      fun q hq l _ j => ?_, fun j hj => ?_, fun _ _ _ => rfl, fun j hj => ?_, fun j hj => ?_, fun j hj => ?_,
      fun _ h => h⟩
    · induction l generalizing j with
      | nil => rfl
      | cons b t ih =>
        have ih := fun j => ih ((List.suffix_cons b t).trans ‹_›) j
        cases b <;> simp only [World.shownBy, ih, hns, if_neg hq] <;> rfl
    · simp only [slot, if_pos hs] at hj
      rw [hns, if_pos rfl, Od.get?_del (hw1.nNd rn), if_neg (fun e => hj (by rw [e])), nsview_eq hro]
    · refine shownBy_slot (w := w1)
        (w' := { w1 with nspaces := upd w1.nspaces rn ((w1.nspaces rn).del (.str s)) })
        (d := .nodespace (.str s)) rfl rfl rfl (fun _ _ => rfl) (fun i hi => ?_) _ j ?_
      · rw [hns, if_pos rfl, Od.get?_del (hw1.nNd rn), if_neg (fun e => hi (by rw [e])), nsview_eq hro]
      · simpa only [slot, if_pos hs] using hj
    · refine shownBy_fewer (w := w1)
        (w' := { w1 with nspaces := upd w1.nspaces rn ((w1.nspaces rn).del (.str s)) })
        rfl rfl (fun _ h => h) (fun _ h => h) (fun i hi => ?_) _ hj
      rw [hns, if_pos rfl, Od.get?_del (hw1.nNd rn)]
      split
      · rfl
      · rw [← nsview_eq hro]; exact hi
    · rw [hns, if_pos rfl, Od.get?_del (hw1.nNd rn)]
      split
      · rfl
      · rw [← nsview_eq hro]; exact hj
  · cases h

/-- A finished deletion leaves all other entries. -/
theorem left_delPipe (bs : List Bhv) (hu : Unread bs) (hc : bs.count .cache ≤ 1)
    {o : Oid} {k : Key} {w w' : World} (hE : Bhv.reference ∈ bs ∨ Bhv.lifecycle ∈ bs → Unasked E w o k) (hb : bs <:+ (clsOf E w o).bhvs) (hw : WF w)
    (h : delPipe E bs o k w = (.ok (), w')) : Left E bs o k w w' := by
  induction bs generalizing k w w' with
  | nil => exact left_delEnd hw h
  | cons b r ih =>
    have hbr : r <:+ (clsOf E w o).bhvs := (List.suffix_cons b r).trans hb
    have hEr : Bhv.reference ∈ r ∨ Bhv.lifecycle ∈ r → Unasked E w o k := fun x =>
      hE (x.imp (List.mem_cons_of_mem _) (List.mem_cons_of_mem _))
    cases b
    case nodespaces =>
      simp only [delPipe, nodespacesDel] at h
      rw [List.count_cons_of_ne (by decide)] at hc
      cases k with
      | str s =>
        simp only at h
        split at h
        · rename_i hres
          exact left_nsDrop hw ((reserved_iff s).mp hres) h
        · rename_i hres
          have hR : ¬ Reserved s := fun h => hres ((reserved_iff s).mpr h)
          have i := ih hu hc hEr hbr hw h
          have hk : slot (clsOf E w o).aliaser (.nodespaces :: r) (.str s) =
              slot (clsOf E w o).aliaser r (.str s) := by simp only [slot, if_neg hR]
          refine { i with
            space := fun j hj => i.space j (by rw [hk] at hj; exact hj)
            noCache := fun a b c => i.noCache (fun x => a (List.mem_cons_of_mem _ x))
              (fun x => b (List.mem_cons_of_mem _ x)) fun x => c (List.mem_cons_of_mem _ x)
            frame := fun j hj => ?_
            noneStays := fun j hj => ?_ }
          rotate_left
          · cases j with
            | str t =>
              simp only [World.shownBy] at hj ⊢
              by_cases ht : Reserved t
              · rw [if_pos ht] at hj ⊢; exact i.spaceNone _ hj
              · rw [if_neg ht] at hj ⊢; exact i.noneStays _ hj
            | _ => exact i.noneStays _ hj
          rw [hk] at hj
          cases j with
          | str t =>
            simp only [slot] at hj
            simp only [World.shownBy]
            by_cases ht : Reserved t
            · rw [if_pos ht] at hj
              simp only [if_pos ht]
              exact i.space _ fun e => hj e.symm
            · rw [if_neg ht] at hj
              simp only [if_neg ht]
              exact i.frame _ hj
          | _ => exact i.frame _ hj
      | _ => cases h
    case reference =>
      simp only [delPipe, referenceDel, M.bind_apply] at h
      rw [List.count_cons_of_ne (by decide)] at hc
      replace hE := hE (.inl List.mem_cons_self)
      have g1 := hE.read hw (.inl (hb.subset List.mem_cons_self))
      have hR := hE.below (hb.subset List.mem_cons_self)
      revert g1 h
      rcases getitem E o k w with ⟨_ | v, w1⟩ <;> intro h g1
      · cases h
      · simp only at h g1
        have g2 := seen_unindex hR o v w1
        revert g2 h
        rcases referenceUnindex E o v w1 with ⟨_ | _, w2⟩ <;> intro h g2
        · cases h
        · have g : Seen E w w2 := seen_pre.trans (fun _ => g1) g2 hw
          exact (ih hu hc (fun _ => hE.seen g) (by rw [g.clsOf]; exact hbr) g.wf h).read g hb (.inl rfl)
    case lifecycle =>
      simp only [delPipe, lifecycleDel, M.bind_apply] at h
      rw [List.count_cons_of_ne (by decide)] at hc
      replace hE := hE (.inr List.mem_cons_self)
      have g := hE.read hw (.inr (hb.subset List.mem_cons_self))
      revert g h
      rcases getitem E o k w with ⟨_ | v, w1⟩ <;> intro h g
      · cases h
      · simp only at h g
        rcases hx : delPipe E r o k w1 with ⟨_ | _, w2⟩
        · rw [hx] at h; cases h
        · rw [hx] at h
          simp only [getO_apply] at h
          have i := ih hu hc (fun _ => hE.seen g) (by rw [g.clsOf]; exact hbr) g.wf hx
          have i2 : Left E r o k w1 w' := by
            split at h
            · obtain rfl := (Prod.mk.inj h).2
              exact i
            · have m := mute_of_hidden (hidden_notify (.removed v o k)) w2
              rw [h] at m
              exact i.post m
          exact i2.read g hb (.inr rfl)
    case attributesLifecycle =>
      refine Left.pass ?_ (fun _ _ => rfl) fun _ _ => rfl
      simp only [delPipe, M.bind_apply] at h
      rw [List.count_cons_of_ne (by decide)] at hc
      rcases hx : delPipe E r o k w with ⟨_ | _, w1⟩
      · rw [hx] at h; cases h
      · rw [hx] at h
        have m := mute_notifyModified E o w1
        simp only at h
        rw [h] at m
        exact (ih hu hc hEr hbr hw hx).post m
    case cache =>
      simp only [delPipe, M.bind_apply] at h
      obtain ⟨w1, hd, hw1, -, -, -, hca⟩ := cacheDrop_cached (o := o) (k := k) hw
      have hq := cacheDrop_quiet o k w hw
      rw [hd] at h hq
      have hsame : Same w w1 := hq.2
      obtain ⟨n1, n2, hu⟩ := hu
      have hnc : Bhv.cache ∉ r := by
        rw [List.count_cons_self] at hc
        exact List.count_eq_zero.mp (by omega)
      have hco : clsOf E w1 o = clsOf E w o := hsame.clsOf o
      have i := ih hu (by rw [List.count_eq_zero.mpr hnc]; omega)
        (fun x => absurd x (by simp only [n1, n2, or_self, not_false_eq_true])) (by rw [hco]; exact hbr) hw1 h
      refine ⟨i.wf, fun p => (i.cls p).trans (hsame.obj p).cls, fun p => (i.fixed p).trans (hsame.obj p).fixed,
        fun q hq r' hr j => ?_, fun j hj => (i.space j (by rw [hco]; exact hj)).trans (by rw [hsame.nsview]),
        fun x => absurd List.mem_cons_self x, fun j hj => ?_, fun j hj => ?_,
        fun j hj => i.spaceNone j (by rw [hsame.nsview]; exact hj),
        fun j hj => i.fewer j (by rw [hsame.children]; exact hj)⟩
      · refine (i.other q hq r' (by rw [hsame.clsOf]; exact hr) j).trans ?_
        exact shownBy_same hsame (by rw [hca, if_neg hq]) r' j
      · have hjk : j ≠ k := fun e => hj (by rw [e])
        have hf := i.frame j (by rw [hco]; exact hj)
        simp only [World.shownBy, hf, shownBy_noCache hsame hnc, i.noCache hnc n1 n2, hca, if_true]
        rw [Od.get?_del (hw.cached_nodup o), if_neg hjk]
      · simp only [World.shownBy] at hj ⊢
        split at hj
        · cases hj
        · rename_i hx
          rw [i.noCache hnc n1 n2, hca, if_pos rfl, Od.get?_del (hw.cached_nodup o), hx, ite_self]
          exact i.noneStays j ((shownBy_noCache hsame hnc j).trans hj)
    case alias =>
      simp only [delPipe, M.bind_apply, unaliasKey] at h
      rw [List.count_cons_of_ne (by decide)] at hc
      have lift : ∀ {u : Key}, rekey k (delPipe E r o u) w = (.ok (), w') →
          slot (clsOf E w o).aliaser (.alias :: r) k = slot (clsOf E w o).aliaser r u →
          (∀ j, (∃ u', (∀ w1 : World, clsOf E w1 o = clsOf E w o →
              w1.shownBy E o (.alias :: r) j = w1.shownBy E o r u') ∧
              slot (clsOf E w o).aliaser (.alias :: r) j = slot (clsOf E w o).aliaser r u') ∨
            ∀ w1 : World, clsOf E w1 o = clsOf E w o → w1.shownBy E o (.alias :: r) j = none) →
          Left E (.alias :: r) o k w w' := fun {u} hx hd hj => by
        simp only [rekey, M.catchIf_apply] at hx
        rcases hy : delPipe E r o u w with ⟨_ | _, w1⟩
        · rw [hy] at hx
          simp only at hx
          split at hx <;> cases hx
        · rw [hy] at hx
          obtain rfl := (Prod.mk.inj hx).2
          have i := ih hu hc (fun x => ⟨(hEr x).once, fun y => ((hEr x).quiet y).imp_right fun z =>
            absurd (hb.subset List.mem_cons_self) z.1, (hEr x).below⟩) hbr hw hy
          exact { i with
            space := fun j hj => i.space j (by rw [hd] at hj; exact hj)
            noCache := fun a b c => i.noCache (fun x => a (List.mem_cons_of_mem _ x))
              (fun x => b (List.mem_cons_of_mem _ x)) fun x => c (List.mem_cons_of_mem _ x)
            frame := fun j hne => by
              rcases hj j with ⟨u', h1, h2⟩ | h1
              · rw [hd, h2] at hne
                rw [h1 _ (i.clsOf o), h1 _ rfl]
                exact i.frame u' hne
              · rw [h1 _ (i.clsOf o), h1 _ rfl]
            noneStays := fun j hn => by
              rcases hj j with ⟨u', h1, -⟩ | h1
              · rw [h1 _ rfl] at hn
                rw [h1 _ (i.clsOf o)]
                exact i.noneStays u' hn
              · exact h1 _ (i.clsOf o) }
      cases ha : (clsOf E w o).aliaser with
      | none =>
        rw [ha] at h
        refine lift (u := k) h ?_ fun j => .inl ⟨j, fun w1 e => ?_, ?_⟩ <;>
          simp only [World.shownBy, slot, ha, *]
      | some a =>
        rw [ha] at h
        simp only at h
        by_cases ht : a.truthy
        · rw [if_pos ht] at h
          cases hv : a.unalias k with
          | error e => rw [hv] at h; cases h
          | ok u =>
            rw [hv] at h
            refine lift (u := u) h ?_ fun j => ?_
            · simp only [slot, ha, if_pos ht, hv]
            · cases hx : a.unalias j with
              | error e => exact .inr fun w1 e => by simp only [World.shownBy, e, ha, if_pos ht, hx]
              | ok u' =>
                exact .inl ⟨u', fun w1 e => by simp only [World.shownBy, e, ha, if_pos ht, hx],
                  by simp only [slot, ha, if_pos ht, hx]⟩
        · rw [if_neg ht] at h
          refine lift (u := k) h ?_ fun j => .inl ⟨j, fun w1 e => ?_, ?_⟩
          · simp only [slot, ha, if_neg ht]
          · simp only [World.shownBy, e, ha, if_neg ht]
          · simp only [slot, ha, if_neg ht]
    all_goals
      rw [List.count_cons_of_ne (by decide)] at hc
      exact (ih hu hc hEr hbr hw h).pass (fun _ _ => rfl) fun _ _ => rfl

end Verif
