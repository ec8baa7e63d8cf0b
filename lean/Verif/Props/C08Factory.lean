import Verif.Props.C08
import Verif.Props.C12

/-!
# C08 with child factories

Reading a missing key of a node with `ChildFactory` creates the child and assigns it.  Containment and
location still agree, if the classes with factories adopt, do not alias their keys and are not
lifecycle-aware attributes.
-/

namespace Verif

/-- Classes with child factories adopt their children under the key given. -/
def FactoryAdopts (E : Env) : Prop := ∀ c k d, (E.cls c).factories.get? k = some d →
  Bhv.adopt ∈ (E.cls c).bhvs ∧ Bhv.alias ∉ (E.cls c).bhvs ∧ Bhv.attributesLifecycle ∉ (E.cls c).bhvs

/-- Contained nodes are located, and what existed and was contained nowhere still is not. -/
structure Kept (w w' : World) : Prop where
  wf : WF w'
  tidy : Tidy w'
  nobj : w.nobj ≤ w'.nobj
  cls : ∀ p, p < w.nobj → (w'.objs p).cls = (w.objs p).cls
  free : ∀ c, c < w.nobj → (∀ p k, ¬ Contains w p k c) → ∀ p k, ¬ Contains w' p k c

/-- From heaps where contained nodes are located. -/
def Keeps (w w' : World) : Prop := WF w → Tidy w → Kept w w'

theorem Kept.trans {a b c : World} (h : Kept a b) (h' : Kept b c) : Kept a c where
  wf := h'.wf
  tidy := h'.tidy
  nobj := Nat.le_trans h.nobj h'.nobj
  cls p hp := (h'.cls p (Nat.lt_of_lt_of_le hp h.nobj)).trans (h.cls p hp)
  free c hc hf := h'.free c (Nat.lt_of_lt_of_le hc h.nobj) (h.free c hc hf)

theorem keeps_pre : PreR Keeps :=
  ⟨fun _ hw ht => ⟨hw, ht, Nat.le_refl _, fun _ _ => rfl, fun _ _ h => h⟩,
    fun h h' hw ht => (h hw ht).trans (h' (h hw ht).wf (h hw ht).tidy)⟩

theorem keeps_shrink {w w' : World} (h : ShrinkR w w') : Keeps w w' := fun hw ht => by
  have hs := (h hw).2
  exact ⟨(h hw).1, ht.shrink hs, Nat.le_of_eq hs.nobj.symm, fun p _ => hs.cls p, fun c _ hf p k hc =>
    hf p k (hs.sub p k _ hc)⟩

theorem Admissible.kept {E : Env} {w w' : World} {o : Oid} {v : Val} (h : Admissible E w o v) (ho : o < w.nobj)
    (hk : Kept w w') : Admissible E w' o v := by
  have hc : clsOf E w' o = clsOf E w o := congrArg E.cls (hk.cls o ho)
  exact ⟨hc ▸ h.adopt, hc ▸ h.noAlias, hc ▸ h.noAttributes, fun c hv =>
    ⟨Nat.lt_of_lt_of_le (h.free c hv).1 hk.nobj, hk.free c (h.free c hv).1 (h.free c hv).2⟩⟩

/-- After an assignment only the assigned node can be contained where it was not. -/
theorem setitem_contains {E : Env} {o : Oid} {k : Key} {v : Val} {w : World} (hw : WF w)
    (ha : Bhv.attributesLifecycle ∉ (clsOf E w o).bhvs) {p c : Oid} {j : Key}
    (hc : Contains (Verif.setitem E o k v w).2 p j c) : v = .node c ∨ Contains w p j c := by
  rcases hx : Verif.setitem E o k v w with ⟨e | u, w'⟩
  · rw [hx] at hc
    have hs := c02_set_partial E o k v hw ha hx
    unfold Contains at hc ⊢
    rw [hs p] at hc
    exact .inr hc
  · rw [hx] at hc
    rcases c02_set_ok E o k v hw hx with ⟨i, hd, h1, h2⟩ | ⟨i, hd, h1⟩
    · unfold Contains at hc ⊢
      by_cases hp : p = o
      · subst hp
        rw [h1] at hc
        simp only [OMap.set] at hc
        split at hc
        · injection hc with hc; exact .inl hc
        · exact .inr hc
      · rw [h2 p hp] at hc; exact .inr hc
    · unfold Contains at hc ⊢; rw [h1 p] at hc; exact .inr hc

theorem keeps_make {E : Env} (hE : FactoryAdopts E) {c : ClassId} {o : Oid} {k : Key} {w : World} (ho : o < w.nobj)
    (hf : (clsOf E w o).factories.get? k = some c) : Keeps w (makeChild E c o k w).2 := fun hw ht => by
  obtain ⟨b1, b2, b3, b4⟩ := newNode_builds E c .none none hw
  have old : ∀ p j x, Contains (newNode E c .none none w).2 p j x → Contains w p j x := fun p j x hx => by
    rw [contains_iff] at hx ⊢
    rcases b3.beyond p with e | e
    · rw [e] at hx; exact hx
    · rw [e] at hx; cases hx
  have hk : Kept w (newNode E c .none none w).2 :=
    ⟨b1, ht.grown b3.nobj b2 b3.loc b3.beyond, b3.nobj, b3.cls, fun x _ hf p j hx => hf p j (old p j x hx)⟩
  unfold makeChild
  simp only [M.bind_apply]
  rcases hx : newNode E c .none none w with ⟨e | ch, w1⟩
  · rw [hx] at hk; exact hk
  · rw [hx] at hk b4 old
    obtain ⟨hch, hlt⟩ := b4 ch rfl
    have hcls : clsOf E w1 o = clsOf E w o := congrArg E.cls (hk.cls o ho)
    obtain ⟨f1, f2, f3⟩ := hE _ _ _ hf
    have ha : Admissible E w1 o (.node ch) := ⟨hcls ▸ f1, hcls ▸ f2, hcls ▸ f3, fun x hx => by
      injection hx with hx
      subst hx
      exact ⟨hlt, fun p j hc => by have := (ht p j _ (old p j _ hc)).2; omega⟩⟩
    have hm := setitem_moves E o k (.node ch) w1 hk.wf
    have : Kept w (Verif.setitem E o k (.node ch) w1).2 :=
      ⟨hm.1, hk.tidy.setitem hk.wf ha, Nat.le_trans hk.nobj (Nat.le_of_eq hm.2.nobj.symm),
        fun p hp => (hm.2.cls p).trans (hk.cls p hp), fun x hx hf p j hc => by
          rcases setitem_contains hk.wf ha.noAttributes hc with e | e
          · injection e with e; omega
          · exact hf p j (old p j x e)⟩
    revert this
    simp only [M.bind_apply]
    generalize Verif.setitem E o k (.node ch) w1 = y
    rcases y with ⟨e | u, w2⟩ <;> exact id

theorem keeps_prims {E : Env} (hE : FactoryAdopts E) : LayPrims E Prot.none Keeps where
  pre := keeps_pre
  quiet _ _ h := keeps_shrink (shrink_quiet h)
  hidden _ _ h := keeps_shrink (shrink_hidden h)
  delEnd o k w := keeps_shrink (shrink_delEnd E o k w)
  nsDrop o k w := keeps_shrink (shrink_nsDrop o k w)
  swap o a b w := keeps_shrink (shrink_swap E o a b w)
  volatile o k w := keeps_shrink (shrink_volatile E o k w)
  make _ _ _ _ _ ho hf := keeps_make hE ho.2 hf

section
variable {E : Env} (hE : FactoryAdopts E)
include hE

theorem getitem_kept {o : Oid} {k : Key} {w : World} (hi : Intact w) (hw : WF w) (h : Tidy w)
    (ho : o < w.nobj) : Kept w (getitem E o k w).2 :=
  ((keeps_prims hE).getitem ⟨fun x => x, ho⟩).2 w (intact_iff.mp hi) (Nat.le_refl _) hw h

theorem Tidy.insertEndF {first : Bool} {o n : Oid} {w : World} (hi : Intact w) (hw : WF w) (h : Tidy w)
    (ho : o < w.nobj) (ha : Admissible E w o (.node n)) (hok : ∃ x, (Verif.insertEnd E first o n w).1 = .ok x) :
    Tidy (Verif.insertEnd E first o n w).2 := by
  have hk := mkeys_quiet E o w hw
  have hki := (sep_mkeys (E := E) (Γ := Prot.none) ⟨fun x => x, ho⟩) w (intact_iff.mp hi) (Nat.le_refl _)
  revert hok
  unfold Verif.insertEnd
  simp only [M.bind_apply]
  rcases hx : mkeys E o w with ⟨e | ks, w1⟩
  · rintro ⟨x, hx⟩; cases hx
  · rw [hx] at hk hki
    have h1 := h.same hk.2
    have a1 := ha.same hk.2
    simp only
    generalize (if first = true then ks.head? else ks.getLast?) = hd
    cases hd with
    | none =>
      simp only [M.bind_apply, M.getW_apply]
      exact fun _ => h1.setitem hk.1 a1
    | some k =>
      have ho1 : o < w1.nobj := Nat.lt_of_lt_of_le ho (Nat.le_of_eq hk.2.nobj.symm)
      have he := getitem_kept hE (k := k) (intact_iff.mpr hki.1) hk.1 h1 ho1
      simp only [M.bind_apply]
      rcases hy : getitem E o k w1 with ⟨e | v, w2⟩
      · rintro ⟨x, hx⟩; cases hx
      · rw [hy] at he
        cases v with
        | node r => exact fun hok => he.tidy.insertAt he.wf (a1.kept ho1 he) hok
        | data d =>
          have hv := validateInsertion_id E o n w2
          simp only [M.bind_apply]
          rcases hz : validateInsertion E o n w2 with ⟨e | u, w3⟩ <;>
            (rw [hz] at hv; simp only at hv; subst hv; exact fun _ => he.tidy)

/-- One operation. -/
theorem Tidy.execF {op : Op} {w : World} (hi : Intact w) (hw : WF w) (h : Tidy w)
    (ha : TreeOp E w op) (hu : ∀ c, Val.node c ∈ op.vals → c < w.nobj) : Tidy (Verif.exec E op w).2 := by
  have rem : op.removes = true → Tidy (Verif.exec E op w).2 := fun hr =>
    (((keeps_prims hE).exec hr fun v hv c hc => ⟨fun x => x, hu c (hc ▸ hv)⟩).2 w (intact_iff.mp hi)
      (Nat.le_refl _) hw h).tidy
  cases op
  case new c name parent =>
    obtain ⟨-, b2, b3, -⟩ := newNode_builds E c name parent hw
    have := h.grown b3.nobj b2 b3.loc b3.beyond
    rwa [← exec_snd (newNode E c name parent) (fun o => .val (.node o))] at this
  case attrs o =>
    obtain ⟨-, b2, b3, -, b5, -, b7⟩ := attrs_builds E o hw
    have := h.grown b3 b2 b5 b7
    rwa [← exec_snd (attrs E o) (fun a => .val (.node a))] at this
  case set o k v =>
    have := h.setitem (k := k) hw ha
    rwa [← exec_snd (Verif.setitem E o k v) (fun _ => .unit)] at this
  case setdefault o k v =>
    have ho : o < w.nobj := hu o (by simp [Op.vals])
    have hx : Tidy (msetdefault E o k v w).2 := by
      unfold msetdefault
      simp only [M.catchIf_apply]
      have he := getitem_kept hE (k := k) hi hw h ho
      rcases hy : getitem E o k w with ⟨e | x, w1⟩
      · rw [hy] at he
        simp only
        split
        · have := he.tidy.setitem (k := k) he.wf (Admissible.kept ha ho he)
          simp only [M.bind_apply]
          revert this
          generalize Verif.setitem E o k v w1 = y
          rcases y with ⟨e | a, w2⟩ <;> exact id
        · exact he.tidy
      · rw [hy] at he
        exact he.tidy
    rwa [← exec_snd (msetdefault E o k v) (fun x => .val x)] at hx
  case update o kvs =>
    have := h.update hw ha
    rwa [← exec_snd (mupdate E o kvs) (fun _ => .unit)] at this
  case insertBefore o n r =>
    have := h.insertAt hw ha.1 (exec_ok (f := fun _ => .unit) ha.2)
    rwa [← exec_snd (Verif.insertAt E true o n r) (fun _ => .unit)] at this
  case insertAfter o n r =>
    have := h.insertAt hw ha.1 (exec_ok (f := fun _ => .unit) ha.2)
    rwa [← exec_snd (Verif.insertAt E false o n r) (fun _ => .unit)] at this
  case insertFirst o n =>
    have := h.insertEndF hE hi hw (hu o (by simp [Op.vals])) ha.1 (exec_ok (f := fun _ => .unit) ha.2)
    rwa [← exec_snd (Verif.insertEnd E true o n) (fun _ => .unit)] at this
  case insertLast o n =>
    have := h.insertEndF hE hi hw (hu o (by simp [Op.vals])) ha.1 (exec_ok (f := fun _ => .unit) ha.2)
    rwa [← exec_snd (Verif.insertEnd E false o n) (fun _ => .unit)] at this
  all_goals exact rem rfl

theorem Tidy.execAllF (ops : List Op) {w : World} (hi : Intact w) (hw : WF w) (h : Tidy w)
    (hu : Uses E (fun _ => True) ops w) (ha : TreeHistory E ops w) : Tidy (Verif.execAll E ops w).2 := by
  induction ops generalizing w with
  | nil => exact h
  | cons op r ih =>
    have hu1 := fun c hc => (hu.1 c hc).1
    exact ih (hi.exec hu1) ((grow_exec E op w).wf hw) (h.execF hE hi hw ha.1 hu1) hu.2 ha.2

/-- C08 in programs with child factories: every child, also one made by reading its key, has its key as
name and its container as parent. -/
theorem c08_factory_partial (ops : List Op) (hu : Uses E (fun _ => True) ops {}) (h : TreeHistory E ops {}) :
    Located (execAll E ops {}).2 := fun p k c hc =>
  (Tidy.execAllF hE ops Intact.empty WF.empty (fun _ _ _ h => nomatch h) hu h p k c hc).1

end

/-! ### Instance -/

theorem factoryEnv_adopts : FactoryAdopts factoryEnv := fun c k d h => by
  by_cases e : c = 13
  · subst e; decide
  · have : (factoryEnv.cls c).factories = [] := by
      show (if c = 13 then factoryNode else sampleEnv.cls c).factories = []
      rw [if_neg e]
      unfold sampleEnv; dsimp only
      split <;> rfl
    rw [this] at h
    cases h

/-- A factory node, two children made by reading, one taken out again, another node assigned. -/
def c08FactoryOps : List Op :=
  [.new 13 (.str ['r']) none, .new 1 .none none, .get 0 ka, .values 0, .detach 0 ka, .set 0 kc (.node 1), .get 0 ka]

theorem c08FactoryOps_history : TreeHistory factoryEnv c08FactoryOps {} := by
  refine ⟨trivial, trivial, trivial, trivial, trivial, ?_, trivial, trivial⟩
  refine ⟨by decide +kernel, by decide +kernel, by decide +kernel, fun c hc => ?_⟩
  injection hc with hc
  subst hc
  refine ⟨by decide +kernel, fun p k hk => ?_⟩
  have hl := c08_factory_partial factoryEnv_adopts
    [.new 13 (.str ['r']) none, .new 1 .none none, .get 0 ka, .values 0, .detach 0 ka]
    ((uses_of_usesB (P := fun _ => true) (by decide +kernel)).mono fun _ _ => trivial)
    ⟨trivial, trivial, trivial, trivial, trivial, trivial⟩ p k 1 hk
  have h0 : ((execAll factoryEnv [.new 13 (.str ['r']) none, .new 1 .none none, .get 0 ka, .values 0,
    .detach 0 ka] {}).2.loc 1).2 = none := by decide +kernel
  rw [hl] at h0
  cases h0

example : Located (after factoryEnv c08FactoryOps) ∧
    (after factoryEnv c08FactoryOps).loc 4 = (ka, some 0) ∧ Contains (after factoryEnv c08FactoryOps) 0 ka 4 :=
  ⟨c08_factory_partial factoryEnv_adopts _
    ((uses_of_usesB (P := fun _ => true) (by decide +kernel)).mono fun _ _ => trivial) c08FactoryOps_history,
    by decide +kernel, by unfold Contains; decide +kernel⟩

end Verif
