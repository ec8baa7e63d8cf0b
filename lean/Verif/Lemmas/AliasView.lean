import Verif.Lemmas.PassThrough
import Verif.Lemmas.OMap

/-! Item access through `Alias`. -/

namespace Verif

/-- Behaviors that may stand to the left of `Alias` in the theorems. -/
def Bhv.outer (b : Bhv) : Bool :=
  b.passes && b != .cache && b != .lifecycle && b != .nodespaces

/-- Behaviors that may stand to its right. -/
def Bhv.inner (b : Bhv) : Bool := b.passes && b != .lifecycle

/-- A class with `Alias` and an aliaser that is not false; only pass-through
behaviors to the left. -/
structure AliasAt (c : ClassDef) (l r : List Bhv) (a : Aliaser) : Prop where
  bhvs : c.bhvs = l ++ .alias :: r
  outer : ∀ b ∈ l, b.outer = true
  aliaser : c.aliaser = some a
  truthy : a.truthy = true

/-- A class that translates keys: `Alias` among pass-through behaviors, above a
`DictStorage` or `OdictStorage`. -/
structure AliasClass (c : ClassDef) (l r : List Bhv) (a : Aliaser) : Prop
    extends AliasAt c l r a where
  inner : ∀ b ∈ r, b.inner = true
  stores : Bhv.dictStorage ∈ c.bhvs ∨ Bhv.odictStorage ∈ c.bhvs

section
variable {c : ClassDef} {l r : List Bhv} {a : Aliaser}

theorem Bhv.inner_passes {b : Bhv} (h : b.inner = true) : b.passes = true := by
  cases b <;> first | rfl | cases h

theorem Bhv.outer_passes {b : Bhv} (h : b.outer = true) : b.passes = true := by
  cases b <;> first | rfl | cases h

theorem AliasClass.mem {b : Bhv} (h : AliasClass c l r a) (hm : b ∈ c.bhvs) :
    b = .alias ∨ b.passes = true := by
  rw [h.bhvs] at hm
  rcases List.mem_append.mp hm with hm | hm
  · exact .inr (Bhv.outer_passes (h.outer b hm))
  · rcases List.mem_cons.mp hm with hm | hm
    · exact .inl hm
    · exact .inr (Bhv.inner_passes (h.inner b hm))

theorem AliasClass.noFixed (h : AliasClass c l r a) : Bhv.fixedChildren ∉ c.bhvs := fun hm => by
  rcases h.mem hm with e | e <;> cases e

theorem AliasClass.noFactory (h : AliasClass c l r a) : Bhv.childFactory ∉ c.bhvs := fun hm => by
  rcases h.mem hm with e | e <;> cases e

theorem AliasClass.noLifecycle (h : AliasClass c l r a) : Bhv.lifecycle ∉ r := fun hm => by
  cases h.inner _ hm

theorem AliasClass.storesOK (h : AliasClass c l r a) : Stores c := by
  refine ⟨?_, h.noFixed⟩
  have hany : ∃ b ∈ c.bhvs, b.isStorage = true := by
    rcases h.stores with h | h
    · exact ⟨_, h, rfl⟩
    · exact ⟨_, h, rfl⟩
  cases hf : storageKind c.bhvs with
  | none =>
    obtain ⟨b, hb, hs⟩ := hany
    exact absurd hs (List.find?_eq_none.mp hf b hb)
  | some b =>
    refine ⟨b, rfl, fun e => ?_⟩
    have hm := List.mem_of_find?_eq_some hf
    rw [e] at hm
    rcases h.mem hm with e | e <;> cases e

theorem AliasClass.cacheIn (h : AliasClass c l r a) (hc : Bhv.cache ∈ c.bhvs) : Bhv.cache ∈ r := by
  rw [h.bhvs] at hc
  rcases List.mem_append.mp hc with hm | hm
  · cases h.outer _ hm
  · rcases List.mem_cons.mp hm with hm | hm
    · cases hm
    · exact hm

end

theorem rekey_apply {α : Type} (k : Key) (m : M α) (w : World) :
    rekey k m w = (match (m w) with
      | (.error e, w') => if e.isKey then (.error (.key (.key k)), w') else (.error e, w')
      | x => x) := by
  simp only [rekey, M.catchIf_apply]
  rcases m w with ⟨e | x, w'⟩
  · simp only; split <;> rfl
  · rfl

section
variable {E : Env} {o : Oid} {w : World} {l r : List Bhv} {a : Aliaser}
  (h : AliasAt (clsOf E w o) l r a)
include h

theorem unalias_eq (k : Key) : unaliasKey E o k w = (a.unalias k, w) := by
  simp only [unaliasKey, h.aliaser, h.truthy, if_true]

/-- Reading starts with the translation of the key. -/
theorem get_alias (fb : Oid → Key → Exc → M Val) (k : Key) :
    getPipe E fb (clsOf E w o).bhvs o k w =
      (match a.unalias k with
      | .ok u => rekey k (getPipe E fb r o u) w
      | .error e => (.error e, w)) := by
  rw [h.bhvs]
  have ho := h.outer
  generalize l = l' at ho
  induction l' with
  | nil =>
    simp only [List.nil_append, getPipe, M.bind_apply, unalias_eq h]
    cases a.unalias k <;> rfl
  | cons b t ih =>
    have ih := ih fun x hx => ho x (List.mem_cons_of_mem _ hx)
    have hb := ho b List.mem_cons_self
    cases b <;> first | exact ih | exact absurd hb (by decide)

/-- So does deleting. -/
theorem del_alias (k : Key) :
    delPipe E (clsOf E w o).bhvs o k w =
      (match a.unalias k with
      | .ok u => rekey k (delPipe E r o u) w
      | .error e => (.error e, w)) := by
  rw [h.bhvs]
  have ho := h.outer
  generalize l = l' at ho
  induction l' with
  | nil =>
    simp only [List.nil_append, delPipe, M.bind_apply, unalias_eq h]
    cases a.unalias k <;> rfl
  | cons b t ih =>
    have ih := ih fun x hx => ho x (List.mem_cons_of_mem _ hx)
    have hb := ho b List.mem_cons_self
    cases b <;> first | exact ih | exact absurd hb (by decide)

/-- A key that cannot be translated has no place to go. -/
theorem dest_unalias_error {k : Key} {e : Exc} (hu : a.unalias k = .error e) :
    dest (clsOf E w o).aliaser (bhvsOf E w o) k = none := by
  show dest _ (clsOf E w o).bhvs k = _
  rw [h.bhvs, h.aliaser]
  have ho := h.outer
  generalize l = l' at ho
  induction l' with
  | nil => simp only [List.nil_append, dest, h.truthy, if_true, hu]
  | cons b t ih =>
    have ih := ih fun x hx => ho x (List.mem_cons_of_mem _ hx)
    have hb := ho b List.mem_cons_self
    cases b <;> first | exact ih | exact absurd hb (by decide)

end

section
variable {E : Env} {o : Oid} {w : World} {l r : List Bhv} {a : Aliaser}
  (h : AliasClass (clsOf E w o) l r a) (hw : WF w) (hc : Coh E (· = o) w)
include h hw hc

/-- Reading an alias. -/
theorem getitem_alias {k u : Key} (hu : a.unalias k = .ok u) (hp : Plain r u) :
    ∃ w', getitem E o k w =
        ((match (w.children o).get? u with
          | some v => .ok v
          | none => .error (.key (.key k))), w') ∧ ReadOut E (· = o) w w' := by
  have hg := get_alias h.toAliasAt (fbHandler E) k
  obtain ⟨w', h1, h2⟩ := getPipe_pt (E := E) (fbHandler E)
    (fun b hb => Bhv.inner_passes (h.inner b hb)) hp hw hc rfl h.storesOK
    (fun hm => by rw [h.bhvs]; exact List.mem_append_right _ (List.mem_cons_of_mem _ hm))
  refine ⟨w', ?_, h2⟩
  show getPipe E (fbHandler E) (clsOf E w o).bhvs o k w = _
  rw [hg]
  simp only [hu]
  rw [rekey_apply, h1]
  cases hx : (w.children o).get? u <;> simp [lookup, hx, Exc.isKey]

theorem mid_alias (u : Key) : Mid E (· = o) r o u w :=
  ⟨hw, hc, h.storesOK, rfl, fun hm => .inl (h.cacheIn hm)⟩

/-- Assigning to an alias: never fails but for refused values. -/
theorem setPipe_alias {k u : Key} (v : Val) (hu : a.unalias k = .ok u) (hp : Plain r u) :
    (setitem E o k v w).1 = setRes (clsOf E w o) (clsOf E w o).bhvs v := by
  suffices H : ∀ (l' : List Bhv), (∀ b ∈ l', b.outer = true) → ∀ w1, Vis w w1 →
      (setPipe E (l' ++ .alias :: r) o k v w1).1 = setRes (clsOf E w o) (l' ++ .alias :: r) v by
    show (setPipe E (clsOf E w o).bhvs o k v w).1 = _
    have := H l h.outer w (Vis.refl hw)
    rw [← h.bhvs] at this
    exact this
  intro l' ho
  induction l' with
  | nil =>
    intro w1 hv
    have h1 : AliasClass (clsOf E w1 o) l r a := hv.clsOf o ▸ h
    obtain ⟨w', h2, -⟩ := setPipe_pt (v := v) (fun b hb => Bhv.inner_passes (h.inner b hb)) hp
      ((mid_alias h hw hc u).vis hv)
    simp only [List.nil_append, setPipe, M.bind_apply, unalias_eq h1.toAliasAt, hu]
    rw [rekey_apply, h2, setRes_cons v (by simp), hv.clsOf]
    cases v with
    | node n => rfl
    | data d =>
      simp only [setRes]
      split
      · rename_i e w'' heq
        split at heq
        · injection heq with h1 h2
          injection h1 with h1
          subst h1
          simp only [Exc.isKey, Bool.false_eq_true, if_false]
          rename_i hcond
          simp [hcond]
        · cases heq
      · rfl
  | cons b t ih =>
    intro w1 hv
    have ih := ih (fun x hx => ho x (List.mem_cons_of_mem _ hx))
    have hb := ho b List.mem_cons_self
    cases b
    case nodeChildValidate =>
      simp only [List.cons_append, setPipe, validateSet, M.bind_apply, M.getW_apply]
      rw [hv.clsOf]
      cases v with
      | node n =>
        simp only [Val.isClass, Val.isNode, Bool.and_false, Bool.not_true, Bool.false_eq_true,
          if_false]
        rw [ih w1 hv]; rfl
      | data d =>
        cases ha : (clsOf E w o).allowNonNode
        · cases d <;> simp [Val.isClass, Val.isNode, setRes, ha]
        · simp only [Bool.not_true, Bool.false_and, Bool.false_eq_true, if_false]
          rw [ih w1 hv]; simp [setRes, ha]
    case adopt =>
      rw [List.cons_append, setRes_cons v (by simp)]
      cases v with
      | data d => exact ih w1 hv
      | node n =>
        simp only [setPipe, adoptSet, M.bind_apply, getO_apply, modO_apply, M.catchIf_apply]
        have v1 := vis_name n k hv.wf
        have v2 := vis_parent n (some o) v1.wf
        have := ih _ (hv.trans (v1.trans v2))
        simp only [modO_apply] at this
        rcases hx : setPipe E (t ++ .alias :: r) o k (.node n) _ with ⟨e | x, w'⟩
        · rw [hx] at this; cases this
        · rw [hx] at this; simp only; exact this
    all_goals first
      | exact absurd hb (by decide)
      | (rw [List.cons_append, setRes_cons v (by simp)]; exact ih w1 hv)

omit hw hc in
theorem dest_alias {k u : Key} (hu : a.unalias k = .ok u) (hp : Plain r u) :
    dest (clsOf E w o).aliaser (bhvsOf E w o) k = some (.child u) := by
  show dest _ (clsOf E w o).bhvs k = _
  rw [h.bhvs, h.aliaser]
  have ho := h.outer
  generalize l = l' at ho
  induction l' with
  | nil =>
    simp only [List.nil_append, dest, h.truthy, if_true, hu]
    exact dest_plain _ (fun b hb => Bhv.inner_passes (h.inner b hb)) hp
  | cons b t ih =>
    have ih := ih fun x hx => ho x (List.mem_cons_of_mem _ hx)
    have hb := ho b List.mem_cons_self
    cases b <;> first | exact ih | exact absurd hb (by decide)

/-- Deleting an alias. -/
theorem delitem_alias {k u : Key} (hu : a.unalias k = .ok u) (hp : Plain r u) :
    ∃ w', delitem E o k w =
        (if u ∈ (w.children o).keys then .ok () else .error (.key (.key k)), w') ∧
      DelP E (· = o) o u w w' := by
  obtain ⟨w', h1, h2⟩ := delPipe_pt (fun b hb => Bhv.inner_passes (h.inner b hb))
    (by
      have := h.noLifecycle
      generalize r = r' at this
      induction r' with
      | nil => trivial
      | cons b t ih =>
        exact ⟨fun _ hm => this (List.mem_cons_of_mem _ hm),
          ih fun hm => this (List.mem_cons_of_mem _ hm)⟩) hp (mid_alias h hw hc u)
    (fun hm => absurd hm h.noLifecycle) (fun hm => absurd hm h.noLifecycle)
  refine ⟨w', ?_, h2⟩
  show delPipe E (clsOf E w o).bhvs o k w = _
  rw [del_alias h.toAliasAt]
  simp only [hu]
  rw [rekey_apply, h1]
  by_cases hm : u ∈ (w.children o).keys <;> simp [hm, Exc.isKey]

omit hc in
/-- Iteration translates the stored keys. -/
theorem iter_alias : ∃ w', iter E o w = (.ok (aliasIter (some a) (w.children o).keys none), w') ∧
    (WF w' ∧ Same w w') ∧ Vis w w' ∧ CacheKeep w w' := by
  obtain ⟨s, w1, hs⟩ := h.storesOK.storageRef
  have hq := storageRef_quiet E o w hw
  have hv := vis_storageRef E o hw
  have hk := cacheKeep_storageRef (E := E) o w
  rw [hs] at hq hv hk
  refine ⟨w1, ?_, hq, hv, hk⟩
  have hend : iterEnd E o w = (.ok ((w.children o).keys, none), w1) := by
    unfold iterEnd
    obtain ⟨b, hb, -⟩ := h.storesOK.kind
    have hb' : (clsOf E w o).bhvs.find? Bhv.isStorage = some b := hb
    have hbs : b.isStorage = true := List.find?_some hb'
    have hf := h.storesOK.fixed
    simp only [bhvsOf, hf, find_storage h.noFactory, Bool.false_eq_true, if_false, hb']
    rw [← hq.2.children o, children_eq (storageRef_ok hs)]
    cases b <;> first | exact absurd hbs (by decide) | simp only [hs]
  show iterPipe E (clsOf E w o).bhvs o w = _
  rw [h.bhvs]
  have ho := h.outer
  generalize l = l' at ho
  induction l' with
  | nil =>
    have hr : iterPipe E r o = iterEnd E o := iterPipe_noAlias E o fun hm => by
      cases h.inner _ hm
    have hcl : (clsOf E w1 o).aliaser = some a := by
      rw [← h.aliaser]; exact congrArg (fun c => (E.cls c).aliaser) (hq.2.obj o).cls
    simp only [List.nil_append, iterPipe, M.bind_apply, hr, hend, M.getW_apply, M.pure_apply, hcl]
  | cons b t ih =>
    have ih := ih fun x hx => ho x (List.mem_cons_of_mem _ hx)
    have hb := ho b List.mem_cons_self
    cases b <;> first | exact ih | exact absurd hb (by decide)

end
end Verif
