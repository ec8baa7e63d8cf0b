import Verif.Lemmas.Shape

/-!
# Constructors of classes with `FixedChildren` succeed

The nesting of the constructors ends because the classes of fixed children have a smaller rank than the
class that declares them (`FixedRank`).
-/

namespace Verif

variable {E : Env}

/-- The declarations of fixed children are not circular: a number for each class that is smaller for the
classes of its fixed children. -/
def FixedRank (E : Env) (rank : ClassId → Nat) : Prop :=
  ∀ c, Bhv.fixedChildren ∈ (E.cls c).bhvs → ∀ kc ∈ (E.cls c).fixed, rank kc.2 < rank c

/-- Nodes below `b` keep their index, indexes below `ib` their contents, existing nodes their class. -/
structure Far (b ib : Nat) (w w' : World) : Prop where
  nobj : w.nobj ≤ w'.nobj
  nidx : w.nidx ≤ w'.nidx
  index : ∀ p, p < b → (w'.objs p).index = (w.objs p).index
  idxs : ∀ r, r < ib → w'.idxs r = w.idxs r
  cls : ∀ p, p < w.nobj → (w'.objs p).cls = (w.objs p).cls
  ix : IxKeep w w'

theorem Far.refl (b ib : Nat) (w : World) : Far b ib w w :=
  ⟨Nat.le_refl _, Nat.le_refl _, fun _ _ => rfl, fun _ _ => rfl, fun _ _ => rfl, .refl w⟩

theorem Far.trans {b ib b' ib' : Nat} {w w1 w2 : World} (h : Far b ib w w1) (h' : Far b' ib' w1 w2)
    (hb : b ≤ b') (hi : ib ≤ ib') : Far b ib w w2 :=
  ⟨Nat.le_trans h.nobj h'.nobj, Nat.le_trans h.nidx h'.nidx,
    fun p hp => (h'.index p (Nat.lt_of_lt_of_le hp hb)).trans (h.index p hp),
    fun r hr => (h'.idxs r (Nat.lt_of_lt_of_le hr hi)).trans (h.idxs r hr),
    fun p hp => (h'.cls p (Nat.lt_of_lt_of_le hp h.nobj)).trans (h.cls p hp), h.ix.trans h'.ix⟩

theorem far_modO (b ib : Nat) (o : Oid) (f : Obj → Obj) (hi : ∀ x, (f x).index = x.index)
    (hc : ∀ x, (f x).cls = x.cls) (w : World) : Far b ib w (modO o f w).2 :=
  ⟨Nat.le_refl _, Nat.le_refl _, fun p _ => proj_upd Obj.index w.objs o _ (hi _) p, fun _ _ => rfl,
    fun p _ => proj_upd Obj.cls w.objs o _ (hc _) p, ixKeep_modO o f hi w⟩

/-- The node has its index to itself, and it is one of the new ones. -/
def NewIdx (ib : Nat) (o : Oid) (w : World) : Prop :=
  ∃ r, (w.objs o).index = some r ∧ ib ≤ r ∧ r < w.nidx ∧ ∀ kv ∈ w.idxs r, kv.2 = o

theorem NewIdx.far {ib b ib' : Nat} {o : Oid} {w w' : World} (h : NewIdx ib o w) (hf : Far b ib' w w')
    (ho : o < b) (hi : w.nidx ≤ ib') : NewIdx ib o w' := by
  obtain ⟨r, h1, h2, h3, h4⟩ := h
  exact ⟨r, (hf.index o ho).trans h1, h2, Nat.lt_of_lt_of_le h3 hf.nidx,
    by rw [hf.idxs r (Nat.lt_of_lt_of_le h3 hi)]; exact h4⟩

theorem NewIdx.modO {ib : Nat} {o x : Oid} {w : World} (h : NewIdx ib o w) (f : Obj → Obj)
    (hi : ∀ x, (f x).index = x.index) (hc : ∀ x, (f x).cls = x.cls) : NewIdx ib o (Verif.modO x f w).2 :=
  h.far (far_modO (o + 1) w.nidx x f hi hc w) (Nat.lt_succ_self o) (Nat.le_refl _)

theorem referenceInit_far {b ib : Nat} {o : Oid} {w : World} (hb : b ≤ o) (hi : ib ≤ w.nidx) :
    ∃ w', referenceInit o w = (.ok (), w') ∧ Far b ib w w' ∧ NewIdx ib o w' := by
  have e : referenceInit o w = (.ok (), { w with
      objs := upd w.objs o { w.objs o with index := some w.nidx, uuid := some w.nuuid }
      idxs := upd w.idxs w.nidx [(iuuid (some w.nuuid), o)]
      nuuid := w.nuuid + 1
      nidx := w.nidx + 1 }) := by
    simp only [referenceInit, M.bind_apply, M.modifyW_apply, freshUuid, setUuidRef, indexRef,
      upd_same, M.getW_apply, Od.get?, Option.any_none, Bool.false_eq_true, if_false, modO_apply,
      upd_upd]
    rfl
  obtain ⟨w1, e1, e2, -⟩ := referenceInit_tree o w
  have := e.symm.trans e1
  cases this
  refine ⟨_, e, ⟨Nat.le_refl _, Nat.le_succ _, fun p hp => ?_, fun r hr => ?_, fun p _ => ?_, e2⟩,
    w.nidx, by simp, hi, Nat.lt_succ_self _, fun kv hkv => ?_⟩
  · show (upd w.objs o _ p).index = _
    rw [upd_other _ _ (by omega)]
  · show upd w.idxs w.nidx _ r = _
    rw [upd_other _ _ (by omega)]
  · exact proj_upd Obj.cls w.objs o _ (by rfl) p
  · simp only [upd_same, List.mem_singleton] at hkv
    rw [hkv]

theorem setUuidRef_far {b ib : Nat} {o : Oid} {w : World} (u : Option Nat) (h : NewIdx ib o w) :
    ∃ w', setUuidRef o u w = (.ok (), w') ∧ Far b ib w w' ∧ NewIdx ib o w' := by
  obtain ⟨r, hr, h2, h3, hv⟩ := h
  have hnot : (((w.idxs r).get? (iuuid u)).any fun x => decide (x ≠ o)) = false := by
    cases hg : (w.idxs r).get? (iuuid u) with
    | none => rfl
    | some x => simp [show x = o from hv _ (Od.get?_some_mem hg)]
  have e : setUuidRef o u w = (.ok (), { w with
      objs := upd w.objs o { w.objs o with uuid := u }
      idxs := upd w.idxs r (((w.idxs r).del (iuuid (w.objs o).uuid)).set (iuuid u) o) }) := by
    simp only [setUuidRef, M.bind_apply, indexRef, hr, M.getW_apply, hnot, Bool.false_eq_true, if_false,
      M.modifyW_apply, modO_apply]
  obtain ⟨w1, e1, e2, -⟩ := setUuidRef_tree u ⟨r, hr, hv⟩
  have := e.symm.trans e1
  cases this
  have hix : ∀ p, (upd w.objs o { w.objs o with uuid := u } p).index = (w.objs p).index :=
    fun p => proj_upd Obj.index w.objs o _ (by rfl) p
  refine ⟨_, e, ⟨Nat.le_refl _, Nat.le_refl _, fun p _ => hix p, fun q hq => ?_, fun p _ => ?_, e2⟩,
    r, (hix o).trans hr, h2, h3, fun kv hkv => ?_⟩
  · show upd w.idxs r _ q = _
    rw [upd_other _ _ (by omega)]
  · exact proj_upd Obj.cls w.objs o _ (by rfl) p
  · simp only [upd_same] at hkv
    rcases Od.mem_of_set hkv with e | hkv
    · rw [e]
    · exact hv _ (Od.mem_of_del hkv)

/-- The constructor of a child succeeds and stays away from what is there. -/
def MkRuns (mk : ClassId → M Oid) (c : ClassId) : Prop :=
  ∀ w, ∃ x w', mk c w = (.ok x, w') ∧ Far w.nobj w.nidx w w'

theorem fixedLoop_runs {mk : ClassId → M Oid} {b ib : Nat} {o : Oid} (l : List (Key × ClassId))
    (hmk : ∀ kc ∈ l, MkRuns mk kc.2) {w : World} (hb : b ≤ o) (ho : o < w.nobj) (hi : ib ≤ w.nidx) :
    ∃ w', initPipe.loop mk o l w = (.ok (), w') ∧ Far b ib w w' ∧ (NewIdx ib o w → NewIdx ib o w') := by
  induction l generalizing w with
  | nil => exact ⟨w, rfl, .refl b ib w, id⟩
  | cons a t ih =>
    obtain ⟨k, c⟩ := a
    obtain ⟨x, w1, e1, e2⟩ := hmk _ List.mem_cons_self w
    have f1 := far_modO b ib x (fun ob => { ob with name := k }) (fun _ => rfl) (fun _ => rfl) w1
    have f2 := far_modO b ib x (fun ob => { ob with parent := some o }) (fun _ => rfl) (fun _ => rfl)
      (modO x (fun ob => { ob with name := k }) w1).2
    have f3 := far_modO b ib o (fun ob => { ob with fixed := ob.fixed.set k (.node x) })
      (fun _ => rfl) (fun _ => rfl) (modO x (fun ob => { ob with parent := some o })
        (modO x (fun ob => { ob with name := k }) w1).2).2
    have e2' : Far b ib w w1 := ⟨e2.nobj, e2.nidx, fun p hp => e2.index p (by omega),
      fun r hr => e2.idxs r (by omega), e2.cls, e2.ix⟩
    have f := ((e2'.trans f1 (Nat.le_refl _) (Nat.le_refl _)).trans f2 (Nat.le_refl _)
      (Nat.le_refl _)).trans f3 (Nat.le_refl _) (Nat.le_refl _)
    obtain ⟨w2, g1, g2, g3⟩ := ih (fun kc h => hmk kc (List.mem_cons_of_mem _ h))
      (Nat.lt_of_lt_of_le ho f.nobj) (Nat.le_trans hi f.nidx)
    refine ⟨w2, ?_, f.trans g2 (Nat.le_refl _) (Nat.le_refl _), fun h => g3 ?_⟩
    · simp only [initPipe.loop, M.bind_apply, e1]
      exact g1
    · exact (((h.far e2 ho (Nat.le_refl _)).modO (x := x) (fun ob => { ob with name := k }) (fun _ => rfl)
        (fun _ => rfl)).modO (x := x) (fun ob => { ob with parent := some o }) (fun _ => rfl) (fun _ => rfl)).modO
        (x := o) (fun ob => { ob with fixed := ob.fixed.set k (.node x) }) (fun _ => rfl) (fun _ => rfl)

theorem initPipe_runs {mk : ClassId → M Oid} {all bs : List Bhv} {b ib : Nat} {o : Oid} {name : Key}
    {parent : Option Oid} {w : World} (hb : b ≤ o) (ho : o < w.nobj) (hi : ib ≤ w.nidx)
    (hmk : Bhv.fixedChildren ∈ bs → ∀ kc ∈ (E.cls (w.objs o).cls).fixed, MkRuns mk kc.2)
    (hall : Bhv.reference ∈ all → Bhv.reference ∈ bs ∨ NewIdx ib o w) :
    ∃ w', initPipe E mk all bs o name parent w = (.ok (), w') ∧ Far b ib w w' ∧
      (Bhv.reference ∈ bs ∨ NewIdx ib o w → NewIdx ib o w') := by
  induction bs generalizing w with
  | nil =>
    simp only [initPipe]
    split
    · refine ⟨_, rfl, (far_modO b ib o (fun ob => { ob with name := name }) (fun _ => rfl) (fun _ => rfl) w).trans
        (far_modO b ib o (fun ob => { ob with parent := parent }) (fun _ => rfl) (fun _ => rfl) _)
        (Nat.le_refl _) (Nat.le_refl _), fun h => ?_⟩
      exact ((h.resolve_left nofun).modO (fun ob => { ob with name := name }) (fun _ => rfl) (fun _ => rfl)).modO
        (fun ob => { ob with parent := parent }) (fun _ => rfl) (fun _ => rfl)
    · exact ⟨w, rfl, .refl b ib w, fun h => h.resolve_left nofun⟩
  | cons a r ih =>
    have ih' := fun {w} h1 h2 (h3 : (w.objs o).cls = _) => ih (w := w) h1 h2
      (by rw [h3]; exact fun h => hmk (List.mem_cons_of_mem _ h))
    have skip : ∀ {a : Bhv} {w : World}, a ≠ .reference → Bhv.reference ∈ a :: r ∨ NewIdx ib o w →
        Bhv.reference ∈ r ∨ NewIdx ib o w := fun hb h =>
      h.imp_left fun hm => (List.mem_cons.mp hm).resolve_left fun e => hb e.symm
    have base := fun h => ih' ho hi rfl (fun hm => skip (a := a) h (hall hm))
    cases a
    case reference =>
      obtain ⟨w1, e1, e2, e3⟩ := referenceInit_far (w := w) hb hi
      obtain ⟨w2, f1, f2, f3⟩ := ih' (Nat.lt_of_lt_of_le ho e2.nobj) (Nat.le_trans hi e2.nidx)
        (e2.cls o ho) fun _ => .inr e3
      simp only [initPipe, M.bind_apply, e1]
      exact ⟨w2, f1, e2.trans f2 (Nat.le_refl _) (Nat.le_refl _), fun _ => f3 (.inr e3)⟩
    case lifecycle =>
      obtain ⟨w', e1, e2, e3⟩ := base (by decide)
      simp only [initPipe, M.bind_apply, e1]
      exact ⟨_, rfl, ⟨e2.nobj, e2.nidx, e2.index, e2.idxs, e2.cls, e2.ix.le, e2.ix.keep⟩,
        fun h => e3 (skip (by decide) h)⟩
    case uuidAware =>
      obtain ⟨w', e1, e2, e3⟩ := base (by decide)
      simp only [initPipe, M.bind_apply, e1, freshUuid]
      have e2' : Far b ib w { w' with nuuid := w'.nuuid + 1 } :=
        ⟨e2.nobj, e2.nidx, e2.index, e2.idxs, e2.cls, e2.ix.le, e2.ix.keep⟩
      split
      · rename_i hr
        have ho3 : NewIdx ib o w' := e3 (skip (by decide) (hall (List.contains_iff_mem.mp hr)))
        obtain ⟨w2, f1, f2, f3⟩ := setUuidRef_far (b := b) (w := { w' with nuuid := w'.nuuid + 1 })
          (some w'.nuuid) ho3
        exact ⟨w2, f1, e2'.trans f2 (Nat.le_refl _) (Nat.le_refl _), fun _ => f3⟩
      · refine ⟨_, rfl, e2'.trans (far_modO b ib o (fun ob => { ob with uuid := some w'.nuuid }) (fun _ => rfl)
          (fun _ => rfl) _) (Nat.le_refl _) (Nat.le_refl _), fun hm => ?_⟩
        exact NewIdx.modO (w := { w' with nuuid := w'.nuuid + 1 }) (e3 (skip (by decide) hm))
          (fun ob => { ob with uuid := some w'.nuuid }) (fun _ => rfl) (fun _ => rfl)
    case fixedChildren =>
      obtain ⟨w1, e1, e2, e3⟩ := base (by decide)
      have f1 := far_modO b ib o (fun ob => { ob with fixed := [] }) (fun _ => rfl) (fun _ => rfl) w1
      have f := e2.trans f1 (Nat.le_refl _) (Nat.le_refl _)
      obtain ⟨w2, g1, g2, g3⟩ := fixedLoop_runs (E.cls (w.objs o).cls).fixed (hmk List.mem_cons_self) hb
        (Nat.lt_of_lt_of_le ho f.nobj) (Nat.le_trans hi f.nidx)
      refine ⟨w2, ?_, f.trans g2 (Nat.le_refl _) (Nat.le_refl _), fun h => g3 ?_⟩
      · simp only [initPipe, M.bind_apply, e1, M.getW_apply]
        have hc : clsOf E (modO o (fun ob => { ob with fixed := [] }) w1).2 o = E.cls (w.objs o).cls :=
          congrArg E.cls (f.cls o ho)
        simp only [modO_apply] at hc g1 ⊢
        rw [hc]
        exact g1
      · exact (e3 (skip (by decide) h)).modO (fun ob => { ob with fixed := [] }) (fun _ => rfl) (fun _ => rfl)
    all_goals
      obtain ⟨w', e1, e2, e3⟩ := base (by decide)
      exact ⟨w', e1, e2, fun h => e3 (skip (by decide) h)⟩

theorem newNodeN_runs {rank : ClassId → Nat} (hr : FixedRank E rank) (n : Nat) (c : ClassId)
    (hn : rank c < n) (name : Key) (parent : Option Oid) (w : World) :
    ∃ w', newNodeN E n c name parent w = (.ok w.nobj, w') ∧ Far w.nobj w.nidx w w' := by
  induction n generalizing c name parent w with
  | zero => omega
  | succ n ih =>
    have ha : alloc c w = (.ok w.nobj, (alloc c w).2) := rfl
    have hac : ((alloc c w).2.objs w.nobj).cls = c := by simp [alloc]
    have fa : Far w.nobj w.nidx w (alloc c w).2 := by
      refine ⟨Nat.le_succ _, Nat.le_refl _, fun p hp => ?_, fun _ _ => rfl, fun p hp => ?_,
        Nat.le_succ _, fun p hp h => ?_⟩
      · simp [alloc, upd_other _ _ (Nat.ne_of_lt hp)]
      · simp [alloc, upd_other _ _ (Nat.ne_of_lt hp)]
      · simpa [alloc, upd_other _ _ (Nat.ne_of_lt hp)] using h
    obtain ⟨w', e1, e2, -⟩ := initPipe_runs (E := E) (mk := fun c' => newNodeN E n c' .none none)
      (all := (E.cls c).bhvs) (bs := (E.cls c).bhvs) (name := name) (parent := parent)
      (w := (alloc c w).2) (Nat.le_refl w.nobj) (Nat.lt_succ_self _) (Nat.le_refl w.nidx) (by
        rw [hac]
        intro hf kc hkc v
        obtain ⟨v', h1, h2⟩ := ih kc.2 (by have := hr c hf kc hkc; omega) .none none v
        exact ⟨_, v', h1, h2⟩) (fun h => .inl h)
    refine ⟨w', ?_, fa.trans e2 (Nat.le_refl _) (Nat.le_refl _)⟩
    unfold newNodeN
    rw [M.bind_apply, ha]
    simp only [M.bind_apply, e1, M.pure_apply]

/-- Calling a class whose constructors nest less deep than the bound of the model succeeds. -/
theorem newNode_runs {rank : ClassId → Nat} (hr : FixedRank E rank) {c : ClassId} (hn : rank c < E.depth)
    {name : Key} {parent : Option Oid} (ha : (E.cls c).Accepts name parent) (w : World) :
    ∃ w', newNode E c name parent w = (.ok w.nobj, w') := by
  obtain ⟨w', h, -⟩ := newNodeN_runs hr E.depth c hn name parent w
  exact ⟨w', by rw [newNode_accepts ha]; exact h⟩

end Verif
