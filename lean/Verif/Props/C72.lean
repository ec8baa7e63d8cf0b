import Verif.Lemmas.Issued
import Verif.Props.C58

/-!
# C72: uuids identify nodes

A node of a class with `UUIDAware` or `Reference` has a uuid from construction on, no operation but
assigning `node.uuid` changes it, and no two nodes have the same.
-/

namespace Verif

variable {E : Env}

/-! ### Only `None` is assigned -/

/-- `node.uuid = None`. -/
theorem distinct_clear (o : Oid) {w : World} (hd : Distinct w) : Distinct (setUuidRef o none w).2 := by
  simp only [setUuidRef, M.bind_apply, indexRef]
  cases hi : (w.objs o).index with
  | none => exact hd
  | some r =>
    simp only [M.getW_apply]
    split
    · exact hd
    · simp only [M.bind_apply, M.modifyW_apply, modO_apply]
      have hu : ∀ p u, (upd w.objs o { w.objs o with uuid := none } p).uuid = some u → (w.objs p).uuid = some u := by
        intro p u h
        unfold upd at h
        split at h
        · cases h
        · exact h
      refine ⟨fun p u h => hd.uuid p u (hu p u h), fun s i x hx => ?_, hd.pos, fun p q u h1 h2 =>
        hd.inj p q u (hu p u h1) (hu q u h2)⟩
      have hx : (some i, x) ∈ upd w.idxs r (((w.idxs r).del (iuuid (w.objs o).uuid)).set (iuuid none) o) s := hx
      unfold upd at hx
      split at hx
      · rcases Od.mem_of_set hx with e | hx
        · cases e
        · exact hd.idx r i x (Od.mem_of_del hx)
      · exact hd.idx s i x hx

theorem distinct_exec {op : Op} (hu : ∀ o u, op ≠ .setUuid o (some u)) {w : World} (hw : WF w) (hd : Distinct w) :
    Distinct (exec E op w).2 := by
  by_cases h : ∃ o, op = .setUuid o none
  · obtain ⟨o, rfl⟩ := h
    have := distinct_clear o hd
    simp only [exec, M.bind_apply]
    rcases hx : setUuidRef o none w with ⟨e | x, w'⟩ <;> rw [hx] at this <;> exact this
  · exact (((uuidKept_api E).exec op (fun o u e => by
      cases u with
      | none => exact absurd ⟨o, e⟩ h
      | some u => exact absurd e (hu o u)) w hw).2 (Nat.le_refl _)).2.2.2 hd

theorem distinct_execAll {ops : List Op} (hu : ∀ o u, Op.setUuid o (some u) ∉ ops) {w : World} (hw : WF w)
    (hd : Distinct w) : Distinct (execAll E ops w).2 := by
  induction ops generalizing w with
  | nil => exact hd
  | cons op r ih =>
    exact ih (fun o u h => hu o u (List.mem_cons_of_mem _ h)) (((fixKept_api E).exec op w hw).1)
      (distinct_exec (fun o u e => hu o u (e ▸ List.mem_cons_self)) hw hd)

/-- Whatever is done with the nodes, as long as no uuid but `None` is assigned, no two nodes have the
same uuid. -/
theorem c72_unique {ops : List Op} (hu : ∀ o u, Op.setUuid o (some u) ∉ ops) {p q : Oid} {u : Nat}
    (hp : HasUuid (execAll E ops {}).2 p u) (hq : HasUuid (execAll E ops {}).2 q u) : p = q :=
  (distinct_execAll hu .empty .empty).inj p q u hp hq

/-- What `C58` and `C71` assume. -/
theorem issued_execAll {ops : List Op} (hu : ∀ o u, Op.setUuid o (some u) ∉ ops) : Issued (execAll E ops {}).2 :=
  (distinct_execAll hu .empty .empty).issued

/-! ### A node keeps its uuid -/

/-- No history without assignments of uuids changes the uuid of a node that exists, no matter which of
the operations raise. -/
theorem c72_kept {ops : List Op} (hu : ∀ o u, Op.setUuid o u ∉ ops) {w : World} (hw : WF w) :
    ∀ p, p < w.nobj → ((execAll E ops w).2.objs p).uuid = (w.objs p).uuid := by
  have key : UuidKept w (execAll E ops w).2 := by
    clear hw
    induction ops generalizing w with
    | nil => exact uuidKept_pre.refl w
    | cons op r ih =>
      exact uuidKept_pre.trans ((uuidKept_api E).exec op (fun o u e => absurd (e ▸ List.mem_cons_self) (hu o u)) w)
        (ih fun o u h => hu o u (List.mem_cons_of_mem _ h))
  exact fun p hp => ((key hw).2 (Nat.le_refl _)).2.2.1 p hp

/-! ### New nodes -/

/-- A uuid that is there is not lost. -/
def Marked (o : Oid) (w w' : World) : Prop :=
  o < w.nobj → w.nobj ≤ w'.nobj ∧ ((w.objs o).uuid ≠ none → (w'.objs o).uuid ≠ none)

theorem marked_pre (o : Oid) : PreR (Marked o) :=
  ⟨fun _ _ => ⟨Nat.le_refl _, id⟩, fun h h' ho =>
    ⟨Nat.le_trans (h ho).1 (h' (Nat.lt_of_lt_of_le ho (h ho).1)).1,
      fun hu => (h' (Nat.lt_of_lt_of_le ho (h ho).1)).2 ((h ho).2 hu)⟩⟩

theorem SameUuids.marked {w w' : World} (h : SameUuids w w') (o : Oid) : Marked o w w' := fun _ =>
  ⟨Nat.le_of_eq h.nobj.symm, by rw [h.uuid]; exact id⟩

theorem UuidsKept.marked {w w' : World} {o : Oid} (h : UuidsKept (o + 1) w w') : Marked o w w' := fun ho =>
  ⟨(h ho).1, by rw [(h ho).2.2.1 o (Nat.lt_succ_self _)]; exact id⟩

theorem setUuidRef_some {o : Oid} {u : Nat} {w : World} : (setUuidRef o (some u) w).2.nobj = w.nobj ∧
    ((setUuidRef o (some u) w).1 = .ok () → ((setUuidRef o (some u) w).2.objs o).uuid = some u) ∧
    ((w.objs o).uuid ≠ none → ((setUuidRef o (some u) w).2.objs o).uuid ≠ none) := by
  simp only [setUuidRef, M.bind_apply, indexRef]
  cases hi : (w.objs o).index with
  | none => exact ⟨rfl, nofun, id⟩
  | some r =>
    simp only [M.getW_apply]
    split
    · exact ⟨rfl, nofun, id⟩
    · simp only [M.bind_apply, M.modifyW_apply, modO_apply, upd_same]
      exact ⟨trivial, fun _ => trivial, fun _ => nofun⟩

/-- `self.uuid = self.uuid_factory()` leaves a uuid. -/
theorem marked_fresh (o : Oid) (c : Prop) [Decidable c] (w : World) :
    Marked o w ((freshUuid >>= fun u => if c then setUuidRef o (some u) else
      modO o fun ob => { ob with uuid := some u }) w).2 ∧
    (((freshUuid >>= fun u => if c then setUuidRef o (some u) else
      modO o fun ob => { ob with uuid := some u }) w).1 = .ok () →
      (((freshUuid >>= fun u => if c then setUuidRef o (some u) else
        modO o fun ob => { ob with uuid := some u }) w).2.objs o).uuid ≠ none) := by
  simp only [M.bind_apply, freshUuid]
  split
  · obtain ⟨h1, h2, h3⟩ := setUuidRef_some (o := o) (u := w.nuuid) (w := { w with nuuid := w.nuuid + 1 })
    exact ⟨fun _ => ⟨Nat.le_of_eq h1.symm, h3⟩, fun h => by rw [h2 h]; nofun⟩
  · simp only [modO_apply, upd_same]
    exact ⟨fun _ => ⟨Nat.le_refl _, fun _ => by simp⟩, fun _ => nofun⟩

/-- `Reference.__init__`. -/
theorem marked_referenceInit (o : Oid) (w : World) : Marked o w (referenceInit o w).2 ∧
    ((referenceInit o w).1 = .ok () → ((referenceInit o w).2.objs o).uuid ≠ none) := by
  simp only [referenceInit, M.bind_apply, M.modifyW_apply, freshUuid]
  obtain ⟨h1, h2, h3⟩ := setUuidRef_some (o := o) (u := w.nuuid) (w := { w with
    objs := upd w.objs o { w.objs o with index := some w.nidx }
    idxs := upd w.idxs w.nidx [], nidx := w.nidx + 1, nuuid := w.nuuid + 1 })
  refine ⟨fun _ => ⟨Nat.le_of_eq h1.symm, fun h => h3 ?_⟩, fun h => by rw [h2 h]; nofun⟩
  simp only [upd_same]
  exact h

theorem new_uuid {c : ClassId} {n : Key} {p : Option Oid} {o : Oid} {w w' : World}
    (hc : Bhv.uuidAware ∈ (E.cls c).bhvs ∨ Bhv.reference ∈ (E.cls c).bhvs)
    (h : exec E (.new c n p) w = (.ok (.val (.node o)), w')) : o < w'.nobj ∧ ∃ u, HasUuid w' o u := by
  have hnew : newNode E c n p w = (.ok o, w') := by
    simp only [exec, M.bind_apply] at h
    rcases hx : newNode E c n p w with ⟨e | x, w1⟩
    · rw [hx] at h; cases h
    · rw [hx] at h
      injection h with h1 h2
      injection h1 with h1; injection h1 with h1; injection h1 with h1
      rw [h1, ← h2]
  have init : ∀ (d : Nat) (o : Oid) (all bs : List Bhv) (w : World), o < w.nobj →
      Marked o w (initPipe E (fun c' => newNodeN E d c' .none none) all bs o n p w).2 ∧
      ((initPipe E (fun c' => newNodeN E d c' .none none) all bs o n p w).1 = .ok () →
        (Bhv.uuidAware ∈ bs ∨ Bhv.reference ∈ bs) →
        ((initPipe E (fun c' => newNodeN E d c' .none none) all bs o n p w).2.objs o).uuid ≠ none) := by
    intro d o all bs
    have hR := marked_pre o
    have hmod : ∀ (q : Oid) (f : Obj → Obj), (∀ ob, (f ob).uuid = ob.uuid) → Pres (Marked o) (modO q f) :=
      fun q f hf w => (sameUuids_modO q f hf w).marked o
    have loop : ∀ l, Pres (Marked o) (initPipe.loop (fun c' => newNodeN E d c' .none none) o l) := by
      intro l
      induction l with
      | nil => exact pres_pure hR _
      | cons a t iht =>
        exact pres_bind hR (fun w => (uuidsKept_newNodeN E _ d _ _ _ w).marked) fun q =>
          pres_bind hR (hmod q _ fun _ => rfl) fun _ =>
          pres_bind hR (hmod q _ fun _ => rfl) fun _ => pres_bind hR (hmod o _ fun _ => rfl) fun _ => iht
    -- a step after the rest of the pipeline
    have later : ∀ {r : List Bhv} {m : M Unit}, Pres (Marked o) m →
        (∀ w, o < w.nobj → Marked o w (initPipe E (fun c' => newNodeN E d c' .none none) all r o n p w).2 ∧
          ((initPipe E (fun c' => newNodeN E d c' .none none) all r o n p w).1 = .ok () →
            (Bhv.uuidAware ∈ r ∨ Bhv.reference ∈ r) →
            ((initPipe E (fun c' => newNodeN E d c' .none none) all r o n p w).2.objs o).uuid ≠ none)) →
        ∀ w, o < w.nobj →
          Marked o w ((initPipe E (fun c' => newNodeN E d c' .none none) all r o n p >>= fun _ => m) w).2 ∧
          (((initPipe E (fun c' => newNodeN E d c' .none none) all r o n p >>= fun _ => m) w).1 = .ok () →
            (Bhv.uuidAware ∈ r ∨ Bhv.reference ∈ r) →
            (((initPipe E (fun c' => newNodeN E d c' .none none) all r o n p >>= fun _ => m) w).2.objs o).uuid ≠
              none) := by
      intro r m hm ih w ho
      obtain ⟨a1, a2⟩ := ih w ho
      simp only [M.bind_apply]
      rcases hx : initPipe E (fun c' => newNodeN E d c' .none none) all r o n p w with ⟨e | x, w1⟩
      · rw [hx] at a1; exact ⟨a1, nofun⟩
      · rw [hx] at a1 a2
        exact ⟨hR.trans a1 (hm w1), fun _ hb => (hm w1 (Nat.lt_of_lt_of_le ho (a1 ho).1)).2 (a2 rfl hb)⟩
    have drop : ∀ {b : Bhv} {r : List Bhv}, (Bhv.uuidAware ∈ b :: r ∨ Bhv.reference ∈ b :: r) →
        b ≠ .uuidAware → b ≠ .reference → (Bhv.uuidAware ∈ r ∨ Bhv.reference ∈ r) :=
      fun h h1 h2 => h.imp (fun h => (List.mem_cons.mp h).resolve_left fun e => h1 e.symm)
        (fun h => (List.mem_cons.mp h).resolve_left fun e => h2 e.symm)
    induction bs with
    | nil =>
      intro w _
      refine ⟨?_, fun _ h => by rcases h with h | h <;> cases h⟩
      unfold initPipe
      exact pres_ite hR (c := all.contains .defaultInit = true)
        (pres_bind hR (hmod o (fun ob => { ob with name := n }) fun _ => rfl) fun _ =>
          hmod o (fun ob => { ob with parent := p }) fun _ => rfl) (pres_pure hR _) w
    | cons b r ih =>
      cases b
      case reference =>
        intro w ho
        obtain ⟨a1, a2⟩ := marked_referenceInit o w
        simp only [initPipe, M.bind_apply]
        rcases hx : referenceInit o w with ⟨e | x, w1⟩
        · rw [hx] at a1; exact ⟨a1, nofun⟩
        · rw [hx] at a1 a2
          have ho1 := Nat.lt_of_lt_of_le ho (a1 ho).1
          exact ⟨hR.trans a1 (ih w1 ho1).1, fun _ _ => ((ih w1 ho1).1 ho1).2 (a2 rfl)⟩
      case lifecycle =>
        intro w ho
        have := later (m := notify (.created o)) (fun w =>
          SameUuids.marked (w := w) (w' := (notify (.created o) w).2) (sameUuids_of (fun _ => rfl) rfl rfl rfl) o) ih w ho
        exact ⟨this.1, fun h hb => this.2 h (drop hb nofun nofun)⟩
      case uuidAware =>
        intro w ho
        obtain ⟨a1, _⟩ := ih w ho
        simp only [initPipe]
        rw [M.bind_apply]
        rcases hx : initPipe E (fun c' => newNodeN E d c' .none none) all r o n p w with ⟨e | x, w1⟩
        · rw [hx] at a1; exact ⟨a1, nofun⟩
        · rw [hx] at a1
          obtain ⟨b1, b2⟩ := marked_fresh o (all.contains .reference = true) w1
          exact ⟨hR.trans a1 b1, fun h _ => b2 h⟩
      case fixedChildren =>
        intro w ho
        have := later (m := modO o (fun ob => { ob with fixed := [] }) >>= fun _ => M.getW >>= fun w =>
          initPipe.loop (fun c' => newNodeN E d c' .none none) o (clsOf E w o).fixed)
          (pres_bind hR (hmod o _ fun _ => rfl) fun _ => pres_bind hR (pres_getW hR) fun w => loop _) ih w ho
        exact ⟨this.1, fun h hb => this.2 h (drop hb nofun nofun)⟩
      all_goals
        intro w ho
        exact ⟨(ih w ho).1, fun h hb => (ih w ho).2 h (drop hb nofun nofun)⟩
  replace hnew := newNode_ok hnew
  cases hd : E.depth with
  | zero => rw [hd] at hnew; cases hnew
  | succ d =>
    rw [hd] at hnew
    simp only [newNodeN, M.bind_apply, alloc] at hnew
    obtain ⟨key0, key⟩ := init d w.nobj (E.cls c).bhvs (E.cls c).bhvs (alloc c w).2 (Nat.lt_succ_self _)
    simp only [alloc] at key key0
    rcases hx : initPipe E (fun c' => newNodeN E d c' .none none) (E.cls c).bhvs (E.cls c).bhvs w.nobj n p
      { w with objs := upd w.objs w.nobj { cls := c }, nobj := w.nobj + 1 } with ⟨e | x, w1⟩
    · rw [hx] at hnew; cases hnew
    · rw [hx] at hnew key key0
      injection hnew with h1 h2
      injection h1 with h1
      subst h1 h2
      exact ⟨(key0 (Nat.lt_succ_self _)).1, Option.ne_none_iff_exists'.mp (key rfl hc)⟩

/-- Calling a class with `UUIDAware` or `Reference` returns a node with a uuid. -/
theorem c72_new {c : ClassId} {n : Key} {p : Option Oid} {o : Oid} {w w' : World}
    (hc : Bhv.uuidAware ∈ (E.cls c).bhvs ∨ Bhv.reference ∈ (E.cls c).bhvs)
    (h : exec E (.new c n p) w = (.ok (.val (.node o)), w')) : ∃ u, HasUuid w' o u := (new_uuid hc h).2

/-- A node made by calling such a class has one uuid for good, which no other node ever has: whatever is
done before and after, as long as no uuids are assigned. -/
theorem c72_identity {ops ops' : List Op} (h1 : ∀ o u, Op.setUuid o u ∉ ops) (h2 : ∀ o u, Op.setUuid o u ∉ ops')
    {c : ClassId} {n : Key} {p : Option Oid} {o : Oid} {w : World}
    (hc : Bhv.uuidAware ∈ (E.cls c).bhvs ∨ Bhv.reference ∈ (E.cls c).bhvs)
    (hnew : exec E (.new c n p) (execAll E ops {}).2 = (.ok (.val (.node o)), w)) :
    ∃ u, HasUuid w o u ∧ ∀ q, HasUuid (execAll E ops' w).2 q u ↔ q = o := by
  obtain ⟨ho, u, hu⟩ := new_uuid hc hnew
  have hw : WF w := by
    have := ((fixKept_api E).exec (.new c n p) _ ((fixKept_api E).execAll ops {} .empty).1).1
    rwa [hnew] at this
  have hd : Distinct w := by
    have := distinct_exec (E := E) (op := .new c n p) nofun ((fixKept_api E).execAll ops {} .empty).1
      (distinct_execAll (fun o u => h1 o _) .empty .empty)
    rwa [hnew] at this
  have hk : HasUuid (execAll E ops' w).2 o u := (c72_kept h2 hw o ho).trans hu
  exact ⟨u, hu, fun q => ⟨fun hq => (distinct_execAll (fun o u => h2 o _) hw hd).inj q o u hq hk, fun e => e ▸ hk⟩⟩

/-! ### Concrete cases -/

/-- Nodes are made, moved, deleted; the uuids of the first three stay. -/
example : ((List.range 4).map fun p => ((after uuidEnv (c58Ops 0)).objs p).uuid) = [some 1, some 2, some 3, some 4] ∧
    ((List.range 4).map fun p => ((execAll uuidEnv [.del 0 ka, .set 3 ka (.node 1), .new 0 .none none, .clear 0]
      (after uuidEnv (c58Ops 0))).2.objs p).uuid) = [some 1, some 2, some 3, some 4] := by
  decide +kernel

example : ∃ u, HasUuid (after uuidEnv (c58Ops 0)) 0 u ∧ HasUuid (execAll uuidEnv [.del 0 ka, .set 3 ka (.node 1),
    .new 0 .none none, .clear 0] (after uuidEnv (c58Ops 0))).2 0 u :=
  ⟨1, by unfold HasUuid; decide +kernel, by
    unfold HasUuid
    rw [c72_kept (by simp) (reachable_after uuidEnv (c58Ops 0)).wf 0 (by decide +kernel)]
    decide +kernel⟩

/-! ### Where it fails -/

/-- Nothing stops a caller from assigning the uuid of another node as long as the two are not in one
tree. -/
theorem c72_refuted_assign : ∃ w, w = after sampleEnv [.new 7 .none none, .new 7 .none none, .setUuid 1 (some 1)] ∧
    HasUuid w 0 1 ∧ HasUuid w 1 1 :=
  ⟨_, rfl, by unfold HasUuid; decide +kernel, by unfold HasUuid; decide +kernel⟩

/-- `deepcopy` of a `Reference` node that is not `UUIDAware` has the uuid of the original. -/
theorem c72_refuted_copy : ∃ w, deepcopy sampleEnv 0 (after sampleEnv [.new 7 .none none]) = (.ok 1, w) ∧
    HasUuid w 0 1 ∧ HasUuid w 1 1 :=
  ⟨_, rfl, by unfold HasUuid; decide +kernel, by unfold HasUuid; decide +kernel⟩

end Verif
