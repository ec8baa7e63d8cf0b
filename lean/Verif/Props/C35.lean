import Verif.Props.C34
import Verif.Props.C06

/-!
# C35, C36 Events of `detach` and of attributes

`detach` switches the notification of the node off, deletes, and switches it on again
(lifecycle.py:51-58), so a successful `detach` emits one event and no removed event
(`c35_detach`).  If the deletion raises the switch stays off (`c35_raise`), against what
a user expects (`c35_refuted`).
-/

namespace Verif

variable {E : Env} {o : Oid} {l r : List Bhv}

/-- Nothing is emitted, under the condition that `o` is switched off. -/
def Muted (E : Env) (o : Oid) (l r : List Bhv) (w w' : World) : Prop :=
  WF w → Emits (clsOf E w o) l r → DelReads E (clsOf E w o) → (w.objs o).suppress = true → LogS w w'

theorem muted_pre : PreR (Muted E o l r) :=
  ⟨fun _ hw _ _ _ => .refl hw, fun h h' hw hc hE hs =>
    have h1 := h hw hc hE hs
    have h2 : clsOf E _ o = clsOf E _ o := congrArg E.cls (h1.cls o)
    h1.trans (h' h1.wf (by rw [h2]; exact hc) (by rw [h2]; exact hE) ((h1.suppress o).trans hs))⟩

theorem muted_of {α : Type} {m : M α} (h : Pres LogR m) : Pres (Muted E o l r) m :=
  fun w hw _ _ _ => h w hw

theorem muted_getitem (k : Key) : Pres (Muted E o l r) (getitem E o k) := fun _ hw hc hE _ =>
  (hc.reads hE).getitem k hw rfl

theorem muted_lifecycle {c : ClassDef} {r : List Bhv} (hE : EmitReads E c r) (hr : ¬ Loud r) {o : Oid} {k : Key}
    {w : World} (hw : WF w) (hcl : clsOf E w o = c) (hs : (w.objs o).suppress = true) :
    LogS w (delPipe E (.lifecycle :: r) o k w).2 := by
  have h0 := hE.getitem k hw hcl
  simp only [delPipe, lifecycleDel, M.bind_apply]
  revert h0
  rcases getitem E o k w with ⟨e' | x, w1⟩
  · exact id
  · intro h0
    have h1 := logR_silent_del hE.reference hr o k w1 h0.wf
    simp only
    revert h1
    rcases delPipe E r o k w1 with ⟨e' | u, w2⟩
    · exact h0.trans
    · simp only [getO_apply]
      intro h1
      have h2 : (w2.objs o).suppress = true := ((h1.suppress o).trans (h0.suppress o)).trans hs
      simp only [h2, if_true]
      exact h0.trans h1

/-- A deletion on a node that is switched off emits nothing, whatever its outcome. -/
theorem muted_delitem (k : Key) : Pres (Muted E o l r) (delitem E o k) := by
  intro w hw hc hE hs
  have ht := delPipe_thru l (.lifecycle :: r) (hc.refLeft hE) hc.left o _
    (fun k w e w' hw hcl h => lifecycle_del_err (hc.reads hE) hc.right hw hcl h) k hw rfl
  rw [← hc.stack] at ht
  rcases hx : (delitem E o k w).1 with e | u
  · exact ht.err e hx
  · rcases ht.ok hx with ⟨k', h1, h2⟩ | ⟨k', w1, h1, h2, hch, h3⟩
    · exact h2
    · have := muted_lifecycle (k := k') (hc.reads hE) hc.right h2.wf (congrArg E.cls (h2.cls o)) ((h2.suppress o).trans hs)
      rw [h3] at this
      exact h2.trans this

theorem muted_detachPipe {t : List Bhv} (hE : Bhv.reference ∈ t → NoFactory E) (ht : ¬ Loud t) (k : Key) :
    Pres (Muted E o l r) (detachPipe E t o k) := by
  induction t with
  | nil =>
    exact pres_bind muted_pre (muted_getitem k) fun _ =>
      pres_bind muted_pre (muted_delitem k) fun _ => pres_pure muted_pre _
  | cons b t ih =>
    have ih := ih (fun h => hE (List.mem_cons_of_mem _ h)) fun h => ht h.cons
    cases b
    case lifecycle => exact absurd (.inl List.mem_cons_self) ht
    case reference =>
      exact pres_bind muted_pre ih fun v =>
        pres_bind muted_pre (muted_of (logR_referenceDetach (hE List.mem_cons_self) v)) fun _ => pres_pure muted_pre _
    all_goals exact ih

/-- What `detach` leaves behind in log and switches. -/
structure Detached (o : Oid) (k : Key) (w : World) (x : Except Exc Val × World) : Prop where
  wf : WF x.2
  ok : ∀ v, x.1 = .ok v → ∃ seen, x.2.log = w.log ++ [⟨.detached v o k, seen⟩] ∧
    ∀ p, seen p = x.2.children p
  on : ∀ v, x.1 = .ok v → (x.2.objs o).suppress = false
  others : ∀ p, p ≠ o → (x.2.objs p).suppress = (w.objs p).suppress

theorem detached_lifecycle {t : List Bhv} (hR : Bhv.reference ∈ t → NoFactory E) (ht : ¬ Loud t) (k : Key)
    {w : World} (hw : WF w) (hc : Emits (clsOf E w o) l r) (hE : DelReads E (clsOf E w o)) :
    Detached o k w (detachPipe E (.lifecycle :: t) o k w) ∧
    ∀ e, (detachPipe E (.lifecycle :: t) o k w).1 = .error e →
      (detachPipe E (.lifecycle :: t) o k w).2.log = w.log ∧
      ((detachPipe E (.lifecycle :: t) o k w).2.objs o).suppress = true := by
  have hw1 : WF (modO o (fun ob => { ob with suppress := true }) w).2 :=
    hw.modO o (fun ob => { ob with suppress := true }) rfl rfl rfl fun _ h => hw.iLt h
  have hs1 : ((modO o (fun ob => { ob with suppress := true }) w).2.objs o).suppress = true := by
    simp [modO_apply]
  have hcl : clsOf E (modO o (fun ob => { ob with suppress := true }) w).2 o = clsOf E w o :=
    congrArg E.cls (proj_upd Obj.cls w.objs o _ (by rfl) o)
  have h := muted_detachPipe (l := l) (r := r) hR ht k _ hw1 (by rw [hcl]; exact hc) (by rw [hcl]; exact hE) hs1
  have hoff : ∀ p, p ≠ o → ((modO o (fun ob => { ob with suppress := true }) w).2.objs p).suppress =
      (w.objs p).suppress := fun p hp => by simp [modO_apply, upd, hp]
  have hlog : (modO o (fun ob => { ob with suppress := true }) w).2.log = w.log := rfl
  have hm : modO o (fun ob => { ob with suppress := true }) w =
      (.ok (), (modO o (fun ob => { ob with suppress := true }) w).2) := rfl
  simp only [detachPipe, M.bind_apply]
  rw [hm]
  generalize (modO o (fun ob => { ob with suppress := true }) w).2 = w1 at *
  simp only
  revert h
  rcases detachPipe E t o k w1 with ⟨e | v, w2⟩
  · intro h
    exact ⟨⟨h.wf, fun _ h => (nomatch h), fun _ h => (nomatch h), fun p hp => (h.suppress p).trans (hoff p hp)⟩,
      fun _ _ => ⟨h.log.trans hlog, (h.suppress o).trans hs1⟩⟩
  · intro h
    have hw3 : WF (modO o (fun ob => { ob with suppress := false }) w2).2 :=
      h.wf.modO o (fun ob => { ob with suppress := false }) rfl rfl rfl fun _ hr => h.wf.iLt hr
    refine ⟨⟨hw3.setLog _, ?_, ?_, fun p hp => ?_⟩, fun e he => nomatch he⟩
    · intro v' hv
      cases hv
      refine ⟨_, ?_, fun p => rfl⟩
      show w2.log ++ _ = _
      rw [h.log, hlog]; rfl
    · intro v' hv
      simp [modO_apply, notify_apply]
    · refine Eq.trans ?_ ((h.suppress p).trans (hoff p hp))
      simp [modO_apply, notify_apply, upd, hp]

theorem detached_pipe (l0 : List Bhv) (hR0 : Bhv.reference ∈ l0 → NoFactory E) (hl0 : ¬ Loud l0) {t : List Bhv}
    (hR : Bhv.reference ∈ t → NoFactory E) (ht : ¬ Loud t) (k : Key) {w : World} (hw : WF w)
    (hc : Emits (clsOf E w o) l r) (hE : DelReads E (clsOf E w o)) :
    Detached o k w (detachPipe E (l0 ++ .lifecycle :: t) o k w) ∧
    (Bhv.reference ∉ l0 → ∀ e, (detachPipe E (l0 ++ .lifecycle :: t) o k w).1 = .error e →
      (detachPipe E (l0 ++ .lifecycle :: t) o k w).2.log = w.log ∧
      ((detachPipe E (l0 ++ .lifecycle :: t) o k w).2.objs o).suppress = true) := by
  induction l0 with
  | nil => exact ⟨(detached_lifecycle hR ht k hw hc hE).1, fun _ => (detached_lifecycle hR ht k hw hc hE).2⟩
  | cons b l0 ih =>
    have ih := ih (fun h => hR0 (List.mem_cons_of_mem _ h)) fun h => hl0 h.cons
    have ih' : Detached o k w (detachPipe E (l0 ++ .lifecycle :: t) o k w) ∧
      (Bhv.reference ∉ b :: l0 → ∀ e, (detachPipe E (l0 ++ .lifecycle :: t) o k w).1 = .error e →
      (detachPipe E (l0 ++ .lifecycle :: t) o k w).2.log = w.log ∧
      ((detachPipe E (l0 ++ .lifecycle :: t) o k w).2.objs o).suppress = true) :=
      ⟨ih.1, fun h => ih.2 fun h' => h (List.mem_cons_of_mem _ h')⟩
    cases b
    case lifecycle => exact absurd (.inl List.mem_cons_self) hl0
    case reference =>
      refine ⟨?_, fun h => absurd List.mem_cons_self h⟩
      have h1 := ih.1
      have hE := hR0 List.mem_cons_self
      simp only [List.cons_append, detachPipe, M.bind_apply]
      revert h1
      rcases detachPipe E (l0 ++ .lifecycle :: t) o k w with ⟨e | v, w2⟩
      · exact id
      · intro h1
        simp only
        have h2 := logR_referenceDetach hE v w2 h1.wf
        have h3 := ((frame_idle hE).referenceDetach v w2).children h1.wf
        revert h2 h3
        rcases referenceDetach E v w2 with ⟨e | u, w3⟩
        · intro h2 h3
          exact ⟨h2.wf, fun _ h => (nomatch h), fun _ h => (nomatch h), fun p hp => (h2.suppress p).trans (h1.others p hp)⟩
        · intro h2 h3
          refine ⟨h2.wf, fun v' hv => ?_, fun v' hv => (h2.suppress o).trans (h1.on v rfl),
            fun p hp => (h2.suppress p).trans (h1.others p hp)⟩
          cases hv
          obtain ⟨seen, h4, h5⟩ := h1.ok v rfl
          exact ⟨seen, h2.log.trans h4, fun p => (h5 p).trans (h3 p).symm⟩
    all_goals exact ih'

/-- C35: a successful `detach` emits exactly one event, a detached event, which shows the
final children; afterwards the node notifies. -/
theorem c35_detach {w w' : World} (hE : DelReads E (clsOf E w o)) (hw : WF w) (hc : Emits (clsOf E w o) l r)
    {k : Key} {v : Val} (h : detach E o k w = (.ok v, w')) :
    (∃ seen, w'.log = w.log ++ [⟨.detached v o k, seen⟩] ∧ ∀ p, seen p = w'.children p) ∧
    (w'.objs o).suppress = false ∧ ∀ p, p ≠ o → (w'.objs p).suppress = (w.objs p).suppress := by
  have h1 := (detached_pipe l (hc.refLeft hE) hc.left (hc.reads hE).reference hc.right k hw hc hE).1
  rw [← hc.stack, show detachPipe E (clsOf E w o).bhvs o k w = _ from h] at h1
  exact ⟨h1.ok v rfl, h1.on v rfl, h1.others⟩

/-- C35: `detach` that raises emits nothing (unless `Reference`, left of `Lifecycle`,
raises after the event), and leaves the node switched off. -/
theorem c35_raise {w w' : World} (hE : DelReads E (clsOf E w o)) (hw : WF w) (hc : Emits (clsOf E w o) l r)
    (hr : Bhv.reference ∉ l) {k : Key} {e : Exc} (h : detach E o k w = (.error e, w')) :
    w'.log = w.log ∧ (w'.objs o).suppress = true ∧
    ∀ p, p ≠ o → (w'.objs p).suppress = (w.objs p).suppress := by
  have h1 := detached_pipe l (hc.refLeft hE) hc.left (hc.reads hE).reference hc.right k hw hc hE
  rw [← hc.stack, show detachPipe E (clsOf E w o).bhvs o k w = _ from h] at h1
  exact ⟨(h1.2 hr e rfl).1, (h1.2 hr e rfl).2, h1.1.others⟩

/-- C35, the part that holds: on a node that notifies, a `detach` that returns emits the
one detached event and the node goes on notifying.  Missing: the same after a `detach`
that raises, and for a node whose switch the user had turned off. -/
theorem c35_partial {w w' : World} (hE : DelReads E (clsOf E w o)) (hw : WF w) (hc : Emits (clsOf E w o) l r)
    (hs : (w.objs o).suppress = false) {k : Key} {v : Val} (h : detach E o k w = (.ok v, w')) :
    (w'.log.map Logged.event = w.log.map Logged.event ++ [.detached v o k]) ∧
    ∀ p, (w'.objs p).suppress = (w.objs p).suppress := by
  obtain ⟨⟨seen, h1, -⟩, h2, h3⟩ := c35_detach hE hw hc h
  refine ⟨by simp [h1], fun p => ?_⟩
  by_cases hp : p = o
  · subst hp; exact h2.trans hs.symm
  · exact h3 p hp

/-- C35 is false: after a `detach` that raised `KeyError`, successful assignments and
deletions emit nothing. -/
theorem c35_refuted : ∃ ops, (execAll sampleEnv ops {}).1 =
      [.ok (.val (.node 0)), .error (.key (.key ka)), .ok .unit, .ok .unit] ∧
    ops = [.new 6 .none none, .detach 0 ka, .set 0 kb (.data (.int 1)), .del 0 kb] ∧
    (after sampleEnv ops).log.map Logged.event = [.created 0] :=
  ⟨[.new 6 .none none, .detach 0 ka, .set 0 kb (.data (.int 1)), .del 0 kb],
    by decide +kernel, rfl, by decide +kernel⟩

/-! ### Attributes -/

/-- One `AttributesLifecycle` between `l` and `r`, no `Lifecycle`. -/
structure AttrEmits (c : ClassDef) (l r : List Bhv) : Prop where
  stack : c.bhvs = l ++ .attributesLifecycle :: r
  left : ¬ Loud l
  right : ¬ Loud r

/-- The owner of the attributes was told, unless it is switched off. -/
def Told (E : Env) (o : Oid) (w w' : World) : Prop :=
  ∃ p, (w'.objs o).parent = some p ∧ .lifecycle ∈ (clsOf E w' p).bhvs ∧
    w'.log = w.log ++ if (w.objs p).suppress then [] else [⟨.modified p, w'.children⟩]

theorem notifyModified_log {w w' : World} :
    (∀ e, notifyModified E o w = (.error e, w') → w' = w) ∧
    (notifyModified E o w = (.ok (), w') → Told E o w w') := by
  simp only [notifyModified, M.bind_apply, M.getW_apply]
  cases hp : (w.objs o).parent with
  | none =>
    simp only [M.raise_apply, Prod.mk.injEq, reduceCtorEq, false_and, false_implies, and_true]
    exact fun e h => h.2.symm
  | some p =>
    simp only
    by_cases hl : (bhvsOf E w p).contains .lifecycle
    · rw [if_pos hl]
      by_cases hs : (w.objs p).suppress
      · rw [if_pos hs]
        refine ⟨(fun e h => by simp [M.pure_apply, notify_apply] at h), fun h => ?_⟩
        obtain ⟨-, rfl⟩ := Prod.mk.inj h
        exact ⟨p, hp, by simpa [bhvsOf] using hl, by simp [hs]⟩
      · rw [if_neg hs]
        refine ⟨(fun e h => by simp [M.pure_apply, notify_apply] at h), fun h => ?_⟩
        obtain ⟨-, rfl⟩ := Prod.mk.inj h
        exact ⟨p, hp, show _ ∈ (clsOf E w p).bhvs by simpa [bhvsOf] using hl, by simp [hs]; rfl⟩
    · rw [if_neg hl]
      refine ⟨fun e h => by cases h; rfl, fun h => by cases h⟩

theorem Told.of_pre {w w1 w' : World} (h : Told E o w1 w') (hs : LogS w w1) : Told E o w w' := by
  obtain ⟨p, h1, h2, h3⟩ := h
  exact ⟨p, h1, h2, by rw [h3, hs.log, hs.suppress]⟩

theorem attr_set {r : List Bhv} (hr : ¬ Loud r) {k : Key} {v : Val} {w w' : World} (hw : WF w) :
    (∀ e, setPipe E (.attributesLifecycle :: r) o k v w = (.error e, w') → LogS w w') ∧
    (setPipe E (.attributesLifecycle :: r) o k v w = (.ok (), w') → Told E o w w') := by
  have h1 := logR_silent_set (E := E) hr o k v w hw
  simp only [setPipe, M.bind_apply]
  revert h1
  rcases setPipe E r o k v w with ⟨e' | u, w1⟩
  · exact fun h1 => ⟨fun e h => by cases h; exact h1, fun h => by cases h⟩
  · intro h1
    simp only
    have h2 := notifyModified_log (E := E) (o := o) (w := w1) (w' := w')
    exact ⟨fun e h => by rw [h2.1 e h]; exact h1, fun h => (h2.2 h).of_pre h1⟩

theorem attr_del {r : List Bhv} (hE : Bhv.reference ∈ r → NoFactory E) (hr : ¬ Loud r) {k : Key} {w w' : World}
    (hw : WF w) :
    (∀ e, delPipe E (.attributesLifecycle :: r) o k w = (.error e, w') → LogS w w') ∧
    (delPipe E (.attributesLifecycle :: r) o k w = (.ok (), w') → Told E o w w') := by
  have h1 := logR_silent_del hE hr o k w hw
  simp only [delPipe, M.bind_apply]
  revert h1
  rcases delPipe E r o k w with ⟨e' | u, w1⟩
  · exact fun h1 => ⟨fun e h => by cases h; exact h1, fun h => by cases h⟩
  · intro h1
    simp only
    have h2 := notifyModified_log (E := E) (o := o) (w := w1) (w' := w')
    exact ⟨fun e h => by rw [h2.1 e h]; exact h1, fun h => (h2.2 h).of_pre h1⟩

/-- C36: a write to lifecycle attributes that raises emits nothing; one that returns (and
is not a nodespace) emits exactly one modified event for the node owning the attributes,
unless that node is switched off, and the subscriber sees the final state. -/
theorem c36_set {w : World} (hw : WF w) (hc : AttrEmits (clsOf E w o) l r) (k : Key) (v : Val) :
    (∀ e, (setitem E o k v w).1 = .error e → (setitem E o k v w).2.log = w.log) ∧
    ((setitem E o k v w).1 = .ok () → Told E o w (setitem E o k v w).2 ∨
      (∃ k', dest (clsOf E w o).aliaser l k = some (.nodespace k') ∧
        (setitem E o k v w).2.log = w.log)) := by
  have ht := setPipe_thru (E := E) l (.attributesLifecycle :: r) hc.left o
    (fun k v w e w' hw h => (attr_set hc.right hw).1 e h) k v hw _ rfl
  rw [← hc.stack] at ht
  refine ⟨fun e he => (ht.err e he).log, fun hok => ?_⟩
  rcases ht.ok hok with ⟨k', h1, h2⟩ | ⟨k', w1, h1, h2, h3⟩
  · exact .inr ⟨k', h1, h2.log⟩
  · exact .inl (((attr_set hc.right h2.wf).2 h3).of_pre h2)

/-- C36: the same for deletion. -/
theorem c36_del {w : World} (hE : DelReads E (clsOf E w o)) (hw : WF w) (hc : AttrEmits (clsOf E w o) l r)
    (k : Key) :
    (∀ e, (delitem E o k w).1 = .error e → (delitem E o k w).2.log = w.log) ∧
    ((delitem E o k w).1 = .ok () → Told E o w (delitem E o k w).2 ∨
      (∃ k', dest (clsOf E w o).aliaser l k = some (.nodespace k') ∧
        (delitem E o k w).2.log = w.log)) := by
  have hr : Bhv.reference ∈ r → NoFactory E := fun h => hE.reference (by rw [hc.stack]; simp [h])
  have ht := delPipe_thru l (.attributesLifecycle :: r) (fun h => hE.reference (by rw [hc.stack]; simp [h]))
    hc.left o _ (fun k w e w' hw _ h => (attr_del hr hc.right hw).1 e h) k hw rfl
  rw [← hc.stack] at ht
  refine ⟨fun e he => (ht.err e he).log, fun hok => ?_⟩
  rcases ht.ok hok with ⟨k', h1, h2⟩ | ⟨k', w1, h1, h2, hch, h3⟩
  · exact .inr ⟨k', h1, h2.log⟩
  · exact .inl (((attr_del hr hc.right h2.wf).2 h3).of_pre h2)

/-- The owner is the parent before the operation, if parents did not change. -/
theorem Told.event {w w' : World} (h : Told E o w w') (hl : w'.loc o = w.loc o) {p : Oid}
    (hp : (w.objs o).parent = some p) (hs : (w.objs p).suppress = false) :
    w'.log = w.log ++ [⟨.modified p, w'.children⟩] := by
  obtain ⟨q, h1, -, h3⟩ := h
  have : (w'.objs o).parent = (w.objs o).parent := congrArg Prod.snd hl
  rw [h1, hp] at this
  cases this
  simpa [hs] using h3

theorem dest_no_nodespace {al : Option Aliaser} {bs : List Bhv} (h : Bhv.nodespaces ∉ bs) {k k' : Key} :
    dest al bs k ≠ some (.nodespace k') := by
  induction bs generalizing k with
  | nil => exact fun h => nomatch h
  | cons b r ih =>
    have ih := fun k => @ih (fun h' => h (List.mem_cons_of_mem _ h')) k
    cases b
    case nodespaces => exact absurd List.mem_cons_self h
    case alias =>
      simp only [dest]
      cases al with
      | none => exact ih k
      | some a =>
        simp only
        split
        · split
          · exact ih _
          · exact fun h => nomatch h
        · exact ih k
    all_goals exact ih k

/-- C36: for attributes owned by `p`, ordinary values and attribute names that no
`Nodespaces` takes out. -/
theorem c36_owner_set {w : World} (hw : WF w) (hc : AttrEmits (clsOf E w o) l r)
    (hn : Bhv.nodespaces ∉ l) {p : Oid} (hp : (w.objs o).parent = some p)
    (hs : (w.objs p).suppress = false) (k : Key) (d : Data)
    (hok : (setitem E o k (.data d) w).1 = .ok ()) :
    (setitem E o k (.data d) w).2.log =
      w.log ++ [⟨.modified p, (setitem E o k (.data d) w).2.children⟩] := by
  rcases (c36_set hw hc k (.data d)).2 hok with h | ⟨k', h, -⟩
  · exact h.event (c06_data E o k d hw (Prod.ext hok rfl) o) hp hs
  · exact absurd h (dest_no_nodespace hn)

/-- C36: the same for deletion. -/
theorem c36_owner_del {w : World} (hE : DelReads E (clsOf E w o)) (hw : WF w) (hc : AttrEmits (clsOf E w o) l r)
    (hn : Bhv.nodespaces ∉ l) {p : Oid} (hp : (w.objs o).parent = some p)
    (hs : (w.objs p).suppress = false) (k : Key) (hok : (delitem E o k w).1 = .ok ()) :
    (delitem E o k w).2.log = w.log ++ [⟨.modified p, (delitem E o k w).2.children⟩] := by
  rcases (c36_del hE hw hc k).2 hok with h | ⟨k', h, -⟩
  · exact h.event ((delitem_out_of k hE hw).loc o) hp hs
  · exact absurd h (dest_no_nodespace hn)

/-- C36 cannot have "failing operations change nothing": attributes whose owner has no
`Lifecycle` raise after the write.  (No event is emitted.) -/
theorem c36_raises_after_write : ∃ ops, (execAll sampleEnv ops {}).1.getLast? = some (.error .attr) ∧
    ops = [.new 8 .none none, .set 0 ka (.data (.int 1))] ∧
    ((after sampleEnv ops).omap 0).keys = [ka] ∧ (after sampleEnv ops).log.map Logged.event = [] :=
  ⟨[.new 8 .none none, .set 0 ka (.data (.int 1))], by decide +kernel, rfl, by decide +kernel,
    by decide +kernel⟩

/-! ### Instances -/

/-- A lifecycle node with two children and attributes. -/
def c34Ops : List Op := [.new 6 .none none, .set 0 ka (.data (.int 1)), .set 0 kb (.data (.int 2)),
  .attrs 0, .set 1 ka (.data (.int 7))]

theorem c34_sample_emits : Emits lifecycleNode [.nodespaces, .attributes] [.defaultInit, .nodify, .dictStorage] :=
  ⟨rfl, by decide, by decide⟩

example : (after sampleEnv c34Ops).log.map Logged.event =
    [.created 0, .added (.data (.int 1)) 0 ka, .added (.data (.int 2)) 0 kb, .modified 0] := by
  decide +kernel

example : ∃ w', detach sampleEnv 0 ka (after sampleEnv c34Ops) = (.ok (.data (.int 1)), w') ∧
    w'.log.map Logged.event =
      (after sampleEnv c34Ops).log.map Logged.event ++ [.detached (.data (.int 1)) 0 ka] := by
  have h : detach sampleEnv 0 ka (after sampleEnv c34Ops) =
      (.ok (.data (.int 1)), (detach sampleEnv 0 ka (after sampleEnv c34Ops)).2) :=
    Prod.ext (by decide +kernel) rfl
  exact ⟨_, h, (c35_partial (sample_noFactory.delReads _) (reachable_after sampleEnv c34Ops).wf
    (show Emits (clsOf sampleEnv _ 0) _ _ from c34_sample_emits) (by decide +kernel) h).1⟩

example : ∃ evs, (execAll sampleEnv [.del 0 ka, .set 0 kc (.data (.int 3))] (after sampleEnv c34Ops)).2.log =
      (after sampleEnv c34Ops).log ++ evs ∧
    (execAll sampleEnv [.del 0 ka, .set 0 kc (.data (.int 3))] (after sampleEnv c34Ops)).2.omap 0 =
      replay 0 evs ((after sampleEnv c34Ops).omap 0) ∧ ((after sampleEnv c34Ops).omap 0).keys = [ka, kb] := by
  obtain ⟨evs, h1, h2⟩ := c34_replay (reachable_after sampleEnv c34Ops).wf (o := 0)
    (ops := [.del 0 ka, .set 0 kc (.data (.int 3))])
    ⟨by decide +kernel, ⟨_, _, (show Emits (clsOf sampleEnv _ 0) _ _ from c34_sample_emits), by decide,
      by decide⟩, by decide +kernel⟩ (by decide)
  exact ⟨evs, h1, h2, by decide +kernel⟩

/-- A node with `Lifecycle` and a child factory for `'a'`. -/
def loudLazyNode : ClassDef :=
  { bhvs := [.adopt, .lifecycle, .childFactory, .defaultInit, .nodify, .odictStorage], factories := [(ka, 1)] }

def loudLazyEnv : Env where
  cls c := if c = 14 then loudLazyNode else sampleEnv.cls c

/-- Reading `'a'` makes and announces the child; deleting it twice finds it the first time and has it
made, announced and removed the second time. -/
theorem c34_factory : (execAll loudLazyEnv [.get 0 ka, .del 0 ka, .del 0 ka] (after loudLazyEnv [.new 14 .none none])).1 =
      [.ok (.val (.node 1)), .ok .unit, .ok .unit] ∧
    (execAll loudLazyEnv [.get 0 ka, .del 0 ka, .del 0 ka] (after loudLazyEnv [.new 14 .none none])).2.log.map Logged.event =
      [.created 0, .added (.node 1) 0 ka, .removed (.node 1) 0 ka, .added (.node 2) 0 ka, .removed (.node 2) 0 ka] := by
  decide +kernel

example : ∃ evs, (execAll loudLazyEnv [.get 0 ka, .del 0 ka, .del 0 ka] (after loudLazyEnv [.new 14 .none none])).2.log =
      (after loudLazyEnv [.new 14 .none none]).log ++ evs ∧
    (execAll loudLazyEnv [.get 0 ka, .del 0 ka, .del 0 ka] (after loudLazyEnv [.new 14 .none none])).2.omap 0 =
      replay 0 evs ((after loudLazyEnv [.new 14 .none none]).omap 0) :=
  c34_replay (reachable_after loudLazyEnv [.new 14 .none none]).wf
    ⟨by decide +kernel, ⟨[.adopt], [.childFactory, .defaultInit, .nodify, .odictStorage],
      ⟨by decide +kernel, by decide, by decide⟩, by decide, by decide⟩, by decide +kernel⟩ (by decide)

example : (setitem sampleEnv 1 kb (.data (.int 8)) (after sampleEnv c34Ops)).2.log.map Logged.event =
    (after sampleEnv c34Ops).log.map Logged.event ++ [.modified 0] := by
  have hc : AttrEmits (clsOf sampleEnv (after sampleEnv c34Ops) 1) []
      [.nodeChildValidate, .adopt, .defaultInit, .nodify, .odictStorage] :=
    ⟨by decide +kernel, by decide, by decide⟩
  have := c36_owner_set (reachable_after sampleEnv c34Ops).wf hc (by decide) (p := 0) (by decide +kernel)
    (by decide +kernel) kb (.int 8) (by decide +kernel)
  rw [this]; simp

/-- An assignment is announced (`c34_set_plain`), the deletion of a child too (`c34_del_plain`), the deletion of a
missing key is not (`c34_del`), nor is an assignment to a nodespace (`c34_set`). -/
example : (setitem sampleEnv 0 kc (.data (.int 3)) (after sampleEnv c34Ops)).2.log.map Logged.event =
    (after sampleEnv c34Ops).log.map Logged.event ++ [.added (.data (.int 3)) 0 kc] := by
  have h := (c34_set_plain (reachable_after sampleEnv c34Ops).wf (o := 0) (k := kc)
    (show Emits (clsOf sampleEnv _ 0) _ _ from c34_sample_emits) (by decide +kernel) (by decide +kernel)
    (fun _ => ⟨_, rfl, by decide +kernel⟩) (.data (.int 3)) (by decide +kernel)).1
  rw [h]; simp

example : ∃ v, ((after sampleEnv c34Ops).omap 0).val ka = some v ∧
    (delitem sampleEnv 0 ka (after sampleEnv c34Ops)).2.log =
      (after sampleEnv c34Ops).log ++ [⟨.removed v 0 ka, (delitem sampleEnv 0 ka (after sampleEnv c34Ops)).2.children⟩] := by
  obtain ⟨v, h1, h2, -⟩ := c34_del_plain (sample_noFactory.delReads _) (reachable_after sampleEnv c34Ops).wf (o := 0) (k := ka)
    (show Emits (clsOf sampleEnv _ 0) _ _ from c34_sample_emits)
    (show MapClass lifecycleNode from ⟨by decide, by decide, by decide⟩)
    (fun p hp hc => by subst hp; exact absurd hc (by decide +kernel)) (by decide +kernel)
    (fun _ => ⟨_, rfl, by decide +kernel⟩) (by decide +kernel)
  exact ⟨v, h1, h2⟩

example : (delitem sampleEnv 0 kc (after sampleEnv c34Ops)).2.log = (after sampleEnv c34Ops).log :=
  (c34_del (sample_noFactory.delReads _) (reachable_after sampleEnv c34Ops).wf
    (show Emits (clsOf sampleEnv _ 0) _ _ from c34_sample_emits) (by decide +kernel) kc).1
    (.key (.key kc)) (by decide +kernel)

end Verif
