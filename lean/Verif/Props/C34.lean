import Verif.Lemmas.Log
import Verif.Lemmas.PassThrough
import Verif.Lemmas.MapPrims
import Verif.Lemmas.NewNode
import Verif.Lemmas.ApiGeneric
import Verif.Sample
import Verif.Props.C02

/-!
# C34, C35, C36 Lifecycle events

For every stack with one `Lifecycle` (or one `AttributesLifecycle`) at any position.
The key of an event is the key that reaches the behavior: `dest` of the behaviors to its
left, that is the key itself unless an `Alias` translates it or a `Nodespaces` takes it
out.  Every entry of the log also shows the children at the moment of notification, so
"after the change" is part of the statements.
-/

namespace Verif

variable {E : Env}

/-- One `Lifecycle` between `l` and `r`, no `AttributesLifecycle`. -/
structure Emits (c : ClassDef) (l r : List Bhv) : Prop where
  stack : c.bhvs = l ++ .lifecycle :: r
  left : ¬ Loud l
  right : ¬ Loud r

theorem logR_silent_set {r : List Bhv} (hr : ¬ Loud r) (o : Oid) (k : Key) (v : Val) :
    Pres LogR (setPipe E r o k v) :=
  (logR_setPrims E o v).setPipe r (fun h => absurd (.inl h) hr) (fun h => absurd (.inr h) hr) k

theorem logR_silent_del {r : List Bhv} (hE : Bhv.reference ∈ r → NoFactory E) (hr : ¬ Loud r) (o : Oid)
    (k : Key) : Pres LogR (delPipe E r o k) :=
  logR_delPipe r hE (fun h => hr (.inl h)) (fun h => hr (.inr h)) o k

/-- What deletions of a class that notifies ask of reading. -/
structure EmitReads (E : Env) (c : ClassDef) (r : List Bhv) : Prop where
  item : NoFactory E ∨ Bhv.childFactory ∉ c.bhvs ∧ Bhv.fallback ∉ c.bhvs
  reference : Bhv.reference ∈ r → NoFactory E

theorem Emits.reads {c : ClassDef} {l r : List Bhv} (h : Emits c l r) (hE : DelReads E c) : EmitReads E c r :=
  ⟨hE.lifecycle (by rw [h.stack]; simp), fun hr => hE.reference (by rw [h.stack]; simp [hr])⟩

theorem Emits.refLeft {c : ClassDef} {l r : List Bhv} (h : Emits c l r) (hE : DelReads E c) :
    Bhv.reference ∈ l → NoFactory E := fun hl => hE.reference (by rw [h.stack]; simp [hl])

theorem EmitReads.getitem {c : ClassDef} {r : List Bhv} (h : EmitReads E c r) {o : Oid} (k : Key) {w : World}
    (hw : WF w) (hc : clsOf E w o = c) : LogS w (Verif.getitem E o k w).2 :=
  have hq := getitem_quiet_at (k := k) (by rw [hc]; exact h.item) hw
  ⟨hq.1, hq.2.log, fun p => (hq.2.obj p).suppress, fun p => (hq.2.obj p).cls⟩

theorem lifecycle_set_err {r : List Bhv} (hr : ¬ Loud r) {o : Oid} {k : Key} {v : Val} {w w' : World}
    {e : Exc} (hw : WF w) (h : setPipe E (.lifecycle :: r) o k v w = (.error e, w')) : LogS w w' := by
  have h1 := logR_silent_set (E := E) hr o k v w hw
  simp only [setPipe, lifecycleSet, M.bind_apply] at h
  revert h h1
  rcases setPipe E r o k v w with ⟨e' | u, w1⟩
  · intro h h1; cases h; exact h1
  · simp only [getO_apply]
    intro h _
    split at h <;> cases h

theorem lifecycle_set_ok {r : List Bhv} (hr : ¬ Loud r) {o : Oid} {k : Key} {v : Val} {w w' : World}
    (hw : WF w) (hs : (w.objs o).suppress = false)
    (h : setPipe E (.lifecycle :: r) o k v w = (.ok (), w')) :
    w'.log = w.log ++ [⟨.added v o k, w'.children⟩] := by
  have h1 := logR_silent_set (E := E) hr o k v w hw
  simp only [setPipe, lifecycleSet, M.bind_apply] at h
  revert h h1
  rcases setPipe E r o k v w with ⟨e' | u, w1⟩
  · intro h _; cases h
  · simp only [getO_apply]
    intro h h1
    have h2 : (w1.objs o).suppress = false := (h1.suppress o).trans hs
    simp only [h2, Bool.false_eq_true, if_false, notify_apply, Prod.mk.injEq, true_and] at h
    subst h
    show w1.log ++ _ = _
    rw [h1.log]; rfl

/-- C34: an assignment that raises emits nothing; one that returns emits exactly one
added event, carrying child, parent and key, and the subscriber sees the final state.
If `Nodespaces` takes the key out there is no event. -/
theorem c34_set {w : World} (hw : WF w) {o : Oid} {l r : List Bhv} (hc : Emits (clsOf E w o) l r)
    (hs : (w.objs o).suppress = false) (k : Key) (v : Val) :
    (∀ e, (setitem E o k v w).1 = .error e → (setitem E o k v w).2.log = w.log) ∧
    ((setitem E o k v w).1 = .ok () →
      (∃ k', dest (clsOf E w o).aliaser l k = some (.child k') ∧
        (setitem E o k v w).2.log = w.log ++ [⟨.added v o k', (setitem E o k v w).2.children⟩]) ∨
      (∃ k', dest (clsOf E w o).aliaser l k = some (.nodespace k') ∧
        (setitem E o k v w).2.log = w.log)) := by
  have ht := setPipe_thru (E := E) l (.lifecycle :: r) hc.left o
    (fun k v w e w' hw h => lifecycle_set_err hc.right hw h) k v hw _ rfl
  rw [← hc.stack] at ht
  refine ⟨fun e he => (ht.err e he).log, fun hok => ?_⟩
  rcases ht.ok hok with ⟨k', h1, h2⟩ | ⟨k', w1, h1, h2, h3⟩
  · exact .inr ⟨k', h1, h2.log⟩
  · refine .inl ⟨k', h1, ?_⟩
    have := lifecycle_set_ok hc.right h2.wf ((h2.suppress o).trans hs) h3
    exact this.trans (by rw [h2.log]; rfl)

/-- Without translation, keys that `Nodespaces` leaves alone arrive as they are. -/
theorem dest_free (al : Option Aliaser) {bs : List Bhv} (ha : Bhv.alias ∉ bs) {k : Key}
    (hk : Plain bs k) : dest al bs k = some (.child k) := by
  induction bs with
  | nil => rfl
  | cons b r ih =>
    have ih := ih (fun h => ha (List.mem_cons_of_mem _ h)) hk.tail
    cases b
    case alias => exact absurd List.mem_cons_self ha
    case nodespaces =>
      obtain ⟨s, rfl, hs⟩ := hk List.mem_cons_self
      simp only [dest, hs, if_false]; exact ih
    all_goals exact ih

theorem Emits.plain {c : ClassDef} {l r : List Bhv} (h : Emits c l r) {k : Key} (hk : Plain c.bhvs k) :
    Plain l k := fun hm => hk (h.stack ▸ List.mem_append_left _ hm)

theorem Emits.noAlias {c : ClassDef} {l r : List Bhv} (h : Emits c l r) (ha : Bhv.alias ∉ c.bhvs) :
    Bhv.alias ∉ l := fun hm => ha (h.stack ▸ List.mem_append_left _ hm)

/-- C34: without `Alias`, for a child key, the event carries the key of the caller, and
the subscriber sees the child in place. -/
theorem c34_set_plain {w : World} (hw : WF w) {o : Oid} {l r : List Bhv}
    (hc : Emits (clsOf E w o) l r) (ha : Bhv.alias ∉ (clsOf E w o).bhvs)
    (hs : (w.objs o).suppress = false) {k : Key} (hk : KeyFor (clsOf E w o) k) (v : Val)
    (hok : (setitem E o k v w).1 = .ok ()) :
    (setitem E o k v w).2.log = w.log ++ [⟨.added v o k, (setitem E o k v w).2.children⟩] ∧
    (setitem E o k v w).2.omap o = (w.omap o).set k v := by
  have hl : dest (clsOf E w o).aliaser l k = some (.child k) :=
    dest_free _ (hc.noAlias ha) (hc.plain hk)
  have hd : dest (clsOf E w o).aliaser (clsOf E w o).bhvs k = some (.child k) := dest_free _ ha hk
  have hch := (setitem_out E o k v hw).ok hok
  rw [show bhvsOf E w o = (clsOf E w o).bhvs from rfl, hd] at hch
  refine ⟨?_, ?_⟩
  · rcases (c34_set hw hc hs k v).2 hok with ⟨k', h1, h2⟩ | ⟨k', h1, -⟩
    · rw [hl] at h1; cases h1; exact h2
    · rw [hl] at h1; cases h1
  · have := hch o
    rw [if_pos rfl] at this
    simp only [World.omap, this, toMap_set]

theorem lifecycle_del_err {c : ClassDef} {r : List Bhv} (hE : EmitReads E c r) (hr : ¬ Loud r) {o : Oid} {k : Key}
    {w w' : World} {e : Exc} (hw : WF w) (hcl : clsOf E w o = c) (h : delPipe E (.lifecycle :: r) o k w = (.error e, w')) :
    LogS w w' := by
  have h0 := hE.getitem k hw hcl
  simp only [delPipe, lifecycleDel, M.bind_apply] at h
  revert h h0
  rcases getitem E o k w with ⟨e' | x, w1⟩
  · intro h h0; cases h; exact h0
  · intro h h0
    have h1 := logR_silent_del hE.reference hr o k w1 h0.wf
    simp only at h
    revert h h1
    rcases delPipe E r o k w1 with ⟨e' | u, w2⟩
    · intro h h1; cases h; exact h0.trans h1
    · simp only [getO_apply]
      intro h _
      split at h <;> cases h

theorem lifecycle_del_ok {c : ClassDef} {r : List Bhv} (hE : EmitReads E c r) (hr : ¬ Loud r) {o : Oid} {k : Key}
    {w w' : World} (hw : WF w) (hcl : clsOf E w o = c) (hs : (w.objs o).suppress = false)
    (h : delPipe E (.lifecycle :: r) o k w = (.ok (), w')) :
    ∃ v, (getitem E o k w).1 = .ok v ∧ w'.log = w.log ++ [⟨.removed v o k, w'.children⟩] := by
  have h0 := hE.getitem k hw hcl
  simp only [delPipe, lifecycleDel, M.bind_apply] at h
  revert h h0
  rcases getitem E o k w with ⟨e' | x, w1⟩
  · intro h _; cases h
  · intro h h0
    have h1 := logR_silent_del hE.reference hr o k w1 h0.wf
    refine ⟨x, rfl, ?_⟩
    simp only at h
    revert h h1
    rcases delPipe E r o k w1 with ⟨e' | u, w2⟩
    · intro h _; cases h
    · simp only [getO_apply]
      intro h h1
      have h2 : (w2.objs o).suppress = false := ((h1.suppress o).trans (h0.suppress o)).trans hs
      simp only [h2, Bool.false_eq_true, if_false, notify_apply, Prod.mk.injEq, true_and] at h
      subst h
      show w2.log ++ _ = _
      rw [h1.log, h0.log]; rfl

/-- C34: a deletion that raises emits nothing; one that returns emits exactly one removed
event, with the value the node returned for the key just before. -/
theorem c34_del {w : World} {o : Oid} (hE : DelReads E (clsOf E w o)) (hw : WF w) {l r : List Bhv}
    (hc : Emits (clsOf E w o) l r) (hs : (w.objs o).suppress = false) (k : Key) :
    (∀ e, (delitem E o k w).1 = .error e → (delitem E o k w).2.log = w.log) ∧
    ((delitem E o k w).1 = .ok () →
      (∃ k' v w1, dest (clsOf E w o).aliaser l k = some (.child k') ∧
        (∀ p, w1.children p = w.children p) ∧ (getitem E o k' w1).1 = .ok v ∧
        (delitem E o k w).2.log = w.log ++ [⟨.removed v o k', (delitem E o k w).2.children⟩]) ∨
      (∃ k', dest (clsOf E w o).aliaser l k = some (.nodespace k') ∧
        (delitem E o k w).2.log = w.log)) := by
  have ht := delPipe_thru l (.lifecycle :: r) (hc.refLeft hE) hc.left o _
    (fun k w e w' hw hcl h => lifecycle_del_err (hc.reads hE) hc.right hw hcl h) k hw rfl
  rw [← hc.stack] at ht
  refine ⟨fun e he => (ht.err e he).log, fun hok => ?_⟩
  rcases ht.ok hok with ⟨k', h1, h2⟩ | ⟨k', w1, h1, h2, hch, h3⟩
  · exact .inr ⟨k', h1, h2.log⟩
  · obtain ⟨v, h4, h5⟩ := lifecycle_del_ok (hc.reads hE) hc.right h2.wf (congrArg E.cls (h2.cls o)) ((h2.suppress o).trans hs) h3
    exact .inl ⟨k', v, w1, h1, hch, h4, h5.trans (by rw [h2.log]; rfl)⟩

/-- Left of `Lifecycle`, pass-through behaviors do nothing on deletion. -/
theorem delPipe_passes {l r : List Bhv} (hp : ∀ b ∈ l, b.passes = true) (hl : ¬ Loud l)
    (hcl : CacheLast (l ++ .lifecycle :: r)) {k : Key} (hk : Plain l k) (o : Oid) :
    delPipe E (l ++ .lifecycle :: r) o k = delPipe E (.lifecycle :: r) o k := by
  induction l with
  | nil => rfl
  | cons b t ih =>
    have ih := ih (fun b hb => hp b (List.mem_cons_of_mem _ hb)) (fun h => hl h.cons) hcl.2 hk.tail
    have hb := hp b List.mem_cons_self
    cases b
    case lifecycle => exact absurd (.inl List.mem_cons_self) hl
    case cache => exact absurd (by simp) (hcl.1 rfl)
    case nodespaces =>
      obtain ⟨s, rfl, hs⟩ := hk List.mem_cons_self
      show nodespacesDel (delPipe E (t ++ .lifecycle :: r) o) o (.str s) = _
      simp only [nodespacesDel, not_reserved hs, Bool.false_eq_true, if_false]
      exact ih
    all_goals first
      | exact ih
      | exact nomatch hb

/-- C34: on a node that works as an ordered map the removed event carries the child that
was stored, and the subscriber no longer sees it. -/
theorem c34_del_plain {w : World} {o : Oid} (hE : DelReads E (clsOf E w o)) (hw : WF w) {l r : List Bhv}
    (hc : Emits (clsOf E w o) l r) (hm : MapClass (clsOf E w o)) (hcoh : Coh E (· = o) w)
    (hs : (w.objs o).suppress = false) {k : Key} (hk : KeyFor (clsOf E w o) k)
    (hok : (delitem E o k w).1 = .ok ()) :
    ∃ v, (w.omap o).val k = some v ∧
      (delitem E o k w).2.log = w.log ++ [⟨.removed v o k, (delitem E o k w).2.children⟩] ∧
      (delitem E o k w).2.omap o = (w.omap o).del k := by
  obtain ⟨w2, h2, hd⟩ := delitem_pt hm hw hcoh rfl hk
  have hmem : k ∈ (w.children o).keys := by
    by_cases h : k ∈ (w.children o).keys
    · exact h
    · rw [h2, if_neg h] at hok; exact nomatch hok
  have hpl : delitem E o k w = delPipe E (.lifecycle :: r) o k w := by
    show delPipe E (clsOf E w o).bhvs o k w = _
    rw [hc.stack, delPipe_passes (fun b hb => hm.passes b (hc.stack ▸ List.mem_append_left _ hb))
      hc.left (hc.stack ▸ hm.cacheLast) (hc.plain hk)]
  obtain ⟨v, h3, h4⟩ := lifecycle_del_ok (w' := (delitem E o k w).2) (hc.reads hE) hc.right hw rfl hs
    (hpl.symm.trans (Prod.ext hok rfl))
  obtain ⟨w1, h5, -⟩ := getitem_pt hm hw hcoh rfl hk
  refine ⟨v, ?_, h4, ?_⟩
  · rw [h5] at h3
    show (w.children o).get? k = some v
    simp only [lookup] at h3
    revert h3
    cases (w.children o).get? k with
    | none => intro h; cases h
    | some x => intro h; cases h; rfl
  · rw [h2]
    have := hd.children o
    rw [if_pos ⟨rfl, hmem⟩] at this
    simp only [World.omap, this, toMap_del (hw.children_nodup o)]

/-! ### The log mirrors the history -/

/-- What an event says about the children of `o`. -/
def Event.on (o : Oid) : Event → OMap Key Val → OMap Key Val
  | .added v p k, m => if p = o then m.set k v else m
  | .removed _ p k, m => if p = o then m.del k else m
  | .detached _ p k, m => if p = o then m.del k else m
  | _, m => m

/-- The children of `o` reconstructed from events. -/
def replay (o : Oid) (evs : List Logged) (m : OMap Key Val) : OMap Key Val :=
  evs.foldl (fun m x => x.event.on o m) m

theorem replay_append (o : Oid) (a b : List Logged) (m : OMap Key Val) :
    replay o (a ++ b) m = replay o b (replay o a m) := List.foldl_append

/-- Events that say nothing about `o` were added. -/
structure LogOff (o : Oid) (w w' : World) : Prop where
  log : ∃ evs, w'.log = w.log ++ evs ∧ ∀ m, replay o evs m = m
  suppress : (w'.objs o).suppress = (w.objs o).suppress

theorem logOff_pre (o : Oid) : PreR (LogOff o) :=
  ⟨fun _ => ⟨⟨[], by simp, fun _ => rfl⟩, rfl⟩, fun h h' => by
    obtain ⟨a, ha, ra⟩ := h.log
    obtain ⟨b, hb, rb⟩ := h'.log
    exact ⟨⟨a ++ b, by rw [hb, ha, List.append_assoc], fun m => by
      rw [replay_append, ra, rb]⟩, h'.suppress.trans h.suppress⟩⟩

/-- `LogOff` on well-formed heaps. -/
def LogOffR (o : Oid) (w w' : World) : Prop := WF w → WF w' ∧ LogOff o w w'

theorem logOffR_pre (o : Oid) : PreR (LogOffR o) :=
  ⟨fun w hw => ⟨hw, (logOff_pre o).refl w⟩, fun h h' hw =>
    ⟨(h' (h hw).1).1, (logOff_pre o).trans (h hw).2 (h' (h hw).1).2⟩⟩

theorem logOffR_of {o : Oid} {α : Type} {m : M α} (h : Pres LogR m) : Pres (LogOffR o) m :=
  fun w hw => ⟨(h w hw).wf, ⟨[], by rw [(h w hw).log]; simp, fun _ => rfl⟩, (h w hw).suppress o⟩

theorem logOffR_notify {o : Oid} {e : Event} (he : ∀ m, e.on o m = m) :
    Pres (LogOffR o) (notify e) := fun w hw =>
  ⟨hw.setLog _, ⟨[⟨e, w.children⟩], rfl, fun m => he m⟩, rfl⟩

theorem logOffR_set {o p : Oid} (hne : p ≠ o) (k : Key) (v : Val) :
    Pres (LogOffR o) (setitem E p k v) := by
  have hp : SetPrims0 E (LogOffR o) p v :=
    have h := logR_setPrims E p v
    ⟨logOffR_pre o, fun c hc => logOffR_of (h.iter c hc), fun k => logOffR_of (h.setEnd k),
     fun k => logOffR_of (h.nsPut k), fun c k hc => logOffR_of (h.name c k hc),
     fun c q hc => logOffR_of (h.parent c q hc), fun k => logOffR_of (h.cacheDrop k),
     fun c hc => logOffR_of (h.merge c hc)⟩
  exact fun w => hp.setPipe _ (fun _ k => logOffR_notify fun m => if_neg hne)
    (fun _ q => logOffR_notify fun m => rfl) k w

/-- The relation for constructors: `o` exists already. -/
def LogNew (o : Oid) (w w' : World) : Prop := o < w.nobj → LogOff o w w' ∧ w.nobj ≤ w'.nobj

theorem logNew_pre (o : Oid) : PreR (LogNew o) :=
  ⟨fun w _ => ⟨(logOff_pre o).refl w, Nat.le_refl _⟩, fun h h' ho =>
    have h1 := h ho
    have h2 := h' (Nat.lt_of_lt_of_le ho h1.2)
    ⟨(logOff_pre o).trans h1.1 h2.1, Nat.le_trans h1.2 h2.2⟩⟩

theorem logNew_modO (o p : Oid) (f : Obj → Obj) (hf : ∀ b, (f b).suppress = b.suppress) :
    Pres (LogNew o) (modO p f) := fun w _ =>
  ⟨⟨⟨[], by simp, fun _ => rfl⟩, proj_upd Obj.suppress w.objs p _ (hf _) o⟩, Nat.le_refl _⟩

theorem logNew_setUuidRef (o p : Oid) (u : Option Nat) : Pres (LogNew o) (setUuidRef p u) := by
  have hid : ∀ w w' : World, w'.log = w.log → (w'.objs o).suppress = (w.objs o).suppress →
      w'.nobj = w.nobj → LogNew o w w' := fun w w' h1 h2 h3 _ =>
    ⟨⟨⟨[], by rw [h1]; simp, fun _ => rfl⟩, h2⟩, Nat.le_of_eq h3.symm⟩
  refine pres_bind (logNew_pre o) (pres_of_id (logNew_pre o) (indexRef_id _)) fun r => ?_
  refine pres_bind (logNew_pre o) (pres_getW (logNew_pre o)) fun w => ?_
  refine pres_ite (logNew_pre o) (pres_raise (logNew_pre o) _) ?_
  refine pres_bind (logNew_pre o) (fun w => hid _ _ rfl rfl rfl) fun _ => ?_
  exact logNew_modO o p _ fun _ => rfl

theorem logNew_referenceInit (o p : Oid) : Pres (LogNew o) (referenceInit p) := by
  have hid : ∀ w w' : World, w'.log = w.log → (w'.objs o).suppress = (w.objs o).suppress →
      w'.nobj = w.nobj → LogNew o w w' := fun w w' h1 h2 h3 _ =>
    ⟨⟨⟨[], by rw [h1]; simp, fun _ => rfl⟩, h2⟩, Nat.le_of_eq h3.symm⟩
  refine pres_bind (logNew_pre o) (fun w => hid _ _ rfl (proj_upd Obj.suppress w.objs p _ (by rfl) o) rfl)
    fun _ => ?_
  exact pres_bind (logNew_pre o) (fun w => hid _ _ rfl rfl rfl) fun u => logNew_setUuidRef o p (some u)

theorem logNew_newNodeN (o : Oid) (n : Nat) (c : ClassId) (name : Key) (parent : Option Oid) :
    Pres (LogNew o) (newNodeN E n c name parent) := by
  have hR := logNew_pre o
  induction n generalizing c name parent with
  | zero => exact pres_raise hR _
  | succ n ih =>
    refine pres_bind hR (fun w ho => ⟨⟨⟨[], by simp [alloc], fun _ => rfl⟩, ?_⟩, Nat.le_succ _⟩)
      fun p => ?_
    · show (upd w.objs w.nobj { cls := c } o).suppress = _
      rw [upd_other _ _ (Nat.ne_of_lt ho)]
    · refine pres_bind hR ?_ fun _ => pres_pure hR _
      have hname : ∀ p k, Pres (LogNew o) (modO p fun ob => { ob with name := k }) := fun p k =>
        logNew_modO o p _ fun _ => rfl
      have hpar : ∀ p q, Pres (LogNew o) (modO p fun ob => { ob with parent := q }) := fun p q =>
        logNew_modO o p _ fun _ => rfl
      have hloop : ∀ l, Pres (LogNew o) (initPipe.loop (fun c' => newNodeN E n c' .none none) p l) := by
        intro l
        induction l with
        | nil => exact pres_pure hR _
        | cons a t iht =>
          refine pres_bind hR (ih _ _ _) fun q => pres_bind hR (hname q _) fun _ =>
            pres_bind hR (hpar q _) fun _ => pres_bind hR ?_ fun _ => iht
          exact logNew_modO o p _ fun _ => rfl
      generalize (E.cls c).bhvs = all
      suffices ∀ bs, Pres (LogNew o) (initPipe E (fun c' => newNodeN E n c' .none none) all bs p name
          parent) from this all
      intro bs
      induction bs with
      | nil =>
        exact pres_ite hR (pres_bind hR (hname p _) fun _ => hpar p _) (pres_pure hR _)
      | cons b r ihb =>
        cases b
        case reference => exact pres_bind hR (logNew_referenceInit o p) fun _ => ihb
        case lifecycle =>
          exact pres_bind hR ihb fun _ w _ =>
            ⟨⟨⟨[⟨.created p, w.children⟩], rfl, fun _ => rfl⟩, rfl⟩, Nat.le_refl _⟩
        case uuidAware =>
          refine pres_bind hR ihb fun _ => pres_bind hR (fun w _ => ?_) fun u =>
            pres_ite hR (logNew_setUuidRef o p (some u)) (logNew_modO o p _ fun _ => rfl)
          exact ⟨⟨⟨[], by simp [freshUuid], fun _ => rfl⟩, rfl⟩, Nat.le_refl _⟩
        case fixedChildren =>
          exact pres_bind hR ihb fun _ => pres_bind hR (logNew_modO o p _ fun _ => rfl) fun _ =>
            pres_bind hR (pres_getW hR) fun _ => hloop _
        all_goals exact ihb

theorem dest_append (al : Option Aliaser) (l r : List Bhv) (k : Key) :
    dest al (l ++ r) k = match dest al l k with
      | some (.child k') => dest al r k'
      | d => d := by
  induction l generalizing k with
  | nil => rfl
  | cons b t ih =>
    cases b
    case alias =>
      simp only [List.cons_append, dest]
      cases al with
      | none => exact ih k
      | some a =>
        simp only
        split
        · split
          · exact ih _
          · rfl
        · exact ih k
    case nodespaces =>
      simp only [List.cons_append, dest]
      split
      · split
        · rfl
        · exact ih _
      · rfl
    all_goals exact ih k

/-- `o` notifies, and neither `Alias` nor `Nodespaces` stands right of its `Lifecycle`. -/
structure Notifies (E : Env) (o : Oid) (w : World) : Prop where
  exists' : o < w.nobj
  emits : ∃ l r, Emits (clsOf E w o) l r ∧ Bhv.alias ∉ r ∧ Bhv.nodespaces ∉ r
  suppress : (w.objs o).suppress = false

/-- New events reconstruct the new children from the old ones. -/
def Mirrors (E : Env) (o : Oid) (w w' : World) : Prop :=
  WF w → Notifies E o w → WF w' ∧ Notifies E o w' ∧
    ∃ evs, w'.log = w.log ++ evs ∧ w'.omap o = replay o evs (w.omap o)

theorem mirrors_pre (o : Oid) : PreR (Mirrors E o) :=
  ⟨fun _ hw hn => ⟨hw, hn, [], by simp, rfl⟩, fun h h' hw hn => by
    obtain ⟨a1, a2, ea, a3, a4⟩ := h hw hn
    obtain ⟨b1, b2, eb, b3, b4⟩ := h' a1 a2
    exact ⟨b1, b2, ea ++ eb, by rw [b3, a3, List.append_assoc], by rw [b4, a4, replay_append]⟩⟩

theorem Notifies.mono {o : Oid} {w w' : World} (h : Notifies E o w) (hn : w.nobj ≤ w'.nobj)
    (hc : (w'.objs o).cls = (w.objs o).cls)
    (hs : (w'.objs o).suppress = (w.objs o).suppress) : Notifies E o w' :=
  ⟨Nat.lt_of_lt_of_le h.exists' hn, by
    obtain ⟨l, r, h1⟩ := h.emits
    exact ⟨l, r, by rw [show clsOf E w' o = clsOf E w o from congrArg E.cls hc]; exact h1⟩,
   hs.trans h.suppress⟩

theorem mirrors_still {o : Oid} {w w' : World} (h : Quiet w w') : Mirrors E o w w' := fun hw hn =>
  have ⟨h1, h2⟩ := h hw
  ⟨h1, hn.mono (Nat.le_of_eq h2.nobj.symm) (h2.obj o).cls (h2.obj o).suppress, [], by rw [h2.log]; simp,
    by simp only [World.omap, h2.children o]; rfl⟩

theorem mirrors_off {o : Oid} {w w' : World} (h : LogOff o w w') (hw' : WF w')
    (hno : w.nobj ≤ w'.nobj) (hc : (w'.objs o).cls = (w.objs o).cls)
    (hch : w'.children o = w.children o) (hn : Notifies E o w) : WF w' ∧ Notifies E o w' ∧
    ∃ evs, w'.log = w.log ++ evs ∧ w'.omap o = replay o evs (w.omap o) := by
  obtain ⟨evs, h1, h2⟩ := h.log
  exact ⟨hw', hn.mono hno hc h.suppress, evs, h1, by simp only [World.omap, hch, h2]⟩

theorem mirrors_set (o p : Oid) (k : Key) (v : Val) : Pres (Mirrors E o) (setitem E p k v) := by
  intro w hw hn
  have hk := keep_setitem E p k v w
  have hout := setitem_out E p k v hw
  by_cases hne : p = o
  · subst hne
    obtain ⟨l, r, hc, ha, hns⟩ := hn.emits
    have h34 := c34_set hw hc hn.suppress k v
    have hN : Notifies E p (setitem E p k v w).2 :=
      hn.mono (Nat.le_of_eq hk.nobj.symm) (hk.cls p) (hk.suppress p)
    have hal : Bhv.attributesLifecycle ∉ bhvsOf E w p := by
      show _ ∉ (clsOf E w p).bhvs
      rw [hc.stack]
      intro hm
      rcases List.mem_append.mp hm with h | h
      · exact hc.left (.inr h)
      · rcases List.mem_cons.mp h with h | h
        · cases h
        · exact hc.right (.inr h)
    rcases hx : (setitem E p k v w).1 with e | u
    · refine ⟨hk.wf hw, hN, [], ?_, ?_⟩
      · rw [h34.1 e hx]; simp
      · rcases hout.err e hx with h | ⟨h, -⟩
        · simp only [World.omap, h p]; rfl
        · exact absurd h hal
    · have hch := hout.ok hx
      rw [show bhvsOf E w p = (clsOf E w p).bhvs from rfl, hc.stack, dest_append] at hch
      rcases h34.2 hx with ⟨k', h1, h2⟩ | ⟨k', h1, h2⟩
      · refine ⟨hk.wf hw, hN, [_], h2, ?_⟩
        rw [h1] at hch
        simp only [dest] at hch
        rw [dest_free _ ha fun h => absurd h hns] at hch
        have := hch p
        rw [if_pos rfl] at this
        simp only [World.omap, this, toMap_set, replay, List.foldl_cons, List.foldl_nil, Event.on,
          if_true]
      · refine ⟨hk.wf hw, hN, [], by rw [h2]; simp, ?_⟩
        rw [h1] at hch
        simp only [World.omap, show _ = _ from hch p]; rfl
  · obtain ⟨h1, h2⟩ := logOffR_set (E := E) hne k v w hw
    refine mirrors_off h2 h1 (Nat.le_of_eq hk.nobj.symm) (hk.cls o) ?_ hn
    have hs : ∀ d, ChildSet w (setitem E p k v w).2 p v d →
        (setitem E p k v w).2.children o = w.children o := by
      intro d hd
      rcases d with _ | ⟨k' | k'⟩
      · exact hd.elim
      · have := hd o; rw [if_neg (Ne.symm hne)] at this; exact this
      · exact hd o
    rcases hx : (setitem E p k v w).1 with e | u
    · rcases hout.err e hx with h | ⟨-, -, h⟩
      · exact h o
      · exact hs _ h
    · exact hs _ (hout.ok hx)

theorem mirrors_new (o : Oid) (c : ClassId) (n : Key) (p : Option Oid) : Pres (Mirrors E o) (newNode E c n p) := by
  intro w hw hn
  rcases newNode_cases E c n p with e | e
  rotate_left
  · rw [e]; exact (mirrors_pre o).refl w hw hn
  obtain ⟨b1, -, b3, -⟩ := newNode_builds E c n p hw
  have h := logNew_newNodeN (E := E) o E.depth c n p w hn.exists'
  rw [← e] at h
  exact mirrors_off h.1 b1 h.2 (b3.cls o hn.exists') (b3.children o hn.exists') hn

/-- Reading mirrors: what a child factory makes on a read is announced like every other assignment. -/
theorem mirrors_read (o : Oid) : ReadPrims E (Mirrors E o) where
  pre := mirrors_pre o
  steps := readSteps_of_quiet fun _ _ h => mirrors_still h.1
  fbGuard := fbGuard_of_quiet (mirrors_pre o) fun _ _ h => mirrors_still h
  make p _ _ := .inl (pres_makeAt (mirrors_pre o) (mirrors_new o) (mirrors_set o p))

/-- Steps without event that leave the children of `o` alone. -/
theorem mirrors_same {o : Oid} {w w' : World} (h : LogR w w') (hno : w.nobj ≤ w'.nobj)
    (hch : WF w → w'.children o = w.children o) : Mirrors E o w w' := fun hw hn =>
  have h1 := h hw
  mirrors_off ⟨⟨[], by rw [h1.log]; simp, fun _ => rfl⟩, h1.suppress o⟩ h1.wf hno (h1.cls o) (hch hw) hn

theorem mirrors_unindex (o p : Oid) (us : List Nat) : Pres (Mirrors E o) (indexDelete p us) := fun w =>
  have h := hidden_indexDelete p us w
  mirrors_same (logR_indexDelete p us w) (Nat.le_of_eq h.nobj.symm) fun _ => h.children o

theorem chc_nsDrop (p : Oid) (k : Key) : Pres ChC (nsDrop p k) :=
  pres_bind chc_pre (chc_of_quiet (nodespacesRef_quiet p)) fun r =>
    pres_bind chc_pre (pres_getW chc_pre) fun _ => pres_ite chc_pre
      (fun w hw => ⟨(logR_setNspaces r (fun w => (w.nspaces r).del k)
        (fun w hw => Od.nodup_keys_del (hw.nNd r) k) w hw).wf, fun _ => rfl, fun _ => rfl, fun _ => rfl⟩)
      (pres_raise chc_pre _)

theorem mirrors_nsDrop (o p : Oid) (k : Key) : Pres (Mirrors E o) (nsDrop p k) := fun w =>
  mirrors_same (logR_nsDrop p k w) ((grow_delPrims E p).nsDrop k w).nobj fun hw => (chc_nsDrop p k w hw).2.1 o

theorem mirrors_cacheDrop (o p : Oid) (k : Key) : Pres (Mirrors E o) (cacheDrop p k) := fun w =>
  mirrors_still (cacheDrop_quiet p k w)

theorem mirrors_notify {o : Oid} {e : Event} (he : ∀ m, e.on o m = m) : Pres (Mirrors E o) (notify e) :=
  fun w hw hn =>
    have h := logOffR_notify (o := o) he w hw
    mirrors_off h.2 h.1 (Nat.le_refl _) rfl rfl hn

/-- Deleting from another node. -/
theorem mirrors_delOther {o p : Oid} (hne : p ≠ o) : DelPrims0 E (Mirrors E o) p where
  pre := mirrors_pre o
  getitem := (mirrors_read o).getitem
  iter q := (mirrors_read o).steps.iter q
  delEnd k w := mirrors_same (logR_delEnd E p k w) ((grow_delPrims E p).delEnd k w).nobj fun hw => by
    have h := delEnd_out E p k hw none
    rcases hx : (delEnd E p k w).1 with e | u
    · rcases h.err e hx with h | ⟨h, -⟩
      · exact h o
      · cases h
    · have := (h.ok hx).2 o
      rwa [if_neg (Ne.symm hne)] at this
  nsDrop := mirrors_nsDrop o p
  cacheDrop := mirrors_cacheDrop o p
  unindex := mirrors_unindex o p

/-- What a deletion does right of `Lifecycle`: reads, and then the one entry is gone or nothing. -/
def Drops (E : Env) (o : Oid) (k : Key) (w : World) (x : Except Exc Unit × World) : Prop :=
  ∃ w1, Mirrors E o w w1 ∧ LogR w1 x.2 ∧ w1.nobj ≤ x.2.nobj ∧
    (WF w1 → (∀ e, x.1 = .error e → x.2.children o = w1.children o) ∧
      (x.1 = .ok () → x.2.children o = (w1.children o).del k))

theorem Drops.of_pre {o : Oid} {k : Key} {w w0 : World} {x : Except Exc Unit × World} (h : Drops E o k w0 x)
    (h0 : Mirrors E o w w0) : Drops E o k w x := by
  obtain ⟨w1, h1, h2⟩ := h
  exact ⟨w1, (mirrors_pre o).trans h0 h1, h2⟩

theorem Drops.raised {o : Oid} {k : Key} {w w0 : World} {e : Exc} (h : Mirrors E o w w0) :
    Drops E o k w (.error e, w0) :=
  ⟨w0, h, logR_pre.refl w0, Nat.le_refl _, fun _ => ⟨fun _ _ => rfl, fun h => nomatch h⟩⟩

theorem drops_bind {o : Oid} {k : Key} {α : Type} {m : M α} {f : α → M Unit} (hm : Pres (Mirrors E o) m)
    (hf : ∀ a w, Drops E o k w (f a w)) (w : World) : Drops E o k w ((m >>= f) w) := by
  have h := hm w
  simp only [M.bind_apply]
  revert h
  rcases m w with ⟨e | a, w1⟩
  · exact fun h => .raised h
  · exact fun h => (hf a w1).of_pre h

theorem mirrors_unindexed (o p : Oid) (v : Val) : Pres (Mirrors E o) (referenceUnindex E p v) :=
  pres_referenceUnindex (mirrors_pre o) (mirrors_read o).getitem
    (fun q => (mirrors_read o).steps.iter q) (mirrors_unindex o p) v

theorem drops_right {r : List Bhv} (hr : ¬ Loud r) (ha : Bhv.alias ∉ r) (hns : Bhv.nodespaces ∉ r) (o : Oid) (k : Key)
    (w : World) : Drops E o k w (delPipe E r o k w) := by
  induction r generalizing w with
  | nil =>
    refine ⟨w, (mirrors_pre o).refl w, logR_delEnd E o k w, ((grow_delPrims E o).delEnd k w).nobj, fun hw => ?_⟩
    have h := delEnd_out E o k hw none
    refine ⟨fun e he => ?_, fun hok => ?_⟩
    · rcases h.err e he with h | ⟨h, -⟩
      · exact h o
      · cases h
    · have := (h.ok hok).2 o
      rwa [if_pos rfl] at this
  | cons b r ih =>
    have ih := ih (fun h => hr h.cons) (fun h => ha (List.mem_cons_of_mem _ h))
      fun h => hns (List.mem_cons_of_mem _ h)
    cases b
    case nodespaces => exact absurd List.mem_cons_self hns
    case alias => exact absurd List.mem_cons_self ha
    case lifecycle => exact absurd (.inl List.mem_cons_self) hr
    case attributesLifecycle => exact absurd (.inr List.mem_cons_self) hr
    case reference =>
      exact drops_bind ((mirrors_read o).getitem o k) (fun v => drops_bind (mirrors_unindexed o o v) fun _ => ih) w
    case cache => exact drops_bind (mirrors_cacheDrop o o k) (fun _ => ih) w
    all_goals exact ih w

/-- Deleting from `o`: the removed event follows the removal. -/
theorem mirrors_lifecycleDel {r : List Bhv} (hr : ¬ Loud r) (ha : Bhv.alias ∉ r) (hns : Bhv.nodespaces ∉ r)
    (o : Oid) (k : Key) : Pres (Mirrors E o) (delPipe E (.lifecycle :: r) o k) := by
  refine pres_bind (mirrors_pre o) ((mirrors_read o).getitem o k) fun v w hw hn => ?_
  obtain ⟨w1, h1, h2, h3, h4⟩ := drops_right (E := E) hr ha hns o k w
  obtain ⟨hw1, hn1, e1, g1, g2⟩ := h1 hw hn
  have h2 := h2 hw1
  have h4 := h4 hw1
  simp only [M.bind_apply]
  revert h2 h3 h4
  rcases delPipe E r o k w with ⟨e | u, w2⟩
  · intro h3 h2 h4
    refine ⟨h2.wf, hn1.mono h3 (h2.cls o) (h2.suppress o), e1, h2.log.trans g1, ?_⟩
    rw [← g2]
    simp only [World.omap, h4.1 e rfl]
  · intro h3 h2 h4
    have hs : (w2.objs o).suppress = false := (h2.suppress o).trans hn1.suppress
    simp only [getO_apply, hs, Bool.false_eq_true, if_false, notify_apply]
    refine ⟨h2.wf.setLog _, hn1.mono h3 (h2.cls o) (h2.suppress o), e1 ++ [⟨.removed v o k, w2.children⟩], ?_, ?_⟩
    · show w2.log ++ _ = _
      rw [h2.log, g1, List.append_assoc]
    · rw [replay_append, ← g2]
      show (w2.children o).toMap = _
      rw [h4.2 rfl, toMap_del (hw1.children_nodup o)]
      simp only [replay, List.foldl_cons, List.foldl_nil, Event.on, if_true]
      rfl

theorem mirrors_del (o p : Oid) (k : Key) : Pres (Mirrors E o) (delitem E p k) := by
  by_cases hne : p = o
  · subst hne
    intro w hw hn
    obtain ⟨l, r, hc, ha, hns⟩ := hn.emits
    have h := pres_delPipe_append (mirrors_pre p) ((mirrors_read (E := E) p).getitem p) (mirrors_unindexed p p)
      (mirrors_nsDrop p p) (mirrors_cacheDrop p p) hc.left (mirrors_lifecycleDel hc.right ha hns p) k w hw hn
    rw [← hc.stack] at h
    exact h
  · intro w
    exact (mirrors_delOther hne).delPipe (clsOf E w p).bhvs (fun _ v k => mirrors_notify fun m => if_neg hne)
      (fun _ q => mirrors_notify fun m => rfl) k w

theorem mirrors_prims (o : Oid) : MapPrims E (Mirrors E o) where
  pre := mirrors_pre o
  getitem := (mirrors_read o).getitem
  iter p := (mirrors_read o).steps.iter p
  setitem p k v := mirrors_set o p k v
  delitem p k := mirrors_del o p k
  newNode := mirrors_new o

/-- C34: over every history of mapping operations and constructor calls on any nodes, of whatever
classes, replaying the events emitted since a moment onto the children `o` had at that moment gives
the children it has now: no change without its event, no event without its change, all
in order.  Children that factories make when they are read are announced too. -/
theorem c34_replay {w : World} (hw : WF w) {o : Oid} (hn : Notifies E o w)
    {ops : List Op} (ho : ∀ op ∈ ops, op.mapping = true) :
    ∃ evs, (execAll E ops w).2.log = w.log ++ evs ∧
      (execAll E ops w).2.omap o = replay o evs (w.omap o) :=
  ((mirrors_prims o).execAll ops ho w hw hn).2.2

end Verif
