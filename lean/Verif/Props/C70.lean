import Verif.Lemmas.Groups
import Verif.Lemmas.SepApi
import Verif.Lemmas.Grow
import Verif.Sample

/-!
# C70: programs that share no node do not influence each other's nodes

Sessions take turns; each has only the nodes its own operations returned.  Whatever a session does, with
whatever classes and whether its operations return or raise, nothing that another session can get at
changes, and nothing that existed before.
-/

namespace Verif

variable {E : Env} {κ : Type} [DecidableEq κ]

/-- The nodes each session has in hand are of its group. -/
structure Held (col : Oid → Option κ) (K : κ → List Oid) (w : World) : Prop where
  wf : WF w
  intact : Intact w
  grouped : Grouped col w
  hand : ∀ k, ∀ c ∈ K k, c < w.nobj ∧ col c = some k

omit [DecidableEq κ] in
theorem Held.start {w : World} (hw : WF w) (hi : Intact w) : Held (κ := κ) (fun _ => none) (fun _ => []) w where
  wf := hw
  intact := hi
  grouped := ⟨fun _ _ => rfl, fun _ _ => rfl, fun _ _ _ => rfl, fun _ _ _ => rfl, fun _ _ _ => rfl,
    fun _ _ _ => rfl, fun _ _ _ _ => rfl⟩
  hand _ _ h := nomatch h

/-- One operation of session `k`. -/
theorem Held.step {col : Oid → Option κ} {K : κ → List Oid} {w : World} (h : Held col K w) {k : κ} {op : Op}
    (hu : ∀ c, Val.node c ∈ op.vals → c ∈ K k) :
    Held (regroup col (some k) w) (receive E K k op w) (exec E op w).2 ∧ w.nobj ≤ (exec E op w).2.nobj ∧
      ∀ p, p < w.nobj → col p ≠ some k → Unchanged w (exec E op w).2 p := by
  have hv : ∀ c, Val.node c ∈ op.vals → Good (protOthers col (some k) w) w.nobj c := fun c hc =>
    ⟨fun hq => hq.2 (h.hand k c (hu c hc)).2, (h.hand k c (hu c hc)).1⟩
  obtain ⟨h1, h2, h3⟩ := sep_exec (E := E) op (n := w.nobj) (fun v hm c hc => hv c (hc ▸ hm)) w
    (grouped_inv h.intact h.grouped) (Nat.le_refl _)
  refine ⟨⟨(grow_exec E op w).wf h.wf, ?_, h1.regroup h.wf h.intact h.grouped, ?_⟩, h2, fun p hp hk =>
    h1.unchanged_others h.wf h.intact h.grouped hp hk⟩
  · exact Intact.execAll (ops := [op]) h.intact ⟨fun c hc => ⟨(hv c hc).2, trivial⟩, trivial⟩
  · intro j c hc
    unfold receive at hc
    split at hc
    · rename_i e
      subst e
      rcases List.mem_append.mp hc with hc | hc
      · obtain ⟨g1, g2⟩ := h.hand j c hc
        exact ⟨Nat.lt_of_lt_of_le g1 h2, (regroup_old g1).trans g2⟩
      · cases hr : (exec E op w).1 with
        | error e => rw [hr] at hc; cases hc
        | ok a =>
          rw [hr] at hc
          obtain ⟨v, hv, hvc⟩ := List.mem_filterMap.mp hc
          cases v with
          | data d => cases hvc
          | node x =>
            injection hvc with hvc
            subst hvc
            have := (h3 a hr _ hv).node
            exact ⟨this.2, regroup_good this⟩
    · obtain ⟨g1, g2⟩ := h.hand j c hc
      exact ⟨Nat.lt_of_lt_of_le g1 h2, (regroup_old g1).trans g2⟩

/-- The operations, whoever they belong to. -/
abbrev turns (ops : List (κ × Op)) : List Op := ops.map Prod.snd

/-- Any number of turns. -/
theorem Held.turns {col : Oid → Option κ} {K : κ → List Oid} {w : World} (h : Held col K w) {ops : List (κ × Op)}
    (hu : Sessions E K ops w) : ∃ col', Held col' (inHand E K ops w) (execAll E (turns ops) w).2 ∧
      w.nobj ≤ (execAll E (Verif.turns ops) w).2.nobj ∧ (∀ p, p < w.nobj → col' p = col p) ∧
      ∀ p, p < w.nobj → (∀ x ∈ ops, col p ≠ some x.1) → Unchanged w (execAll E (Verif.turns ops) w).2 p := by
  induction ops generalizing col K w with
  | nil => exact ⟨col, h, Nat.le_refl _, fun _ _ => rfl, fun _ _ _ => ⟨rfl, rfl, rfl, rfl, rfl⟩⟩
  | cons x r ih =>
    obtain ⟨k, op⟩ := x
    obtain ⟨g1, g2, g3⟩ := h.step (E := E) hu.1
    obtain ⟨col', k1, k2, k3, k4⟩ := ih g1 hu.2
    refine ⟨col', k1, Nat.le_trans g2 k2, fun p hp => ?_, fun p hp hn => ?_⟩
    · rw [k3 p (Nat.lt_of_lt_of_le hp g2), regroup_old hp]
    · have u1 := g3 p hp (hn _ List.mem_cons_self)
      have u2 := k4 p (Nat.lt_of_lt_of_le hp g2) fun y hy => by
        rw [regroup_old hp]; exact hn y (List.mem_cons_of_mem _ hy)
      exact ⟨u2.obj.trans u1.obj, u2.children.trans u1.children, u2.cached.trans u1.cached,
        u2.nsview.trans u1.nsview, u2.indexed.trans u1.indexed⟩

theorem sessions_append {K : κ → List Oid} {a b : List (κ × Op)} {w : World} :
    Sessions E K (a ++ b) w ↔ Sessions E K a w ∧ Sessions E (inHand E K a w) b (execAll E (turns a) w).2 := by
  induction a generalizing K w with
  | nil => exact ⟨fun h => ⟨trivial, h⟩, fun h => h.2⟩
  | cons x r ih =>
    obtain ⟨k, op⟩ := x
    exact ⟨fun h => ⟨⟨h.1, (ih.mp h.2).1⟩, (ih.mp h.2).2⟩, fun h => ⟨h.1.1, ih.mpr ⟨h.1.2, h.2⟩⟩⟩

section
variable {w : World} (hw : WF w) (hi : Intact w) {a b : List (κ × Op)}
  (h : Sessions E (fun _ => []) (a ++ b) w)
include hw hi h

/-- While only others have their turn, nothing a session can get at changes. -/
theorem c70_isolated {j : κ} (hb : ∀ x ∈ b, x.1 ≠ j) {c p : Oid} (hc : c ∈ inHand E (fun _ => []) a w j)
    (hp : GetsAt (execAll E (turns a) w).2 c p) :
    Unchanged (execAll E (turns a) w).2 (execAll E (turns b) (execAll E (turns a) w).2).2 p := by
  obtain ⟨ha, hb'⟩ := sessions_append.mp h
  obtain ⟨col, h1, _, _, _⟩ := (Held.start hw hi).turns ha
  obtain ⟨_, _, _, _, h4⟩ := h1.turns hb'
  obtain ⟨g1, g2⟩ := h1.hand j c hc
  obtain ⟨g3, g4⟩ := hp.group h1.intact h1.grouped g1
  exact h4 p g3 fun x hx he => hb x hx (by rw [g4, g2] at he; injection he with he; exact he.symm)

/-- What existed before the sessions began does not change. -/
theorem c70_existing {p : Oid} (hp : p < w.nobj) : Unchanged w (execAll E (turns (a ++ b)) w).2 p := by
  obtain ⟨_, _, _, _, h4⟩ := (Held.start hw hi).turns h
  exact h4 p hp fun _ _ => nofun

/-- No node can be got at by two sessions. -/
theorem c70_disjoint {j k : κ} (hjk : j ≠ k) {c d p : Oid} (hc : c ∈ inHand E (fun _ => []) a w j)
    (hd : d ∈ inHand E (fun _ => []) a w k) (hp : GetsAt (execAll E (turns a) w).2 c p) :
    w.nobj ≤ p ∧ ¬ GetsAt (execAll E (turns a) w).2 d p := by
  obtain ⟨ha, _⟩ := sessions_append.mp h
  obtain ⟨col, h1, _, h3, _⟩ := (Held.start hw hi).turns ha
  obtain ⟨g1, g2⟩ := h1.hand j c hc
  obtain ⟨_, g4⟩ := hp.group h1.intact h1.grouped g1
  refine ⟨Nat.le_of_not_lt fun hlt => ?_, fun hq => ?_⟩
  · have := h3 p hlt
    rw [g4, g2] at this
    cases this
  · obtain ⟨e1, e2⟩ := h1.hand k d hd
    have := (hq.group h1.intact h1.grouped e1).2
    rw [g4, g2, e2] at this
    injection this with this
    exact hjk this
end

/-- One operation, of whatever classes, changes only nodes that have to do with those it is given, whether it
returns or raises. -/
theorem c70_local {w : World} (hw : WF w) (hi : Intact w) {op : Op}
    (hu : ∀ c, Val.node c ∈ op.vals → c < w.nobj) {p : Oid} (hp : p < w.nobj)
    (hn : ∀ c, Val.node c ∈ op.vals → ¬ Connected w c p) : Unchanged w (exec E op w).2 p := by
  have hm : ∀ c, c ∈ op.vals.filterMap (fun v => match v with
      | .node c => some c
      | .data _ => none) → Val.node c ∈ op.vals := fun c hc => by
    obtain ⟨v, hv, e⟩ := List.mem_filterMap.mp hc
    cases v with
    | node d => injection e with e; exact e ▸ hv
    | data d => cases e
  refine sep_frame _ hw hi (fun Γ h => sep_tt (sep_exec op fun v hv c hc => h c ?_)) (fun o ho => hu o (hm o ho)) hp
    (fun o ho => hn o (hm o ho))
  exact List.mem_filterMap.mpr ⟨v, hv, by rw [hc]⟩

/-! ### Two sessions -/

/-- Session `true` builds a tree of nodes with references and attributes; session `false` builds another,
moves a child, detaches and clears. -/
def c70Ops : List (Bool × Op) :=
  [(true, .new 2 (.str ['r']) none), (false, .new 2 (.str ['s']) none), (true, .new 2 .none none),
   (true, .set 0 ka (.node 2)), (true, .attrs 2)]

/-- What `false` does next. -/
def c70More : List (Bool × Op) :=
  [(false, .new 2 .none none), (false, .set 1 ka (.node 4)), (false, .get 1 ka), (false, .detach 1 ka),
   (false, .attrs 1), (false, .clear 1), (false, .set 1 kb (.node 1))]

/-- Whether the operations are given nodes in hand only. -/
def sessionsB [DecidableEq κ] (E : Env) : (κ → List Oid) → List (κ × Op) → World → Bool
  | _, [], _ => true
  | K, (k, op) :: r, w =>
    (op.vals.all fun v => match v with
      | .node c => (K k).contains c
      | .data _ => true) && sessionsB E (receive E K k op w) r (exec E op w).2

theorem sessions_of_sessionsB {K : κ → List Oid} {ops : List (κ × Op)} {w : World} (h : sessionsB E K ops w = true) :
    Sessions E K ops w := by
  induction ops generalizing K w with
  | nil => trivial
  | cons x r ih =>
    obtain ⟨k, op⟩ := x
    obtain ⟨h1, h2⟩ := Bool.and_eq_true_iff.mp h
    refine ⟨fun c hc => ?_, ih h2⟩
    have := List.all_eq_true.mp h1 _ hc
    simpa using this

theorem c70Sessions : Sessions sampleEnv (fun _ => []) (c70Ops ++ c70More) {} :=
  sessions_of_sessionsB (by decide +kernel)

/-- The attributes `3` of the child `2` are not touched. -/
example : GetsAt (execAll sampleEnv (turns c70Ops) {}).2 0 3 ∧
    Unchanged (execAll sampleEnv (turns c70Ops) {}).2
      (execAll sampleEnv (turns c70More) (execAll sampleEnv (turns c70Ops) {}).2).2 3 := by
  have hg : GetsAt (execAll sampleEnv (turns c70Ops) {}).2 0 3 :=
    .space (p := 2) (k := attrsKey) (.child (p := 0) (q := 2) (k := ka) .self (by decide +kernel)) (by decide +kernel)
  exact ⟨hg, c70_isolated WF.empty Intact.empty c70Sessions (j := true) (by decide) (by decide +kernel) hg⟩

end Verif
