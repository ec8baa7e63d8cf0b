import Verif.Model.Locking

/-!
# C50, C51: tree locks

C50 is refuted by the race in `TreeLock.__init__`: two threads can both find no lock, create
one each, and run locked methods of the same tree at once.  Once the root has its lock and
nobody is about to replace it, exclusion is proved for every schedule of any number of threads.
-/

namespace Verif.Locking

/-! ### Specification -/

/-- Thread `t` is inside a locked method of the tree with root `r` (it may be inside several). -/
def Busy (σ : State) (t : Tid) (r : Root) : Prop := ∃ l, Item.release r l ∈ (σ.thr t).stack

/-- How often a thread holds a lock. -/
def held (σ : State) (l : LockId) (t : Tid) : Nat :=
  match σ.lock l with
  | some (o, n) => if o = t then n else 0
  | none => 0

/-- How many locked methods with lock `l` are open in a stack. -/
def opened (l : LockId) (s : List Item) : Nat :=
  (s.filter fun | .release _ l' => l' == l | _ => false).length

/-- The item concerns the tree `r` only through the lock `l`. -/
def Via (r : Root) (l : LockId) : Item → Prop
  | .create r' _ => r' ≠ r
  | .acquire r' l' _ => r' = r → l' = l
  | .release r' l' => r' = r → l' = l
  | _ => True

/-- The tree has its lock and everybody uses this one. -/
structure Settled (r : Root) (l : LockId) (σ : State) : Prop where
  set : σ.treelock r = some l
  via : ∀ t, ∀ i ∈ (σ.thr t).stack, Via r l i

/-! ### Invariants -/

/-- The count of every lock is the number of open methods of its owner. -/
structure Inv (σ : State) : Prop where
  count : ∀ l t, held σ l t = opened l (σ.thr t).stack
  pos : ∀ l o n, σ.lock l = some (o, n) → 0 < n
  /-- Only the top of a stack is about to create or acquire. -/
  top : ∀ t i s, (σ.thr t).stack = i :: s → ∀ j ∈ s, (∀ r b, j ≠ .create r b) ∧ ∀ r l b, j ≠ .acquire r l b
  /-- And never while an exception is on its way. -/
  calm : ∀ t, (σ.thr t).raising = true → ∀ j ∈ (σ.thr t).stack, (∀ r b, j ≠ .create r b) ∧ ∀ r l b, j ≠ .acquire r l b

theorem put_same {α : Type} (f : Nat → α) (i : Nat) (a : α) : put f i a i = a := if_pos rfl

theorem put_other {α : Type} (f : Nat → α) {i j : Nat} (a : α) (h : j ≠ i) : put f i a j = f j := if_neg h

theorem opened_cons (l : LockId) (i : Item) (s : List Item) :
    opened l (i :: s) = opened l s + (match i with | .release _ l' => if l' = l then 1 else 0 | _ => 0) := by
  unfold opened
  cases i <;> simp only [List.filter_cons, Nat.add_zero] <;> try rfl
  rename_i r l'
  by_cases h : l' = l
  · subst h; simp
  · simp [h]

theorem opened_cmds (l : LockId) (b : List Cmd) (s : List Item) : opened l (b.map .cmd ++ s) = opened l s := by
  induction b with
  | nil => rfl
  | cons c b ih => exact ih

/-- Plain: neither creating nor acquiring. -/
def Plain (j : Item) : Prop := (∀ r b, j ≠ .create r b) ∧ ∀ r l b, j ≠ .acquire r l b

theorem plain_cmds {b : List Cmd} {s : List Item} (h : ∀ j ∈ s, Plain j) : ∀ j ∈ b.map Item.cmd ++ s, Plain j := by
  intro j hj
  rcases List.mem_append.mp hj with h1 | h1
  · obtain ⟨c, -, rfl⟩ := List.mem_map.mp h1
    exact ⟨fun _ _ h => (nomatch h), fun _ _ _ h => (nomatch h)⟩
  · exact h j h1

/-- A step that does not touch locks. -/
theorem Inv.move {σ σ' : State} (h : Inv σ) {t : Tid} {th : Thread} (hthr : σ'.thr = put σ.thr t th)
    (hlock : σ'.lock = σ.lock) (hc : ∀ l, opened l th.stack = opened l (σ.thr t).stack)
    (htop : ∀ i s, th.stack = i :: s → ∀ j ∈ s, Plain j) (hcalm : th.raising = true → ∀ j ∈ th.stack, Plain j) :
    Inv σ' := by
  refine ⟨fun l t' => ?_, fun l o n hl => h.pos l o n (by rw [← hlock]; exact hl), fun t' i s hs => ?_, fun t' hr => ?_⟩
  · have : held σ' l t' = held σ l t' := by unfold held; rw [hlock]
    rw [this, h.count, hthr]
    by_cases e : t' = t
    · subst e; rw [put_same, hc]
    · rw [put_other _ _ e]
  · rw [hthr] at hs
    by_cases e : t' = t
    · subst e; rw [put_same] at hs; exact htop i s hs
    · rw [put_other _ _ e] at hs; exact h.top t' i s hs
  · rw [hthr] at hr ⊢
    by_cases e : t' = t
    · subst e; rw [put_same] at hr ⊢; exact hcalm hr
    · rw [put_other _ _ e] at hr ⊢; exact h.calm t' hr

/-- What a release does, given that counts are right. -/
theorem Inv.release_ok {σ : State} (h : Inv σ) {t : Tid} {r : Root} {l : LockId} {s : List Item}
    (hs : (σ.thr t).stack = .release r l :: s) :
    ∃ n, σ.lock l = some (t, n + 1) ∧ opened l s = n ∧
      (σ.lock l).release t = some (if n = 0 then none else some (t, n)) := by
  have hc := h.count l t
  rw [hs, opened_cons] at hc
  simp only [if_true] at hc
  unfold held at hc
  cases hl : σ.lock l with
  | none => rw [hl] at hc; simp at hc
  | some k =>
    obtain ⟨o, n⟩ := k
    rw [hl] at hc
    by_cases e : o = t
    · subst e
      simp only [if_true] at hc
      refine ⟨opened l s, by rw [hc], rfl, ?_⟩
      simp only [RLock.release, if_true, hc]
      by_cases e0 : opened l s = 0
      · simp [e0]
      · rw [if_neg (by omega), if_neg e0]; simp
    · simp [e] at hc

theorem Inv.step {σ σ' : State} (h : Inv σ) (hst : Step σ σ') : Inv σ' := by
  obtain ⟨t, ht⟩ := hst
  unfold Locking.step at ht
  cases hs : (σ.thr t).stack with
  | nil => simp only [hs] at ht; cases ht
  | cons i s =>
    have hpl : ∀ j ∈ s, Plain j := h.top t i s hs
    have hsub : ∀ i' s', s = i' :: s' → ∀ j ∈ s', Plain j := fun i' s' e j hj =>
      hpl j (by rw [e]; exact List.mem_cons_of_mem _ hj)
    simp only [hs] at ht
    cases i with
    | release r l =>
      obtain ⟨n, h1, h2, h3⟩ := h.release_ok hs
      simp only [h3] at ht
      cases ht
      refine ⟨fun l' t' => ?_, fun l' o m hl => ?_, fun t' i' s' hs' => ?_, fun t' hr => ?_⟩
      · show (match put σ.lock l _ l' with | some (o, n) => if o = t' then n else 0 | none => 0) =
          opened l' (put σ.thr t _ t').stack
        have hc := h.count l' t'
        by_cases el : l' = l
        · subst el
          rw [put_same]
          by_cases et : t' = t
          · subst et
            rw [put_same]
            simp only [h2]
            by_cases e0 : n = 0
            · simp [e0]
            · simp [e0]
          · rw [put_other _ _ et, ← hc]
            have : t ≠ t' := fun e => et e.symm
            simp only [held, h1, this, if_false]
            by_cases e0 : n = 0
            · simp [e0]
            · simp [e0, this]
        · rw [put_other _ _ el]
          by_cases et : t' = t
          · subst et
            rw [put_same]
            rw [hs, opened_cons] at hc
            have : l ≠ l' := fun e => el e.symm
            simp only [this, if_false, Nat.add_zero] at hc
            exact hc
          · rw [put_other _ _ et]; exact hc
      · have hl : put σ.lock l _ l' = some (o, m) := hl
        by_cases el : l' = l
        · subst el
          rw [put_same] at hl
          by_cases e0 : n = 0
          · simp [e0] at hl
          · simp only [e0, if_false, Option.some.injEq, Prod.mk.injEq] at hl
            omega
        · rw [put_other _ _ el] at hl; exact h.pos _ _ _ hl
      · have hs' : (put σ.thr t _ t').stack = i' :: s' := hs'
        by_cases et : t' = t
        · subst et; rw [put_same] at hs'; exact hsub i' s' hs'
        · rw [put_other _ _ et] at hs'; exact h.top _ _ _ hs'
      · have hr : (put σ.thr t _ t').raising = true := hr
        show ∀ j ∈ (put σ.thr t _ t').stack, _
        by_cases et : t' = t
        · subst et; rw [put_same]; exact hpl
        · rw [put_other _ _ et] at hr ⊢; exact h.calm _ hr
    | caught =>
      cases ht
      exact h.move (t := t) rfl rfl (fun l => by rw [hs]; rfl) hsub (fun hr => (nomatch hr))
    | cmd c =>
      cases hr : (σ.thr t).raising with
      | true =>
        simp only [hr, if_true] at ht
        cases ht
        exact h.move (t := t) rfl rfl (fun l => by rw [hs]; rfl) hsub (fun _ => hpl)
      | false =>
        simp only [hr, Bool.false_eq_true, if_false] at ht
        cases c with
        | work =>
          cases ht
          exact h.move (t := t) rfl rfl (fun l => by rw [hs]; rfl) hsub (fun hh => absurd hh (by simp))
        | fail =>
          cases ht
          exact h.move (t := t) rfl rfl (fun l => by rw [hs]; rfl) hsub (fun _ => hpl)
        | guard b =>
          cases ht
          have hp : ∀ j ∈ b.map Item.cmd ++ .caught :: s, Plain j := plain_cmds fun j hj => by
            rcases List.mem_cons.mp hj with rfl | hj
            · exact ⟨fun _ _ h => (nomatch h), fun _ _ _ h => (nomatch h)⟩
            · exact hpl j hj
          exact h.move (t := t) rfl rfl (fun l => by rw [hs]; show opened l (b.map .cmd ++ _) = _; rw [opened_cmds]; rfl)
            (fun i' s' e j hj => hp j (by
              have e : b.map Item.cmd ++ .caught :: s = i' :: s' := e
              rw [e]; exact List.mem_cons_of_mem _ hj)) (fun hh => absurd hh (by simp))
        | locked r b =>
          cases hl : σ.treelock r with
          | some l =>
            simp only [hl] at ht
            cases ht
            refine h.move (t := t) rfl rfl (fun l => by rw [hs]; rfl) (fun i' s' e => ?_)
              (fun hh => absurd hh (by simp))
            have e := List.cons.inj (show Item.acquire r l b :: s = i' :: s' from e)
            rw [← e.2]; exact hpl
          | none =>
            simp only [hl] at ht
            cases ht
            refine h.move (t := t) rfl rfl (fun l => by rw [hs]; rfl) (fun i' s' e => ?_)
              (fun hh => absurd hh (by simp))
            have e := List.cons.inj (show Item.create r b :: s = i' :: s' from e)
            rw [← e.2]; exact hpl
    | create r b =>
      have hr : (σ.thr t).raising = false := by
        cases hr : (σ.thr t).raising with
        | false => rfl
        | true => exact absurd rfl ((h.calm t hr _ (by rw [hs]; exact List.mem_cons_self)).1 r b)
      cases ht
      refine h.move (t := t) rfl rfl (fun l => by rw [hs]; rfl) (fun i' s' e => ?_)
        (fun hh => ?_)
      · have e := List.cons.inj (show Item.acquire r σ.nlock b :: s = i' :: s' from e)
        rw [← e.2]; exact hpl
      · have hh : (σ.thr t).raising = true := hh
        rw [hr] at hh; cases hh
    | acquire r l b =>
      have hr : (σ.thr t).raising = false := by
        cases hr : (σ.thr t).raising with
        | false => rfl
        | true => exact absurd rfl ((h.calm t hr _ (by rw [hs]; exact List.mem_cons_self)).2 r l b)
      cases hk : (σ.lock l).acquire t with
      | none => simp only [hk] at ht; cases ht
      | some k =>
        simp only [hk] at ht
        cases ht
        have hp : ∀ j ∈ b.map Item.cmd ++ .release r l :: s, Plain j := plain_cmds fun j hj => by
          rcases List.mem_cons.mp hj with rfl | hj
          · exact ⟨fun _ _ h => (nomatch h), fun _ _ _ h => (nomatch h)⟩
          · exact hpl j hj
        have hk' : k = some (t, opened l s + 1) ∧ ∀ t', t' ≠ t → held σ l t' = 0 := by
          have hc := h.count l t
          rw [hs, opened_cons] at hc
          simp only [Nat.add_zero] at hc
          unfold held at hc ⊢
          cases hlk : σ.lock l with
          | none =>
            rw [hlk] at hc hk
            simp only [RLock.acquire, Option.some.injEq] at hk
            exact ⟨by rw [← hk, ← hc], fun _ _ => rfl⟩
          | some on =>
            obtain ⟨o, n⟩ := on
            rw [hlk] at hc hk
            simp only [RLock.acquire] at hk
            by_cases e : o = t
            · subst e
              simp only [if_true, Option.some.injEq] at hk hc
              exact ⟨by rw [← hk, ← hc], fun t' ht' => by
                have : o ≠ t' := fun e => ht' e.symm
                simp [this]⟩
            · simp [e] at hk
        refine ⟨fun l' t' => ?_, fun l' o m hl => ?_, fun t' i' s' hs' => ?_, fun t' hr' => ?_⟩
        · show (match put σ.lock l _ l' with | some (o, n) => if o = t' then n else 0 | none => 0) =
            opened l' (put σ.thr t _ t').stack
          have hc := h.count l' t'
          by_cases el : l' = l
          · subst el
            rw [put_same, hk'.1]
            by_cases et : t' = t
            · subst et
              rw [put_same]
              show _ = opened l' (b.map .cmd ++ .release r l' :: s)
              rw [opened_cmds, opened_cons]
              simp
            · rw [put_other _ _ et, ← hc, hk'.2 t' et]
              have : t ≠ t' := fun e => et e.symm
              simp [this]
          · rw [put_other _ _ el]
            by_cases et : t' = t
            · subst et
              rw [put_same]
              show _ = opened l' (b.map .cmd ++ .release r l :: s)
              rw [hs, opened_cons] at hc
              have : l ≠ l' := fun e => el e.symm
              rw [opened_cmds, opened_cons]
              simp only [this, if_false, Nat.add_zero] at hc ⊢
              exact hc
            · rw [put_other _ _ et]; exact hc
        · have hl : put σ.lock l _ l' = some (o, m) := hl
          by_cases el : l' = l
          · subst el
            rw [put_same, hk'.1] at hl
            cases hl
            exact Nat.succ_pos _
          · rw [put_other _ _ el] at hl; exact h.pos _ _ _ hl
        · have hs' : (put σ.thr t _ t').stack = i' :: s' := hs'
          by_cases et : t' = t
          · subst et; rw [put_same] at hs'
            intro j hj
            refine hp j ?_
            have hs' : b.map Item.cmd ++ .release r l :: s = i' :: s' := hs'
            rw [hs']; exact List.mem_cons_of_mem _ hj
          · rw [put_other _ _ et] at hs'; exact h.top _ _ _ hs'
        · have hr' : (put σ.thr t _ t').raising = true := hr'
          show ∀ j ∈ (put σ.thr t _ t').stack, _
          by_cases et : t' = t
          · subst et; rw [put_same] at hr'
            have hr' : (σ.thr t').raising = true := hr'
            rw [hr] at hr'; cases hr'
          · rw [put_other _ _ et] at hr' ⊢; exact h.calm _ hr'

theorem Start.inv {σ : State} (h : Start σ) : Inv σ := by
  have hplain : ∀ t, ∀ j ∈ (σ.thr t).stack, Plain j := fun t j hj => by
    obtain ⟨c, rfl⟩ := (h.cmds t).2 j hj
    exact ⟨fun _ _ h => (nomatch h), fun _ _ _ h => (nomatch h)⟩
  refine ⟨fun l t => ?_, fun l o n hl => ?_, fun t i s hs j hj => ?_, fun t _ => hplain t⟩
  · have h1 : held σ l t = 0 := by unfold held; rw [h.free l]
    rw [h1]
    have h2 : ∀ s : List Item, (∀ i ∈ s, ∃ c, i = .cmd c) → opened l s = 0 := by
      intro s
      induction s with
      | nil => exact fun _ => rfl
      | cons i s ih =>
        intro hs
        obtain ⟨c, rfl⟩ := hs i List.mem_cons_self
        exact ih fun j hj => hs j (List.mem_cons_of_mem _ hj)
    exact (h2 _ (h.cmds t).2).symm
  · rw [h.free l] at hl; cases hl
  · exact hplain t j (by rw [hs]; exact List.mem_cons_of_mem _ hj)

theorem Steps.inv {σ σ' : State} (h : Steps σ σ') (hi : Inv σ) : Inv σ' := by
  induction h with
  | refl => exact hi
  | tail _ hs ih => exact ih.step hs

/-! ### Everybody keeps using the lock of a tree -/

theorem via_cmds {r : Root} {l : LockId} {b : List Cmd} {s : List Item} (h : ∀ j ∈ s, Via r l j) :
    ∀ j ∈ b.map Item.cmd ++ s, Via r l j := by
  intro j hj
  rcases List.mem_append.mp hj with h1 | h1
  · obtain ⟨c, -, rfl⟩ := List.mem_map.mp h1
    exact trivial
  · exact h j h1

theorem Settled.move {r : Root} {l : LockId} {σ σ' : State} (h : Settled r l σ) {t : Tid} {th : Thread}
    (hthr : σ'.thr = put σ.thr t th) (hset : σ'.treelock r = σ.treelock r) (hv : ∀ j ∈ th.stack, Via r l j) :
    Settled r l σ' := by
  refine ⟨hset.trans h.set, fun t' => ?_⟩
  rw [hthr]
  by_cases e : t' = t
  · subst e; rw [put_same]; exact hv
  · rw [put_other _ _ e]; exact h.via t'

theorem Settled.step {r : Root} {l : LockId} {σ σ' : State} (h : Settled r l σ) (hst : Step σ σ') :
    Settled r l σ' := by
  obtain ⟨t, ht⟩ := hst
  unfold Locking.step at ht
  cases hs : (σ.thr t).stack with
  | nil => simp only [hs] at ht; cases ht
  | cons i s =>
    have hi : Via r l i := h.via t i (by rw [hs]; exact List.mem_cons_self)
    have hv : ∀ j ∈ s, Via r l j := fun j hj => h.via t j (by rw [hs]; exact List.mem_cons_of_mem _ hj)
    have hcons : ∀ {k : Item}, Via r l k → ∀ j ∈ k :: s, Via r l j := fun hk j hj => by
      rcases List.mem_cons.mp hj with rfl | hj
      · exact hk
      · exact hv j hj
    simp only [hs] at ht
    cases i with
    | release r' l' =>
      cases hk : (σ.lock l').release t with
      | none => simp only [hk] at ht; cases ht; exact h.move (t := t) rfl rfl hv
      | some k => simp only [hk] at ht; cases ht; exact h.move (t := t) rfl rfl hv
    | caught => cases ht; exact h.move (t := t) rfl rfl hv
    | cmd c =>
      cases hr : (σ.thr t).raising with
      | true => simp only [hr, if_true] at ht; cases ht; exact h.move (t := t) rfl rfl hv
      | false =>
        simp only [hr, Bool.false_eq_true, if_false] at ht
        cases c with
        | work => cases ht; exact h.move (t := t) rfl rfl hv
        | fail => cases ht; exact h.move (t := t) rfl rfl hv
        | guard b => cases ht; exact h.move (t := t) rfl rfl (via_cmds (hcons trivial))
        | locked r' b =>
          cases hl : σ.treelock r' with
          | some l' =>
            simp only [hl] at ht; cases ht
            refine h.move (t := t) rfl rfl (hcons fun e => ?_)
            subst e
            exact Option.some.inj (hl.symm.trans h.set)
          | none =>
            simp only [hl] at ht; cases ht
            refine h.move (t := t) rfl rfl (hcons (show r' ≠ r from fun e => ?_))
            subst e
            rw [h.set] at hl; cases hl
    | create r' b =>
      have hne : r' ≠ r := hi
      cases ht
      exact h.move (t := t) rfl (put_other _ _ fun e => hne e.symm) (hcons fun e => absurd e hne)
    | acquire r' l' b =>
      cases hk : (σ.lock l').acquire t with
      | none => simp only [hk] at ht; cases ht
      | some k =>
        simp only [hk] at ht; cases ht
        exact h.move (t := t) rfl rfl (via_cmds (hcons hi))

theorem Steps.settled {r : Root} {l : LockId} {σ σ' : State} (h : Steps σ σ') (hi : Settled r l σ) :
    Settled r l σ' := by
  induction h with
  | refl => exact hi
  | tail _ hs ih => exact ih.step hs

theorem opened_pos {r : Root} {l : LockId} {s : List Item} (h : Item.release r l ∈ s) : 0 < opened l s :=
  List.length_pos_of_mem (List.mem_filter.mpr ⟨h, by simp⟩)

theorem opened_mem {l : LockId} {s : List Item} (h : 0 < opened l s) : ∃ r, Item.release r l ∈ s := by
  obtain ⟨i, hi⟩ := List.exists_mem_of_length_pos h
  obtain ⟨h1, h2⟩ := List.mem_filter.mp hi
  cases i with
  | release r l' => exact ⟨r, by rw [← (beq_iff_eq.mp h2)]; exact h1⟩
  | _ => cases h2

theorem held_owner {σ : State} {l : LockId} {t : Tid} (h : 0 < held σ l t) : ∃ n, σ.lock l = some (t, n) := by
  unfold held at h
  cases hl : σ.lock l with
  | none => rw [hl] at h; cases h
  | some k =>
    obtain ⟨o, n⟩ := k
    rw [hl] at h
    by_cases e : o = t
    · subst e; exact ⟨n, rfl⟩
    · simp [e] at h

/-! ### C50 -/

/-- Two threads are never inside methods locked by the same lock. -/
theorem c50_same_lock {σ₀ σ : State} (h₀ : Start σ₀) (h : Steps σ₀ σ) {t t' : Tid} {r r' : Root} {l : LockId}
    (ht : Item.release r l ∈ (σ.thr t).stack) (ht' : Item.release r' l ∈ (σ.thr t').stack) : t = t' := by
  have hi := h.inv h₀.inv
  obtain ⟨n, h1⟩ := held_owner (σ := σ) (l := l) (t := t) (by rw [hi.count]; exact opened_pos ht)
  obtain ⟨m, h2⟩ := held_owner (σ := σ) (l := l) (t := t') (by rw [hi.count]; exact opened_pos ht')
  rw [h1] at h2
  exact congrArg Prod.fst (Option.some.inj h2)

/-- From any moment at which the tree has its lock and everybody who is entering or inside uses
it, no two threads are ever inside locked methods of the tree. -/
theorem c50_settled {σ₀ σ₁ σ : State} (h₀ : Start σ₀) (h₁ : Steps σ₀ σ₁) {r : Root} {l : LockId}
    (hs : Settled r l σ₁) (h : Steps σ₁ σ) {t t' : Tid} (ht : Busy σ t r) (ht' : Busy σ t' r) : t = t' := by
  have hv := h.settled hs
  have hi := h.inv (h₁.inv h₀.inv)
  obtain ⟨l1, h1⟩ := ht
  obtain ⟨l2, h2⟩ := ht'
  rw [hv.via t _ h1 rfl] at h1
  rw [hv.via t' _ h2 rfl] at h2
  obtain ⟨n, h1⟩ := held_owner (σ := σ) (l := l) (t := t) (by rw [hi.count]; exact opened_pos h1)
  obtain ⟨m, h2⟩ := held_owner (σ := σ) (l := l) (t := t') (by rw [hi.count]; exact opened_pos h2)
  rw [h1] at h2
  exact congrArg Prod.fst (Option.some.inj h2)

theorem Start.settled {σ : State} (h : Start σ) {r : Root} {l : LockId} (hl : σ.treelock r = some l) :
    Settled r l σ := by
  refine ⟨hl, fun t i hi => ?_⟩
  obtain ⟨c, rfl⟩ := (h.cmds t).2 i hi
  exact trivial

/-- If the root has its lock before the threads start, then for every schedule of any number of
threads, no two of them are ever inside locked methods of the tree.  Missing for C50: the lock
may be created while several threads enter. -/
theorem c50_partial {σ₀ σ : State} (h₀ : Start σ₀) {r : Root} {l : LockId} (hl : σ₀.treelock r = some l)
    (h : Steps σ₀ σ) {t t' : Tid} (ht : Busy σ t r) (ht' : Busy σ t' r) : t = t' :=
  c50_settled h₀ (.refl _) (h₀.settled hl) h ht ht'

/-- The thread that creates the lock while nobody else is entering or inside settles the tree:
from then on `c50_settled` holds. -/
theorem c50_first {σ σ' : State} {r : Root} {t : Tid} {b : List Cmd} {s : List Item}
    (hs : (σ.thr t).stack = .create r b :: s) (hst : step t σ = some σ')
    (hoth : ∀ t', ∀ i ∈ (if t' = t then s else (σ.thr t').stack),
      (∀ b, i ≠ .create r b) ∧ (∀ l b, i ≠ .acquire r l b) ∧ ∀ l, i ≠ .release r l) :
    Settled r σ.nlock σ' := by
  have hvia : ∀ i : Item, ((∀ b, i ≠ .create r b) ∧ (∀ l b, i ≠ .acquire r l b) ∧ ∀ l, i ≠ .release r l) →
      Via r σ.nlock i := by
    intro i hi
    cases i with
    | create r' b' => exact fun e => hi.1 b' (by rw [e])
    | acquire r' l' b' => exact fun e => absurd (by rw [e]) (hi.2.1 l' b')
    | release r' l' => exact fun e => absurd (by rw [e]) (hi.2.2 l')
    | _ => exact trivial
  unfold step at hst
  simp only [hs] at hst
  cases hst
  refine ⟨put_same _ _ _, fun t' => ?_⟩
  show ∀ i ∈ (put σ.thr t _ t').stack, _
  have ho := hoth t'
  by_cases e : t' = t
  · subst e
    rw [put_same]
    rw [if_pos rfl] at ho
    intro i hi
    rcases List.mem_cons.mp hi with rfl | hi
    · exact fun _ => rfl
    · exact hvia i (ho i hi)
  · rw [put_other _ _ e]
    rw [if_neg e] at ho
    exact fun i hi => hvia i (ho i hi)

/-! ### Runs for concrete cases -/

/-- Steps of the given threads in the given order. -/
def run (σ : State) : List Tid → Option State
  | [] => some σ
  | t :: ts => (step t σ).bind fun σ' => run σ' ts

theorem steps_run {σ₁ : State} {ts : List Tid} {σ σ' : State} (h₁ : Steps σ₁ σ) (h : run σ ts = some σ') : Steps σ₁ σ' := by
  induction ts generalizing σ with
  | nil => cases h; exact h₁
  | cons t ts ih =>
    cases hst : step t σ with
    | none => simp [run, hst] at h
    | some σ2 =>
      simp only [run, hst, Option.bind_some] at h
      exact ih (.tail h₁ ⟨t, hst⟩) h

/-- The last state of a run that does not block. -/
def upto (σ : State) (ts : List Tid) : State := (run σ ts).getD σ

theorem steps_upto (σ : State) (ts : List Tid) : Steps σ (upto σ ts) := by
  unfold upto
  cases h : run σ ts with
  | none => exact .refl _
  | some σ' => exact steps_run (.refl _) h

/-- Programs for the first threads. -/
def start (ps : List (List Cmd)) (tl : Root → Option LockId) (n : Nat) : State :=
  { thr := fun t => { stack := (ps.getD t []).map .cmd }, treelock := tl, nlock := n }

theorem start_start (ps : List (List Cmd)) (tl : Root → Option LockId) (n : Nat)
    (h : ∀ r l, tl r = some l → l < n) : Start (start ps tl n) :=
  ⟨fun _ => ⟨rfl, fun _ hi => by
    obtain ⟨c, -, rfl⟩ := List.mem_map.mp hi
    exact ⟨c, rfl⟩⟩, fun _ => rfl, h⟩

/-- Two threads call a locked method of a tree without a lock. -/
def racers : State := start [[.locked 0 [.locked 0 []]], [.locked 0 [.work]]] (fun _ => none) 0

/-- C50 fails: both threads read `_treelock` before one of them has written it; both are inside. -/
theorem c50_refuted : ∃ σ₀ σ t t' r, Start σ₀ ∧ Steps σ₀ σ ∧ t ≠ t' ∧ Busy σ t r ∧ Busy σ t' r :=
  ⟨racers, upto racers [0, 1, 0, 0, 1, 1], 0, 1, 0, start_start _ _ _ (fun _ _ h => nomatch h),
    steps_upto _ _, by decide, ⟨0, .tail _ (.head _)⟩, ⟨1, .tail _ (.head _)⟩⟩

/-- Three threads, nested and failing locked methods, on a tree that has its lock. -/
def locked3 : State :=
  start [[.locked 0 [.locked 0 [.work], .fail]], [.guard [.locked 0 [.fail]], .work], [.locked 0 [.work]]]
    (fun r => if r = 0 then some 0 else none) 1

theorem locked3_start : Start locked3 := start_start _ _ _ fun r l h => by
  by_cases e : r = 0
  · rw [if_pos e] at h; cases h; exact Nat.zero_lt_one
  · rw [if_neg e] at h; cases h

/-- The hypotheses of `c50_partial` are met with a thread inside and others waiting. -/
theorem c50_case : Busy (upto locked3 [0, 1, 1, 2, 0, 0, 0]) 0 0 ∧ step 1 (upto locked3 [0, 1, 1, 2, 0, 0, 0]) = none ∧
    ∀ t, Busy (upto locked3 [0, 1, 1, 2, 0, 0, 0]) t 0 → t = 0 :=
  have h : Busy (upto locked3 [0, 1, 1, 2, 0, 0, 0]) 0 0 := ⟨0, .tail _ (.head _)⟩
  ⟨h, rfl, fun _ ht => c50_partial locked3_start (l := 0) rfl (steps_upto _ _) ht h⟩

/-! ### C51 -/

/-- A thread holds a lock exactly as often as it is inside methods locked by it. -/
theorem c51_count {σ₀ σ : State} (h₀ : Start σ₀) (h : Steps σ₀ σ) (l : LockId) (t : Tid) :
    held σ l t = opened l (σ.thr t).stack := (h.inv h₀.inv).count l t

/-- When a locked method is over, whether it returned or raised, its thread holds every lock
exactly as often as when it was called. -/
theorem c51_balanced {σ₀ σ σ' : State} (h₀ : Start σ₀) (h : Steps σ₀ σ) (h' : Steps σ σ') {t : Tid} {r : Root}
    {b : List Cmd} {s : List Item} (hc : (σ.thr t).stack = .cmd (.locked r b) :: s) (hd : (σ'.thr t).stack = s)
    (l : LockId) : held σ' l t = held σ l t := by
  have hi := h.inv h₀.inv
  rw [(h'.inv hi).count, hi.count, hc, hd]; rfl

/-- A finished thread, whatever it died of, holds no lock. -/
theorem c51_finished {σ₀ σ : State} (h₀ : Start σ₀) (h : Steps σ₀ σ) {t : Tid} (hf : (σ.thr t).stack = [])
    (l : LockId) : held σ l t = 0 := by
  rw [c51_count h₀ h, hf]; rfl

/-- Releasing never fails, and passes on an exception exactly if there was one. -/
theorem c51_release {σ₀ σ : State} (h₀ : Start σ₀) (h : Steps σ₀ σ) {t : Tid} {r : Root} {l : LockId} {s : List Item}
    (hs : (σ.thr t).stack = .release r l :: s) :
    ∃ σ', step t σ = some σ' ∧ (σ'.thr t).stack = s ∧ (σ'.thr t).raising = (σ.thr t).raising ∧
      held σ l t = held σ' l t + 1 := by
  have hi := h.inv h₀.inv
  obtain ⟨n, h1, h2, h3⟩ := hi.release_ok hs
  have hst : step t σ = some { σ with
      lock := put σ.lock l (if n = 0 then none else some (t, n)),
      thr := put σ.thr t { (σ.thr t) with stack := s } } := by
    unfold step; simp only [hs, h3]
  refine ⟨_, hst, congrArg Thread.stack (put_same _ _ _),
    (congrArg Thread.raising (put_same σ.thr t { (σ.thr t) with stack := s })).trans rfl, ?_⟩
  have hi' := hi.step ⟨t, hst⟩
  rw [hi.count, hi'.count, hs, opened_cons]
  simp [put_same]

/-- A thread inside a locked method of a settled tree enters a further one at once: two steps of
its own, whatever the other threads are doing.  Missing for C51: the lock may still be replaced
by a thread that found none. -/
theorem c51_reenter_partial {σ₀ σ : State} (h₀ : Start σ₀) (h : Steps σ₀ σ) {r : Root} {l : LockId}
    (hs : Settled r l σ) {t : Tid} (hb : Busy σ t r) {b : List Cmd} {s : List Item}
    (hc : (σ.thr t).stack = .cmd (.locked r b) :: s) (hr : (σ.thr t).raising = false) :
    ∃ σ₁ σ₂, step t σ = some σ₁ ∧ step t σ₁ = some σ₂ ∧
      (σ₂.thr t).stack = b.map .cmd ++ .release r l :: s ∧ (σ₂.thr t).raising = false ∧
      held σ₂ l t = held σ l t + 1 := by
  have hi := h.inv h₀.inv
  obtain ⟨l', hm⟩ := hb
  rw [hs.via t _ hm rfl] at hm
  obtain ⟨n, hn⟩ := held_owner (σ := σ) (l := l) (t := t) (by rw [hi.count]; exact opened_pos hm)
  have h1 : step t σ = some { σ with thr := put σ.thr t { (σ.thr t) with stack := .acquire r l b :: s } } := by
    unfold step; simp only [hc, hr, hs.set]; rfl
  have hi1 := hi.step ⟨t, h1⟩
  have h2 : step t { σ with thr := put σ.thr t { (σ.thr t) with stack := .acquire r l b :: s } } =
      some { σ with
        lock := put σ.lock l (some (t, n + 1)),
        thr := put (put σ.thr t { (σ.thr t) with stack := .acquire r l b :: s }) t
          { (σ.thr t) with stack := b.map .cmd ++ .release r l :: s } } := by
    unfold step; simp only [put_same, hn, RLock.acquire, if_true]
  refine ⟨_, _, h1, h2, congrArg Thread.stack (put_same _ _ _), (congrArg Thread.raising (put_same _ _ _)).trans hr, ?_⟩
  rw [hi.count, (hi1.step ⟨t, h2⟩).count, hc]
  show opened l (Thread.stack (put _ t _ t)) = _
  rw [put_same]
  show opened l (b.map .cmd ++ _) = _
  rw [opened_cmds, opened_cons, opened_cons]
  simp

/-- C51 fails in the race: thread 0 is inside a locked method of the tree and blocks when it
enters another one, since thread 1 has replaced the lock and holds the new one. -/
theorem c51_refuted : ∃ σ₀ σ t r, Start σ₀ ∧ Steps σ₀ σ ∧ Busy σ t r ∧
    (∃ l b s, (σ.thr t).stack = .acquire r l b :: s) ∧ step t σ = none :=
  ⟨racers, upto racers [0, 1, 0, 0, 1, 1, 0], 0, 0, start_start _ _ _ (fun _ _ h => nomatch h),
    steps_upto _ _, ⟨0, .tail _ (.head _)⟩, ⟨1, _, _, rfl⟩, rfl⟩

/-- Thread 0 of `locked3` enters again while the other threads wait. -/
theorem c51_case : ∃ σ₁ σ₂, step 0 (upto locked3 [0, 1, 1, 2, 0]) = some σ₁ ∧ step 0 σ₁ = some σ₂ ∧
    held σ₂ 0 0 = 2 := by
  obtain ⟨σ1, σ2, h1, h2, -, -, h3⟩ := c51_reenter_partial (r := 0) (l := 0) (t := 0) locked3_start
    (steps_upto locked3 [0, 1, 1, 2, 0]) ((steps_upto _ _).settled (locked3_start.settled rfl))
    ⟨0, .tail _ (.tail _ (.head _))⟩ rfl rfl
  exact ⟨σ1, σ2, h1, h2, h3⟩

/-- After the failing method the exception is on its way and nothing is held; the next thread
goes on. -/
theorem c51_raise_case :
    ((upto locked3 [0, 0, 0, 0, 0, 0, 0, 0]).thr 0).stack = [] ∧
    ((upto locked3 [0, 0, 0, 0, 0, 0, 0, 0]).thr 0).raising = true ∧
    held (upto locked3 [0, 0, 0, 0, 0, 0, 0, 0]) 0 0 = 0 ∧
    Busy (upto locked3 [0, 0, 0, 0, 0, 0, 0, 0, 1, 1, 1]) 1 0 :=
  ⟨rfl, rfl, rfl, ⟨0, .tail _ (.head _)⟩⟩

/-! ### No deadlock on one tree -/

/-- A command that locks no other tree. -/
inductive Only (r : Root) : Cmd → Prop
  | work : Only r .work
  | fail : Only r .fail
  | locked {b : List Cmd} : (∀ c ∈ b, Only r c) → Only r (.locked r b)
  | guard {b : List Cmd} : (∀ c ∈ b, Only r c) → Only r (.guard b)

/-- Likewise for what is left to do. -/
def OnlyI (r : Root) : Item → Prop
  | .cmd c => Only r c
  | .create r' b => r' = r ∧ ∀ c ∈ b, Only r c
  | .acquire r' _ b => r' = r ∧ ∀ c ∈ b, Only r c
  | .release r' _ => r' = r
  | .caught => True

theorem only_cmds {r : Root} {b : List Cmd} {s : List Item} (hb : ∀ c ∈ b, Only r c) (h : ∀ j ∈ s, OnlyI r j) :
    ∀ j ∈ b.map Item.cmd ++ s, OnlyI r j := by
  intro j hj
  rcases List.mem_append.mp hj with h1 | h1
  · obtain ⟨c, hc, rfl⟩ := List.mem_map.mp h1
    exact hb c hc
  · exact h j h1

theorem only_step {r : Root} {σ σ' : State} (h : ∀ t, ∀ i ∈ (σ.thr t).stack, OnlyI r i) (hst : Step σ σ') :
    ∀ t, ∀ i ∈ (σ'.thr t).stack, OnlyI r i := by
  obtain ⟨t, ht⟩ := hst
  have key : ∀ {th : Thread}, σ'.thr = put σ.thr t th → (∀ i ∈ th.stack, OnlyI r i) →
      ∀ t, ∀ i ∈ (σ'.thr t).stack, OnlyI r i := fun hthr hv t' => by
    rw [hthr]
    by_cases e : t' = t
    · subst e; rw [put_same]; exact hv
    · rw [put_other _ _ e]; exact h t'
  unfold step at ht
  cases hs : (σ.thr t).stack with
  | nil => simp only [hs] at ht; cases ht
  | cons i s =>
    have hi : OnlyI r i := h t i (by rw [hs]; exact List.mem_cons_self)
    have hv : ∀ j ∈ s, OnlyI r j := fun j hj => h t j (by rw [hs]; exact List.mem_cons_of_mem _ hj)
    have hcons : ∀ {k : Item}, OnlyI r k → ∀ j ∈ k :: s, OnlyI r j := fun hk j hj => by
      rcases List.mem_cons.mp hj with rfl | hj
      · exact hk
      · exact hv j hj
    simp only [hs] at ht
    cases i with
    | release r' l' =>
      cases hk : (σ.lock l').release t with
      | none => simp only [hk] at ht; cases ht; exact key rfl hv
      | some k => simp only [hk] at ht; cases ht; exact key rfl hv
    | caught => cases ht; exact key rfl hv
    | cmd c =>
      cases hr : (σ.thr t).raising with
      | true => simp only [hr, if_true] at ht; cases ht; exact key rfl hv
      | false =>
        simp only [hr, Bool.false_eq_true, if_false] at ht
        have hi : Only r c := hi
        cases hi with
        | work => cases ht; exact key rfl hv
        | fail => cases ht; exact key rfl hv
        | guard hb => cases ht; exact key rfl (only_cmds hb (hcons trivial))
        | locked hb =>
          cases hl : σ.treelock r with
          | some l' => simp only [hl] at ht; cases ht; exact key rfl (hcons ⟨rfl, hb⟩)
          | none => simp only [hl] at ht; cases ht; exact key rfl (hcons ⟨rfl, hb⟩)
    | create r' b => cases ht; exact key rfl (hcons ⟨hi.1, hi.2⟩)
    | acquire r' l' b =>
      cases hk : (σ.lock l').acquire t with
      | none => simp only [hk] at ht; cases ht
      | some k => simp only [hk] at ht; cases ht; exact key rfl (only_cmds hi.2 (hcons hi.1))

/-- A thread with something to do blocks only at an `acquire` of a lock another thread owns. -/
theorem blocked {σ : State} {t : Tid} (hne : (σ.thr t).stack ≠ []) (hst : step t σ = none) :
    ∃ r l b s o n, (σ.thr t).stack = .acquire r l b :: s ∧ σ.lock l = some (o, n) ∧ o ≠ t := by
  unfold step at hst
  cases hs : (σ.thr t).stack with
  | nil => exact absurd hs hne
  | cons i s =>
    simp only [hs] at hst
    cases i with
    | release r' l' => cases hk : (σ.lock l').release t <;> simp only [hk] at hst <;> cases hst
    | caught => cases hst
    | create r' b => cases hst
    | cmd c =>
      cases hr : (σ.thr t).raising with
      | true => simp only [hr, if_true] at hst; cases hst
      | false =>
        simp only [hr, Bool.false_eq_true, if_false] at hst
        cases c with
        | locked r' b => cases hl : σ.treelock r' <;> simp only [hl] at hst <;> cases hst
        | _ => cases hst
    | acquire r' l' b =>
      cases hl : σ.lock l' with
      | none => simp only [hl, RLock.acquire] at hst; cases hst
      | some k =>
        obtain ⟨o, n⟩ := k
        by_cases e : o = t
        · simp only [hl, RLock.acquire, e, if_true] at hst; cases hst
        · exact ⟨r', l', b, s, o, n, rfl, hl, e⟩

/-- Threads that lock one settled tree only, however nested, never all wait for each other. -/
theorem c51_progress {σ₀ σ : State} (h₀ : Start σ₀) {r : Root} {l : LockId} (hl : σ₀.treelock r = some l)
    (ho : ∀ t c, Item.cmd c ∈ (σ₀.thr t).stack → Only r c) (h : Steps σ₀ σ) {t : Tid}
    (hne : (σ.thr t).stack ≠ []) : ∃ σ', Step σ σ' := by
  have hi := h.inv h₀.inv
  have hv := h.settled (h₀.settled hl)
  have hon : ∀ t, ∀ i ∈ (σ.thr t).stack, OnlyI r i := by
    clear hne hi hv
    induction h with
    | refl =>
      intro t i hi
      obtain ⟨c, rfl⟩ := (h₀.cmds t).2 i hi
      exact ho t c hi
    | tail _ hs ih => exact only_step ih hs
  have via : ∀ {t r' l' b s}, (σ.thr t).stack = .acquire r' l' b :: s → l' = l := fun {t r' l' b s} hs =>
    hv.via t (.acquire r' l' b) (by rw [hs]; exact List.mem_cons_self)
      (hon t (.acquire r' l' b) (by rw [hs]; exact List.mem_cons_self)).1
  cases hst : step t σ with
  | some σ' => exact ⟨σ', t, hst⟩
  | none =>
    obtain ⟨r1, l1, b1, s1, o, n, hs1, hl1, -⟩ := blocked hne hst
    have hown : opened l1 (σ.thr o).stack = n := by
      rw [← hi.count]; unfold held; rw [hl1]; exact if_pos rfl
    have hne' : (σ.thr o).stack ≠ [] := fun e => by
      rw [e] at hown
      exact Nat.lt_irrefl 0 ((show 0 = n from hown) ▸ hi.pos _ _ _ hl1 : 0 < 0)
    cases hst' : step o σ with
    | some σ' => exact ⟨σ', o, hst'⟩
    | none =>
      obtain ⟨r2, l2, b2, s2, o2, n2, hs2, hl2, hne2⟩ := blocked hne' hst'
      rw [via hs2, ← via hs1, hl1] at hl2
      exact absurd (congrArg Prod.fst (Option.some.inj hl2)).symm hne2

/-- With two trees locked in opposite order the threads can wait for each other for ever. -/
theorem c51_two_trees : ∃ σ₀ σ, Start σ₀ ∧ Steps σ₀ σ ∧ (∃ l, σ₀.treelock 0 = some l) ∧ (∃ l, σ₀.treelock 1 = some l) ∧
    (σ.thr 0).stack ≠ [] ∧ ¬ ∃ σ', Step σ σ' := by
  let σ₀ := start [[.locked 0 [.locked 1 []]], [.locked 1 [.locked 0 []]]] (fun r => if r < 2 then some r else none) 2
  refine ⟨σ₀, upto σ₀ [0, 0, 1, 1, 0, 1], start_start _ _ _ (fun r l h => ?_), steps_upto _ _, ⟨0, rfl⟩, ⟨1, rfl⟩,
    (fun h => by cases h), fun ⟨σ', t, ht⟩ => ?_⟩
  · by_cases e : r < 2
    · rw [if_pos e] at h; cases h; exact e
    · rw [if_neg e] at h; cases h
  · match t with
    | 0 => cases ht
    | 1 => cases ht
    | t + 2 => cases ht

end Verif.Locking
