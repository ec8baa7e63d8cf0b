import Verif.Spec.Tree
import Verif.Lemmas.Insert

/-! Ancestor chains. -/

namespace Verif

theorem Chain.unique {w : World} {o : Oid} {l l' : List Oid} (h : Chain w o l) (h' : Chain w o l') :
    l = l' := by
  induction h generalizing l' with
  | root e =>
    cases h' with
    | root _ => rfl
    | up e' _ => rw [e] at e'; cases e'
  | up e _ ih =>
    cases h' with
    | root e' => rw [e] at e'; cases e'
    | up e' h' =>
      rw [e] at e'; injection e' with e'; subst e'
      rw [ih h']

theorem Chain.suffix {w : World} {o p : Oid} {l : List Oid} (h : Chain w o l) (hp : p ∈ l) :
    ∃ s t, l = s ++ p :: t ∧ Chain w p t := by
  induction h with
  | root _ => cases hp
  | @up o q l e hc ih =>
    rcases List.mem_cons.mp hp with rfl | hp
    · exact ⟨[], l, rfl, hc⟩
    · obtain ⟨s, t, rfl, ht⟩ := ih hp
      exact ⟨q :: s, t, rfl, ht⟩

theorem Chain.not_mem {w : World} {o : Oid} {l : List Oid} (h : Chain w o l) : o ∉ l := fun hm => by
  obtain ⟨s, t, rfl, ht⟩ := h.suffix hm
  have := congrArg List.length (h.unique ht)
  simp at this
  omega

theorem Chain.nodup {w : World} {o : Oid} {l : List Oid} (h : Chain w o l) : (o :: l).Nodup := by
  refine List.nodup_cons.mpr ⟨h.not_mem, ?_⟩
  induction h with
  | root _ => exact List.nodup_nil
  | up _ hc ih => exact List.nodup_cons.mpr ⟨hc.not_mem, ih⟩

theorem Chain.ancestor_iff {w : World} {o a : Oid} {l : List Oid} (h : Chain w o l) :
    Ancestor w a o ↔ a ∈ l := by
  constructor
  · intro ha
    induction ha generalizing l with
    | parent e =>
      cases h with
      | root e' => rw [e] at e'; cases e'
      | up e' _ => rw [e] at e'; injection e' with e'; subst e'; exact List.mem_cons_self
    | up e _ ih =>
      cases h with
      | root e' => rw [e] at e'; cases e'
      | up e' hc =>
        rw [e] at e'; injection e' with e'; subst e'
        exact List.mem_cons_of_mem _ (ih hc)
  · intro ha
    induction h with
    | root _ => cases ha
    | up e _ ih =>
      rcases List.mem_cons.mp ha with rfl | ha
      · exact .parent e
      · exact .up e (ih ha)

theorem Chain.congr {w w' : World} {o : Oid} {l : List Oid} (h : Chain w o l)
    (he : ∀ p ∈ o :: l, (w'.loc p).2 = (w.loc p).2) : Chain w' o l := by
  induction h with
  | root e => exact .root ((he _ List.mem_cons_self).trans e)
  | up e _ ih =>
    exact .up ((he _ List.mem_cons_self).trans e) (ih fun p hp => he p (List.mem_cons_of_mem _ hp))

/-- Moving `c` below `o` where `c` is not `o` or above it. -/
theorem Chain.move {w w' : World} {o c : Oid} {lo : List Oid} (ho : Chain w o lo) (hc : c ∉ o :: lo)
    (hl : ∀ p, p ≠ c → (w'.loc p).2 = (w.loc p).2)
    (hp : (w'.loc c).2 = (w.loc c).2 ∨ (w'.loc c).2 = some o) {p : Oid} {l : List Oid}
    (h : Chain w p l) : ∃ l', Chain w' p l' := by
  have ho' : Chain w' o lo := ho.congr fun q hq => hl q fun e => hc (e ▸ hq)
  have here : ∀ q, (q = c ∧ (w'.loc c).2 = some o) ∨ (w'.loc q).2 = (w.loc q).2 := fun q => by
    by_cases e : q = c
    · subst e
      exact hp.elim .inr fun h => .inl ⟨rfl, h⟩
    · exact .inr (hl q e)
  induction h with
  | @root q e =>
    rcases here q with ⟨rfl, h⟩ | h
    · exact ⟨_, .up h ho'⟩
    · exact ⟨_, .root (h.trans e)⟩
  | @up q r l e _ ih =>
    rcases here q with ⟨rfl, h⟩ | h
    · exact ⟨_, .up h ho'⟩
    · obtain ⟨l', hl'⟩ := ih
      exact ⟨_, .up (h.trans e) hl'⟩

/-- Every node's parent exists and its ancestors end. -/
def Sound (w : World) : Prop := ∀ o, o < w.nobj →
  (∀ p, (w.loc o).2 = some p → p < w.nobj) ∧ ∃ l, Chain w o l

theorem Sound.lt {w : World} (h : Sound w) {o : Oid} {l : List Oid} (hc : Chain w o l)
    (ho : o < w.nobj) : ∀ p ∈ o :: l, p < w.nobj := by
  induction hc with
  | root _ => intro p hp; simp only [List.mem_singleton] at hp; rw [hp]; exact ho
  | up e _ ih =>
    intro p hp
    rcases List.mem_cons.mp hp with rfl | hp
    · exact ho
    · exact ih ((h _ ho).1 _ e) p hp

theorem nodup_length_le {l : List Nat} (h : l.Nodup) {n : Nat} (hl : ∀ p ∈ l, p < n) :
    l.length ≤ n := by
  induction n generalizing l with
  | zero =>
    cases l with
    | nil => exact Nat.le_refl _
    | cons a t => exact absurd (hl a List.mem_cons_self) (Nat.not_lt_zero _)
  | succ n ih =>
    have h1 : (l.erase n).length ≤ n := ih (h.erase n) fun p hp => by
      have := (h.mem_erase_iff.mp hp)
      have := hl p this.2
      have : p ≠ n := (h.mem_erase_iff.mp hp).1
      omega
    have h2 := List.length_erase (a := n) (l := l)
    split at h2 <;> omega

theorem Sound.length {w : World} (h : Sound w) {o : Oid} {l : List Oid} (hc : Chain w o l)
    (ho : o < w.nobj) : l.length < w.nobj := by
  have := nodup_length_le hc.nodup (h.lt hc ho)
  simp only [List.length_cons] at this
  omega

theorem Chain.namesUp {w : World} {o : Oid} {l : List Oid} (h : Chain w o l) {n : Nat}
    (hn : l.length < n) : namesUp w n o = some ((o :: l).map fun p => (w.loc p).1) := by
  induction h generalizing n with
  | @root q e =>
    cases n with
    | zero => cases hn
    | succ n =>
      unfold Verif.namesUp
      rw [show (w.objs q).parent = none from e]
      rfl
  | @up q r l e _ ih =>
    cases n with
    | zero => cases hn
    | succ n =>
      unfold Verif.namesUp
      rw [show (w.objs q).parent = some r from e]
      simp only
      rw [ih (by simpa using hn)]
      rfl

theorem Chain.rootN {w : World} {o : Oid} {l : List Oid} (h : Chain w o l) {n : Nat}
    (hn : l.length < n) : rootN w n o = some ((o :: l).getLast (List.cons_ne_nil _ _)) := by
  induction h generalizing n with
  | @root q e =>
    cases n with
    | zero => cases hn
    | succ n =>
      unfold Verif.rootN
      rw [show (w.objs q).parent = none from e]
      rfl
  | @up q r l e _ ih =>
    cases n with
    | zero => cases hn
    | succ n =>
      unfold Verif.rootN
      rw [show (w.objs q).parent = some r from e]
      simp only
      rw [ih (by simpa using hn)]
      rfl

theorem Chain.acquireN {w : World} {o : Oid} {l : List Oid} (h : Chain w o l) (p : Oid → Bool)
    {n : Nat} (hn : l.length ≤ n) : acquireN w p n (w.loc o).2 = some (l.find? p) := by
  induction h generalizing n with
  | @root q e => rw [e]; cases n <;> rfl
  | @up q r l e _ ih =>
    rw [e]
    cases n with
    | zero => simp at hn
    | succ n =>
      unfold Verif.acquireN
      rw [List.find?_cons]
      by_cases hr : p r = true
      · simp [hr]
      · simp only [hr]
        exact ih (by simpa using hn)

/-- The last of the chain has no parent. -/
theorem Chain.last {w : World} {o : Oid} {l : List Oid} (h : Chain w o l) :
    (w.loc ((o :: l).getLast (List.cons_ne_nil _ _))).2 = none := by
  induction h with
  | root e => exact e
  | up _ _ ih => rw [List.getLast_cons (List.cons_ne_nil _ _)]; exact ih

end Verif
