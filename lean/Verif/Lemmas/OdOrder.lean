import Verif.Lemmas.Grow

/-! Positions and values after `insertbefore`, `insertafter` and `swap`. -/

namespace Verif.Od

variable {K V : Type} [DecidableEq K]

theorem get?_insertBefore {d : Od K V} {ref k : K} (v : V) (hr : ref ∈ d.keys) (hk : k ∉ d.keys)
    (j : K) : (d.insertBefore ref k v).get? j = if j = k then some v else d.get? j := by
  induction d with
  | nil => exact nomatch hr
  | cons a t ih =>
    obtain ⟨k', v'⟩ := a
    have hk' : k' ≠ k := fun e => hk (by simp [keys, e])
    have hkt : k ∉ keys t := fun h => hk (List.mem_cons_of_mem _ h)
    simp only [insertBefore]
    by_cases h : k' = ref
    · simp only [h, if_true, get?]
      by_cases e : k = j
      · simp [e]
      · simp [e, show ¬ j = k from fun x => e x.symm]
    · have hrt : ref ∈ keys t := by
        rcases List.mem_cons.mp hr with e | e
        · exact absurd e.symm h
        · exact e
      simp only [h, if_false, get?, ih hrt hkt]
      by_cases e : k' = j
      · have : j ≠ k := fun x => hk' (e.trans x)
        simp [e, this]
      · simp [e]

theorem get?_insertAfter {d : Od K V} {ref k : K} (v : V) (hr : ref ∈ d.keys) (hk : k ∉ d.keys)
    (j : K) : (d.insertAfter ref k v).get? j = if j = k then some v else d.get? j := by
  induction d with
  | nil => exact nomatch hr
  | cons a t ih =>
    obtain ⟨k', v'⟩ := a
    have hk' : k' ≠ k := fun e => hk (by simp [keys, e])
    have hkt : k ∉ keys t := fun h => hk (List.mem_cons_of_mem _ h)
    simp only [insertAfter]
    by_cases h : k' = ref
    · simp only [h, if_true, get?]
      subst h
      by_cases e : k' = j
      · have : j ≠ k := fun x => hk' (e.trans x)
        simp [e, this]
      · by_cases e2 : k = j
        · simp [e2, e]
        · simp [e, e2, show ¬ j = k from fun x => e2 x.symm]
    · have hrt : ref ∈ keys t := by
        rcases List.mem_cons.mp hr with e | e
        · exact absurd e.symm h
        · exact e
      simp only [h, if_false, get?, ih hrt hkt]
      by_cases e : k' = j
      · have : j ≠ k := fun x => hk' (e.trans x)
        simp [e, this]
      · simp [e]

theorem keys_insertBefore_at {d : Od K V} {ref k : K} {l r : List K} (v : V)
    (h : d.keys = l ++ ref :: r) (hl : ref ∉ l) :
    (d.insertBefore ref k v).keys = l ++ k :: ref :: r := by
  induction d generalizing l with
  | nil => cases l <;> cases h
  | cons a t ih =>
    obtain ⟨k', v'⟩ := a
    cases l with
    | nil =>
      simp only [keys, List.map_cons, List.nil_append, List.cons.injEq] at h
      simp [insertBefore, keys, h]
    | cons x l =>
      simp only [keys, List.map_cons, List.cons_append, List.cons.injEq] at h
      have hx : k' ≠ ref := fun e => hl (by simp [← h.1, e])
      have := ih (l := l) h.2 fun hm => hl (List.mem_cons_of_mem _ hm)
      simp only [insertBefore, hx, if_false]
      show k' :: keys (insertBefore t ref k v) = _
      rw [this, h.1]; rfl

theorem keys_insertAfter_at {d : Od K V} {ref k : K} {l r : List K} (v : V)
    (h : d.keys = l ++ ref :: r) (hl : ref ∉ l) :
    (d.insertAfter ref k v).keys = l ++ ref :: k :: r := by
  induction d generalizing l with
  | nil => cases l <;> cases h
  | cons a t ih =>
    obtain ⟨k', v'⟩ := a
    cases l with
    | nil =>
      simp only [keys, List.map_cons, List.nil_append, List.cons.injEq] at h
      simp [insertAfter, keys, h]
    | cons x l =>
      simp only [keys, List.map_cons, List.cons_append, List.cons.injEq] at h
      have hx : k' ≠ ref := fun e => hl (by simp [← h.1, e])
      have := ih (l := l) h.2 fun hm => hl (List.mem_cons_of_mem _ hm)
      simp only [insertAfter, hx, if_false]
      show k' :: keys (insertAfter t ref k v) = _
      rw [this, h.1]; rfl

theorem swap_of_not_mem {d : Od K V} {a b : K} (h : ¬ (a ∈ d.keys ∧ b ∈ d.keys)) :
    d.swap a b = d := by
  unfold swap
  split
  · rename_i ha hb
    exact absurd ⟨mem_keys_of_get? ha, mem_keys_of_get? hb⟩ h
  · rfl

theorem mem_keys_swap {d : Od K V} {a b : K} (j : K) : j ∈ (d.swap a b).keys ↔ j ∈ d.keys := by
  by_cases h : a ∈ d.keys ∧ b ∈ d.keys
  · rw [keys_swap h.1 h.2, List.mem_map]
    constructor
    · rintro ⟨x, hx, rfl⟩
      split
      · exact h.2
      · split
        · exact h.1
        · exact hx
    · intro hj
      by_cases e : j = a
      · refine ⟨b, h.2, ?_⟩
        by_cases e2 : b = a
        · simp [e2, e]
        · simp [e2, e]
      · by_cases e2 : j = b
        · exact ⟨a, h.1, by simp [e2]⟩
        · exact ⟨j, hj, by simp [e, e2]⟩
  · rw [swap_of_not_mem h]

theorem get?_swap {d : Od K V} (hd : d.keys.Nodup) (a b j : K) :
    (d.swap a b).get? j = d.get? j := by
  by_cases h : a ∈ d.keys ∧ b ∈ d.keys
  · obtain ⟨va, hva⟩ := get?_of_mem_keys h.1
    obtain ⟨vb, hvb⟩ := get?_of_mem_keys h.2
    cases hj : d.get? j with
    | none =>
      rw [get?_eq_none_iff] at hj ⊢
      rwa [mem_keys_swap]
    | some v =>
      apply get?_of_mem (nodup_swap hd a b)
      simp only [swap, hva, hvb, List.mem_map]
      by_cases e : j = a
      · subst e
        rw [hva] at hj; injection hj with hj; subst hj
        refine ⟨(b, vb), get?_some_mem hvb, ?_⟩
        by_cases e2 : b = j
        · subst e2; rw [hva] at hvb; injection hvb with hvb; simp [hvb]
        · simp [e2]
      · by_cases e2 : j = b
        · subst e2
          rw [hvb] at hj; injection hj with hj; subst hj
          exact ⟨(a, va), get?_some_mem hva, by simp⟩
        · exact ⟨(j, v), get?_some_mem hj, by simp [e, e2]⟩
  · rw [swap_of_not_mem h]

end Verif.Od
