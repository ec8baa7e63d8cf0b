import Verif.Odict

/-! Lemmas about insertion-ordered dictionaries. -/

namespace Verif.Od

variable {K V : Type} [DecidableEq K]

theorem get?_set (d : Od K V) (k j : K) (v : V) :
    get? (set d k v) j = if j = k then some v else get? d j := by
  induction d with
  | nil =>
    by_cases h : j = k
    · subst h; simp [set, get?]
    · have : k ≠ j := fun e => h e.symm
      simp [set, get?, h, this]
  | cons hd t ih =>
    obtain ⟨k', v'⟩ := hd
    by_cases hk : k' = k
    · subst hk
      by_cases hj : k' = j
      · subst hj; simp [set, get?]
      · have : j ≠ k' := fun e => hj e.symm
        simp [set, get?, hj, this]
    · by_cases hj : k' = j
      · subst hj; simp [set, get?, hk]
      · simp [set, get?, hk, hj, ih]

theorem get?_eq_none_iff (d : Od K V) (k : K) : get? d k = none ↔ k ∉ keys d := by
  induction d with
  | nil => simp [get?, keys]
  | cons hd t ih =>
    obtain ⟨k', v'⟩ := hd
    simp only [keys] at ih
    by_cases h : k' = k
    · subst h; simp [get?, keys]
    · have : k ≠ k' := fun e => h e.symm
      simp [get?, keys, h, ih, this]

theorem get?_isSome_iff (d : Od K V) (k : K) : (get? d k).isSome ↔ k ∈ keys d := by
  have := get?_eq_none_iff d k
  cases h : get? d k with
  | none => simp [this.mp h]
  | some v =>
    simp only [Option.isSome_some, true_iff]
    exact Classical.not_not.mp fun hn => by simp [this.mpr hn] at h

theorem mem_keys_of_get? {d : Od K V} {k : K} {v : V} (h : get? d k = some v) : k ∈ keys d :=
  (get?_isSome_iff d k).mp (by simp [h])

theorem get?_of_mem_keys {d : Od K V} {k : K} (h : k ∈ keys d) : ∃ v, get? d k = some v :=
  Option.isSome_iff_exists.mp ((get?_isSome_iff d k).mpr h)

theorem has_iff (d : Od K V) (k : K) : has d k = true ↔ k ∈ keys d := by
  simp [has, get?_isSome_iff]

theorem has_eq_false_iff (d : Od K V) (k : K) : has d k = false ↔ k ∉ keys d := by
  rw [← has_iff]; cases has d k <;> simp

theorem keys_set (d : Od K V) (k : K) (v : V) :
    keys (set d k v) = if k ∈ keys d then keys d else keys d ++ [k] := by
  induction d with
  | nil => simp [set, keys]
  | cons hd t ih =>
    obtain ⟨k', v'⟩ := hd
    simp only [keys] at ih ⊢
    by_cases hk : k' = k
    · subst hk; simp [set]
    · have : k ≠ k' := fun e => hk e.symm
      simp only [set, hk, if_false, List.map_cons, ih, List.mem_cons, this, false_or]
      split <;> simp [*]

theorem del_of_not_mem {d : Od K V} {k : K} (h : k ∉ keys d) : del d k = d := by
  induction d with
  | nil => rfl
  | cons hd t ih =>
    obtain ⟨k', v'⟩ := hd
    simp only [keys, List.map_cons, List.mem_cons, not_or] at h
    have : k' ≠ k := fun e => h.1 e.symm
    simp [del, this, ih (by simpa [keys] using h.2)]

theorem keys_del {d : Od K V} (hd : (keys d).Nodup) (k : K) :
    keys (del d k) = (keys d).filter (fun j => j ≠ k) := by
  induction d with
  | nil => rfl
  | cons hd' t ih =>
    obtain ⟨k', v'⟩ := hd'
    have hd1 : (k' :: keys t).Nodup := hd
    rw [List.nodup_cons] at hd1
    by_cases hk : k' = k
    · subst hk
      have hnot : (keys t).filter (fun j => decide (j ≠ k')) = keys t := by
        rw [List.filter_eq_self]
        intro a ha
        have : a ≠ k' := fun e => hd1.1 (e ▸ ha)
        simp [this]
      rw [show keys ((k', v') :: t) = k' :: keys t from rfl, List.filter_cons]
      simp only [ne_eq, not_true_eq_false, decide_false, Bool.false_eq_true, if_false]
      simp only [del, if_true]
      exact hnot.symm
    · rw [show keys ((k', v') :: t) = k' :: keys t from rfl, List.filter_cons]
      simp only [ne_eq, hk, not_false_eq_true, decide_true, if_true]
      simp only [del, hk, if_false]
      rw [show keys ((k', v') :: del t k) = k' :: keys (del t k) from rfl, ih hd1.2]

theorem get?_del {d : Od K V} (hd : (keys d).Nodup) (k j : K) :
    get? (del d k) j = if j = k then none else get? d j := by
  induction d with
  | nil => simp [del, get?]
  | cons hd' t ih =>
    obtain ⟨k', v'⟩ := hd'
    have hd1 : (k' :: keys t).Nodup := hd
    rw [List.nodup_cons] at hd1
    by_cases hk : k' = k
    · subst hk
      by_cases hj : j = k'
      · subst hj
        simp [del, (get?_eq_none_iff t j).mpr hd1.1]
      · have : k' ≠ j := fun e => hj e.symm
        simp [del, get?, hj, this]
    · simp only [del, hk, if_false, get?]
      by_cases hj : k' = j
      · subst hj; simp [hk]
      · simp [hj, ih hd1.2]

theorem nodup_keys_set {d : Od K V} (hd : (keys d).Nodup) (k : K) (v : V) :
    (keys (set d k v)).Nodup := by
  rw [keys_set]
  split
  · exact hd
  · rename_i h
    rw [List.nodup_append]
    exact ⟨hd, by simp, by intro a ha b hb; simp at hb; subst hb; intro e; exact h (e ▸ ha)⟩

theorem nodup_keys_del {d : Od K V} (hd : (keys d).Nodup) (k : K) :
    (keys (del d k)).Nodup := by
  rw [keys_del hd]; exact hd.filter _

theorem nodup_keys_update {d e : Od K V} (hd : (keys d).Nodup) : (keys (update d e)).Nodup := by
  unfold update
  induction e generalizing d with
  | nil => exact hd
  | cons hd' t ih => exact ih (nodup_keys_set hd _ _)

theorem get?_some_mem {d : Od K V} {k : K} {v : V} (h : get? d k = some v) : (k, v) ∈ d := by
  induction d with
  | nil => simp [get?] at h
  | cons hd t ih =>
    obtain ⟨k', v'⟩ := hd
    by_cases hk : k' = k
    · subst hk; simp [get?] at h; simp [h]
    · simp [get?, hk] at h; exact List.mem_cons_of_mem _ (ih h)

theorem get?_of_mem {d : Od K V} (hd : (keys d).Nodup) {k : K} {v : V} (h : (k, v) ∈ d) :
    get? d k = some v := by
  induction d with
  | nil => simp at h
  | cons hd' t ih =>
    obtain ⟨k', v'⟩ := hd'
    have hd1 : (k' :: keys t).Nodup := hd
    rw [List.nodup_cons] at hd1
    rcases List.mem_cons.mp h with h | h
    · injection h with h1 h2; subst h1; subst h2; simp [get?]
    · have : k ∈ keys t := List.mem_map.mpr ⟨(k, v), h, rfl⟩
      have hne : k' ≠ k := fun e => hd1.1 (e ▸ this)
      simp [get?, hne, ih hd1.2 h]

/-- A dictionary is determined by its key sequence and its lookups. -/
theorem ext_get? {d e : Od K V} (hd : (keys d).Nodup) (hk : keys d = keys e)
    (hg : ∀ k, get? d k = get? e k) : d = e := by
  induction d generalizing e with
  | nil =>
    cases e with
    | nil => rfl
    | cons a b => simp [keys] at hk
  | cons hd' t ih =>
    obtain ⟨k', v'⟩ := hd'
    cases e with
    | nil => simp [keys] at hk
    | cons a b =>
      obtain ⟨k2, v2⟩ := a
      simp only [keys, List.map_cons, List.cons.injEq] at hk
      obtain ⟨hk1, hk2⟩ := hk
      subst hk1
      have hd1 : (k' :: keys t).Nodup := hd
      rw [List.nodup_cons] at hd1
      have h1 := hg k'
      simp [get?] at h1
      subst h1
      congr 1
      apply ih hd1.2 hk2
      intro k
      have h2 := hg k
      by_cases h : k' = k
      · subst h
        rw [(get?_eq_none_iff t k').mpr hd1.1, (get?_eq_none_iff b k').mpr]
        intro hm
        apply hd1.1
        have : keys t = keys b := hk2
        rw [this]; exact hm
      · simpa [get?, h] using h2

theorem get?_update {d e : Od K V} (he : (keys e).Nodup) (k : K) :
    get? (update d e) k = (get? e k).or (get? d k) := by
  unfold update
  induction e generalizing d with
  | nil => simp [get?]
  | cons hd t ih =>
    obtain ⟨k', v'⟩ := hd
    have he1 : (k' :: keys t).Nodup := he
    rw [List.nodup_cons] at he1
    simp only [List.foldl_cons]
    rw [ih he1.2, get?_set]
    by_cases h : k' = k
    · subst h; simp [get?, (get?_eq_none_iff t k').mpr he1.1]
    · have : k ≠ k' := fun e => h e.symm
      simp [get?, h, this]

theorem mem_of_set {d : Od K V} {k : K} {x : V} {y : K × V} (h : y ∈ set d k x) : y = (k, x) ∨ y ∈ d := by
  induction d with
  | nil => exact .inl (List.mem_singleton.mp h)
  | cons a t ih =>
    obtain ⟨j, z⟩ := a
    replace h : y ∈ (if j = k then (j, x) :: t else (j, z) :: set t k x) := h
    split at h
    · rcases List.mem_cons.mp h with h | h
      · rename_i e _; exact .inl (e ▸ h)
      · exact .inr (List.mem_cons_of_mem _ h)
    · rcases List.mem_cons.mp h with h | h
      · exact .inr (h ▸ List.mem_cons_self)
      · exact (ih h).imp_right (List.mem_cons_of_mem _)

theorem mem_of_del {d : Od K V} {k : K} {y : K × V} (h : y ∈ del d k) : y ∈ d := by
  induction d with
  | nil => exact h
  | cons a t ih =>
    obtain ⟨j, z⟩ := a
    replace h : y ∈ (if j = k then t else (j, z) :: del t k) := h
    split at h
    · exact List.mem_cons_of_mem _ h
    · rcases List.mem_cons.mp h with h | h
      · exact h ▸ List.mem_cons_self
      · exact List.mem_cons_of_mem _ (ih h)

theorem mem_of_update {d e : Od K V} {y : K × V} (h : y ∈ update d e) : y ∈ d ∨ y ∈ e := by
  unfold update at h
  induction e generalizing d with
  | nil => exact .inl h
  | cons a t ih =>
    rcases ih h with h | h
    · rcases mem_of_set h with h | h
      · exact .inr (h ▸ List.mem_cons_self)
      · exact .inl h
    · exact .inr (List.mem_cons_of_mem _ h)

end Verif.Od
