import Verif.Props.C29

/-!
# C30: `Alias` reports errors with the caller's key

Whatever stands to the right of `Alias`: if reading or deleting an alias raises a
`KeyError`, it carries the key the caller used.  With pass-through behaviors it is
raised exactly when the stored key is missing.
-/

namespace Verif

section
variable {E : Env} {o : Oid} {w : World} {l r : List Bhv} {a : Aliaser}
  (h : AliasAt (clsOf E w o) l r a) {k u : Key} (hu : a.unalias k = .ok u)
include h hu

/-- Reading. -/
theorem c30_get {x : KArg} {w' : World} (hg : getitem E o k w = (.error (.key x), w')) :
    x = .key k := by
  change getPipe E (fbHandler E) (clsOf E w o).bhvs o k w = _ at hg
  rw [get_alias h, hu] at hg
  simp only [rekey_apply] at hg
  rcases hy : getPipe E (fbHandler E) r o u w with ⟨e | y, w2⟩
  · rw [hy] at hg
    simp only at hg
    split at hg
    · injection hg with hg _; injection hg with hg; injection hg with hg; exact hg.symm
    · rename_i hn
      injection hg with hg _; injection hg with hg
      rw [hg] at hn; exact absurd rfl hn
  · rw [hy] at hg; injection hg with hg _; cases hg

/-- Deleting. -/
theorem c30_del {x : KArg} {w' : World} (hg : delitem E o k w = (.error (.key x), w')) :
    x = .key k := by
  change delPipe E (clsOf E w o).bhvs o k w = _ at hg
  rw [del_alias h, hu] at hg
  simp only [rekey_apply] at hg
  rcases hy : delPipe E r o u w with ⟨e | y, w2⟩
  · rw [hy] at hg
    simp only at hg
    split at hg
    · injection hg with hg _; injection hg with hg; injection hg with hg; exact hg.symm
    · rename_i hn
      injection hg with hg _; injection hg with hg
      rw [hg] at hn; exact absurd rfl hn
  · rw [hy] at hg; injection hg with hg _; cases hg

end

/-- A missing key raises, in both operations, for every aliaser. -/
theorem c30_missing {E : Env} {o : Oid} {w : World} {l r : List Bhv} {a : Aliaser}
    (h : AliasClass (clsOf E w o) l r a) (hw : WF w) (hc : CacheAgrees E w o) {k u : Key}
    (hu : a.unalias k = .ok u) (hp : Plain r u) (hm : u ∉ (w.omap o).keys) :
    (getitem E o k w).1 = .error (.key (.key k)) ∧
    (delitem E o k w).1 = .error (.key (.key k)) := by
  obtain ⟨w1, h1, -⟩ := getitem_alias h hw hc.coh hu hp
  obtain ⟨w2, h2, -⟩ := delitem_alias h hw hc.coh hu hp
  have hn : (w.children o).get? u = none := (Od.get?_eq_none_iff _ _).mpr hm
  rw [h1, h2, hn]
  exact ⟨rfl, if_neg (show u ∉ (w.children o).keys from hm)⟩

/-! The stored key `c` is missing; the error names `p-c`. -/

example : let k : Key := .str ['p', '-', 'c']
    AliasClass (clsOf sampleEnv c28W 0) [] [.nodify, .dictStorage] (.pre "p-".toList) ∧
    WF c28W ∧ CacheAgrees sampleEnv c28W 0 ∧ (Aliaser.pre "p-".toList).unalias k = .ok kc ∧
    kc ∉ (c28W.omap 0).keys ∧
    (getitem sampleEnv 0 k c28W).1 = .error (.key (.key k)) :=
  ⟨⟨⟨rfl, by decide, rfl, rfl⟩, by decide, .inl (by decide)⟩, (reachable_after ..).wf,
    fun h => absurd h (by decide), by decide +kernel, by decide +kernel, by decide +kernel⟩

end Verif
