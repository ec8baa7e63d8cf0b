import Verif.Model.Aliaser
import Verif.Lemmas.Odict
import Mathlib.Data.List.Infix

/-!
# C27: `unalias` inverts `alias`

True for prefixes, non-empty suffixes, dictionaries (for the keys they translate),
and chains of these.  False for the suffix aliaser with an empty or missing suffix
(alias.py:89 slices `[:-0]`), hence for `PrefixSuffixAliaser(prefix)`, and for
non-strict dictionaries that have a key which is not a value.
-/

namespace Verif

mutual
/-- Aliasers whose suffixes are not empty, whose dictionaries have each key once
and, if not strict, list every alias also as a key. -/
def Lawful : Aliaser → Prop
  | .dict tbl strict => tbl.keys.Nodup ∧ (strict = true ∨ ∀ k ∈ tbl.keys, k ∈ tbl.vals)
  | .pre _ => True
  | .suf s => s.getD [] ≠ []
  | .chain l => LawfulChain l

/-- Every member of a chain. -/
def LawfulChain : List Aliaser → Prop
  | [] => True
  | a :: r => Lawful a ∧ LawfulChain r
end

theorem revGet_mem {tbl : Od Key Key} {k a : Key} (h : Aliaser.revGet tbl k = some a) :
    (a, k) ∈ tbl := by
  unfold Aliaser.revGet at h
  obtain ⟨⟨x, y⟩, h1, h2⟩ := Option.map_eq_some_iff.mp h
  have := List.find?_some h1
  simp only [decide_eq_true_eq] at this
  have hm := List.mem_of_find?_eq_some h1
  simp only at h2
  rw [← h2, ← this]; exact hm

theorem revGet_none {tbl : Od Key Key} {k : Key} (h : Aliaser.revGet tbl k = none) :
    k ∉ tbl.vals := by
  unfold Aliaser.revGet at h
  rw [Option.map_eq_none_iff] at h
  intro hm
  obtain ⟨⟨x, y⟩, h1, h2⟩ := List.mem_map.mp hm
  have := List.find?_eq_none.mp h (x, y) h1
  simp only [decide_eq_true_eq] at this
  exact this h2

theorem startsWith_append (p s : Str) : startsWith (p ++ s) p = true := by
  simp [startsWith]

theorem endsWith_append (s q : Str) : endsWith (s ++ q) q = true := by
  simp [endsWith]

mutual
/-- Whatever `alias` makes of a key, `unalias` gives the key back. -/
theorem c27_inverse_partial : (a : Aliaser) → Lawful a → ∀ {k k' : Key}, a.alias k = .ok k' →
    a.unalias k' = .ok k
  | .dict tbl strict, hl, k, k', h => by
    simp only [Aliaser.alias] at h
    simp only [Aliaser.unalias]
    split at h
    · rename_i x hx
      injection h with h
      subst h
      rw [Od.get?_of_mem hl.1 (revGet_mem hx)]
    · rename_i hx
      split at h
      · cases h
      · rename_i hs
        injection h with h
        subst h
        have hk : k ∉ tbl.keys := fun hm => by
          rcases hl.2 with h | h
          · exact hs h
          · exact revGet_none hx (h k hm)
        rw [(Od.get?_eq_none_iff tbl k).mpr hk]
        simp only [hs, if_false, Bool.false_eq_true]
  | .pre p, _, k, k', h => by
    cases k with
    | str s =>
      simp only [Aliaser.alias] at h
      injection h with h
      subst h
      simp [Aliaser.unalias, startsWith_append]
    | _ => cases h
  | .suf q, hl, k, k', h => by
    cases k with
    | str s =>
      simp only [Aliaser.alias] at h
      injection h with h
      subst h
      have hq : (q.getD []).length ≠ 0 := fun e => hl (List.length_eq_zero_iff.mp e)
      simp [Aliaser.unalias, endsWith_append, sliceToNeg, hq]
    | _ => cases h
  | .chain l, hl, k, k', h => by
    simp only [Aliaser.alias] at h
    simp only [Aliaser.unalias]
    exact c27_chain l hl h

/-- Chains. -/
theorem c27_chain : (l : List Aliaser) → LawfulChain l → ∀ {k k' : Key},
    Aliaser.aliasChain l k = .ok k' → Aliaser.unaliasChain l k' = .ok k
  | [], _, k, k', h => by
    simp only [Aliaser.aliasChain] at h
    injection h with h
    subst h
    rfl
  | a :: r, hl, k, k', h => by
    simp only [Aliaser.aliasChain] at h
    split at h
    · rename_i x hx
      simp only [Aliaser.unaliasChain, c27_chain r hl.2 h]
      exact c27_inverse_partial a hl.1 hx
    · cases h
end

/-- Every string has an alias under prefix, suffix and prefix-suffix aliasers, so
the inverse law speaks about all of them. -/
theorem c27_total (p q : Option Str) (s : Str) :
    (Aliaser.pre p).alias (.str s) = .ok (.str (p.getD [] ++ s)) ∧
    (Aliaser.suf q).alias (.str s) = .ok (.str (s ++ q.getD [])) ∧
    (Aliaser.preSuf p q).alias (.str s) = .ok (.str ((p.getD [] ++ s) ++ q.getD [])) :=
  ⟨rfl, rfl, rfl⟩

/-- Every value of a dictionary has an alias, a key of the dictionary. -/
theorem c27_dict_total (tbl : Od Key Key) (strict : Bool) {k : Key} (hk : k ∈ tbl.vals) :
    ∃ a ∈ tbl.keys, (Aliaser.dict tbl strict).alias k = .ok a := by
  cases hr : Aliaser.revGet tbl k with
  | none => exact absurd hk (revGet_none hr)
  | some a =>
    exact ⟨a, List.mem_map_of_mem (f := (·.1)) (revGet_mem hr), by simp [Aliaser.alias, hr]⟩

/-- For listed keys a dictionary, strict or not, is inverted. -/
theorem c27_dict (tbl : Od Key Key) (strict : Bool) (hn : tbl.keys.Nodup) {k : Key}
    (hk : k ∈ tbl.vals) : ∃ a, (Aliaser.dict tbl strict).alias k = .ok a ∧
      (Aliaser.dict tbl strict).unalias a = .ok k := by
  cases hr : Aliaser.revGet tbl k with
  | none => exact absurd hk (revGet_none hr)
  | some a =>
    refine ⟨a, by simp [Aliaser.alias, hr], ?_⟩
    simp only [Aliaser.unalias]
    rw [Od.get?_of_mem hn (revGet_mem hr)]

/-- Without a suffix, every key comes back as the empty string, alone and in a
prefix-suffix aliaser. -/
theorem c27_refuted_suffix (q p : Option Str) (hq : q.getD [] = []) (s : Str) :
    (Aliaser.suf q).unalias (.str s) = .ok (.str []) ∧
    (∀ s', (Aliaser.preSuf p q).alias (.str s) = .ok (.str s') → p.getD [] ≠ [] →
      ∃ e, (Aliaser.preSuf p q).unalias (.str s') = .error e) := by
  have hs : endsWith s [] = true := by simp [endsWith]
  constructor
  · simp [Aliaser.unalias, hq, hs, sliceToNeg]
  · intro s' h hp
    have hs' : endsWith s' [] = true := by simp [endsWith]
    have hp' : startsWith [] (p.getD []) = false := by
      cases h : p.getD [] with
      | nil => exact absurd h hp
      | cons a t => rfl
    simp [Aliaser.preSuf, Aliaser.unalias, Aliaser.unaliasChain, hq, hs', sliceToNeg, hp']

/-- A key that is an alias but no value: a non-strict dictionary confuses it with
what it stands for. -/
theorem c27_refuted_dict {a b : Key} (hab : a ≠ b) :
    (Aliaser.dict [(a, b)] false).alias a = .ok a ∧
    (Aliaser.dict [(a, b)] false).unalias a = .ok b := by
  simp [Aliaser.alias, Aliaser.unalias, Aliaser.revGet, Od.get?, hab.symm]

/-! A chain with all kinds of aliasers. -/

example : Lawful (.chain [.dict [(.str ['a'], .str ['b'])] true, .pre (some ['x']), .suf (some ['y'])]) ∧
    (Aliaser.chain [.dict [(.str ['a'], .str ['b'])] true, .pre (some ['x']), .suf (some ['y'])]).alias
      (.str ['b']) = .ok (.str ['x', 'a', 'y']) := by
  refine ⟨⟨⟨by decide, .inl rfl⟩, trivial, List.cons_ne_nil _ _, trivial⟩, by decide +kernel⟩

end Verif
