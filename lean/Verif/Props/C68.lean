import Verif.Props.C28
import Verif.Props.C29
import Mathlib.Data.List.Nodup

/-!
# C68: aliases are unambiguous

The converse of C27: a key an aliaser accepts is the alias of the key it stands for, so that two
different keys never reach the same child, and all other keys raise `KeyError`.  True for prefixes,
non-empty suffixes, dictionaries listing each key at most once as value, and chains of these, as far
as keys are strings.  A dictionary may give two names to one key (`c68_refuted`), and a prefix aliaser
asked for a key that is no string raises `AttributeError` or `TypeError` (`c68_refuted_type`).
-/

namespace Verif

mutual
/-- Aliasers whose suffixes are not empty, and whose dictionaries have each key and each value once
and, if not strict, list every value also as a key. -/
def OneToOne : Aliaser → Prop
  | .dict tbl strict => tbl.keys.Nodup ∧ tbl.vals.Nodup ∧ (strict = true ∨ ∀ k ∈ tbl.vals, k ∈ tbl.keys)
  | .pre _ => True
  | .suf s => s.getD [] ≠ []
  | .chain l => OneToOneChain l

/-- Every member of a chain. -/
def OneToOneChain : List Aliaser → Prop
  | [] => True
  | a :: r => OneToOne a ∧ OneToOneChain r
end

mutual
/-- Aliasers that translate strings to strings. -/
def Textual : Aliaser → Prop
  | .dict tbl _ => ∀ kv ∈ tbl, ∃ s, kv.2 = .str s
  | .pre _ => True
  | .suf _ => True
  | .chain l => TextualChain l

/-- Every member of a chain. -/
def TextualChain : List Aliaser → Prop
  | [] => True
  | a :: r => Textual a ∧ TextualChain r
end

theorem startsWith_iff {s p : Str} : startsWith s p = true ↔ ∃ t, s = p ++ t := by
  unfold startsWith
  rw [List.isPrefixOf_iff_prefix]
  exact ⟨fun ⟨t, h⟩ => ⟨t, h.symm⟩, fun ⟨t, h⟩ => ⟨t, h.symm⟩⟩

theorem endsWith_iff {s p : Str} : endsWith s p = true ↔ ∃ t, s = t ++ p := by
  unfold endsWith
  rw [List.isSuffixOf_iff_suffix]
  exact ⟨fun ⟨t, h⟩ => ⟨t, h.symm⟩, fun ⟨t, h⟩ => ⟨t, h.symm⟩⟩

/-- With each value once, the reverse lookup finds the key. -/
theorem revGet_of_mem {tbl : Od Key Key} (hn : tbl.vals.Nodup) {k u : Key} (h : (k, u) ∈ tbl) :
    Aliaser.revGet tbl u = some k := by
  cases hr : Aliaser.revGet tbl u with
  | none => exact absurd (List.mem_map.mpr ⟨_, h, rfl⟩) (revGet_none hr)
  | some k' =>
    have h' := revGet_mem hr
    have : (k', u) = (k, u) := List.inj_on_of_nodup_map hn h' h rfl
    injection this with this
    rw [this]

mutual
/-- Whatever `unalias` makes of a key, `alias` gives the key back. -/
theorem c68_inverse_partial : (a : Aliaser) → OneToOne a → ∀ {k u : Key}, a.unalias k = .ok u →
    a.alias u = .ok k
  | .dict tbl strict, hl, k, u, h => by
    simp only [Aliaser.unalias] at h
    simp only [Aliaser.alias]
    cases hg : Od.get? tbl k with
    | some x =>
      rw [hg] at h
      injection h with h
      subst h
      rw [revGet_of_mem hl.2.1 (Od.get?_some_mem hg)]
    | none =>
      rw [hg] at h
      cases strict with
      | true => cases h
      | false =>
        injection h with h
        subst h
        have hk : k ∉ tbl.keys := (Od.get?_eq_none_iff tbl k).mp hg
        cases hr : Aliaser.revGet tbl k with
        | none => rfl
        | some x =>
          rcases hl.2.2 with e | e
          · cases e
          · exact absurd (e k (List.mem_map.mpr ⟨_, revGet_mem hr, rfl⟩)) hk
  | .pre p, _, k, u, h => by
    cases k with
    | str s =>
      simp only [Aliaser.unalias] at h
      split at h
      · rename_i hs
        obtain ⟨t, rfl⟩ := startsWith_iff.mp hs
        injection h with h
        subst h
        simp [Aliaser.alias]
      · cases h
    | _ => cases h
  | .suf q, hl, k, u, h => by
    cases k with
    | str s =>
      simp only [Aliaser.unalias] at h
      split at h
      · rename_i hs
        obtain ⟨t, rfl⟩ := endsWith_iff.mp hs
        have hq : (q.getD []).length ≠ 0 := fun e => hl (List.length_eq_zero_iff.mp e)
        injection h with h
        subst h
        simp [Aliaser.alias, sliceToNeg, hq]
      · cases h
    | _ => cases h
  | .chain l, hl, k, u, h => by
    simp only [Aliaser.alias]
    simp only [Aliaser.unalias] at h
    exact c68_chain l hl h

/-- Chains. -/
theorem c68_chain : (l : List Aliaser) → OneToOneChain l → ∀ {k u : Key},
    Aliaser.unaliasChain l k = .ok u → Aliaser.aliasChain l u = .ok k
  | [], _, k, u, h => by
    simp only [Aliaser.unaliasChain] at h
    injection h with h
    subst h
    rfl
  | a :: r, hl, k, u, h => by
    simp only [Aliaser.unaliasChain] at h
    split at h
    · rename_i x hx
      simp only [Aliaser.aliasChain, c68_inverse_partial a hl.1 h]
      exact c68_chain r hl.2 hx
    · cases h
end

/-- Different keys stand for different keys. -/
theorem c68_apart_partial {a : Aliaser} (h : OneToOne a) {k k' u : Key} (h1 : a.unalias k = .ok u)
    (h2 : a.unalias k' = .ok u) : k = k' := by
  have := (c68_inverse_partial a h h1).symm.trans (c68_inverse_partial a h h2)
  injection this

mutual
/-- A string is refused with `KeyError` only, and stands for a string. -/
theorem c68_text : (a : Aliaser) → Textual a → ∀ (s : Str),
    (∃ t, a.unalias (.str s) = .ok (.str t)) ∨ ∃ e, a.unalias (.str s) = .error e ∧ e.isKey = true
  | .dict tbl strict, h, s => by
    simp only [Aliaser.unalias]
    cases hg : Od.get? tbl (.str s) with
    | some u =>
      obtain ⟨t, ht⟩ := h _ (Od.get?_some_mem hg)
      exact .inl ⟨t, by rw [← ht]⟩
    | none =>
      cases strict with
      | true => exact .inr ⟨_, rfl, rfl⟩
      | false => exact .inl ⟨s, rfl⟩
  | .pre p, _, s => by
    simp only [Aliaser.unalias]
    split
    · exact .inl ⟨_, rfl⟩
    · exact .inr ⟨_, rfl, rfl⟩
  | .suf p, _, s => by
    simp only [Aliaser.unalias]
    split
    · exact .inl ⟨_, rfl⟩
    · exact .inr ⟨_, rfl, rfl⟩
  | .chain l, h, s => by
    simp only [Aliaser.unalias]
    exact c68_text_chain l h s

/-- Chains. -/
theorem c68_text_chain : (l : List Aliaser) → TextualChain l → ∀ (s : Str),
    (∃ t, Aliaser.unaliasChain l (.str s) = .ok (.str t)) ∨
      ∃ e, Aliaser.unaliasChain l (.str s) = .error e ∧ e.isKey = true
  | [], _, s => .inl ⟨s, rfl⟩
  | a :: r, h, s => by
    simp only [Aliaser.unaliasChain]
    rcases c68_text_chain r h.2 s with ⟨t, ht⟩ | ⟨e, he, hk⟩
    · rw [ht]; exact c68_text a h.1 t
    · rw [he]; exact .inr ⟨e, rfl, hk⟩
end

section
variable {E : Env} {o : Oid} {w : World} {l r : List Bhv} {a : Aliaser}

/-- C68 for nodes: a string that is the alias of no key is not in the node; it can be neither read,
written nor deleted, and trying so changes the children of no node. -/
theorem c68_foreign_partial (h : AliasAt (clsOf E w o) l r a) (hw : WF w) (h1 : OneToOne a) (h2 : Textual a)
    {s : Str} (hs : ∀ u, a.alias u ≠ .ok (.str s)) (v : Val) :
    (mcontains E o (.str s) w).1 = .ok false ∧
    (∃ e, getitem E o (.str s) w = (.error e, w) ∧ e.isKey = true) ∧
    (∃ e, delitem E o (.str s) w = (.error e, w) ∧ e.isKey = true) ∧
    ∃ e w', setitem E o (.str s) v w = (.error e, w') ∧ MapsSame w w' := by
  obtain ⟨e, he, hk⟩ : ∃ e, a.unalias (.str s) = .error e ∧ e.isKey = true := by
    rcases c68_text a h2 s with ⟨t, ht⟩ | x
    · exact absurd (c68_inverse_partial a h1 ht) (hs _)
    · exact x
  have hg : getitem E o (.str s) w = (.error e, w) := by
    show getPipe E (fbHandler E) (clsOf E w o).bhvs o _ w = _
    rw [get_alias h, he]
  refine ⟨?_, ⟨e, hg, hk⟩, ⟨e, ?_, hk⟩, ?_⟩
  · simp only [mcontains, M.catchIf_apply, M.bind_apply, hg, hk, if_true, M.pure_apply]
  · show delPipe E (clsOf E w o).bhvs o _ w = _
    rw [del_alias h, he]
  · have hd : dest (clsOf E w o).aliaser (clsOf E w o).bhvs (.str s) = none := dest_unalias_error h he
    rcases hx : setitem E o (.str s) v w with ⟨e | x, w'⟩
    · refine ⟨e, w', rfl, ?_⟩
      rcases c02_set_err E o _ v hw hx with hs | ⟨-, -, hs⟩
      · exact hs
      · rw [hd] at hs
        rcases hs with ⟨j, hj, -⟩ | ⟨j, hj, -⟩ <;> cases hj
    · have hs := c02_set_ok E o _ v hw hx
      rw [hd] at hs
      rcases hs with ⟨j, hj, -⟩ | ⟨j, hj, -⟩ <;> cases hj

/-- C68 for nodes: writing or deleting one key leaves what is stored behind every other accepted
key. -/
theorem c68_other_partial (h : AliasClass (clsOf E w o) l r a) (hw : WF w) (hc : CacheAgrees E w o)
    (h1 : OneToOne a) (h2 : Lawful a) {k k' u u' : Key} (hk : a.unalias k = .ok u) (hk' : a.unalias k' = .ok u')
    (hne : k ≠ k') (hp : Plain r u) (hp' : Plain r u') (v : Val) :
    u ≠ u' ∧
    (getitem E o k' w).1 = (match (w.omap o).val u' with | some x => .ok x | none => .error (.key (.key k'))) ∧
    ((setitem E o k v w).2.omap o).val u' = (w.omap o).val u' ∧
    ((delitem E o k w).2.omap o).val u' = (w.omap o).val u' := by
  have ha := c68_inverse_partial a h1 hk
  have ha' := c68_inverse_partial a h1 hk'
  have hinv := c28_lawful h2
  have hu : u ≠ u' := fun e => hne (c68_apart_partial h1 hk (e ▸ hk'))
  refine ⟨hu, c28_get h hw hc hinv ha' hp', ?_, ?_⟩
  · rw [(c28_set h hw hc hinv v ha hp).2 o]
    split
    · simp [OMap.set, hu.symm]
    · rfl
  · rw [(c28_del h hw hc hinv ha hp).2 o]
    split
    · simp [OMap.del, hu.symm]
    · rfl

end

/-- C68 is false for dictionaries that list a key twice: one child is reached by two keys, of which
only the first is shown. -/
theorem c68_refuted : ∃ (E : Env) (w : World), Reachable E w ∧
    (clsOf E w 0).aliaser = some (.dict [(ka, kc), (kb, kc)] true) ∧
    (mkeys E 0 w).1 = .ok [ka] ∧ (getitem E 0 ka w).1 = .ok (.data (.int 1)) ∧
    (getitem E 0 kb w).1 = .ok (.data (.int 1)) :=
  ⟨dictAlias [(ka, kc), (kb, kc)], after (dictAlias [(ka, kc), (kb, kc)])
      [.new 0 .none none, .set 0 kb (.data (.int 1))],
    reachable_after .., rfl, by decide +kernel, by decide +kernel, by decide +kernel⟩

/-- C68 is false for keys that are no strings: prefix and suffix aliasers raise `AttributeError` for
numbers and `None` and `TypeError` for bytes. -/
theorem c68_refuted_type (p : Option Str) (i : Int) (b : List UInt8) :
    (Aliaser.pre p).unalias (.int i) = .error .attr ∧ (Aliaser.suf p).unalias (.int i) = .error .attr ∧
    (Aliaser.pre p).unalias .none = .error .attr ∧ (Aliaser.suf p).unalias .none = .error .attr ∧
    (Aliaser.pre p).unalias (.bytes b) = .error .type ∧ (Aliaser.suf p).unalias (.bytes b) = .error .type :=
  ⟨rfl, rfl, rfl, rfl, rfl, rfl⟩

/-- So membership raises. -/
theorem c68_refuted_contains : ∃ (E : Env) (w : World), Reachable E w ∧
    (mcontains E 0 (.int 1) w).1 = .error .attr :=
  ⟨sampleEnv, c28W, reachable_after .., by decide +kernel⟩

/-! The keys of a prefixed node; `a` is no alias. -/

example : AliasClass (clsOf sampleEnv c28W 0) [] [.nodify, .dictStorage] (.pre "p-".toList) ∧
    WF c28W ∧ CacheAgrees sampleEnv c28W 0 ∧ OneToOne (.pre "p-".toList) ∧ Lawful (.pre "p-".toList) ∧
    Textual (.pre "p-".toList) ∧
    (Aliaser.pre "p-".toList).unalias kpa = .ok ka ∧
    (∀ u, (Aliaser.pre "p-".toList).alias u ≠ .ok (.str ['a'])) ∧
    (mcontains sampleEnv 0 (.str ['a']) c28W).1 = .ok false :=
  ⟨⟨⟨rfl, by decide, rfl, rfl⟩, by decide, .inl (by decide)⟩, (reachable_after ..).wf,
    fun h => absurd h (by decide), trivial, trivial, trivial, by decide +kernel,
    fun u h => by cases u <;> simp [Aliaser.alias] at h, by decide +kernel⟩

example : OneToOne (.chain [.dict [(.str ['a'], .str ['b'])] true, .pre (some ['x']), .suf (some ['y'])]) ∧
    (Aliaser.chain [.dict [(.str ['a'], .str ['b'])] true, .pre (some ['x']), .suf (some ['y'])]).unalias
      (.str ['x', 'a', 'y']) = .ok (.str ['b']) :=
  ⟨⟨⟨by decide, by decide, .inl rfl⟩, trivial, List.cons_ne_nil _ _, trivial⟩, by decide +kernel⟩

end Verif
