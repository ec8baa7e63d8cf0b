import Verif.Props.C28Any
import Verif.Props.C85

/-!
# C85: clear with Alias

A node with `Alias` among any behaviors lists nothing after `clear`.
-/

namespace Verif

theorem shownBy_skip_ne {E : Env} {w : World} {o : Oid} {l : List Bhv} (hl : Bhv.alias ∉ l) {k : Key} (hp : Plain l k)
    (t : List Bhv) (h : w.shownBy E o t k ≠ none) : w.shownBy E o (l ++ t) k ≠ none := by
  induction l with
  | nil => exact h
  | cons b r ih =>
    have ih := ih (fun h => hl (List.mem_cons_of_mem _ h)) hp.of_cons
    cases b
    case «alias» => exact absurd List.mem_cons_self hl
    case cache =>
      simp only [List.cons_append, World.shownBy]
      split
      · exact Option.some_ne_none _
      · exact ih
    case nodespaces =>
      obtain ⟨s, rfl, hs⟩ := hp List.mem_cons_self
      simp only [List.cons_append, World.shownBy, hs, if_false]
      exact ih
    all_goals exact ih

/-- What is stored under a key is shown under its alias, unless the cache holds something else. -/
theorem Translates.shown_ne {E : Env} {o : Oid} {w : World} {l r : List Bhv} {a : Aliaser}
    (h : Translates (clsOf E w o) l r a) {u k : Key} (hu : a.unalias k = .ok u) (hl : Plain l k) (hr : Plain r u)
    (hv : u ∈ (w.omap o).keys) : w.shown E o k ≠ none := by
  unfold World.shown
  rw [h.bhvs]
  refine shownBy_skip_ne h.left hl _ ?_
  simp only [World.shownBy, h.aliaser, h.truthy, if_true, hu]
  have := shownBy_skip_ne (E := E) (w := w) (o := o) h.right hr []
  rw [List.append_nil] at this
  refine this ?_
  simp only [World.shownBy, World.stored]
  obtain ⟨b, hb, hs⟩ := h.stores.kind
  rw [if_neg h.stores.noFixed, show (clsOf E w o).bhvs.find? Bhv.isStorage = some b from hb]
  have hj : (w.children o).get? u ≠ none := fun h0 => ((Od.get?_eq_none_iff _ _).mp h0) hv
  cases b <;> first | exact absurd rfl hs | exact hj

/-- C85: a node with `Alias` lists nothing after `node.clear()`: `list(node) == []` and `len(node) == 0`.  What is
stored under a key a dictionary aliaser does not list stays, unlisted. -/
theorem c85_clear_alias_partial {E : Env} {o : Oid} {w w' : World} {l r : List Bhv} {a : Aliaser}
    (ht : Translates (clsOf E w o) l r a) (hE : Unasking E (clsOf E w o)) (hw : WF w) (ho : o < w.nobj)
    (hu : Unread (clsOf E w o).bhvs) (hf : Bhv.childFactory ∉ (clsOf E w o).bhvs)
    (hall : a.enumerable = true ∨ ∀ u ∈ (w.omap o).keys, ∃ k, a.alias u = .ok k)
    (hinv : ∀ u k, a.alias u = .ok k → a.unalias k = .ok u)
    (hp : ∀ u ∈ (w.omap o).keys, ∀ k, a.alias u = .ok k → Plain l k ∧ Plain r u)
    (h : mclear E o w = (.ok (), w')) : (mkeys E o w').1 = .ok [] ∧ (mlen E o w').1 = .ok 0 := by
  have hm := mute_mkeys E o w
  have h0 := c28_any_keys ht hw hf hall
  simp only [mclear, M.bind_apply] at h
  rcases hk : mkeys E o w with ⟨_ | ks, w1⟩
  · rw [hk] at h; cases h
  rw [hk] at h hm h0
  replace hm : Mute w w1 := hm
  replace h0 := Except.ok.inj h0
  obtain ⟨c1, b, c, -, -, -, g⟩ := forU_del (by rw [hm.clsOf]; exact hE) (hm.wf hw) (by rw [hm.nobj]; exact ho)
    (by rw [hm.clsOf]; exact hu) h
  have hc' : clsOf E w' o = clsOf E w o := b.trans (hm.clsOf o)
  have hsub : ∀ u ∈ (w'.omap o).keys, u ∈ (w.omap o).keys := fun u hu' => Decidable.byContradiction fun hn =>
    (Od.get?_eq_none_iff _ _).mp (g u (by rw [hm.children hw]; exact (Od.get?_eq_none_iff _ _).mpr hn)) hu'
  have hnil : (mkeys E o w').1 = .ok [] := by
    rw [c28_any_keys (a := a) (by rw [hc']; exact ht) c1 (by rw [hc']; exact hf)
      (hall.imp_right fun hh u hu' => hh u (hsub u hu'))]
    congr 1
    refine List.eq_nil_iff_forall_not_mem.mpr fun k hk' => ?_
    obtain ⟨u, hu', e⟩ := List.mem_filterMap.mp hk'
    have hau : a.alias u = .ok k := by
      cases he : a.alias u with
      | error e' => rw [he] at e; cases e
      | ok j => rw [he] at e; injection e with e; rw [e]
    have hin : k ∈ ks := by
      rw [h0]
      exact List.mem_filterMap.mpr ⟨u, hsub u hu', e⟩
    obtain ⟨p1, p2⟩ := hp u (hsub u hu') k hau
    exact Translates.shown_ne (w := w') (by rw [hc']; exact ht) (hinv u k hau) p1 p2 hu' (c k hin)
  refine ⟨hnil, ?_⟩
  simp only [mlen, M.bind_apply]
  rcases hk2 : mkeys E o w' with ⟨_ | ks2, w2⟩
  · rw [hk2] at hnil; cases hnil
  · rw [hk2] at hnil
    cases hnil
    rfl

/-! A node with nodespaces, `Lifecycle`, `Reference` and `Cache` left of `Alias`, two children, one of them cached. -/

theorem early_translates (w : World) (o : Oid) : Translates (clsOf earlyCache w o)
    [.nodespaces, .adopt, .lifecycle, .reference, .cache] [.defaultInit, .nodify, .odictStorage] (.pre "p-".toList) :=
  ⟨rfl, by decide, by decide, rfl, rfl, ⟨⟨_, rfl, by decide⟩, show _ ∉ (earlyCache.cls 0).bhvs by decide⟩⟩

example : (mkeys earlyCache 0 (mclear earlyCache 0 (after earlyCache derivedOps)).2).1 = .ok [] := by
  have hw := (reachable_after earlyCache derivedOps).wf
  have ho : 0 < (after earlyCache derivedOps).nobj := by decide +kernel
  have h1 := derived_clear
  have hk : ((after earlyCache derivedOps).omap 0).keys = [ka, kb] := by decide +kernel
  generalize after earlyCache derivedOps = w at hw ho h1 hk
  have hab : ∀ u ∈ [ka, kb], u = ka ∨ u = kb := fun u hu => by
    rcases List.mem_cons.mp hu with h | h
    · exact .inl h
    · exact .inr (List.mem_singleton.mp h)
  refine (c85_clear_alias_partial (early_translates w 0) (early_unasking _) hw ho
    (show Unread (earlyCache.cls 0).bhvs by decide +kernel) (show _ ∉ (earlyCache.cls 0).bhvs by decide +kernel)
    (.inr ?_) (c28_lawful trivial) ?_ (Prod.ext h1 rfl)).1
  · rw [hk]
    intro u hu
    rcases hab u hu with rfl | rfl <;> exact ⟨_, rfl⟩
  · rw [hk]
    intro u hu k e
    refine ⟨fun _ => ?_, fun hm => absurd hm (by decide)⟩
    rcases hab u hu with rfl | rfl <;> (cases e; exact ⟨_, rfl, by decide⟩)

end Verif
