import Verif.Props.C09Any
import Verif.Props.C97

/-!
# C97 for every well-located tree

As in `C09Any` nothing is assumed about how the heap came about or about the classes.
-/

namespace Verif

variable {E : Env} {w : World} {r : Oid}

theorem LocatedAt.append {a b c : Oid} {ks js : List Key} (h : LocatedAt E w a ks b) (h' : LocatedAt E w b js c) :
    LocatedAt E w a (ks ++ js) c := by
  induction h' with
  | root _ => rw [List.append_nil]; exact h
  | item _ hs e hn ih => rw [← List.append_assoc]; exact .item ih hs e hn

theorem LocatedAt.exists {a b : Oid} {ks : List Key} (h : LocatedAt E w a ks b) : b < w.nobj := by
  cases h with
  | root hn => exact hn
  | item _ _ _ hn => exact hn

/-- Keys that lead on from the node where the first of them lead. -/
theorem LocatedAt.rest {p : Oid} {js : List Key} (hp : LocatedAt E w r js p) {ks : List Key} {o : Oid}
    (h : LocatedAt E w r (js ++ ks) o) : LocatedAt E w p ks o := by
  generalize hl : js ++ ks = l at h
  induction h generalizing ks with
  | root hn =>
    obtain ⟨rfl, rfl⟩ := List.append_eq_nil_iff.mp hl
    rw [hp.functional (.root hn)]
    exact .root hn
  | @item ms q c k hb hs e hn ih =>
    rcases List.eq_nil_or_concat ks with rfl | ⟨ks, j, rfl⟩
    · rw [List.append_nil] at hl
      subst hl
      rw [hp.functional (.item hb hs e hn)]
      exact .root hn
    · rw [List.concat_eq_append, ← List.append_assoc] at hl
      obtain ⟨e1, e2⟩ := List.append_inj' hl rfl
      injection e2 with e2
      subst e2
      rw [List.concat_eq_append]
      exact .item (ih e1) hs e hn

/-- Walking along the keys from a node that has ancestors. -/
theorem LocatedAt.walkFrom (hw : WF w) {p : Oid} {l : List Oid} (hc : Chain w p l) {ks : List Key} {o : Oid}
    (h : LocatedAt E w p ks o) :
    ∃ l w', Chain w o l ∧ Verif.walk E (.node p) ks w = (.ok (.node o), w') ∧ WF w' ∧ Same w w' ∧
      ∀ q, q ∉ l → w'.cached q = w.cached q := by
  induction h with
  | root hn => exact ⟨l, w, hc, rfl, hw, .refl w, fun _ _ => rfl⟩
  | @item ks q c k hb hs e hn ih =>
    obtain ⟨l, w1, h1, h2, h3, h4, h5⟩ := ih
    rw [← shown_same h4 (h5 q h1.not_mem)] at hs
    obtain ⟨w2, h6, h7⟩ := getitem_shown h3 hs
    refine ⟨q :: l, w2, .up (by rw [e]) h1, ?_, h7.wf, h4.trans h7.same, fun x hx => ?_⟩
    · rw [walk_append, h2]
      show (do let v ← getitem E q k; Verif.walk E v []) w1 = _
      rw [M.bind_apply, h6]
      rfl
    · rw [h7.cached x fun y => hx (y ▸ List.mem_cons_self), h5 x fun y => hx (List.mem_cons_of_mem _ y)]

/-- C97: the path of a located node is the path of its ancestor followed by the keys that lead from there to the
node; looked up from the ancestor, the rest of the path finds the node, and changes nothing but caches. -/
theorem c97_relative_any (hw : WF w) (hr : (w.loc r).2 = none) {p o : Oid} {js ks : List Key}
    (hp : LocatedAt E w r js p) (ho : LocatedAt E w p ks o) :
    ∃ a b w', pathOf w p = some a ∧ pathOf w o = some b ∧ b = a ++ ks ∧
      nodeByPath E p (b.drop a.length) w = (.ok (.node o), w') ∧ Same w w' := by
  obtain ⟨l, hc, -, -, -⟩ := hp.chain hr
  obtain ⟨_, w', _, h1, _, h2, _⟩ := ho.walkFrom hw hc
  refine ⟨_, _, w', (c09_path hr hp).1, (c09_path hr (hp.append ho)).1, rfl, ?_, h2⟩
  show nodeByPath E p (((w.loc r).1 :: js ++ ks).drop _) _ = _
  rw [List.drop_left]
  exact h1

/-- C97: a located node is another one or below it if and only if its path begins with the path of the other one. -/
theorem c97_ancestor_any (hr : (w.loc r).2 = none) {p o : Oid} {js ms : List Key} (hp : LocatedAt E w r js p)
    (ho : LocatedAt E w r ms o) {a b : List Key} (ha : pathOf w p = some a) (hb : pathOf w o = some b) :
    a <+: b ↔ ∃ ks, LocatedAt E w p ks o := by
  rw [(c09_path hr hp).1] at ha
  have h2 := (c09_path hr ho).1
  rw [h2] at hb
  injection ha with ha
  injection hb with hb
  subst ha hb
  constructor
  · rintro ⟨t, ht⟩
    rw [List.cons_append] at ht
    injection ht with _ ht
    subst ht
    exact ⟨t, hp.rest ho⟩
  · rintro ⟨ks, hk⟩
    have h1 := (c09_path hr (hp.append hk)).1
    rw [h2] at h1
    injection h1 with h1
    rw [h1]
    exact ⟨ks, rfl⟩

/-- Attributes of a fixed child of a child under a translated key, from that child. -/
example : ∃ a b w', pathOf (after mixedEnv mixedOps) 1 = some a ∧ pathOf (after mixedEnv mixedOps) 3 = some b ∧
    b = a ++ [.str ['a'], .str "__attrs__".toList] ∧
    nodeByPath mixedEnv 1 (b.drop a.length) (after mixedEnv mixedOps) = (.ok (.node 3), w') ∧
    Same (after mixedEnv mixedOps) w' := by
  have h1 : LocatedAt mixedEnv (after mixedEnv mixedOps) 0 [.str ['p', '-', 'a']] 1 :=
    .item (ks := []) (p := 0) (.root (by decide +kernel)) (by decide +kernel) (by decide +kernel) (by decide +kernel)
  exact c97_relative_any (reachable_after mixedEnv mixedOps).wf (by decide +kernel) h1 (h1.rest mixed_located)

end Verif
