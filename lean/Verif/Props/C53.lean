import Verif.Model.Utils
import Verif.Lemmas.Odict

/-!
# C53: `ReverseMapping` is the inverse view

For every mapping `m` (its items in iteration order, keys unique), every context that reads as
`m`, and every relation `eq` between values for `==`, equal values under several keys included.
-/

namespace Verif.Utils

section
variable {K V : Type} [DecidableEq K]

/-- The context reads as the mapping `m`. -/
structure ReadsAs (c : Ctx K V) (m : List (K × V)) : Prop where
  nodup : (m.map (·.1)).Nodup
  iter : c.iter = m.map (·.1)
  getitem : ∀ k v, (k, v) ∈ m → c.getitem k = some v
  items : c.items = m
  len : c.len = m.length

/-- `k` is the first key of `m` whose value equals `v`. -/
def First (eq : V → V → Bool) (m : List (K × V)) (v : V) (k : K) : Prop :=
  ∃ pre x post, m = pre ++ (k, x) :: post ∧ eq x v = true ∧ ∀ p ∈ pre, eq p.2 v = false

omit [DecidableEq K] in
theorem revGetLoop_spec {eq : V → V → Bool} {c : Ctx K V} {v : V} :
    ∀ {m : List (K × V)}, (∀ k x, (k, x) ∈ m → c.getitem k = some x) →
      (∀ k, revGetLoop eq c v (m.map (·.1)) = .ok k → First eq m v k) ∧
      (∀ e, revGetLoop eq c v (m.map (·.1)) = .error e → e = .key v ∧ ∀ p ∈ m, eq p.2 v = false) := by
  intro m
  induction m with
  | nil => exact fun _ => ⟨fun k h => (by cases h), fun e h => (by cases h; exact ⟨rfl, fun p h => (nomatch h)⟩)⟩
  | cons p m ih =>
    obtain ⟨j, y⟩ := p
    intro hm
    have hj := hm j y List.mem_cons_self
    have ih := ih fun k x hk => hm k x (List.mem_cons_of_mem _ hk)
    simp only [List.map_cons, revGetLoop, hj]
    cases hy : eq y v with
    | true =>
      simp only [if_true]
      exact ⟨fun k h => (by cases h; exact ⟨[], y, m, rfl, hy, fun p h => (nomatch h)⟩), fun e h => (by cases h)⟩
    | false =>
      simp only [Bool.false_eq_true, if_false]
      refine ⟨fun k h => ?_, fun e h => ?_⟩
      · obtain ⟨pre, x, post, h1, h2, h3⟩ := ih.1 k h
        refine ⟨(j, y) :: pre, x, post, by rw [h1]; rfl, h2, fun p hp => ?_⟩
        rcases List.mem_cons.mp hp with rfl | hp
        · exact hy
        · exact h3 p hp
      · obtain ⟨h1, h2⟩ := ih.2 e h
        refine ⟨h1, fun p hp => ?_⟩
        rcases List.mem_cons.mp hp with rfl | hp
        · exact hy
        · exact h2 p hp

omit [DecidableEq K] in
theorem First.unique {eq : V → V → Bool} {m : List (K × V)} {v : V} {k j : K} (h : First eq m v k)
    (h' : First eq m v j) : k = j := by
  obtain ⟨pre, x, post, h1, h2, h3⟩ := h
  obtain ⟨pre', x', post', h1', h2', h3'⟩ := h'
  rw [h1] at h1'
  clear h1
  induction pre generalizing pre' with
  | nil =>
    cases pre' with
    | nil => cases h1'; rfl
    | cons p pre' =>
      cases h1'
      exact absurd h2 (by rw [h3' _ List.mem_cons_self]; decide)
  | cons p pre ih =>
    cases pre' with
    | nil =>
      cases h1'
      exact absurd h2' (by rw [h3 _ List.mem_cons_self]; decide)
    | cons p' pre' =>
      exact ih (fun q hq => h3 q (List.mem_cons_of_mem _ hq)) pre'
        (List.cons.inj h1').2 (fun q hq => h3' q (List.mem_cons_of_mem _ hq))

omit [DecidableEq K] in
/-- `ReverseMapping(m)[v]` is `k` exactly if `k` is the first key whose value equals `v`. -/
theorem c53_getitem {eq : V → V → Bool} {c : Ctx K V} {m : List (K × V)} (h : ReadsAs c m) (v : V) (k : K) :
    revGetitem eq c v = .ok k ↔ First eq m v k := by
  have hs := revGetLoop_spec (eq := eq) (v := v) h.getitem
  unfold revGetitem
  rw [h.iter]
  refine ⟨hs.1 k, fun hf => ?_⟩
  cases hx : revGetLoop eq c v (m.map (·.1)) with
  | ok j => rw [(hs.1 j hx).unique hf]
  | error e =>
    obtain ⟨pre, x, post, h1, h2, -⟩ := hf
    have := (hs.2 e hx).2 (k, x) (by rw [h1]; exact List.mem_append_right _ List.mem_cons_self)
    rw [h2] at this; cases this

omit [DecidableEq K] in
/-- It raises exactly if no value equals `v`, and then `KeyError(v)`. -/
theorem c53_missing {eq : V → V → Bool} {c : Ctx K V} {m : List (K × V)} (h : ReadsAs c m) (v : V) (e : RErr K V) :
    revGetitem eq c v = .error e ↔ e = .key v ∧ ∀ k x, (k, x) ∈ m → eq x v = false := by
  have hs := revGetLoop_spec (eq := eq) (v := v) h.getitem
  unfold revGetitem
  rw [h.iter]
  refine ⟨fun he => ⟨(hs.2 e he).1, fun k x hk => (hs.2 e he).2 _ hk⟩, fun ⟨h1, h2⟩ => ?_⟩
  cases hx : revGetLoop eq c v (m.map (·.1)) with
  | ok j =>
    obtain ⟨pre, x, post, e1, e2, -⟩ := hs.1 j hx
    have := h2 j x (by rw [e1]; exact List.mem_append_right _ List.mem_cons_self)
    rw [e2] at this; cases this
  | error e' => rw [(hs.2 e' hx).1, h1]

omit [DecidableEq K] in
/-- `get` is item access with a default. -/
theorem c53_get {eq : V → V → Bool} {c : Ctx K V} {m : List (K × V)} (h : ReadsAs c m) (v : V) (d : Option K) :
    (∀ k, First eq m v k → revGetDefault eq c v d = some k) ∧
    ((∀ k x, (k, x) ∈ m → eq x v = false) → revGetDefault eq c v d = d) := by
  refine ⟨fun k hk => ?_, fun hn => ?_⟩
  · unfold revGetDefault; rw [(c53_getitem h v k).mpr hk]
  · unfold revGetDefault; rw [(c53_missing h v (.key v)).mpr ⟨rfl, hn⟩]

omit [DecidableEq K] in
/-- `in` says whether some value equals `v`. -/
theorem c53_contains {eq : V → V → Bool} {c : Ctx K V} {m : List (K × V)} (h : ReadsAs c m) (v : V) :
    revContains eq c v = .ok (m.any fun p => eq p.2 v) := by
  unfold revContains
  rw [h.iter]
  have hg := h.getitem
  clear h
  induction m with
  | nil => rfl
  | cons p m ih =>
    have ih := ih fun k x hk => hg k x (List.mem_cons_of_mem _ hk)
    simp only [List.map_cons, revContainsLoop, hg p.1 p.2 List.mem_cons_self, List.any_cons, ih]
    cases eq p.2 v <;> rfl

omit [DecidableEq K] in
/-- `keys`, `values`, `items` and `len` are those of `m` with the roles exchanged. -/
theorem c53_views {c : Ctx K V} {m : List (K × V)} (h : ReadsAs c m) :
    revKeys c = .ok (m.map (·.2)) ∧ revValues c = m.map (·.1) ∧ revItems c = m.map Prod.swap ∧
    revLen c = m.length := by
  refine ⟨?_, ?_, ?_, h.len⟩
  · unfold revKeys
    rw [h.iter]
    have hg := h.getitem
    clear h
    induction m with
    | nil => rfl
    | cons p m ih =>
      have ih := ih fun k x hk => hg k x (List.mem_cons_of_mem _ hk)
      simp only [List.map_cons, revIterLoop, hg p.1 p.2 List.mem_cons_self, ih]
      rfl
  · unfold revValues; rw [h.iter, List.map_id']
  · unfold revItems; rw [h.items]; rfl

/-- A dictionary as context. -/
def dictCtx (m : Od K V) : Ctx K V := { iter := m.keys, getitem := m.get?, items := m, len := m.length }

/-- Every dictionary reads as itself. -/
theorem dictCtx_reads {m : Od K V} (h : m.keys.Nodup) : ReadsAs (dictCtx m) m :=
  ⟨h, rfl, fun _ _ hk => Od.get?_of_mem h hk, rfl, rfl⟩

end

/-- Equal values under several keys: the first key wins. -/
def twins : Od String Nat := [("a", 1), ("b", 2), ("c", 1)]

theorem twins_first : First (fun a b => a == b) twins 1 "a" :=
  ⟨[], 1, [("b", 2), ("c", 1)], rfl, rfl, fun _ h => (nomatch h)⟩

example : ReadsAs (dictCtx twins) twins ∧ revGetitem (fun a b => a == b) (dictCtx twins) 1 = .ok "a" ∧
    revGetitem (fun a b => a == b) (dictCtx twins) 5 = .error (.key 5) :=
  have h := dictCtx_reads (m := twins) (by decide)
  ⟨h, (c53_getitem h 1 "a").mpr twins_first, rfl⟩

end Verif.Utils
