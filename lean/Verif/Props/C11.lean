import Verif.Props.C12
import Mathlib.Data.List.Nodup

/-!
# C11 `acquire` returns the nearest matching ancestor

In every heap whose parent chains are finite (see C12); then in every heap.
-/

namespace Verif

/-- The nearest strict ancestor of `o` with `p`. -/
def Nearest (w : World) (p : Oid → Bool) (o a : Oid) : Prop :=
  Ancestor w a o ∧ p a = true ∧ ∀ b, Ancestor w b o → Ancestor w a b → p b = false

theorem nodup_split {s t s' t' : List Oid} {b : Oid} (hnd : (s ++ b :: t).Nodup)
    (e : s ++ b :: t = s' ++ b :: t') : t = t' := by
  have hb1 : b ∉ s := fun hm => (List.nodup_append.mp hnd).2.2 b hm b List.mem_cons_self rfl
  rw [e] at hnd
  have hb2 : b ∉ s' := fun hm => (List.nodup_append.mp hnd).2.2 b hm b List.mem_cons_self rfl
  rcases List.append_eq_append_iff.mp e with ⟨c, h5, h6⟩ | ⟨c, h5, h6⟩
  · cases c with
    | nil => simp only [List.nil_append, List.cons.injEq, true_and] at h6; exact h6
    | cons x y =>
      injection h6 with h6 h7
      subst h6
      exact absurd (by rw [h5]; simp) hb2
  · cases c with
    | nil => simp only [List.nil_append, List.cons.injEq, true_and] at h6; exact h6.symm
    | cons x y =>
      injection h6 with h6 h7
      subst h6
      exact absurd (by rw [h5]; simp) hb1

theorem Chain.acquire {w : World} (hs : Sound w) {o : Oid} {l : List Oid} (hl : Chain w o l)
    (ho : o < w.nobj) (p : Oid → Bool) : acquire w p o = some (l.find? p) := by
  have := hs.length hl ho
  exact hl.acquireN p (by omega)

section
variable {E : Env} {w : World} (h : DownReachable E w) {o : Oid} (ho : o < w.nobj)
  (p : Oid → Bool)
include h ho

/-- C11: `acquire` ends, and returns a node exactly if that is the nearest matching
strict ancestor. -/
theorem c11_nearest_partial (a : Oid) : acquire w p o = some (some a) ↔ Nearest w p o a := by
  obtain ⟨l, hl⟩ := c12_finite h ho
  rw [hl.acquire (h.sound) ho]
  simp only [Option.some.injEq]
  constructor
  · intro hf
    obtain ⟨hp, s, t, rfl, hs⟩ := List.find?_eq_some_iff_append.mp hf
    refine ⟨hl.ancestor_iff.mpr (by simp), hp, fun b hb hab => ?_⟩
    have hbm := hl.ancestor_iff.mp hb
    rcases List.mem_append.mp hbm with hb' | hb'
    · simpa using hs b hb'
    · exfalso
      have hnd := (List.nodup_cons.mp hl.nodup).2
      obtain ⟨s', t', e, hc⟩ := hl.suffix hbm
      have ha' := hc.ancestor_iff.mp hab
      -- `b` is `a` or after it, so `a` is not after `b`
      rcases List.mem_cons.mp hb' with rfl | hb''
      · exact hc.not_mem ha'
      · obtain ⟨u, v, rfl⟩ := List.append_of_mem hb''
        have e' : s ++ a :: (u ++ b :: v) = (s ++ a :: u) ++ b :: v := by simp
        rw [e'] at hnd e
        rw [← nodup_split hnd e] at ha'
        exact (List.nodup_append.mp hnd).2.2 a (by simp) a (List.mem_cons_of_mem _ ha') rfl
  · rintro ⟨ha, hp, hn⟩
    obtain ⟨s, t, rfl, ht⟩ := hl.suffix (hl.ancestor_iff.mp ha)
    refine List.find?_eq_some_iff_append.mpr ⟨hp, s, t, rfl, fun b hb => ?_⟩
    have hbm : b ∈ s ++ a :: t := List.mem_append.mpr (.inl hb)
    have := hn b (hl.ancestor_iff.mpr hbm) ?_
    · simp [this]
    · obtain ⟨u, v, rfl⟩ := List.append_of_mem hb
      obtain ⟨s', t', e, hc⟩ := hl.suffix hbm
      refine hc.ancestor_iff.mpr ?_
      have hnd := (List.nodup_cons.mp hl.nodup).2
      have e' : u ++ b :: v ++ a :: t = u ++ b :: (v ++ a :: t) := by simp
      rw [e'] at e hnd
      rw [← nodup_split hnd e]; simp

/-- C11: `acquire` returns `None` exactly if no strict ancestor matches. -/
theorem c11_none_partial : acquire w p o = some none ↔ ∀ a, Ancestor w a o → p a = false := by
  obtain ⟨l, hl⟩ := c12_finite h ho
  rw [hl.acquire (h.sound) ho]
  simp only [Option.some.injEq, List.find?_eq_none, hl.ancestor_iff, Bool.not_eq_true]

/-- C11: the node itself is never returned, also if it matches. -/
theorem c11_not_self_partial : acquire w p o ≠ some (some o) := fun hc =>
  c12_irreflexive h ho ((c11_nearest_partial h ho p o).mp hc).1

end

/-! ### Without any condition on the history -/

/-- The parent, the parent of the parent and so on. -/
def nthUp (w : World) : Nat → Oid → Option Oid
  | 0, o => (w.loc o).2
  | n + 1, o => (nthUp w n o).bind fun p => (w.loc p).2

/-- The `n` nodes above `o` exist and do not match. -/
def NoMatch (w : World) (p : Oid → Bool) (o : Oid) (n : Nat) : Prop :=
  ∀ j, j < n → ∃ b, nthUp w j o = some b ∧ p b = false

theorem nthUp_add {w : World} {i j : Nat} {o : Oid} (h : nthUp w i o = nthUp w j o) (d : Nat) :
    nthUp w (i + d) o = nthUp w (j + d) o := by
  induction d with
  | zero => exact h
  | succ d ih => show (nthUp w (i + d) o).bind _ = (nthUp w (j + d) o).bind _; rw [ih]

theorem nthUp_lt {w : World} (hi : Intact w) {o : Oid} (ho : o < w.nobj) {n : Nat} {a : Oid}
    (h : nthUp w n o = some a) : a < w.nobj := by
  induction n generalizing a with
  | zero => exact hi.parent o a ho h
  | succ n ih =>
    cases hx : nthUp w n o with
    | none => rw [nthUp, hx] at h; cases h
    | some b => rw [nthUp, hx] at h; exact hi.parent b a (ih hx) h

/-- As long as nothing matches, no node is met twice before the loop ends. -/
theorem NoMatch.le {w : World} (hi : Intact w) {p : Oid → Bool} {o : Oid} (ho : o < w.nobj) {n : Nat}
    (h : NoMatch w p o n) (he : ∀ b, nthUp w n o = some b → p b = true) : n ≤ w.nobj := by
  have hinj : ∀ i j, i < j → j < n → nthUp w i o ≠ nthUp w j o := fun i j hij hj e => by
    have := nthUp_add e (n - j)
    rw [show j + (n - j) = n by omega] at this
    obtain ⟨b, hb, hpb⟩ := h (i + (n - j)) (by omega)
    rw [hb] at this
    rw [he b this.symm] at hpb
    cases hpb
  have hnd : ((List.range n).map fun j => (nthUp w j o).getD 0).Nodup := by
    refine List.Nodup.map_on (fun i hi' j hj' e => ?_) List.nodup_range
    have hi' := List.mem_range.mp hi'
    have hj' := List.mem_range.mp hj'
    obtain ⟨b, hb, -⟩ := h i hi'
    obtain ⟨c, hc, -⟩ := h j hj'
    have e' : nthUp w i o = nthUp w j o := by
      rw [hb, hc] at e
      rw [hb, hc]; exact congrArg some e
    rcases Nat.lt_trichotomy i j with hl | hl | hl
    · exact absurd e' (hinj i j hl hj')
    · exact hl
    · exact absurd e'.symm (hinj j i hl hi')
  have := nodup_length_le hnd (n := w.nobj) fun q hq => by
    obtain ⟨j, hj, rfl⟩ := List.mem_map.mp hq
    obtain ⟨b, hb, -⟩ := h j (List.mem_range.mp hj)
    simp only [hb, Option.getD_some]
    exact nthUp_lt hi ho hb
  simpa using this

theorem acquireN_iff {w : World} {p : Oid → Bool} {o : Oid} {r : Option Oid} (n i : Nat) (h : NoMatch w p o i) :
    acquireN w p n (nthUp w i o) = some r ↔
      ∃ k, i ≤ k ∧ (k < i + n ∨ (k = i + n ∧ r = none)) ∧ NoMatch w p o k ∧ nthUp w k o = r ∧
        ∀ a, r = some a → p a = true := by
  induction n generalizing i with
  | zero =>
    cases hx : nthUp w i o with
    | none =>
      constructor
      · intro e
        injection e with e
        subst e
        exact ⟨i, Nat.le_refl _, .inr ⟨rfl, rfl⟩, h, hx, nofun⟩
      · rintro ⟨k, h1, h2 | ⟨h2, rfl⟩, -, -, -⟩
        · omega
        · rfl
    | some a =>
      constructor
      · intro e; cases e
      · rintro ⟨k, h1, h2 | ⟨h2, rfl⟩, -, h3, -⟩
        · omega
        · have : k = i := h2
          subst this; rw [hx] at h3; cases h3
  | succ n ih =>
    cases hx : nthUp w i o with
    | none =>
      constructor
      · intro e
        injection e with e
        subst e
        exact ⟨i, Nat.le_refl _, .inl (by omega), h, hx, nofun⟩
      · rintro ⟨k, h1, -, h3, h4, -⟩
        rcases Nat.lt_or_ge i k with hl | hl
        · obtain ⟨b, hb, -⟩ := h3 i hl; rw [hx] at hb; cases hb
        · have : k = i := by omega
          subst this; rw [hx] at h4; subst h4; rfl
    | some a =>
      rw [acquireN]
      cases hp : p a
      · have h' : NoMatch w p o (i + 1) := fun j hj => by
          rcases Nat.lt_succ_iff_lt_or_eq.mp hj with hl | rfl
          · exact h j hl
          · exact ⟨a, hx, hp⟩
        have e : (w.objs a).parent = nthUp w (i + 1) o := by rw [nthUp, hx]; rfl
        rw [if_neg (by simp), e, ih (i + 1) h']
        constructor
        · rintro ⟨k, h1, h2, h3⟩
          exact ⟨k, by omega, h2.imp (fun h => by omega) (.imp_left fun h => by omega), h3⟩
        · rintro ⟨k, h1, h2, h3, h4, h5⟩
          have : i ≠ k := fun e => by
            subst e; rw [hx] at h4; subst h4; rw [h5 a rfl] at hp; cases hp
          exact ⟨k, by omega, h2.imp (fun h => by omega) (.imp_left fun h => by omega), h3, h4, h5⟩
      · rw [if_pos rfl]
        constructor
        · intro e
          injection e with e
          subst e
          exact ⟨i, Nat.le_refl _, .inl (by omega), h, hx, fun b hb => by injection hb with hb; subst hb; exact hp⟩
        · rintro ⟨k, h1, -, h3, h4, -⟩
          rcases Nat.lt_or_ge i k with hl | hl
          · obtain ⟨b, hb, hpb⟩ := h3 i hl
            rw [hx] at hb; injection hb with hb; subst hb; rw [hp] at hpb; cases hpb
          · have : k = i := by omega
            subst this; rw [hx] at h4; subst h4; rfl

section
variable {w : World} (hi : Intact w) {o : Oid} (ho : o < w.nobj) (p : Oid → Bool)
include hi ho

theorem acquire_iff (r : Option Oid) : acquire w p o = some r ↔
    ∃ k, NoMatch w p o k ∧ nthUp w k o = r ∧ ∀ a, r = some a → p a = true := by
  rw [acquire, show (w.objs o).parent = nthUp w 0 o from rfl, acquireN_iff _ 0 fun _ h => nomatch h]
  constructor
  · rintro ⟨k, -, -, h⟩; exact ⟨k, h⟩
  · rintro ⟨k, h1, h2, h3⟩
    have := h1.le hi ho fun b hb => h3 b (h2.symm.trans hb)
    exact ⟨k, Nat.zero_le _, .inl (by omega), h1, h2, h3⟩

/-- C11, any history, also one that makes a cycle: `acquire` returns `a` exactly if `a` matches, is
reached from `o` by going up, and nothing passed before matches. -/
theorem c11_first (a : Oid) : acquire w p o = some (some a) ↔
    ∃ k, nthUp w k o = some a ∧ p a = true ∧ NoMatch w p o k := by
  rw [acquire_iff hi ho]
  exact ⟨fun ⟨k, h1, h2, h3⟩ => ⟨k, h2, h3 a rfl, h1⟩, fun ⟨k, h1, h2, h3⟩ =>
    ⟨k, h3, h1, fun b hb => by injection hb with hb; subst hb; exact h2⟩⟩

/-- C11, any history: `acquire` returns `None` exactly if a node without parent is reached and nothing
on the way matches. -/
theorem c11_end : acquire w p o = some none ↔ ∃ k, nthUp w k o = none ∧ NoMatch w p o k := by
  rw [acquire_iff hi ho]
  exact ⟨fun ⟨k, h1, h2, _⟩ => ⟨k, h2, h1⟩, fun ⟨k, h1, h2⟩ => ⟨k, h2, h1, nofun⟩⟩

/-- C11, any history: the loop goes on for ever exactly if the parents do not end and none matches. -/
theorem c11_endless : acquire w p o = none ↔ ∀ k, NoMatch w p o k := by
  constructor
  · intro h k
    have no : ∀ r, acquire w p o ≠ some r := fun r e => by rw [h] at e; cases e
    induction k with
    | zero => exact fun _ h => nomatch h
    | succ k ih =>
      intro j hj
      rcases Nat.lt_succ_iff_lt_or_eq.mp hj with hl | rfl
      · exact ih j hl
      · cases hx : nthUp w j o with
        | none => exact absurd ((c11_end hi ho p).mpr ⟨j, hx, ih⟩) (no _)
        | some b =>
          refine ⟨b, rfl, ?_⟩
          cases hp : p b
          · rfl
          · exact absurd ((c11_first hi ho p b).mpr ⟨j, hx, hp, ih⟩) (no _)
  · intro h
    cases hx : acquire w p o with
    | none => rfl
    | some r =>
      obtain ⟨k, -, h2, h3⟩ := (acquire_iff hi ho p r).mp hx
      obtain ⟨b, hb, hpb⟩ := h (k + 1) k (Nat.lt_succ_self _)
      rw [h2] at hb
      subst hb
      rw [h3 b rfl] at hpb
      cases hpb

end

/-- Two nodes, each assigned to the other. -/
def c11Loop : List Op := [.new 0 .none none, .new 0 .none none, .set 0 ka (.node 1), .set 1 kb (.node 0)]

example : Intact (after sampleEnv c11Loop) ∧ 0 < (after sampleEnv c11Loop).nobj ∧
    NoMatch (after sampleEnv c11Loop) (fun p => p = 0) 0 1 ∧ nthUp (after sampleEnv c11Loop) 1 0 = some 0 := by
  refine ⟨intact_after (by decide +kernel), by decide +kernel, ?_, by decide +kernel⟩
  rintro j hj
  obtain rfl : j = 0 := by omega
  exact ⟨1, by decide +kernel⟩

/-- C11 as stated is false after a node was put below itself, which the code does not prevent: `acquire`
then returns the node itself, and for what no node provides it does not end instead of returning `None`. -/
theorem c11_refuted : ∃ ops, (∀ r ∈ (execAll sampleEnv ops {}).1, ∃ x, r = .ok x) ∧
    acquire (after sampleEnv ops) (fun p => p = 0) 0 = some (some 0) ∧
    acquire (after sampleEnv ops) (fun _ => false) 0 = none := by
  refine ⟨c11Loop, fun r hr => ?_, by decide +kernel, by decide +kernel⟩
  have h : ((execAll sampleEnv c11Loop {}).1.all fun r => match r with | .ok _ => true | .error _ => false) = true := by
    decide +kernel
  have := List.all_eq_true.mp h r hr
  cases r with
  | ok x => exact ⟨x, rfl⟩
  | error e => cases this

/-! In a chain of three, the node and its grandparent match but not its parent. -/

example : DownReachable sampleEnv (after sampleEnv c12Ops) ∧ Nearest (after sampleEnv c12Ops)
    (fun p => p = 0 || p = 2) 2 0 := by
  have h : DownReachable sampleEnv (after sampleEnv c12Ops) := ⟨c12Ops, c12Ops_history, rfl⟩
  refine ⟨h, (c11_nearest_partial h (by decide +kernel) _ _).mp ?_⟩
  decide +kernel

end Verif
