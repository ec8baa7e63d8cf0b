import Verif.Model.Tester
import Verif.Lemmas.Odict

/-!
# C62: the contract tester

The specification says what state each test of a list finds, and how it ends, without mentioning
results.  False as stated only for tests that raise something else than an `Exception`: they end
the run (`c62_refuted`).
-/

namespace Verif.Tester

variable {S : Type}

/-- The context after the tests of a list. -/
def stateAfter (tests : Tests S) : List Name → S → S
  | [], s => s
  | n :: rest, s => stateAfter tests rest (match tests n with | some f => (f s).2 | none => s)

/-- How the test of `n` ends after those of `pre`. -/
def outcome (tests : Tests S) (s : S) (pre : List Name) (n : Name) : Option Outcome :=
  (tests n).map fun f => (f (stateAfter tests pre s)).1

/-- The test of each name of the list exists and lets `run` go on. -/
def Passes (tests : Tests S) (direct : Bool) (s : S) (l : List Name) : Prop :=
  ∀ pre n post, l = pre ++ n :: post →
    outcome tests s pre n = some .returned ∨ ∃ e, direct = false ∧ outcome tests s pre n = some (.raised e)

theorem Passes.nil {tests : Tests S} {direct : Bool} {s : S} : Passes tests direct s [] := fun pre n post h => by
  cases pre <;> simp at h

theorem Passes.tail {tests : Tests S} {direct : Bool} {s : S} {n : Name} {l : List Name} (h : Passes tests direct s (n :: l)) :
    Passes tests direct (stateAfter tests [n] s) l := fun pre m post e => h (n :: pre) m post (by rw [e]; rfl)

theorem Passes.prefix {tests : Tests S} {direct : Bool} {s : S} {a b : List Name} (h : Passes tests direct s (a ++ b)) :
    Passes tests direct s a := fun pre m post e => h pre m (post ++ b) (by rw [e]; simp)

/-- What is written for an outcome. -/
def written : Option Outcome → String
  | some (.raised e) => failedText e
  | _ => okText

/-- One step of a run that goes on. -/
theorem run_step {tests : Tests S} {direct : Bool} {s : S} {n : Name} (l : List Name)
    (h0 : outcome tests s [] n = some .returned ∨ ∃ e, direct = false ∧ outcome tests s [] n = some (.raised e))
    (r : Od Name String) :
    run tests direct (n :: l) r s = run tests direct l (r.set n (written (outcome tests s [] n))) (stateAfter tests [n] s) := by
  cases ht : tests n with
  | none => simp [outcome, ht] at h0
  | some f =>
    have es : stateAfter tests [n] s = (f s).2 := by simp [stateAfter, ht]
    have eo : outcome tests s [] n = some (f s).1 := by simp [outcome, ht, stateAfter]
    rw [es, eo]
    rw [eo] at h0
    conv => lhs; unfold run
    rw [ht]
    rcases hf : f s with ⟨o, s'⟩
    rw [hf] at h0
    simp only [hf]
    rcases h0 with h0 | ⟨e, hd, h0⟩
    · injection h0 with h0; simp only at h0; subst h0; rfl
    · injection h0 with h0; simp only at h0; subst h0; subst hd; rfl

theorem run_cons {tests : Tests S} {direct : Bool} {s : S} {n : Name} {l : List Name} (h : Passes tests direct s (n :: l))
    (r : Od Name String) :
    run tests direct (n :: l) r s = run tests direct l (r.set n (written (outcome tests s [] n))) (stateAfter tests [n] s) :=
  run_step l (h [] n l rfl) r

theorem stateAfter_append (tests : Tests S) (a b : List Name) (s : S) :
    stateAfter tests (a ++ b) s = stateAfter tests b (stateAfter tests a s) := by
  induction a generalizing s with
  | nil => rfl
  | cons n a ih => exact ih _

/-- A run goes on behind names that let it. -/
theorem run_append {tests : Tests S} {direct : Bool} (a b : List Name) : ∀ {s : S} (r : Od Name String), Passes tests direct s a →
    run tests direct (a ++ b) r s = run tests direct b (run tests direct a r s).2.1 (stateAfter tests a s) ∧
    (run tests direct a r s).1 = .finished ∧ (run tests direct a r s).2.2 = stateAfter tests a s := by
  induction a with
  | nil => exact fun r _ => ⟨rfl, rfl, rfl⟩
  | cons n a ih =>
    intro s r h
    obtain ⟨h1, h2, h3⟩ := ih (r.set n (written (outcome tests s [] n))) h.tail
    rw [run_cons h]
    exact ⟨(run_step (a ++ b) (h [] n a rfl) r).trans h1, h2, h3⟩

/-- The names of a list, each where it occurs first, not counting `seen`. -/
def firsts (seen : List Name) : List Name → List Name
  | [] => []
  | n :: l => if n ∈ seen then firsts seen l else n :: firsts (seen ++ [n]) l

theorem firsts_nodup (seen : List Name) (l : List Name) (h : l.Nodup) (hs : ∀ n ∈ l, n ∉ seen) : firsts seen l = l := by
  induction l generalizing seen with
  | nil => rfl
  | cons n l ih =>
    unfold firsts
    rw [if_neg (hs n List.mem_cons_self)]
    rw [ih _ (List.nodup_cons.mp h).2 fun m hm hms => ?_]
    rcases List.mem_append.mp hms with hms | hms
    · exact hs m (List.mem_cons_of_mem _ hm) hms
    · rw [List.mem_singleton.mp hms] at hm; exact (List.nodup_cons.mp h).1 hm

theorem run_keys {tests : Tests S} {direct : Bool} (l : List Name) : ∀ {s : S} (r : Od Name String), Passes tests direct s l →
    (run tests direct l r s).2.1.keys = r.keys ++ firsts r.keys l := by
  induction l with
  | nil => exact fun r _ => (List.append_nil _).symm
  | cons n l ih =>
    intro s r h
    rw [run_cons h, ih _ h.tail, Od.keys_set]
    have ef : firsts r.keys (n :: l) = if n ∈ r.keys then firsts r.keys l else n :: firsts (r.keys ++ [n]) l := rfl
    rw [ef]
    by_cases hn : n ∈ r.keys
    · rw [if_pos hn, if_pos hn]
    · rw [if_neg hn, if_neg hn, List.append_assoc]; rfl

theorem run_get {tests : Tests S} {direct : Bool} (l : List Name) : ∀ {s : S} (r : Od Name String) (n : Name), Passes tests direct s l →
    n ∉ l → (run tests direct l r s).2.1.get? n = r.get? n := by
  induction l with
  | nil => exact fun r n _ _ => rfl
  | cons m l ih =>
    intro s r n h hn
    rw [run_cons h, ih _ n h.tail fun hm => hn (List.mem_cons_of_mem _ hm), Od.get?_set,
      if_neg fun e => hn (by rw [e]; exact List.mem_cons_self)]

theorem written_ok (o : Option Outcome) : written o = okText ↔ ∀ e, o ≠ some (.raised e) := by
  match o with
  | none => exact ⟨fun _ e h => (nomatch h), fun _ => rfl⟩
  | some .returned => exact ⟨fun _ e h => (nomatch h), fun _ => rfl⟩
  | some (.aborted _) => exact ⟨fun _ e h => (nomatch h), fun _ => rfl⟩
  | some (.raised e) =>
    refine ⟨fun h => ?_, fun h => absurd rfl (h e)⟩
    have : ("failed: " ++ e).toList = "OK".toList := congrArg String.toList h
    simp at this

/-- C62, the report: with `direct_error` or without, if each test of the contract exists and, unless
failures are allowed, returns, the run ends, all tests are run in order, each on what the ones
before left, and the results list each name of the contract, where it occurs first, with `OK`
exactly if its test (the last one, if listed several times) returned, and the exception
otherwise. -/
theorem c62_report_partial {tests : Tests S} {direct : Bool} {s : S} {l : List Name} (h : Passes tests direct s l) :
    (run tests direct l [] s).1 = .finished ∧ (run tests direct l [] s).2.2 = stateAfter tests l s ∧
    (run tests direct l [] s).2.1.keys = firsts [] l ∧
    ∀ pre n post, l = pre ++ n :: post → n ∉ post →
      ((run tests direct l [] s).2.1.get? n = some "OK" ↔ outcome tests s pre n = some .returned) ∧
      ∀ e, outcome tests s pre n = some (.raised e) → (run tests direct l [] s).2.1.get? n = some ("failed: " ++ e) := by
  obtain ⟨-, h2, h3⟩ := run_append l [] [] h
  refine ⟨h2, h3, by rw [run_keys l [] h]; rfl, fun pre n post e hn => ?_⟩
  have hp : Passes tests direct s pre := (show Passes tests direct s (pre ++ n :: post) from e ▸ h).prefix
  have ht : Passes tests direct (stateAfter tests pre s) (n :: post) := fun a m b e' => by
    have := h (pre ++ a) m b (by rw [e, e', List.append_assoc])
    unfold outcome at this ⊢
    rwa [stateAfter_append] at this
  have e1 : (run tests direct l [] s).2.1.get? n = some (written (outcome tests s pre n)) := by
    subst e
    rw [(run_append pre (n :: post) [] hp).1, run_cons ht, run_get post _ n ht.tail hn, Od.get?_set, if_pos rfl]
    rfl
  rw [e1]
  refine ⟨⟨fun hw => ?_, fun ho => by rw [ho]; rfl⟩, fun e' he => by rw [he]; rfl⟩
  rcases h pre n post e with ho | ⟨e', -, ho⟩
  · exact ho
  · exact absurd ho ((written_ok _).mp (by injection hw) e')

/-- With each name listed once the report lists the contract. -/
theorem c62_order_partial {tests : Tests S} {direct : Bool} {s : S} {l : List Name} (h : Passes tests direct s l) (hl : l.Nodup) :
    (run tests direct l [] s).2.1.keys = l := by
  rw [(c62_report_partial h).2.2.1, firsts_nodup [] l hl fun _ _ => List.not_mem_nil]

/-- C62, missing tests: `ContractError` for the first name without test; the results of the ones
before are kept, no later test runs. -/
theorem c62_missing {tests : Tests S} {direct : Bool} {s : S} {pre post : List Name} {n : Name} (h : Passes tests direct s pre)
    (hn : tests n = none) :
    run tests direct (pre ++ n :: post) [] s = (.contract n, (run tests direct pre [] s).2.1, stateAfter tests pre s) := by
  rw [(run_append pre (n :: post) [] h).1]
  conv => lhs; unfold run
  rw [hn]

/-- C62, direct errors: the first failure is raised; the results of the tests before are kept, it
is not reported itself, and no later test runs. -/
theorem c62_direct {tests : Tests S} {s : S} {pre post : List Name} {n : Name} {e : String} (h : Passes tests true s pre)
    (hn : outcome tests s pre n = some (.raised e)) :
    run tests true (pre ++ n :: post) [] s = (.raised e, (run tests true pre [] s).2.1, stateAfter tests (pre ++ [n]) s) := by
  rw [(run_append pre (n :: post) [] h).1, stateAfter_append]
  conv => lhs; unfold run
  unfold outcome at hn
  cases ht : tests n with
  | none => simp [ht] at hn
  | some f =>
    rw [ht] at hn
    rcases hf : f (stateAfter tests pre s) with ⟨o, s'⟩
    have : o = .raised e := by simpa [hf] using hn
    subst this
    simp [stateAfter, ht, hf]

/-- Without `direct_error` no `Exception` ends a run: it finishes, or a test is missing, or a test
raises something else. -/
theorem c62_failures_go_on (tests : Tests S) (l : List Name) (r : Od Name String) (s : S) (e : String) :
    (run tests false l r s).1 ≠ .raised e := by
  induction l generalizing r s with
  | nil => exact fun h => nomatch h
  | cons n l ih =>
    unfold run
    cases tests n with
    | none => exact fun h => nomatch h
    | some f =>
      simp only
      rcases f s with ⟨o, s'⟩
      cases o with
      | returned => exact ih _ _
      | raised e' => exact ih _ _
      | aborted e' => exact fun h => nomatch h

/-! ### Concrete cases -/

/-- Tests on a counter: `b` fails unless `a` ran before. -/
def sampleTests : Tests Nat := fun n =>
  if n = "a" then some fun s => (.returned, s + 1)
  else if n = "b" then some fun s => (if s = 0 then .raised "E()" else .returned, s)
  else if n = "x" then some fun s => (.aborted "SystemExit()", s)
  else none

example : run sampleTests false ["b", "a", "b"] [] 0 = (.finished, [("b", "OK"), ("a", "OK")], 1) := by rfl
example : run sampleTests false ["b", "a"] [] 0 = (.finished, [("b", "failed: E()"), ("a", "OK")], 1) := by rfl
example : run sampleTests true ["a", "b"] [] 0 = (.finished, [("a", "OK"), ("b", "OK")], 1) := by rfl
example : run sampleTests true ["b", "a"] [] 0 = (.raised "E()", [], 0) := by rfl
example : run sampleTests false ["b", "a", "c", "b"] [] 0 = (.contract "c", [("b", "failed: E()"), ("a", "OK")], 1) := by rfl

/-- The hypotheses of the report hold for a contract with a failure. -/
theorem sample_passes : Passes sampleTests false 0 ["b", "a"] := by
  intro pre n post h
  match pre, h with
  | [], h => injection h with h1 _; subst h1; exact .inr ⟨"E()", rfl, rfl⟩
  | [_], h => injection h with h0 h; injection h with h1 _; subst h0; subst h1; exact .inl rfl
  | _ :: _ :: p, h =>
    injection h with _ h; injection h with _ h
    cases p <;> cases h

/-- C62 fails for tests that raise something else than an `Exception`: they stop the later tests
although `direct_error` is not set. -/
theorem c62_refuted : ∃ (tests : Tests Nat) (l : List Name), (∀ n ∈ l, (tests n).isSome) ∧
    (run tests false l [] 0).1 = .aborted "SystemExit()" ∧ (run tests false l [] 0).2.1 = [("a", "OK")] ∧ l = ["a", "x", "b"] :=
  ⟨sampleTests, ["a", "x", "b"], by decide, rfl, rfl, rfl⟩

end Verif.Tester
