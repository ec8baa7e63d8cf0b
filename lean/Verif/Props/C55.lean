import Verif.Model.InstanceProperty

/-!
# C55: instance properties are computed once

False as stated: a function that raised runs again on the next read (`c55_refuted`), and one that
reads its own property can run twice and give two values (`c55_refuted_reentrant`).  Proved for
all functions: once a run has returned, no other run starts, and once a read has returned a value
every later read returns it.  Proved for functions that return and do not read their own property,
directly or through others: at most one run.
-/

namespace Verif.InstProp

/-- The event is about property `p` of `i`. -/
def Ev.about (p : PName) (i : Inst) : Ev → Prop
  | .start q j => q = p ∧ j = i
  | .done q j _ => q = p ∧ j = i
  | .failed q j => q = p ∧ j = i

/-- No run starts after a run has returned. -/
def NeverAgain (log : List Ev) : Prop :=
  ∀ l₁ l₂ p i v, log = l₁ ++ .done p i v :: l₂ → Ev.start p i ∉ l₂

/-- How often the function of `p` was called with `i`. -/
def starts (log : List Ev) (p : PName) (i : Inst) : Nat := log.count (.start p i)

/-- What any reading does: stored values stay, and nothing happens to their functions; runs that
return store. -/
structure R (st st' : St) (new : List Ev) : Prop where
  log : st'.log = st.log ++ new
  stays : ∀ p i v, st.attr p i = some v → st'.attr p i = some v ∧ ∀ e ∈ new, ¬ e.about p i
  stored : ∀ p i v, Ev.done p i v ∈ new → st'.attr p i ≠ none
  never : NeverAgain new

theorem NeverAgain.append {a b : List Ev} (ha : NeverAgain a) (hb : NeverAgain b)
    (h : ∀ p i v, Ev.done p i v ∈ a → Ev.start p i ∉ b) : NeverAgain (a ++ b) := by
  intro l1 l2 p i v e hm
  rcases List.append_eq_append_iff.mp e with ⟨c, h1, h2⟩ | ⟨c, h1, h2⟩
  · -- `l1 = a ++ c`, `b = c ++ done :: l2`
    exact hb c l2 p i v h2 hm
  · -- `a = l1 ++ c`, `done :: l2 = c ++ b`
    cases c with
    | nil => exact hb [] l2 p i v h2.symm hm
    | cons x c =>
      injection h2 with h2 h3
      subst h2
      rw [h3] at hm
      rcases List.mem_append.mp hm with hm | hm
      · exact ha l1 c p i v h1 hm
      · exact h p i v (by rw [h1]; exact List.mem_append_right _ List.mem_cons_self) hm

theorem NeverAgain.nil : NeverAgain [] := fun l1 l2 p i v e => by simp at e

theorem NeverAgain.single (e : Ev) : NeverAgain [e] := by
  intro l1 l2 p i v h hm
  cases l1 with
  | nil => injection h with _ h; subst h; cases hm
  | cons x l1 => injection h with _ h; simp at h

theorem R.refl (st : St) : R st st [] :=
  ⟨(List.append_nil _).symm, fun _ _ _ h => ⟨h, fun _ he => (nomatch he)⟩, fun _ _ _ h => (nomatch h), .nil⟩

theorem R.trans {a b c : St} {n m : List Ev} (h : R a b n) (h' : R b c m) : R a c (n ++ m) := by
  refine ⟨by rw [h'.log, h.log, List.append_assoc], fun p i v hv => ?_, fun p i v hd => ?_, ?_⟩
  · obtain ⟨h1, h2⟩ := h.stays p i v hv
    obtain ⟨h3, h4⟩ := h'.stays p i v h1
    refine ⟨h3, fun e he => ?_⟩
    rcases List.mem_append.mp he with he | he
    · exact h2 e he
    · exact h4 e he
  · rcases List.mem_append.mp hd with hd | hd
    · cases hb : b.attr p i with
      | none => exact absurd hb (h.stored p i v hd)
      | some x => rw [(h'.stays p i x hb).1]; exact fun h => (nomatch h)
    · exact h'.stored p i v hd
  · refine h.never.append h'.never fun p i v hd hs => ?_
    cases hb : b.attr p i with
    | none => exact h.stored p i v hd hb
    | some x => exact (h'.stays p i x hb).2 _ hs ⟨rfl, rfl⟩

theorem runBody_R {rd : PName → Inst → St → Except Err V × St} (hrd : ∀ p i st, ∃ n, R st (rd p i st).2 n) (b : Body) :
    ∀ st, ∃ n, R st (runBody rd b st).2 n := by
  induction b with
  | ret v => exact fun st => ⟨[], .refl st⟩
  | fail v => exact fun st => ⟨[], .refl st⟩
  | step f k ih =>
    intro st
    obtain ⟨n, hn⟩ := ih st.g { st with g := f st.g }
    exact ⟨n, hn.log, hn.stays, hn.stored, hn.never⟩
  | read p i k ih =>
    intro st
    obtain ⟨n, hn⟩ := hrd p i st
    obtain ⟨m, hm⟩ := ih (rd p i st).1 (rd p i st).2
    exact ⟨n ++ m, hn.trans hm⟩

theorem R.start {st : St} {p : PName} {i : Inst} (h : st.attr p i = none) : R st (st.note (.start p i)) [.start p i] := by
  refine ⟨rfl, fun q j v hv => ⟨hv, fun e he => ?_⟩, fun q j v hd => ?_, .single _⟩
  · rw [List.mem_singleton.mp he]
    rintro ⟨rfl, rfl⟩
    rw [h] at hv; cases hv
  · cases List.mem_singleton.mp hd

/-- Putting the start before and the end behind a run. -/
theorem R.ended {st st1 st2 : St} {p : PName} {i : Inst} {n : List Ev} {e : Ev} (h : st.attr p i = none)
    (hr : R (st.note (.start p i)) st1 n) (he : e.about p i) (hs : e ≠ .start p i) (hl : st2.log = st1.log ++ [e])
    (ha : ∀ q j, ¬ (q = p ∧ j = i) → st2.attr q j = st1.attr q j) (hk : st1.attr p i ≠ none → st2.attr p i ≠ none)
    (hd : ∀ v, e = .done p i v → st2.attr p i ≠ none) : R st st2 ([.start p i] ++ n ++ [e]) := by
  have h1 := (R.start h).trans hr
  have about : ∀ {q j}, e.about q j → q = p ∧ j = i := fun {q j} hq => by
    cases e <;> exact ⟨hq.1.symm.trans he.1, hq.2.symm.trans he.2⟩
  refine ⟨by rw [hl, h1.log, List.append_assoc], fun q j v hv => ?_, fun q j v hq => ?_, ?_⟩
  · have hne : ¬ (q = p ∧ j = i) := by
      rintro ⟨rfl, rfl⟩; rw [h] at hv; cases hv
    obtain ⟨e1, e2⟩ := h1.stays q j v hv
    refine ⟨by rw [ha q j hne]; exact e1, fun x hx => ?_⟩
    rcases List.mem_append.mp hx with hx | hx
    · exact e2 x hx
    · rw [List.mem_singleton.mp hx]; exact fun hh => hne (about hh)
  · by_cases hne : q = p ∧ j = i
    · obtain ⟨rfl, rfl⟩ := hne
      rcases List.mem_append.mp hq with hq | hq
      · exact hk (h1.stored q j v hq)
      · exact hd v (List.mem_singleton.mp hq).symm
    · rw [ha q j hne]
      rcases List.mem_append.mp hq with hq | hq
      · exact h1.stored q j v hq
      · exact absurd (about (by rw [← List.mem_singleton.mp hq]; exact ⟨rfl, rfl⟩)) hne
  · refine h1.never.append (.single e) fun q j v hq hm => ?_
    have hm := List.mem_singleton.mp hm
    obtain ⟨rfl, rfl⟩ := about (q := q) (j := j) (by rw [← hm]; exact ⟨rfl, rfl⟩)
    exact hs hm.symm

theorem put_attr (st : St) (p : PName) (i : Inst) (v : V) : (st.put p i v).attr p i = some v := by simp [St.put]

theorem put_other (st : St) {p q : PName} {i j : Inst} (v : V) (h : ¬ (q = p ∧ j = i)) :
    (st.put p i v).attr q j = st.attr q j := by simp [St.put, h]

/-- Every read does as said, and a read that returns leaves its value stored. -/
theorem read_R (B : PName → Inst → Body) (n : Nat) : ∀ p i st,
    ∃ m, R st (read B n p i st).2 m ∧ ∀ v, (read B n p i st).1 = .ok v → (read B n p i st).2.attr p i = some v := by
  induction n with
  | zero => exact fun p i st => ⟨[], .refl st, fun v h => (nomatch h)⟩
  | succ n ih =>
    intro p i st
    unfold read
    cases h : st.attr p i with
    | some v => exact ⟨[], .refl st, fun v' h' => by cases h'; exact h⟩
    | none =>
      obtain ⟨m, hm⟩ := runBody_R (fun p i st => (ih p i st).imp fun _ h => h.1) (B p i) (st.note (.start p i))
      simp only
      cases hy : (runBody (read B n) (B p i) (st.note (.start p i))).1 with
      | ok v =>
        simp only [put_attr]
        refine ⟨_, R.ended h hm (e := .done p i v) ⟨rfl, rfl⟩ (fun h => nomatch h) rfl (fun q j hn => put_other _ _ hn)
          (fun _ => by rw [put_attr]; exact fun h => nomatch h) (fun _ _ => by rw [put_attr]; exact fun h => nomatch h),
          fun v' hv => by cases hv; rfl⟩
      | error e =>
        simp only
        exact ⟨_, R.ended h hm (e := .failed p i) ⟨rfl, rfl⟩ (fun h => nomatch h) rfl (fun q j _ => rfl) (fun h => h)
          (fun v hv => nomatch hv), fun v' hv => nomatch hv⟩

theorem reads_R (B : PName → Inst → Body) (n : Nat) (h : List (PName × Inst)) : ∀ st, ∃ m, R st (reads B n h st).2 m := by
  induction h with
  | nil => exact fun st => ⟨[], .refl st⟩
  | cons x h ih =>
    intro st
    obtain ⟨m, hm, -⟩ := read_R B n x.1 x.2 st
    obtain ⟨m', hm'⟩ := ih (read B n x.1 x.2 st).2
    exact ⟨m ++ m', hm.trans hm'⟩

/-- Whatever the functions do: once a run has returned, no run of that function for that instance
starts, in any history of reads on any instances. -/
theorem c55_never_again (B : PName → Inst → Body) (n : Nat) (h : List (PName × Inst)) {st : St} (hs : st.log = []) :
    NeverAgain (reads B n h st).2.log := by
  obtain ⟨m, hm⟩ := reads_R B n h st
  rw [hm.log, hs]
  exact hm.never

theorem read_stored (B : PName → Inst → Body) (m : Nat) {p : PName} {i : Inst} {st : St} {v : V} (h : st.attr p i = some v) :
    read B (m + 1) p i st = (.ok v, st) := by
  unfold read; rw [h]

/-- Whatever the functions do: once a read returned `v`, each later read of that property of that
instance returns `v`, whatever was read in between, and its function is not called again. -/
theorem c55_same (B : PName → Inst → Body) (n : Nat) {p : PName} {i : Inst} {st : St} {v : V}
    (h : (read B n p i st).1 = .ok v) (between : List (PName × Inst)) {m : Nat} (hm : 0 < m) :
    read B m p i (reads B n between (read B n p i st).2).2 = (.ok v, (reads B n between (read B n p i st).2).2) ∧
    starts (reads B n between (read B n p i st).2).2.log p i = starts (read B n p i st).2.log p i := by
  obtain ⟨_, h1, h2⟩ := read_R B n p i st
  obtain ⟨l, hl⟩ := reads_R B n between (read B n p i st).2
  obtain ⟨h3, h4⟩ := hl.stays p i v (h2 v h)
  refine ⟨?_, ?_⟩
  · cases m with
    | zero => cases hm
    | succ m => exact read_stored B m h3
  · unfold starts
    rw [hl.log, List.count_append, List.count_eq_zero.mpr fun hm => h4 (.start p i) hm ⟨rfl, rfl⟩, Nat.add_zero]

/-! ### At most one run -/

/-- A function that returns, and reads only properties of rank below `r`. -/
def Orderly (rank : PName → Inst → Nat) (r : Nat) : Body → Prop
  | .ret _ => True
  | .fail _ => False
  | .step _ k => ∀ n, Orderly rank r (k n)
  | .read p i k => rank p i < r ∧ ∀ v, Orderly rank r (k (.ok v))

/-- Each function was not called, or called once, and then its value is stored; only those of rank
below `r` were called. -/
def D (rank : PName → Inst → Nat) (r : Nat) (st st' : St) : Prop := ∀ q j,
  (st'.attr q j = st.attr q j ∧ starts st'.log q j = starts st.log q j) ∨
  (rank q j < r ∧ st.attr q j = none ∧ st'.attr q j ≠ none ∧ starts st'.log q j = starts st.log q j + 1)

theorem D.refl (rank : PName → Inst → Nat) (r : Nat) (st : St) : D rank r st st := fun _ _ => .inl ⟨rfl, rfl⟩

theorem D.trans {rank : PName → Inst → Nat} {r : Nat} {a b c : St} (h : D rank r a b) (h' : D rank r b c) : D rank r a c := by
  intro q j
  rcases h q j with ⟨h1, h2⟩ | ⟨h1, h2, h3, h4⟩
  · rcases h' q j with ⟨h5, h6⟩ | ⟨h5, h6, h7, h8⟩
    · exact .inl ⟨h5.trans h1, h6.trans h2⟩
    · exact .inr ⟨h5, h1 ▸ h6, h7, h2 ▸ h8⟩
  · rcases h' q j with ⟨h5, h6⟩ | ⟨h5, h6, h7, h8⟩
    · exact .inr ⟨h1, h2, h5 ▸ h3, h4 ▸ h6⟩
    · exact absurd h6 h3

theorem D.mono {rank : PName → Inst → Nat} {r s : Nat} (hrs : r ≤ s) {a b : St} (h : D rank r a b) : D rank s a b := fun q j =>
  (h q j).imp id fun ⟨h1, h2⟩ => ⟨Nat.lt_of_lt_of_le h1 hrs, h2⟩

theorem runBody_D {rank : PName → Inst → Nat} {r : Nat} {rd : PName → Inst → St → Except Err V × St}
    (hrd : ∀ p i st, rank p i < r → (∃ v, (rd p i st).1 = .ok v) ∧ D rank r st (rd p i st).2) (b : Body) :
    ∀ st, Orderly rank r b → (∃ v, (runBody rd b st).1 = .ok v) ∧ D rank r st (runBody rd b st).2 := by
  induction b with
  | ret v => exact fun st _ => ⟨⟨v, rfl⟩, D.refl _ _ _⟩
  | fail v => exact fun st h => h.elim
  | step f k ih => exact fun st h => ih st.g { st with g := f st.g } (h st.g)
  | read p i k ih =>
    intro st h
    obtain ⟨⟨v, hv⟩, hd⟩ := hrd p i st h.1
    have := ih (rd p i st).1 (rd p i st).2 (by rw [hv]; exact h.2 v)
    exact ⟨this.1, hd.trans this.2⟩

theorem starts_note (st : St) (e : Ev) (p : PName) (i : Inst) :
    starts (st.note e).log p i = starts st.log p i + if e = .start p i then 1 else 0 := by
  show List.count _ (st.log ++ [e]) = _
  rw [List.count_append, List.count_singleton]
  by_cases h : e = .start p i
  · rw [if_pos h, if_pos (by simpa using h)]; rfl
  · rw [if_neg h, if_neg (by simpa using h)]; rfl

theorem read_D {rank : PName → Inst → Nat} {B : PName → Inst → Body} (hB : ∀ p i, Orderly rank (rank p i) (B p i)) (n : Nat) :
    ∀ p i st, rank p i < n → (∃ v, (read B n p i st).1 = .ok v) ∧ D rank (rank p i + 1) st (read B n p i st).2 := by
  induction n with
  | zero => exact fun p i st h => absurd h (Nat.not_lt_zero _)
  | succ n ih =>
    intro p i st hr
    unfold read
    cases h : st.attr p i with
    | some v => exact ⟨⟨v, rfl⟩, D.refl _ _ _⟩
    | none =>
      obtain ⟨⟨v, hv⟩, hd⟩ := runBody_D (rank := rank) (r := rank p i) (rd := read B n)
        (fun q j st' hq => by
          obtain ⟨h1, h2⟩ := ih q j st' (by omega)
          exact ⟨h1, h2.mono hq⟩) (B p i) (st.note (.start p i)) (hB p i)
      simp only [hv, put_attr]
      refine ⟨⟨v, rfl⟩, fun q j => ?_⟩
      have hlog : ((St.note (runBody (read B n) (B p i) (st.note (.start p i))).2 (.done p i v)).put p i v).log =
        (St.note (runBody (read B n) (B p i) (st.note (.start p i))).2 (.done p i v)).log := rfl
      rw [hlog, starts_note, if_neg (fun h => nomatch h), Nat.add_zero]
      by_cases e : q = p ∧ j = i
      · obtain ⟨rfl, rfl⟩ := e
        refine .inr ⟨Nat.lt_succ_self _, h, (by rw [put_attr]; exact fun h => nomatch h), ?_⟩
        rcases hd q j with ⟨-, h2⟩ | ⟨h1, -⟩
        · rw [h2, starts_note, if_pos rfl]
        · exact absurd h1 (Nat.lt_irrefl _)
      · rw [put_other _ _ e]
        have hs : starts (st.note (.start p i)).log q j = starts st.log q j := by
          rw [starts_note, if_neg (fun hh => e (by injection hh with h1 h2; exact ⟨h1.symm, h2.symm⟩)), Nat.add_zero]
        rcases hd q j with ⟨h1, h2⟩ | ⟨h1, h2, h3, h4⟩
        · exact .inl ⟨h1, h2.trans hs⟩
        · exact .inr ⟨Nat.lt_succ_of_lt h1, h2, h3, by rw [h4, hs]⟩

/-- If the functions return and read other properties only without going round in circles, and
the stack suffices, then in every history of reads on any number of instances every read returns,
and each function runs at most once per instance.  Missing for C55: functions that raise. -/
theorem c55_once_partial {rank : PName → Inst → Nat} {B : PName → Inst → Body} (hB : ∀ p i, Orderly rank (rank p i) (B p i))
    {n : Nat} (h : List (PName × Inst)) (hn : ∀ x ∈ h, rank x.1 x.2 < n) :
    (∀ r ∈ (reads B n h {}).1, ∃ v, r = .ok v) ∧ ∀ p i, starts (reads B n h {}).2.log p i ≤ 1 := by
  have key : ∀ (h : List (PName × Inst)) (st : St), (∀ x ∈ h, rank x.1 x.2 < n) →
      (∀ r ∈ (reads B n h st).1, ∃ v, r = .ok v) ∧ D rank n st (reads B n h st).2 := by
    intro h
    induction h with
    | nil => exact fun st _ => ⟨fun r hr => (nomatch hr), D.refl _ _ _⟩
    | cons x h ih =>
      intro st hn
      have hx := hn x List.mem_cons_self
      obtain ⟨⟨v, hv⟩, hd⟩ := read_D hB n x.1 x.2 st hx
      obtain ⟨h1, h2⟩ := ih (read B n x.1 x.2 st).2 fun y hy => hn y (List.mem_cons_of_mem _ hy)
      refine ⟨fun r hr => ?_, (hd.mono hx).trans h2⟩
      rcases List.mem_cons.mp hr with rfl | hr
      · exact ⟨v, hv⟩
      · exact h1 r hr
  obtain ⟨h1, h2⟩ := key h {} hn
  refine ⟨h1, fun p i => ?_⟩
  have h0 : starts ({} : St).log p i = 0 := rfl
  rcases h2 p i with ⟨-, h3⟩ | ⟨-, -, -, h3⟩
  · rw [h3, h0]; exact Nat.zero_le 1
  · rw [h3, h0]; exact Nat.le_refl 1

/-! ### Concrete cases -/

/-- Property 1 counts its calls and reads property 0, which counts its own. -/
def sampleB : PName → Inst → Body
  | 1, i => .read 0 i fun _ => .step (· + 1) fun g => .ret (g + 10)
  | _, i => .step (· + 1) fun g => .ret (g + 100 * i)

theorem sampleB_orderly (p : PName) (i : Inst) : Orderly (fun p _ => if p = 1 then 1 else 0) (if p = 1 then 1 else 0) (sampleB p i) := by
  by_cases h : p = 1
  · subst h; exact ⟨Nat.zero_lt_one, fun _ _ => trivial⟩
  · have e : sampleB p i = .step (· + 1) fun g => .ret (g + 100 * i) := by
      unfold sampleB
      split
      · exact absurd rfl h
      · rfl
    rw [e]
    exact fun _ => trivial

/-- Two instances, nested and repeated reads. -/
example : (reads sampleB 5 [(1, 0), (0, 0), (1, 1), (1, 0), (0, 1)] {}).1 = [.ok 11, .ok 0, .ok 13, .ok 11, .ok 102] := by rfl

example : ∀ p i, starts (reads sampleB 5 [(1, 0), (0, 0), (1, 1), (1, 0), (0, 1)] {}).2.log p i ≤ 1 :=
  (c55_once_partial sampleB_orderly _ (by decide)).2

/-- A function that raises the first time. -/
def flaky : PName → Inst → Body := fun _ _ => .step (· + 1) fun g => if g = 0 then .fail 0 else .ret 5

/-- C55 fails: a function that raised runs again. -/
theorem c55_refuted : ∃ B n h p i, 1 < starts (reads B n h {}).2.log p i ∧
    (reads B n h {}).1 = [.error (.exc 0), .ok 5] :=
  ⟨flaky, 5, [(0, 0), (0, 0)], 0, 0, by decide, rfl⟩

/-- A function that reads its own property the first time. -/
def reentrant : PName → Inst → Body := fun p i => .step (· + 1) fun g => if g = 0 then .read p i fun _ => .ret 1 else .ret 2

/-- Two runs return, with different values, although none raised. -/
theorem c55_refuted_reentrant :
    (reads reentrant 5 [(0, 0), (0, 0)] {}).2.log = [.start 0 0, .start 0 0, .done 0 0 2, .done 0 0 1] ∧
    (reads reentrant 5 [(0, 0), (0, 0)] {}).1 = [.ok 1, .ok 1] := ⟨rfl, rfl⟩

end Verif.InstProp
