import Verif.Spec.Suppress
import Verif.Props.C38

/-!
# C39: event suppression nests
-/

namespace Verif.Events

theorem put_tls (f : Tid → Local) (t : Tid) (l : Local) : put f t l t = l := if_pos rfl

theorem put_tls_other (f : Tid → Local) {t t' : Tid} (l : Local) (h : t' ≠ t) : put f t l t' = f t' := if_neg h

theorem mem_flatten_withholds {C : List (List (Option Name))} {e : Name} :
    (none ∈ C.flatten ∨ some e ∈ C.flatten) ↔ Withholds C e := by
  simp only [List.mem_flatten, Withholds]
  constructor
  · rintro (⟨ms, h1, h2⟩ | ⟨ms, h1, h2⟩)
    · exact ⟨ms, h1, .inl h2⟩
    · exact ⟨ms, h1, .inr h2⟩
  · rintro ⟨ms, h1, h2 | h2⟩
    · exact .inl ⟨ms, h1, h2⟩
    · exact .inr ⟨ms, h1, h2⟩

/-- Inside blocks an event is withheld exactly if one of them lists it or all events. -/
theorem Inside.withheld {t : Tid} {C : List (List (Option Name))} {st : St} (h : Inside t C st) (e : Name) :
    ∃ b, withheld (st.tls t) e = .ok b ∧ (b = true ↔ Withholds C e) := by
  obtain ⟨l, h1, h2⟩ := h.marks
  simp only [Events.withheld, h.count, h1]
  by_cases hC : 0 < (C.length : Int)
  · rw [if_pos hC]
    refine ⟨_, rfl, ?_⟩
    simp only [Bool.or_eq_true, decide_eq_true_eq, h2.mem_iff]
    exact mem_flatten_withholds
  · rw [if_neg hC]
    refine ⟨_, rfl, ?_⟩
    have : C = [] := by
      cases C with
      | nil => rfl
      | cons a C => simp only [List.length_cons] at hC; omega
    subst this
    simp [Withholds]

theorem Inside.inject {t : Tid} {C : List (List (Option Name))} {st : St} (h : Inside t C st) (ss : List Sub) :
    Inside t C (inject t ss st) := by
  have e1 : (Events.inject t ss st).tls t = { st.tls t with injected := some ss } := put_tls _ _ _
  refine ⟨?_, ?_, ?_⟩
  · rw [e1]; exact h.count
  · rw [e1]; exact h.marks
  · rw [e1]; rfl

theorem Inside.of_tls {t : Tid} {C : List (List (Option Name))} {st st' : St} (h : Inside t C st)
    (he : st'.tls t = st.tls t) : Inside t C st' :=
  ⟨by rw [he]; exact h.count, by rw [he]; exact h.marks, by rw [he]; exact h.ready⟩

/-- Subscribers leave the blocks they enter. -/
def Balanced (t : Tid) (C : List (List (Option Name))) (beh : Beh) : Prop :=
  ∀ c st, Inside t C st → Inside t C (beh c st).2

theorem callDeco_inside {t : Tid} {C : List (List (Option Name))} {beh : Beh} (hb : Balanced t C beh) {o : Obj}
    {x : List Value} (ds : List Sub) {st : St} (h : Inside t C st) : Inside t C (callDeco beh o x ds st).2.2 := by
  induction ds generalizing st with
  | nil => exact h
  | cons s ds ih =>
    have h1 := hb (.deco s o x) st h
    unfold callDeco
    cases hc : beh (.deco s o x) st with
    | mk r st1 =>
      rw [hc] at h1
      cases r with
      | error e => exact h1
      | ok u => exact ih h1

theorem callBound_inside {t : Tid} {C : List (List (Option Name))} {beh : Beh} (hb : Balanced t C beh) {r : Ref}
    {x : List Value} {fuel i : Nat} {st : St} (h : Inside t C st) {y : Run}
    (hy : callBound beh r x fuel i st = some y) : Inside t C y.2.2 := by
  induction fuel generalizing i st y with
  | zero => cases hy
  | succ fuel ih =>
    unfold callBound at hy
    cases hg : (st.lists r)[i]? with
    | none => simp only [hg] at hy; cases hy; exact h
    | some s =>
      simp only [hg] at hy
      have h1 := hb (.bound s x) st h
      cases hc : beh (.bound s x) st with
      | mk r1 st1 =>
        rw [hc] at h1 hy
        cases r1 with
        | error e => cases hy; exact h1
        | ok u =>
          simp only [Option.map_eq_some_iff] at hy
          obtain ⟨z, hz, rfl⟩ := hy
          exact ih (y := z) h1 hz

/-- What delivering does: the decorated subscribers waiting, then those bound. -/
def deliver (beh : Beh) (fuel : Nat) (o : Obj) (e : Name) (x : List Value) (ds : List Sub) (st : St) : Option Run :=
  match callDeco beh o x ds st with
  | (cs, .error err, st2) => some (cs, .error err, st2)
  | (cs, .ok (), st2) => (callSubs beh fuel o e x st2).map fun y => (cs ++ y.1, y.2)

theorem dispatch_inside {t : Tid} {C : List (List (Option Name))} {beh : Beh} (hb : Balanced t C beh) {fuel : Nat}
    {o : Obj} {e : Name} {x : List Value} {st : St} (h : Inside t C st) {y : Run}
    (hy : dispatch beh fuel t o e x st = some y) :
    Inside t C y.2.2 ∧ (Withholds C e → y = ([], .ok (), inject t [] st)) ∧
      (¬ Withholds C e → ∃ ds, (st.tls t).injected = some ds ∧ deliver beh fuel o e x ds (inject t [] st) = some y) := by
  obtain ⟨ds, hds⟩ := Option.isSome_iff_exists.mp h.ready
  obtain ⟨b, hw, hbw⟩ := (h.inject []).withheld e
  simp only [dispatch, hds, hw] at hy
  cases b with
  | true =>
    cases hy
    exact ⟨h.inject [], fun _ => rfl, fun hn => absurd (hbw.mp rfl) hn⟩
  | false =>
    have hdel : deliver beh fuel o e x ds (inject t [] st) = some y := hy
    refine ⟨?_, fun hh => ?_, fun _ => ⟨ds, hds, hdel⟩⟩
    · have h1 := callDeco_inside hb (o := o) (x := x) ds (h.inject [])
      unfold deliver at hdel
      cases hc : callDeco beh o x ds (inject t [] st) with
      | mk cs rs =>
        obtain ⟨r, st2⟩ := rs
        rw [hc] at hdel h1
        cases r with
        | error err => cases hdel; exact h1
        | ok u =>
          simp only [Option.map_eq_some_iff] at hdel
          obtain ⟨z, hz, rfl⟩ := hdel
          unfold callSubs at hz
          split at hz
          · cases hz; exact h1
          · exact callBound_inside (y := z) hb h1 hz
    · exact absurd (hbw.mpr hh) (by simp)

theorem bind_tls (o : Obj) (kw : List (Name × Sub)) (st : St) : (bind o kw st).2.tls = st.tls := by
  induction kw generalizing st with
  | nil => rfl
  | cons a kw ih =>
    obtain ⟨e, s⟩ := a
    unfold bind
    split
    · rw [ih]
      have h1 : ∀ r st', (addSub r s st').tls = st'.tls := fun r st' => by unfold addSub; split <;> rfl
      rw [h1]
      unfold subsList
      split <;> rfl
    · rfl

theorem dropAll_tls (s : Sub) (rs : List Ref) (st : St) : (dropAll s rs st).tls = st.tls := by
  induction rs generalizing st with
  | nil => rfl
  | cons r rs ih => exact ih _

theorem runOp_tls (op : Op) (st : St) : (runOp op st).2.tls = st.tls := by
  cases op with
  | register o e => show (register o e st).tls = _; unfold register; split <;> rfl
  | bind o kw => exact bind_tls o kw st
  | unbind o e s =>
    show (unbind o e s st).tls = _
    unfold unbind
    split
    · rfl
    · rfl
    · exact dropAll_tls _ _ _
    · split <;> rfl

theorem supRemove_spec {t : Tid} (ms : List (Option Name)) {st : St} {l l' : List (Option Name)}
    (hm : (st.tls t).marks = some l) (hp : l.Perm (ms ++ l')) :
    ∃ st' l'', supRemove t ms st = (.ok (), st') ∧ (st'.tls t).marks = some l'' ∧ l''.Perm l' ∧
      (st'.tls t).suppress = (st.tls t).suppress ∧ (st'.tls t).injected = (st.tls t).injected := by
  induction ms generalizing st l with
  | nil => exact ⟨st, l, rfl, hm, hp, rfl, rfl⟩
  | cons m ms ih =>
    have hmem : m ∈ l := hp.mem_iff.mpr List.mem_cons_self
    have hp' : (l.erase m).Perm (ms ++ l') := by
      have := hp.erase m
      rwa [List.cons_append, List.erase_cons_head] at this
    unfold supRemove
    simp only [hm, if_pos hmem]
    obtain ⟨st', l'', h1, h2, h3, h4, h5⟩ := ih (l := l.erase m)
      (st := { st with tls := put st.tls t { st.tls t with marks := some (l.erase m) } }) (by
        show (put st.tls t _ t).marks = _; rw [put_tls]) hp'
    refine ⟨st', l'', h1, h2, h3, ?_, ?_⟩
    · rw [h4]; show (put st.tls t _ t).suppress = _; rw [put_tls]
    · rw [h5]; show (put st.tls t _ t).injected = _; rw [put_tls]

theorem supInit_spec {t : Tid} (ms : List (Option Name)) {st : St} {l : List (Option Name)}
    (hm : (st.tls t).marks = some l) :
    ∃ st', supInit t ms st = (.ok (), st') ∧ (st'.tls t).marks = some (l ++ ms) ∧
      (st'.tls t).suppress = (st.tls t).suppress ∧ (st'.tls t).injected = (st.tls t).injected := by
  cases ms with
  | nil => exact ⟨st, rfl, by rw [List.append_nil]; exact hm, rfl, rfl⟩
  | cons m ms =>
    refine ⟨_, by simp only [supInit, hm]; rfl, ?_, ?_, ?_⟩
    · show (put st.tls t _ t).marks = _; rw [put_tls]
    · show (put st.tls t _ t).suppress = _; rw [put_tls]
    · show (put st.tls t _ t).injected = _; rw [put_tls]

/-- Entering a block. -/
theorem Inside.enter {t : Tid} {C : List (List (Option Name))} {st : St} (h : Inside t C st) (ms : List (Option Name)) :
    ∃ st1 st2, supInit t ms st = (.ok (), st1) ∧ supEnter t st1 = (.ok ((C.length : Int) + 1), st2) ∧
      Inside t (ms :: C) st2 := by
  obtain ⟨l, h1, h2⟩ := h.marks
  obtain ⟨st1, e1, e2, e3, e4⟩ := supInit_spec ms h1
  have e5 : (st1.tls t).suppress = some (C.length : Int) := e3.trans h.count
  refine ⟨st1, _, e1, by simp only [supEnter, e5]; rfl, ?_, ?_, ?_⟩
  · show (put st1.tls t _ t).suppress = _
    rw [put_tls]
    simp
  · refine ⟨l ++ ms, ?_, ?_⟩
    · show (put st1.tls t _ t).marks = _
      rw [put_tls]
      exact e2
    · rw [List.flatten_cons]
      exact List.perm_append_comm.trans (h2.append_left ms)
  · show (put st1.tls t _ t).injected.isSome = _
    rw [put_tls]
    exact (congrArg Option.isSome e4).trans h.ready

/-- Leaving it. -/
theorem Inside.leave {t : Tid} {C : List (List (Option Name))} {ms : List (Option Name)} {st : St}
    (h : Inside t (ms :: C) st) : ∃ st', supExit t ms st = (.ok (), st') ∧ Inside t C st' := by
  obtain ⟨l, h1, h2⟩ := h.marks
  rw [List.flatten_cons] at h2
  obtain ⟨st', l'', e1, e2, e3, e4, e5⟩ := supRemove_spec (t := t) ms (l := l) (l' := C.flatten)
    (st := { st with tls := put st.tls t { st.tls t with suppress := some (((ms :: C).length : Int) - 1) } }) (by
      show (put st.tls t _ t).marks = _; rw [put_tls]; exact h1) h2
  refine ⟨st', by simp only [supExit, h.count]; exact e1, ?_, ⟨l'', e2, e3⟩, ?_⟩
  · rw [e4]
    show (put st.tls t _ t).suppress = _
    rw [put_tls]
    simp
  · rw [e5]
    show (put st.tls t _ t).injected.isSome = _
    rw [put_tls]
    exact h.ready

/-- What is claimed about each dispatch of a program. -/
def Entry.Right (beh : Beh) (fuel : Nat) (t : Tid) (B : List (List (Option Name))) (y : Entry) : Prop :=
  (Withholds (y.blocks ++ B) y.e → y.run = ([], .ok (), inject t [] y.st)) ∧
  (¬ Withholds (y.blocks ++ B) y.e → ∃ ds, (y.st.tls t).injected = some ds ∧
    deliver beh fuel y.o y.e y.x ds (inject t [] y.st) = some y.run)

theorem logged_inside {t : Tid} {B C : List (List (Option Name))} {beh : Beh} (hb : Balanced t (C ++ B) beh) {fuel : Nat}
    {o : Obj} {e : Name} {x : List Value} {st : St} (h : Inside t (C ++ B) st) {l : List Entry} {r : Except Err Unit} {st' : St}
    (hy : logged beh fuel t C o e x st = some (l, r, st')) :
    Inside t (C ++ B) st' ∧ ∀ y ∈ l, y.Right beh fuel t B := by
  simp only [logged, Option.map_eq_some_iff, Prod.mk.injEq] at hy
  obtain ⟨z, hz, rfl, rfl, rfl⟩ := hy
  obtain ⟨h1, h2, h3⟩ := dispatch_inside hb h hz
  refine ⟨h1, fun y hy => ?_⟩
  rw [List.mem_singleton] at hy
  subst hy
  exact ⟨h2, h3⟩

/-- **C39.**  Whatever program runs inside blocks `C` of its own and `B` around it — dispatches, assignments of event
attributes, bindings, exceptions, further blocks in any nesting, and subscribers that run such
programs — every dispatch calls nobody if one of the blocks around it lists its event or all
events, and is delivered normally otherwise; afterwards the thread is inside the same blocks
again,
whether the program returned or raised. -/
theorem c39_nesting {beh : Beh} {fuel : Nat} {ne : Value → Value → Bool} {t : Tid} {B : List (List (Option Name))}
    (hb : ∀ C, Balanced t C beh) (p : Prog) :
    ∀ {C : List (List (Option Name))} {st : St} {l : List Entry} {r : Except Err Unit} {st' : St}, Inside t (C ++ B) st →
      exec beh fuel ne t C p st = some (l, r, st') → Inside t (C ++ B) st' ∧ ∀ y ∈ l, y.Right beh fuel t B := by
  induction p with
  | skip => intro C st l r st' h hy; cases hy; exact ⟨h, fun _ h => (nomatch h)⟩
  | seq p q ihp ihq =>
    intro C st l r st' h hy
    unfold exec at hy
    cases hp : exec beh fuel ne t C p st with
    | none => simp only [hp] at hy; cases hy
    | some z =>
      obtain ⟨l1, r1, st1⟩ := z
      obtain ⟨h1, h2⟩ := ihp h hp
      simp only [hp] at hy
      cases r1 with
      | error err => cases hy; exact ⟨h1, h2⟩
      | ok u =>
        simp only [Option.map_eq_some_iff, Prod.mk.injEq] at hy
        obtain ⟨⟨l2, r2, st2⟩, hz, rfl, rfl, rfl⟩ := hy
        obtain ⟨h3, h4⟩ := ihq h1 hz
        exact ⟨h3, fun y hy => (List.mem_append.mp hy).elim (h2 y) (h4 y)⟩
  | dispatch o e x => intro C st l r st' h hy; exact logged_inside (hb (C ++ B)) h hy
  | assign a o v =>
    intro C st l r st' h hy
    have hw : Inside t (C ++ B) (attrWrite a o v st) := h.of_tls rfl
    unfold exec at hy
    split at hy
    · exact logged_inside (hb (C ++ B)) (hw.inject _) hy
    · cases hy; exact ⟨hw, fun _ h => (nomatch h)⟩
  | delete a o =>
    intro C st l r st' h hy
    unfold exec at hy
    split at hy
    · refine logged_inside (hb (C ++ B)) ?_ hy
      exact h.of_tls rfl
    · cases hy; exact ⟨h, fun _ h => (nomatch h)⟩
  | op op =>
    intro C st l r st' h hy
    cases hy
    exact ⟨h.of_tls (by rw [runOp_tls]), fun _ h => (nomatch h)⟩
  | block ms p ih =>
    intro C st l r st' h hy
    obtain ⟨st1, st2, e1, e2, h1⟩ := h.enter ms
    unfold exec at hy
    simp only [e1, e2] at hy
    cases hp : exec beh fuel ne t (ms :: C) p st2 with
    | none => simp only [hp] at hy; cases hy
    | some z =>
      obtain ⟨l1, r1, st3⟩ := z
      obtain ⟨h2, h3⟩ := ih (C := ms :: C) h1 hp
      obtain ⟨st4, e4, h4⟩ := h2.leave
      simp only [hp, e4] at hy
      cases hy
      exact ⟨h4, h3⟩
  | raise n => intro C st l r st' h hy; cases hy; exact ⟨h, fun _ h => (nomatch h)⟩
  | tryExcept p q ihp ihq =>
    intro C st l r st' h hy
    unfold exec at hy
    cases hp : exec beh fuel ne t C p st with
    | none => simp only [hp] at hy; cases hy
    | some z =>
      obtain ⟨l1, r1, st1⟩ := z
      obtain ⟨h1, h2⟩ := ihp h hp
      simp only [hp] at hy
      cases r1 with
      | ok u => cases hy; exact ⟨h1, h2⟩
      | error err =>
        simp only [Option.map_eq_some_iff, Prod.mk.injEq] at hy
        obtain ⟨⟨l2, r2, st2⟩, hz, rfl, rfl, rfl⟩ := hy
        obtain ⟨h3, h4⟩ := ihq h1 hz
        exact ⟨h3, fun y hy => (List.mem_append.mp hy).elim (h2 y) (h4 y)⟩

/-- C39: subscribers may be such programs themselves, to any depth. -/
theorem c39_subscribers (fuel : Nat) (ne : Value → Value → Bool) (t : Tid) (f : Call → Prog) (n : Nat)
    (B : List (List (Option Name))) : Balanced t B (progBeh fuel ne t f n) := by
  induction n generalizing B with
  | zero => exact fun c st h => h
  | succ n ih =>
    intro c st h
    unfold progBeh
    cases hp : exec (progBeh fuel ne t f n) fuel ne t [] (f c) st with
    | none => exact h
    | some z => exact (c39_nesting (B := B) ih (f c) (C := []) h hp).1

/-- **C39, restored delivery.**  A thread outside all blocks is outside all blocks after any
program, and delivers every event: nothing is left marked. -/
theorem c39_restored {fuel : Nat} {ne : Value → Value → Bool} {t : Tid} (f : Call → Prog) (n : Nat) (p : Prog) {st : St}
    {l : List Entry} {r : Except Err Unit} {st' : St} (h : Inside t [] st)
    (hy : exec (progBeh fuel ne t f n) fuel ne t [] p st = some (l, r, st')) :
    (st'.tls t).suppress = some 0 ∧ (st'.tls t).marks = some [] ∧ ∀ e, withheld (st'.tls t) e = .ok false := by
  have h1 := (c39_nesting (B := []) (c39_subscribers fuel ne t f n) p (C := []) h hy).1
  obtain ⟨m, h2, h3⟩ := h1.marks
  have : m = [] := List.Perm.eq_nil h3
  subst this
  refine ⟨h1.count, h2, fun e => ?_⟩
  obtain ⟨b, hb, hw⟩ := h1.withheld e
  cases b with
  | false => exact hb
  | true =>
    obtain ⟨ms, hm, -⟩ := hw.mp rfl
    cases hm

/-- C39: entering a block returns how many blocks the thread is inside of. -/
theorem c39_count {t : Tid} {C : List (List (Option Name))} {st : St} (h : Inside t C st) (ms : List (Option Name)) :
    ∃ st1 st2, supInit t ms st = (.ok (), st1) ∧ supEnter t st1 = (.ok ((C.length : Int) + 1), st2) :=
  let ⟨st1, st2, h1, h2, _⟩ := h.enter ms
  ⟨st1, st2, h1, h2⟩

/-- The importing thread starts outside all blocks. -/
theorem c39_start {st : St} (h : st.tls 0 = Local.imported) : Inside 0 [] st := by
  refine ⟨?_, ⟨[], ?_, List.Perm.refl _⟩, ?_⟩ <;> rw [h] <;> rfl

/-! ### A concrete program -/

/-- Blocks for `b`, then for all, left by an exception. -/
def sampleProg : Prog :=
  .seq (.op (.bind 0 [("a", 1), ("b", 1)]))
    (.seq (.tryExcept
      (.block [some "b"] (.seq (.dispatch 0 "a" []) (.seq (.dispatch 0 "b" [])
        (.block [none] (.seq (.dispatch 0 "a" []) (.raise 7))))))
      (.dispatch 0 "b" [])) (.dispatch 0 "a" []))

/-- Delivered: `a` inside the first block, `b` in the handler, `a` at the end. -/
example : (exec (progBeh 9 (fun a b => a != b) 0 (fun _ => .skip) 3) 9 (fun a b => a != b) 0 [] sampleProg sampleSt).map
    (fun y => y.1.map fun z => (z.e, z.blocks.length, z.run.1.length)) =
    some [("a", 1, 1), ("b", 1, 0), ("a", 2, 0), ("b", 0, 1), ("a", 0, 1)] := by decide +kernel

example : Inside 0 [] sampleSt := c39_start rfl

/-! ### Managers used otherwise

The claim is about `with` blocks.  A manager that is constructed and never entered, or entered
twice, breaks the nesting. -/

/-- `suppress_events()` without `with`, then `with suppress_events('b')`: inside the block all
events are withheld, `a` too. -/
theorem c39_unentered : (supInit 0 [none] sampleSt).1 = .ok () ∧
    withheld ((supEnter 0 (supInit 0 [some "b"] (supInit 0 [none] sampleSt).2).2).2.tls 0) "a" = .ok true :=
  ⟨rfl, rfl⟩

/-- The same manager used for two blocks one after the other: leaving the second raises
`ValueError`. -/
theorem c39_reused :
    let st1 := (supInit 0 [some "a"] sampleSt).2
    let st2 := (supExit 0 [some "a"] (supEnter 0 st1).2).2
    (supExit 0 [some "a"] (supEnter 0 st1).2).1 = .ok () ∧ (supExit 0 [some "a"] (supEnter 0 st2).2).1 = .error .value :=
  ⟨rfl, rfl⟩

end Verif.Events
