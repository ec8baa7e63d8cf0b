import Verif.Props.C39
import Verif.Props.C43

/-!
# C41: dispatching and fallback lookup in every thread

Refuted: the thread-local data of `node.behaviors.events` and `node.behaviors.fallback` are
initialised in the thread that imports the modules, and nowhere else.  The theorems say what
happens instead in every other thread, for all programs.
-/

namespace Verif.Events

/-- A thread other than the importing one: nothing was ever set. -/
structure Foreign (t : Tid) (st : St) : Prop where
  count : (st.tls t).suppress = none
  marks : (st.tls t).marks = none

theorem Foreign.of_tls {t : Tid} {st st' : St} (h : Foreign t st) (he : st'.tls t = st.tls t) : Foreign t st' :=
  ⟨by rw [he]; exact h.count, by rw [he]; exact h.marks⟩

theorem Foreign.inject {t : Tid} {st : St} (h : Foreign t st) (ss : List Sub) : Foreign t (inject t ss st) := by
  have e1 : (Events.inject t ss st).tls t = { st.tls t with injected := some ss } := put_tls _ _ _
  exact ⟨by rw [e1]; exact h.count, by rw [e1]; exact h.marks⟩

/-- **C41, partial: `dispatch` elsewhere.**  In every other thread `dispatch` raises
`AttributeError` and calls nobody, whatever is bound. -/
theorem c41_dispatch_partial {beh : Beh} {fuel : Nat} {t : Tid} {o : Obj} {e : Name} {x : List Value} {st : St}
    (h : Foreign t st) : ∃ st', dispatch beh fuel t o e x st = some ([], .error .attr, st') ∧ Foreign t st' := by
  unfold dispatch
  cases (st.tls t).injected with
  | none => exact ⟨st, rfl, h⟩
  | some ds =>
    simp only [withheld, (h.inject []).count]
    exact ⟨_, rfl, h.inject []⟩

/-- C41, partial: in every other thread `with suppress_events(...)` raises `AttributeError`
without running its body. -/
theorem c41_block_partial {beh : Beh} {fuel : Nat} {ne : Value → Value → Bool} {t : Tid} {C : List (List (Option Name))}
    {ms : List (Option Name)} {p : Prog} {st : St} (h : Foreign t st) :
    exec beh fuel ne t C (.block ms p) st = some ([], .error .attr, st) := by
  unfold exec
  cases ms with
  | nil => simp only [supInit, supEnter, h.count]
  | cons m ms => simp only [supInit, h.marks]

/-- **C41, partial.**  No program ever repairs it: in a thread other than the importing one
every dispatch of every program — assignments of event attributes included — raises
`AttributeError` and calls nobody.  The importing thread delivers, see `c39_nesting` and
`c39_restored`. -/
theorem c41_foreign_partial {beh : Beh} {fuel : Nat} {ne : Value → Value → Bool} {t : Tid} (p : Prog) :
    ∀ {C : List (List (Option Name))} {st : St}, Foreign t st →
      ∃ l r st', exec beh fuel ne t C p st = some (l, r, st') ∧ Foreign t st' ∧
        ∀ y ∈ l, y.run.1 = [] ∧ y.run.2.1 = .error .attr := by
  have hlog : ∀ {C o e x} {st : St}, Foreign t st → ∃ l r st', logged beh fuel t C o e x st = some (l, r, st') ∧
      Foreign t st' ∧ ∀ y ∈ l, y.run.1 = [] ∧ y.run.2.1 = .error .attr := by
    intro C o e x st h
    obtain ⟨st', e1, e2⟩ := c41_dispatch_partial (beh := beh) (fuel := fuel) (o := o) (e := e) (x := x) h
    refine ⟨_, _, _, by simp only [logged, e1, Option.map_some]; rfl, e2, fun y hy => ?_⟩
    rw [List.mem_singleton] at hy
    subst hy
    exact ⟨rfl, rfl⟩
  have hnil : ∀ {P : Entry → Prop}, ∀ y ∈ ([] : List Entry), P y := fun y h => (nomatch h)
  induction p with
  | skip => exact fun h => ⟨_, _, _, rfl, h, hnil⟩
  | seq p q ihp ihq =>
    intro C st h
    obtain ⟨l1, r1, st1, e1, h1, k1⟩ := ihp (C := C) h
    unfold exec
    rw [e1]
    cases r1 with
    | error err => exact ⟨_, _, _, rfl, h1, k1⟩
    | ok u =>
      obtain ⟨l2, r2, st2, e2, h2, k2⟩ := ihq (C := C) h1
      refine ⟨_, _, _, by simp only [e2, Option.map_some]; rfl, h2, fun y hy => (List.mem_append.mp hy).elim (k1 y) (k2 y)⟩
  | dispatch o e x => exact fun h => hlog h
  | assign a o v =>
    intro C st h
    unfold exec
    split
    · exact hlog ((show Foreign t (attrWrite a o v st) from h.of_tls rfl).inject _)
    · exact ⟨_, _, _, rfl, h.of_tls rfl, hnil⟩
  | delete a o =>
    intro C st h
    unfold exec
    split
    · exact hlog (h.of_tls rfl)
    · exact ⟨_, _, _, rfl, h, hnil⟩
  | op op => exact fun h => ⟨_, _, _, rfl, h.of_tls (by rw [runOp_tls]), hnil⟩
  | block ms p ih => exact fun h => ⟨_, _, _, c41_block_partial h, h, hnil⟩
  | raise n => exact fun h => ⟨_, _, _, rfl, h, hnil⟩
  | tryExcept p q ihp ihq =>
    intro C st h
    obtain ⟨l1, r1, st1, e1, h1, k1⟩ := ihp (C := C) h
    unfold exec
    rw [e1]
    cases r1 with
    | ok u => exact ⟨_, _, _, rfl, h1, k1⟩
    | error err =>
      obtain ⟨l2, r2, st2, e2, h2, k2⟩ := ihq (C := C) h1
      refine ⟨_, _, _, by simp only [e2, Option.map_some]; rfl, h2, fun y hy => (List.mem_append.mp hy).elim (k1 y) (k2 y)⟩

/-- Only an assignment changes the value, and it does so before it fails: elsewhere
assigning an event attribute stores the value and raises. -/
theorem c41_assign_partial {beh : Beh} {fuel : Nat} {ne : Value → Value → Bool} {t : Tid} {a : Attr} {o : Obj} {v : Value}
    {st : St} (h : Foreign t st) (hc : a.always = true ∨ ne v (attrGet a o st) = true) :
    ∃ st', attrSet beh fuel ne t a o v st = some ([], .error .attr, st') ∧ attrGet a o st' = v := by
  have hw : Foreign t (inject t a.deco (attrWrite a o v st)) :=
    (show Foreign t (attrWrite a o v st) from h.of_tls rfl).inject _
  have hinj : ((inject t a.deco (attrWrite a o v st)).tls t).injected = some a.deco := by
    rw [show (inject t a.deco (attrWrite a o v st)).tls t = _ from put_tls _ _ _]
  have hc' : (a.always || ne v (attrGet a o st)) = true := by simpa using hc
  refine ⟨inject t [] (inject t a.deco (attrWrite a o v st)), ?_, ?_⟩
  · simp only [attrSet, hc', if_true, dispatch, hinj, withheld, (hw.inject []).count]
  · show ((put st.inst o _ o).store.get? a.name).getD _ = v
    rw [show put st.inst o _ o = _ from if_pos rfl]
    simp only [Od.get?_set, if_true, Option.getD_some]

/-- **C41 is false**: the same dispatch calls both subscribers in the importing thread and
raises in another one. -/
theorem c41_refuted : ¬ ∀ (beh : Beh) (fuel : Nat) (t : Tid) (o : Obj) (e : Name) (x : List Value) (st : St),
    (∀ t, st.tls t = if t = 0 then Local.imported else {}) →
    (dispatch beh fuel t o e x st).map (fun y => (y.1, y.2.1)) =
      (dispatch beh fuel 0 o e x st).map (fun y => (y.1, y.2.1)) := by
  intro h
  have := h (fun _ st => (.ok (), st)) 5 1 0 "a" [] twoSubs (fun _ => rfl)
  have e1 : (dispatch (fun _ st => (.ok (), st)) 5 1 0 "a" [] twoSubs).map (fun y => (y.1, y.2.1)) =
    some ([], .error .attr) := rfl
  have e2 : (dispatch (fun _ st => (.ok (), st)) 5 0 0 "a" [] twoSubs).map (fun y => (y.1, y.2.1)) =
    some ([.bound 1 [], .bound 2 []], .ok ()) := rfl
  rw [e1, e2] at this
  cases this

/-- The other threads of a process start foreign. -/
example : Foreign 1 twoSubs := ⟨rfl, rfl⟩

end Verif.Events

namespace Verif

variable {E : Env}

/-- **C41, partial: fallback lookups elsewhere.**  In every thread other than the importing one
(`fb = none`) reading a missing key raises `AttributeError`: no fallback is searched and it is
not the `KeyError` callers expect. -/
theorem c41_fallback_partial {w : World} (hw : WF w) {o : Oid} (hr : Reads (clsOf E w o)) {k : Key}
    (hf : Falls (clsOf E w o) k) (hm : itemAt E w o k = none) (hfb : w.fb = none) :
    ∃ w', getitem E o k w = (.error .attr, w') ∧ Same w w' := by
  obtain ⟨bl, br, hbs, h1, h2, h3⟩ := hf
  obtain ⟨w1, hro, hp⟩ := getPipe_miss (E := E) hr (fbHandler E) (l := bl) (r := br)
    (fun b hb => by rw [hbs]; exact hb) h1 h2 h3 hw rfl (by unfold itemAt at hm; rw [hbs] at hm; exact hm)
  refine ⟨w1, ?_, hro.same⟩
  have e4 : getitem E o k w = fbHandler E o k (.key (.key k)) w1 := by
    show getPipe E (fbHandler E) (clsOf E w o).bhvs o k w = _
    rw [hbs]; exact hp
  rw [e4]
  simp only [fbHandler, fbGuard, hro.fb.trans hfb]

/-- C41, partial: keys that are present are found in every thread. -/
theorem c41_present_partial {w : World} (hw : WF w) {o : Oid} (hr : Reads (clsOf E w o)) {k : Key} {v : Val}
    (hm : itemAt E w o k = some v) : (getitem E o k w).1 = .ok v := by
  obtain ⟨w', h, -⟩ := c43_local hw hr hm
  rw [h]

/-- No operation repairs it. -/
theorem c41_fallback_forever_partial {w : World} (hw : WF w) (hfb : w.fb = none) (ops : List Op) :
    (execAll E ops w).2.fb = none := (c45_history hw ops).trans hfb

/-- The tree of C43, read in another thread: the lookup found below the fallback of `y` in the
importing thread raises `AttributeError`. -/
theorem c41_refuted_fallback : (getitem fallEnv 10 kc (after fallEnv fallOps)).1 = .ok (.data (.int 3)) ∧
    (getitem fallEnv 10 kc { after fallEnv fallOps with fb := none }).1 = .error .attr :=
  ⟨by decide +kernel, by decide +kernel⟩

/-- A tree of the fallback class read in a thread for which the counter of searches was never set. -/
def c41W : World := { after sampleEnv [.new 10 .none none, .new 10 .none none, .set 0 kb (.node 1),
  .set 1 ka (.data (.int 7))] with fb := none }

theorem c41W_wf : WF c41W :=
  let h := (reachable_after sampleEnv [.new 10 .none none, .new 10 .none none, .set 0 kb (.node 1),
    .set 1 ka (.data (.int 7))]).wf
  { h with }

/-- Present keys are read, missing ones raise `AttributeError`, for ever. -/
example : (getitem sampleEnv 1 ka c41W).1 = .ok (.data (.int 7)) ∧ (∃ w', getitem sampleEnv 1 kb c41W = (.error .attr, w')) ∧
    (execAll sampleEnv [.get 1 kb, .get 1 ka, .set 0 ka (.node 1)] c41W).2.fb = none := by
  have hc : clsOf sampleEnv c41W 1 = fallbackNode := rfl
  have hr : Reads (clsOf sampleEnv c41W 1) := by rw [hc]; exact ⟨⟨⟨_, rfl, by decide⟩, by decide⟩, by decide, by decide, by decide⟩
  exact ⟨c41_present_partial c41W_wf hr (by decide +kernel),
    (c41_fallback_partial c41W_wf hr (by rw [hc]; exact ⟨[], [.adopt, .defaultInit, .nodify, .odictStorage], rfl, by decide, by decide, nofun⟩) (by decide +kernel) rfl).imp fun _ h => h.1,
    c41_fallback_forever_partial c41W_wf rfl _⟩

end Verif
