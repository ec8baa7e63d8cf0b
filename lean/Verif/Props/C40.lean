import Verif.Props.C39

/-!
# C40: event attributes dispatch exactly on change

The claim about deletions fails for decorated subscribers, who are told of assignments only
(`c40_refuted`), and deleting an attribute nobody assigned raises.  The exact list of calls is
proved for subscribers that return and leave the attribute and its subscriptions alone (missing
for C40: other subscribers, for which `c40_stored_first` and `c40_same` are proved).
-/

namespace Verif.Events

/-- The value an attribute has: what was stored last, or the default. -/
theorem attrGet_write (a : Attr) (o : Obj) (v : Value) (st : St) : attrGet a o (attrWrite a o v st) = v := by
  have e1 : ((attrWrite a o v st).inst o).store = (st.inst o).store.set a.name v := by
    show (put st.inst o _ o).store = _
    rw [show put st.inst o _ o = _ from if_pos rfl]
  simp only [attrGet, e1, Od.get?_set, if_true, Option.getD_some]

theorem callDeco_congr {beh beh' : Beh} {J : St → Prop} (hj : ∀ c st, J st → J (beh c st).2)
    (he : ∀ c st, J st → beh' c st = beh c st) {o : Obj} {x : List Value} (ds : List Sub) {st : St} (h : J st) :
    callDeco beh' o x ds st = callDeco beh o x ds st ∧ J (callDeco beh o x ds st).2.2 := by
  induction ds generalizing st with
  | nil => exact ⟨rfl, h⟩
  | cons s ds ih =>
    have h1 := hj (.deco s o x) st h
    unfold callDeco
    rw [he _ _ h]
    cases hc : beh (.deco s o x) st with
    | mk r st1 =>
      rw [hc] at h1
      cases r with
      | error e => exact ⟨rfl, h1⟩
      | ok u =>
        obtain ⟨i1, i2⟩ := ih h1
        exact ⟨by simp only [i1], i2⟩

theorem callBound_congr {beh beh' : Beh} {J : St → Prop} (hj : ∀ c st, J st → J (beh c st).2)
    (he : ∀ c st, J st → beh' c st = beh c st) {r : Ref} {x : List Value} {fuel i : Nat} {st : St} (h : J st) :
    callBound beh' r x fuel i st = callBound beh r x fuel i st ∧
      ∀ y, callBound beh r x fuel i st = some y → J y.2.2 := by
  induction fuel generalizing i st with
  | zero => exact ⟨rfl, fun y h => (nomatch h)⟩
  | succ fuel ih =>
    unfold callBound
    cases hg : (st.lists r)[i]? with
    | none => exact ⟨rfl, fun y hy => by cases hy; exact h⟩
    | some s =>
      have h1 := hj (.bound s x) st h
      simp only
      rw [he _ _ h]
      cases hc : beh (.bound s x) st with
      | mk r1 st1 =>
        rw [hc] at h1
        cases r1 with
        | error e => exact ⟨rfl, fun y hy => by cases hy; exact h1⟩
        | ok u =>
          obtain ⟨i1, i2⟩ := ih (i := i + 1) h1
          refine ⟨by simp only [i1], fun y hy => ?_⟩
          simp only [Option.map_eq_some_iff] at hy
          obtain ⟨z, hz, rfl⟩ := hy
          exact i2 z hz

theorem dispatch_congr {beh beh' : Beh} {J : St → Prop} (hj : ∀ c st, J st → J (beh c st).2)
    (he : ∀ c st, J st → beh' c st = beh c st) {fuel : Nat} {t : Tid} {o : Obj} {e : Name} {x : List Value} {st : St}
    (h : J (inject t [] st)) (h0 : J st) :
    dispatch beh' fuel t o e x st = dispatch beh fuel t o e x st ∧
      ∀ y, dispatch beh fuel t o e x st = some y → J y.2.2 := by
  unfold dispatch
  cases (st.tls t).injected with
  | none => exact ⟨rfl, fun y hy => by cases hy; exact h0⟩
  | some ds =>
    simp only
    cases withheld ((inject t [] st).tls t) e with
    | error err => exact ⟨rfl, fun y hy => by cases hy; exact h⟩
    | ok b =>
      cases b with
      | true => exact ⟨rfl, fun y hy => by cases hy; exact h⟩
      | false =>
        obtain ⟨d1, d2⟩ := callDeco_congr hj he (o := o) (x := x) ds h
        simp only [d1]
        cases hc : callDeco beh o x ds (inject t [] st) with
        | mk cs rs =>
          obtain ⟨r, st2⟩ := rs
          rw [hc] at d2
          cases r with
          | error err => exact ⟨rfl, fun y hy => by cases hy; exact d2⟩
          | ok u =>
            simp only [callSubs]
            cases (st2.inst o).subs.get? e with
            | none => exact ⟨rfl, fun y hy => by cases hy; exact d2⟩
            | some r =>
              obtain ⟨c1, c2⟩ := callBound_congr hj he (r := r) (x := x) (fuel := fuel) (i := 0) d2
              refine ⟨by simp only [c1], fun y hy => ?_⟩
              simp only [Option.map_eq_some_iff] at hy
              obtain ⟨z, hz, rfl⟩ := hy
              exact c2 z hz

/-- **C40: the value is stored first.**  Subscribers are called in states only in which the
attribute has the new value: what they would do elsewhere does not matter.  (As long as
subscribers do not change the attribute themselves.)  And the attribute has the new value
afterwards, also if a subscriber raises. -/
theorem c40_stored_first {beh beh' : Beh} {fuel : Nat} {ne : Value → Value → Bool} {t : Tid} {a : Attr} {o : Obj}
    {v : Value} {st : St} (hj : ∀ c st, attrGet a o st = v → attrGet a o (beh c st).2 = v)
    (he : ∀ c st, attrGet a o st = v → beh' c st = beh c st) :
    attrSet beh' fuel ne t a o v st = attrSet beh fuel ne t a o v st ∧
      ∀ y, attrSet beh fuel ne t a o v st = some y → attrGet a o y.2.2 = v := by
  have hw := attrGet_write a o v st
  unfold attrSet
  simp only
  split
  · exact dispatch_congr (J := fun st => attrGet a o st = v) hj he (h := hw) (h0 := hw)
  · exact ⟨rfl, fun y hy => by cases hy; exact hw⟩

/-- **C40: no dispatch without a change.**  Nobody is called, whoever is bound or decorated,
and only the stored value changes. -/
theorem c40_same {beh : Beh} {fuel : Nat} {ne : Value → Value → Bool} {t : Tid} {a : Attr} {o : Obj} {v : Value} {st : St}
    (ha : a.always = false) (hn : ne v (attrGet a o st) = false) :
    attrSet beh fuel ne t a o v st = some ([], .ok (), attrWrite a o v st) := by
  simp [attrSet, ha, hn]

theorem callDeco_all {beh : Beh} {J : St → Prop} (hJ : ∀ c st, J st → J (beh c st).2 ∧ (beh c st).1 = .ok ()) {o : Obj}
    {x : List Value} (ds : List Sub) {st : St} (h : J st) :
    ∃ st', callDeco beh o x ds st = (ds.map (.deco · o x), .ok (), st') ∧ J st' := by
  induction ds generalizing st with
  | nil => exact ⟨st, rfl, h⟩
  | cons s ds ih =>
    obtain ⟨h1, h2⟩ := hJ (.deco s o x) st h
    unfold callDeco
    cases hc : beh (.deco s o x) st with
    | mk r st1 =>
      rw [hc] at h1 h2
      replace h2 : r = .ok () := h2
      subst h2
      obtain ⟨st', e1, e2⟩ := ih h1
      exact ⟨st', by simp only [e1, List.map_cons], e2⟩

/-- `r` is the subscriber list of the event and is `l`, in every state of `J`. -/
structure Settled (beh : Beh) (J : St → Prop) (o : Obj) (e : Name) (l : List Sub) : Prop where
  step : ∀ c st, J st → J (beh c st).2 ∧ (beh c st).1 = .ok ()
  subs : ∀ st, J st → subsOf st o e = l

theorem callSubs_settled {beh : Beh} {J : St → Prop} {o : Obj} {e : Name} {l : List Sub} (hs : Settled beh J o e l)
    (hr : ∀ c st, J st → ((beh c st).2.inst o).subs.get? e = (st.inst o).subs.get? e)
    {fuel : Nat} {x : List Value} {st : St} (h : J st) (hf : l.length < fuel) :
    ∃ st', callSubs beh fuel o e x st = some (l.map (.bound · x), .ok (), st') ∧ J st' := by
  have hl := hs.subs st h
  unfold callSubs
  cases hg : (st.inst o).subs.get? e with
  | none =>
    have : l = [] := by rw [← hl]; simp [subsOf, hg]
    subst this
    exact ⟨st, rfl, h⟩
  | some r =>
    simp only
    have key : ∀ (m fuel i : Nat) (st : St), J st → (st.inst o).subs.get? e = some r → l.length - i < fuel →
        l.length - i = m → ∃ st', callBound beh r x fuel i st = some ((l.drop i).map (.bound · x), .ok (), st') ∧ J st' := by
      intro m
      induction m with
      | zero =>
        intro fuel i st h hg hf hm
        obtain ⟨fuel, rfl⟩ : ∃ f, fuel = f + 1 := ⟨fuel - 1, by omega⟩
        have hlr : st.lists r = l := by have := hs.subs st h; simpa only [subsOf, hg] using this
        have hn : (st.lists r)[i]? = none := by rw [hlr, List.getElem?_eq_none_iff]; omega
        refine ⟨st, ?_, h⟩
        rw [List.drop_of_length_le (by omega)]
        simp only [callBound, hn]
        rfl
      | succ m ih =>
        intro fuel i st h hg hf hm
        obtain ⟨fuel, rfl⟩ : ∃ f, fuel = f + 1 := ⟨fuel - 1, by omega⟩
        have hlr : st.lists r = l := by have := hs.subs st h; simpa only [subsOf, hg] using this
        have hlt : i < l.length := by omega
        have hn : (st.lists r)[i]? = some l[i] := by rw [hlr]; exact List.getElem?_eq_getElem hlt
        obtain ⟨h1, h2⟩ := hs.step (.bound l[i] x) st h
        obtain ⟨st', e1, e2⟩ := ih fuel (i + 1) _ h1 ((hr (.bound l[i] x) st h).trans hg) (by omega) (by omega)
        refine ⟨st', ?_, e2⟩
        rw [List.drop_eq_getElem_cons hlt]
        unfold callBound
        simp only [hn]
        cases hb : beh (.bound l[i] x) st with
        | mk res st1 =>
          rw [hb] at h2 e1
          replace h2 : res = .ok () := h2
          subst h2
          simp only
          rw [show callBound beh r x fuel (i + 1) st1 = _ from e1]
          rfl
    obtain ⟨st', e1, e2⟩ := key _ fuel 0 st h hg (by omega) rfl
    exact ⟨st', by rw [e1, List.drop_zero], e2⟩

/-- Everything that matters to the subscribers of the attribute `a` of `o` is as in `st0`. -/
structure Calm (t : Tid) (a : Attr) (o : Obj) (st0 st : St) : Prop where
  subs : (st.inst o).subs.get? a.name = (st0.inst o).subs.get? a.name
  lists : ∀ r, (st0.inst o).subs.get? a.name = some r → st.lists r = st0.lists r
  store : (st.inst o).store = (st0.inst o).store
  sup : (st.tls t).suppress = (st0.tls t).suppress
  marks : (st.tls t).marks = (st0.tls t).marks
  inj : (st.tls t).injected = some []

theorem Calm.subsOf {t : Tid} {a : Attr} {o : Obj} {st0 st : St} (h : Calm t a o st0 st) :
    subsOf st o a.name = subsOf st0 o a.name := by
  unfold Events.subsOf
  rw [h.subs]
  cases hg : (st0.inst o).subs.get? a.name with
  | none => rfl
  | some r => exact h.lists r hg

/-- Subscribers that return and leave all this alone. -/
def CalmBeh (t : Tid) (a : Attr) (o : Obj) (beh : Beh) : Prop :=
  ∀ c st0 st, Calm t a o st0 st → Calm t a o st0 (beh c st).2 ∧ (beh c st).1 = .ok ()

theorem Calm.rfl_inject (t : Tid) (a : Attr) (o : Obj) (st : St) : Calm t a o st (inject t [] st) := by
  have e1 : (inject t [] st).tls t = { st.tls t with injected := some [] } := put_tls _ _ _
  exact ⟨rfl, fun _ _ => rfl, rfl, by rw [e1], by rw [e1], by rw [e1]⟩

/-- What a dispatch to such subscribers does. -/
theorem dispatch_calm {beh : Beh} {fuel : Nat} {t : Tid} {a : Attr} {o : Obj} {x : List Value} {st : St}
    (hb : CalmBeh t a o beh) {ds : List Sub} (hi : (st.tls t).injected = some ds) {b : Bool}
    (hw : withheld (st.tls t) a.name = .ok b) (hf : (subsOf st o a.name).length < fuel) :
    ∃ st', dispatch beh fuel t o a.name x st = some ((if b = true then [] else
      ds.map (.deco · o x) ++ (subsOf st o a.name).map (.bound · x)), .ok (), st') ∧ Calm t a o st st' := by
  have h0 := Calm.rfl_inject t a o st
  have hw' : withheld ((inject t [] st).tls t) a.name = .ok b := by
    rw [← hw]
    simp only [withheld, h0.sup, h0.marks]
  cases b with
  | true =>
    refine ⟨inject t [] st, ?_, h0⟩
    simp only [dispatch, hi, hw', if_pos]
  | false =>
    have hs : Settled beh (Calm t a o st) o a.name (subsOf st o a.name) :=
      ⟨fun c st' h => hb c st st' h, fun st' h => h.subsOf⟩
    obtain ⟨st1, e1, h1⟩ := callDeco_all (J := Calm t a o st) (fun c st' h => hb c st st' h) (o := o) (x := x) ds h0
    obtain ⟨st2, e2, h2⟩ := callSubs_settled hs (fun c st' h => (hb c st st' h).1.subs.trans h.subs.symm)
      (x := x) h1 hf
    refine ⟨st2, ?_, h2⟩
    simp only [dispatch, hi, hw', e1, e2, Option.map_some, Bool.false_eq_true, if_false]

/-- **C40, assigning.**  Assigning stores the value and, exactly if the value differs from the
previous one or the attribute always dispatches — and the event is not withheld — calls the
decorated subscribers and then the bound ones with it, each once and in order. -/
theorem c40_assign_partial {beh : Beh} {fuel : Nat} {ne : Value → Value → Bool} {t : Tid} {a : Attr} {o : Obj} {v : Value}
    {st : St} (hb : CalmBeh t a o beh) {b : Bool} (hw : withheld (st.tls t) a.name = .ok b)
    (hi : (st.tls t).injected = some [])
    (hf : (subsOf st o a.name).length < fuel) :
    ∃ st', attrSet beh fuel ne t a o v st = some (
        (if (a.always = true ∨ ne v (attrGet a o st) = true) ∧ b = false then
          a.deco.map (.deco · o [v]) ++ (subsOf st o a.name).map (.bound · [v]) else []), .ok (), st') ∧
      Calm t a o (attrWrite a o v st) st' ∧ attrGet a o st' = v := by
  have hsub : subsOf (inject t a.deco (attrWrite a o v st)) o a.name = subsOf st o a.name := by
    simp only [subsOf, inject, attrWrite]
    rw [show put st.inst o _ o = _ from if_pos rfl]
  have htls : (inject t a.deco (attrWrite a o v st)).tls t = { st.tls t with injected := some a.deco } := put_tls _ _ _
  have hget : ∀ st', Calm t a o (attrWrite a o v st) st' → attrGet a o st' = v := fun st' h => by
    rw [← attrGet_write a o v st]
    simp only [attrGet, h.store]
  by_cases hc : a.always = true ∨ ne v (attrGet a o st) = true
  · obtain ⟨st', e1, e2⟩ := dispatch_calm (x := [v]) (fuel := fuel) (st := inject t a.deco (attrWrite a o v st)) hb
      (ds := a.deco) (by rw [htls]) (b := b) (by rw [htls]; exact hw) (by rw [hsub]; exact hf)
    have e3 : Calm t a o (attrWrite a o v st) st' :=
      ⟨e2.subs, e2.lists, e2.store, by rw [e2.sup, htls]; rfl, by rw [e2.marks, htls]; rfl, e2.inj⟩
    refine ⟨st', ?_, e3, hget st' e3⟩
    have hc' : (a.always || ne v (attrGet a o st)) = true := by simpa using hc
    simp only [attrSet, hc', if_true, e1, hsub]
    cases b <;> simp [hc]
  · have hc' : ¬ (a.always || ne v (attrGet a o st)) = true := by simpa using hc
    have e3 : Calm t a o (attrWrite a o v st) (attrWrite a o v st) := ⟨rfl, fun _ _ => rfl, rfl, rfl, rfl, hi⟩
    refine ⟨attrWrite a o v st, ?_, e3, hget _ e3⟩
    simp only [attrSet, hc', hc, false_and, if_false, Bool.false_eq_true]

/-- **C40, deleting.**  Deleting an attribute that has no value of its own raises `KeyError` and
does nothing; otherwise the default is back and — unless withheld — the bound subscribers are
called with `UNSET`.  The decorated ones are not. -/
theorem c40_delete_partial {beh : Beh} {fuel : Nat} {t : Tid} {a : Attr} {o : Obj} {st : St}
    (hnd : (st.inst o).store.keys.Nodup) (hb : CalmBeh t a o beh) {b : Bool}
    (hw : withheld (st.tls t) a.name = .ok b) (hi : (st.tls t).injected = some [])
    (hf : (subsOf st o a.name).length < fuel) :
    ((st.inst o).store.get? a.name = none → attrDel beh fuel t a o st = some ([], .error (.key a.name), st)) ∧
    ((st.inst o).store.get? a.name ≠ none → ∃ st', attrDel beh fuel t a o st =
        some ((if b = true then [] else (subsOf st o a.name).map (.bound · [.unset])), .ok (), st') ∧
      Calm t a o { st with inst := put st.inst o { st.inst o with store := (st.inst o).store.del a.name } } st' ∧
      attrGet a o st' = a.default) := by
  constructor
  · intro hg
    simp [attrDel, Od.has, hg]
  · intro hg
    have hh : (st.inst o).store.has a.name = true := by
      unfold Od.has
      cases h : (st.inst o).store.get? a.name with
      | none => exact absurd h hg
      | some v => rfl
    have hp : put st.inst o { st.inst o with store := (st.inst o).store.del a.name } o =
        { st.inst o with store := (st.inst o).store.del a.name } := if_pos rfl
    obtain ⟨st', e1, e2⟩ := dispatch_calm (x := [.unset]) (fuel := fuel) (a := a) (o := o) (t := t)
      (st := { st with inst := put st.inst o { st.inst o with store := (st.inst o).store.del a.name } }) hb
      (ds := []) hi (b := b) hw (by simp only [subsOf, hp]; exact hf)
    refine ⟨st', ?_, e2, ?_⟩
    · simp only [attrDel, hh, if_true, e1, subsOf, hp, List.map_nil, List.nil_append]
    · simp only [attrGet, e2.store]
      rw [show put st.inst o { st.inst o with store := (st.inst o).store.del a.name } o = _ from hp]
      simp only [Od.get?_del hnd, if_pos, Option.getD_none]

/-! ### Histories -/

/-- Assignments (`some v`) and deletions (`none`) of an attribute: the calls, the errors and
the value, from the values alone. -/
def history (ne : Value → Value → Bool) (a : Attr) (o : Obj) (l : List Sub) : List (Option Value) → Option Value →
    List (List Call × Except Err Unit)
  | [], _ => []
  | some v :: r, cur =>
    ((if a.always = true ∨ ne v (cur.getD a.default) = true then a.deco.map (.deco · o [v]) ++ l.map (.bound · [v])
      else []), .ok ()) :: history ne a o l r (some v)
  | none :: r, some _ => (l.map (.bound · [.unset]), .ok ()) :: history ne a o l r none
  | none :: r, none => ([], .error (.key a.name)) :: history ne a o l r none

/-- What the code does. -/
def histRun (beh : Beh) (fuel : Nat) (ne : Value → Value → Bool) (t : Tid) (a : Attr) (o : Obj) :
    List (Option Value) → St → Option (List (List Call × Except Err Unit))
  | [], _ => some []
  | op :: r, st =>
    match (match op with | some v => attrSet beh fuel ne t a o v st | none => attrDel beh fuel t a o st) with
    | none => none
    | some y => (histRun beh fuel ne t a o r y.2.2).map ((y.1, y.2.1) :: ·)

/-- **C40.**  After any history of assignments and deletions, each operation has called exactly
the subscribers it should have. -/
theorem c40_history_partial {beh : Beh} {fuel : Nat} {ne : Value → Value → Bool} {t : Tid} {a : Attr} {o : Obj}
    (hb : CalmBeh t a o beh) (h : List (Option Value)) :
    ∀ {st : St}, (st.inst o).store.keys.Nodup → withheld (st.tls t) a.name = .ok false →
      (st.tls t).injected = some [] → (subsOf st o a.name).length < fuel →
      histRun beh fuel ne t a o h st = some (history ne a o (subsOf st o a.name) h ((st.inst o).store.get? a.name)) := by
  induction h with
  | nil => intros; rfl
  | cons op h ih =>
    intro st hnd hw hi hf
    cases op with
    | some v =>
      obtain ⟨st', e1, e2, -⟩ := c40_assign_partial (v := v) (ne := ne) hb hw hi hf
      have hp : ((attrWrite a o v st).inst o) = { st.inst o with store := (st.inst o).store.set a.name v } := if_pos rfl
      have hs : subsOf (attrWrite a o v st) o a.name = subsOf st o a.name := by
        simp only [subsOf, hp]; rfl
      have hw' : withheld (st'.tls t) a.name = .ok false := by
        rw [← hw]; simp only [withheld, e2.sup, e2.marks]; rfl
      have := ih (st := st') (by rw [e2.store, hp]; exact Od.nodup_keys_set hnd _ _) hw' e2.inj
        (by rw [e2.subsOf, hs]; exact hf)
      simp only [histRun, e1, this, Option.map_some, history, e2.subsOf, hs, e2.store, hp, Od.get?_set, if_pos, attrGet,
        and_true]
    | none =>
      obtain ⟨d1, d2⟩ := c40_delete_partial hnd hb hw hi hf
      cases hg : (st.inst o).store.get? a.name with
      | none =>
        have := ih hnd hw hi hf
        simp only [histRun, d1 hg, this, Option.map_some, history, hg]
      | some v =>
        obtain ⟨st', e1, e2, -⟩ := d2 (by rw [hg]; exact Option.some_ne_none _)
        have hp : put st.inst o { st.inst o with store := (st.inst o).store.del a.name } o =
            { st.inst o with store := (st.inst o).store.del a.name } := if_pos rfl
        have hst : (st'.inst o).store = (st.inst o).store.del a.name := e2.store.trans (congrArg Inst.store hp)
        have hs : subsOf st' o a.name = subsOf st o a.name := by
          rw [e2.subsOf]; simp only [subsOf, hp]
        have hw' : withheld (st'.tls t) a.name = .ok false := by
          rw [← hw]; simp only [withheld, e2.sup, e2.marks]
        have := ih (st := st') (by rw [hst]; exact Od.nodup_keys_del hnd _) hw' e2.inj (by rw [hs]; exact hf)
        simp only [histRun, e1, this, Option.map_some, history, hs, hst, Od.get?_del hnd, if_pos, Bool.false_eq_true,
          if_false]

/-! ### A concrete case -/

def sampleAttr : Attr := { name := "a", default := .val 0, deco := [9] }

def sampleNe : Value → Value → Bool := fun a b => a != b

/-- Subscribers that do nothing. -/
def idle : Beh := fun _ st => (.ok (), st)

theorem idle_calm (t : Tid) (a : Attr) (o : Obj) : CalmBeh t a o idle := fun _ _ _ h => ⟨h, rfl⟩

/-- Assigning 0 (the default) calls nobody; 5 calls the decorated and the bound ones; 5 again
nobody; deleting calls the bound ones; deleting again raises. -/
example : (histRun idle 5 sampleNe 0 sampleAttr 0 [some (.val 0), some (.val 5), some (.val 5), none, none] twoSubs) =
    some [([], .ok ()), ([.deco 9 0 [.val 5], .bound 1 [.val 5], .bound 2 [.val 5]], .ok ()), ([], .ok ()),
      ([.bound 1 [.unset], .bound 2 [.unset]], .ok ()), ([], .error (.key "a"))] := by rfl

example : histRun idle 5 sampleNe 0 sampleAttr 0 [some (.val 5), none] twoSubs =
    some (history sampleNe sampleAttr 0 (subsOf twoSubs 0 "a") [some (.val 5), none] none) :=
  c40_history_partial (idle_calm _ _ _) _ (by decide +kernel) rfl rfl (by decide +kernel)

/-- Decorated subscribers are not notified of deletions. -/
theorem c40_refuted : (attrDel idle 5 0 sampleAttr 0 (attrWrite sampleAttr 0 (.val 5) twoSubs)).map (·.1) =
    some [.bound 1 [.unset], .bound 2 [.unset]] ∧ sampleAttr.deco ≠ [] := ⟨by decide +kernel, by decide⟩

/-- `c40_stored_first`: subscribers that would behave differently before the value is stored make no difference. -/
example : attrSet (fun c st => if attrGet sampleAttr 0 st = .val 5 then idle c st else (.error .attr, st)) 5 sampleNe 0
      sampleAttr 0 (.val 5) twoSubs = attrSet idle 5 sampleNe 0 sampleAttr 0 (.val 5) twoSubs :=
  (c40_stored_first (fun _ _ h => h) (fun _ _ h => by simp [h])).1

end Verif.Events
