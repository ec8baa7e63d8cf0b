import Verif.Props.C37

/-!
# C38: `dispatch` notifies every subscriber exactly once

Refuted: `dispatch` walks the list of subscribers while they change it, so a subscriber that
unbinds itself makes the next one be passed over.  What holds: as long as no single subscriber
is taken out of the list, everyone bound at the start is called exactly once, in the order of
binding, and those bound meanwhile after them.
-/

namespace Verif.Events

open scoped List

/-- The thread delivers the event: nothing is withheld, no decorated subscribers are waiting. -/
structure Delivers (t : Tid) (e : Name) (st : St) : Prop where
  injected : (st.tls t).injected = some []
  open_ : withheld (st.tls t) e = .ok false

theorem dispatch_plain {beh : Beh} {fuel : Nat} {t : Tid} {o : Obj} {e : Name} {x : List Value} {st : St}
    (h : Delivers t e st) : dispatch beh fuel t o e x st = callSubs beh fuel o e x (inject t [] st) := by
  have h1 : withheld ((inject t [] st).tls t) e = .ok false := by
    have h2 : (inject t [] st).tls t = { st.tls t with injected := some [] } := by simp [inject, put]
    rw [h2]
    exact h.open_
  simp only [dispatch, h.injected, h1, callDeco, List.nil_append, Option.map_id']

/-- What the loop over the list `r` does if the list only grows at its end. -/
theorem callBound_append {beh : Beh} {r : Ref} {x : List Value} {I : St → Prop}
    (hI : ∀ c st, I st → I (beh c st).2 ∧ ∃ more, (beh c st).2.lists r = st.lists r ++ more)
    {fuel i : Nat} {st : St} {cs : List Call} {res : Except Err Unit} {st' : St} (hi : I st)
    (h : callBound beh r x fuel i st = some (cs, res, st')) :
    I st' ∧ (∃ more, st'.lists r = st.lists r ++ more) ∧
    ∃ n, cs = (((st'.lists r).drop i).take n).map (.bound · x) ∧
      (res = .ok () → (st'.lists r).length ≤ i + n) ∧ (∀ err, res = .error err → 0 < n ∧ i + n ≤ (st'.lists r).length) := by
  induction fuel generalizing i st cs with
  | zero => cases h
  | succ fuel ih =>
    unfold callBound at h
    cases hg : (st.lists r)[i]? with
    | none =>
      rw [hg] at h
      cases h
      refine ⟨hi, ⟨[], by simp⟩, 0, by simp, fun _ => ?_, fun _ h => (nomatch h)⟩
      simpa using hg
    | some s =>
      simp only [hg] at h
      obtain ⟨h1, more, h2⟩ := hI (.bound s x) st hi
      have hlt : i < (st.lists r).length := (List.getElem?_eq_some_iff.mp hg).1
      have hdrop : ∀ l : List Sub, (st.lists r) <+: l → l.drop i = s :: l.drop (i + 1) := by
        rintro l ⟨m, rfl⟩
        rw [List.drop_append_of_le_length (Nat.le_of_lt hlt), List.drop_eq_getElem_cons hlt,
          List.drop_append_of_le_length hlt]
        have := (List.getElem?_eq_some_iff.mp hg).2
        simp [this]
      cases hb : beh (.bound s x) st with
      | mk res1 st1 =>
        rw [hb] at h h1 h2
        cases res1 with
        | error err =>
          cases h
          refine ⟨h1, ⟨more, h2⟩, 1, ?_, fun h => (nomatch h), fun _ _ => ⟨Nat.one_pos, ?_⟩⟩
          · rw [hdrop _ ⟨more, h2.symm⟩]; rfl
          · rw [h2, List.length_append]; omega
        | ok u =>
          cases hc : callBound beh r x fuel (i + 1) st1 with
          | none => simp only [hc] at h; cases h
          | some y =>
            obtain ⟨cs1, res1, st2⟩ := y
            simp only [hc, Option.map_some, Option.some.injEq, Prod.mk.injEq] at h
            obtain ⟨rfl, rfl, rfl⟩ := h
            obtain ⟨k1, ⟨more2, k2⟩, n, k3, k4, k5⟩ := ih h1 hc
            have hpre : st.lists r <+: st2.lists r := ⟨more ++ more2, by rw [k2, h2]; simp⟩
            refine ⟨k1, ⟨more ++ more2, by rw [k2, h2]; simp⟩, n + 1, ?_, fun h => ?_, fun err h => ?_⟩
            · rw [hdrop _ hpre, List.take_succ_cons, List.map_cons, k3]
            · have := k4 h; omega
            · obtain ⟨h1, h2⟩ := k5 err h; omega

/-- **C38, partial.**  If the subscribers never take one out of the list of the event (they may
bind, also to this event, and may unbind whole events), a dispatch that returns has called the
subscribers of the final list, each once and in order; those bound at the start come first.
A dispatch that raises has called a non-empty beginning of that list.  `I` is any invariant of
what the subscribers do.  (Missing: subscribers that unbind single subscribers, see
`c38_refuted`.) -/
theorem c38_append_partial {beh : Beh} {r : Ref} {I : St → Prop}
    (hI : ∀ c st, I st → I (beh c st).2 ∧ ∃ more, (beh c st).2.lists r = st.lists r ++ more)
    {fuel : Nat} {t : Tid} {o : Obj} {e : Name} {x : List Value} {st : St} (hd : Delivers t e st)
    (hr : (st.inst o).subs.get? e = some r) (hi : I (inject t [] st))
    {cs : List Call} {res : Except Err Unit} {st' : St} (h : dispatch beh fuel t o e x st = some (cs, res, st')) :
    I st' ∧ subsOf st o e <+: st'.lists r ∧
      ∃ n, cs = ((st'.lists r).take n).map (.bound · x) ∧ (res = .ok () → (st'.lists r).length ≤ n) ∧
        ∀ err, res = .error err → 0 < n ∧ n ≤ (st'.lists r).length := by
  rw [dispatch_plain hd] at h
  have hr' : ((inject t [] st).inst o).subs.get? e = some r := hr
  simp only [callSubs, hr'] at h
  obtain ⟨h1, ⟨more, h2⟩, n, h3, h4, h5⟩ := callBound_append hI hi h
  refine ⟨h1, ⟨more, ?_⟩, n, h3, fun h => ?_, fun err h => ?_⟩
  · simp only [subsOf, hr]
    exact h2.symm
  · have := h4 h; omega
  · have := h5 err h; omega

/-- C38, partial: under these conditions, if the list stays without duplicates — `bind` never
adds one — every subscriber bound at the start is called exactly once by a dispatch that
returns. -/
theorem c38_once_partial {beh : Beh} {r : Ref} {I : St → Prop}
    (hI : ∀ c st, I st → I (beh c st).2 ∧ ∃ more, (beh c st).2.lists r = st.lists r ++ more)
    (hn : ∀ st, I st → (st.lists r).Nodup)
    {fuel : Nat} {t : Tid} {o : Obj} {e : Name} {x : List Value} {st : St} (hd : Delivers t e st)
    (hr : (st.inst o).subs.get? e = some r) (hi : I (inject t [] st))
    {cs : List Call} {st' : St} (h : dispatch beh fuel t o e x st = some (cs, .ok (), st')) :
    (∀ s ∈ subsOf st o e, cs.count (.bound s x) = 1) ∧ ((subsOf st o e).map (.bound · x)) <+: cs := by
  obtain ⟨h1, ⟨more, h2⟩, n, h3, h4, -⟩ := c38_append_partial hI hd hr hi h
  rw [List.take_of_length_le (h4 rfl)] at h3
  subst h3
  have hinj : ∀ a b, Call.bound a x = Call.bound b x → a = b := fun a b h => by cases h; rfl
  refine ⟨fun s hs => ?_, ⟨more.map (.bound · x), by rw [← List.map_append, h2]⟩⟩
  refine List.Nodup.count (List.pairwise_map.mpr ((hn _ h1).imp fun hne he => hne (hinj _ _ he))) |>.trans ?_
  rw [if_pos]
  exact List.mem_map.mpr ⟨s, by rw [← h2]; exact List.mem_append.mpr (.inl hs), rfl⟩

/-- C38, partial: a dispatch to subscribers that leave the list alone and return does finish,
and calls exactly the list. -/
theorem c38_all_partial {beh : Beh} {r : Ref} {I : St → Prop}
    (hI : ∀ c st, I st → I (beh c st).2 ∧ (beh c st).1 = .ok () ∧ (beh c st).2.lists r = st.lists r)
    {fuel : Nat} {t : Tid} {o : Obj} {e : Name} {x : List Value} {st : St} (hd : Delivers t e st)
    (hr : (st.inst o).subs.get? e = some r) (hi : I (inject t [] st)) (hf : (subsOf st o e).length < fuel) :
    ∃ st', dispatch beh fuel t o e x st = some ((subsOf st o e).map (.bound · x), .ok (), st') := by
  have key : ∀ (m : Nat) (fuel i : Nat) (st : St), I st → (st.lists r).length - i < fuel →
      (st.lists r).length - i = m → ∃ st', callBound beh r x fuel i st =
        some (((st.lists r).drop i).map (.bound · x), .ok (), st') := by
    intro m
    induction m with
    | zero =>
      intro fuel i st hi hf hm
      obtain ⟨fuel, rfl⟩ : ∃ f, fuel = f + 1 := ⟨fuel - 1, by omega⟩
      have hg : (st.lists r)[i]? = none := by
        rw [List.getElem?_eq_none_iff]; omega
      refine ⟨st, ?_⟩
      rw [List.drop_of_length_le (by omega)]
      simp only [callBound, hg]
      rfl
    | succ m ih =>
      intro fuel i st hi hf hm
      obtain ⟨fuel, rfl⟩ : ∃ f, fuel = f + 1 := ⟨fuel - 1, by omega⟩
      have hlt : i < (st.lists r).length := by omega
      have hg : (st.lists r)[i]? = some (st.lists r)[i] := List.getElem?_eq_getElem hlt
      obtain ⟨h1, h2, h3⟩ := hI (.bound (st.lists r)[i] x) st hi
      obtain ⟨st', h4⟩ := ih fuel (i + 1) (beh (.bound (st.lists r)[i] x) st).2 h1 (by rw [h3]; omega) (by rw [h3]; omega)
      refine ⟨st', ?_⟩
      rw [List.drop_eq_getElem_cons hlt]
      unfold callBound
      simp only [hg]
      cases hb : beh (.bound (st.lists r)[i] x) st with
      | mk res st1 =>
        rw [hb] at h2 h3 h4
        replace h2 : res = .ok () := h2
        subst h2
        replace h3 : st1.lists r = st.lists r := h3
        simp only
        rw [show callBound beh r x fuel (i + 1) st1 = _ from h4]
        simp only [h3]
        rfl
  rw [dispatch_plain hd]
  have hr' : ((inject t [] st).inst o).subs.get? e = some r := hr
  have hs : (inject t [] st).lists r = subsOf st o e := by simp only [subsOf, hr]; rfl
  obtain ⟨st', h⟩ := key _ fuel 0 (inject t [] st) hi (by rw [hs]; omega) rfl
  refine ⟨st', ?_⟩
  simp only [callSubs, hr', h, List.drop_zero, hs]

/-- C38: an event without subscribers calls nobody, whoever is bound to other events. -/
theorem c38_nobody {beh : Beh} {fuel : Nat} {t : Tid} {o : Obj} {e : Name} {x : List Value} {st : St}
    (hd : Delivers t e st) (hr : (st.inst o).subs.get? e = none) :
    dispatch beh fuel t o e x st = some ([], .ok (), inject t [] st) := by
  rw [dispatch_plain hd]
  have hr' : ((inject t [] st).inst o).subs.get? e = none := hr
  simp only [callSubs, hr']

/-! ### Subscribers running scripts -/

/-- Subscribers that bind, register and unbind. -/
def scripted (f : Call → List Op) : Beh := fun c st => (.ok (), run (f c) st)

/-- The operation does not take single subscribers out. -/
def Op.Keeps : Op → Prop
  | .unbind _ _ (some _) => False
  | _ => True

/-- `r` is the list of some event, now or before. -/
structure Listed (r : Ref) (st : St) : Prop where
  apart : Apart st
  lt : r < st.nlist
  nodup : (st.lists r).Nodup

theorem subsList_lists {o : Obj} {e : Name} {st : St} {r : Ref} (h : r < st.nlist) :
    (subsList o e st).2.lists r = st.lists r ∧ r < (subsList o e st).2.nlist := by
  unfold subsList
  split
  · exact ⟨rfl, h⟩
  · exact ⟨if_neg (Nat.ne_of_lt h), Nat.lt_succ_of_lt h⟩

theorem addSub_lists {r' : Ref} {s : Sub} {st : St} {r : Ref} (hn : (st.lists r).Nodup) :
    ((addSub r' s st).lists r).Nodup ∧ (addSub r' s st).nlist = st.nlist ∧
      ∃ more, (addSub r' s st).lists r = st.lists r ++ more := by
  by_cases hs : s ∈ st.lists r'
  · have e1 : addSub r' s st = st := if_pos hs
    rw [e1]
    exact ⟨hn, rfl, [], (List.append_nil _).symm⟩
  · have e1 : addSub r' s st = { st with lists := put st.lists r' (st.lists r' ++ [s]) } := if_neg hs
    rw [e1]
    by_cases hr : r = r'
    · subst hr
      have e2 : put st.lists r (st.lists r ++ [s]) r = st.lists r ++ [s] := if_pos rfl
      refine ⟨?_, rfl, [s], e2⟩
      show (put st.lists r (st.lists r ++ [s]) r).Nodup
      rw [e2]
      exact List.nodup_append.mpr ⟨hn, List.pairwise_singleton _ _, fun a ha b hb h => hs (by
        rw [List.mem_singleton] at hb; subst hb; subst h; exact ha)⟩
    · have e2 : put st.lists r' (st.lists r' ++ [s]) r = st.lists r := if_neg hr
      refine ⟨?_, rfl, [], e2.trans (List.append_nil _).symm⟩
      show (put st.lists r' (st.lists r' ++ [s]) r).Nodup
      rw [e2]
      exact hn

theorem bind_listed {o : Obj} (kw : List (Name × Sub)) {r : Ref} {st : St} (h : Listed r st) :
    Listed r (bind o kw st).2 ∧ ∃ more, (bind o kw st).2.lists r = st.lists r ++ more := by
  induction kw generalizing st with
  | nil => exact ⟨h, [], (List.append_nil _).symm⟩
  | cons a kw ih =>
    obtain ⟨e, s⟩ := a
    by_cases hd : declared o e st = true
    · simp only [bind, hd, if_true]
      obtain ⟨r', st1, hsl, a1, a2, -⟩ := subsList_spec (o := o) (e := e) h.apart
      obtain ⟨b1, -⟩ := addSub_spec a1 a2 s
      obtain ⟨c1, c2⟩ := subsList_lists (o := o) (e := e) h.lt
      rw [hsl] at c1 c2 ⊢
      obtain ⟨d1, d2, more, d3⟩ := addSub_lists (r' := r') (s := s) (st := st1) (r := r) (by rw [c1]; exact h.nodup)
      obtain ⟨e1, more', e2⟩ := ih (st := addSub r' s st1) ⟨b1, by rw [d2]; exact c2, d1⟩
      exact ⟨e1, more ++ more', by rw [e2, d3, c1, List.append_assoc]⟩
    · simp only [bind, hd, Bool.false_eq_true, if_false]
      exact ⟨h, [], (List.append_nil _).symm⟩

theorem runOp_listed {op : Op} (hk : op.Keeps) {r : Ref} {st : St} (h : Listed r st) :
    Listed r (runOp op st).2 ∧ ∃ more, (runOp op st).2.lists r = st.lists r ++ more := by
  match op, hk with
  | .register o e, _ =>
    have e1 : (register o e st).lists = st.lists ∧ (register o e st).nlist = st.nlist := by
      unfold register
      split <;> exact ⟨rfl, rfl⟩
    refine ⟨⟨(register_spec h.apart).1, ?_, ?_⟩, [], ?_⟩
    · show r < (register o e st).nlist
      rw [e1.2]; exact h.lt
    · show ((register o e st).lists r).Nodup
      rw [e1.1]; exact h.nodup
    · show (register o e st).lists r = _
      rw [e1.1, List.append_nil]
  | .bind o kw, _ => exact bind_listed kw h
  | .unbind o e none, _ =>
    have e1 : (unbind o e none st).lists = st.lists ∧ (unbind o e none st).nlist = st.nlist := by
      cases e <;> exact ⟨rfl, rfl⟩
    refine ⟨⟨(unbind_spec e none h.apart).1, ?_, ?_⟩, [], ?_⟩
    · show r < (unbind o e none st).nlist
      rw [e1.2]; exact h.lt
    · show ((unbind o e none st).lists r).Nodup
      rw [e1.1]; exact h.nodup
    · show (unbind o e none st).lists r = _
      rw [e1.1, List.append_nil]

theorem run_listed {ops : List Op} (hk : ∀ op ∈ ops, op.Keeps) {r : Ref} {st : St} (h : Listed r st) :
    Listed r (run ops st) ∧ ∃ more, (run ops st).lists r = st.lists r ++ more := by
  induction ops generalizing st with
  | nil => exact ⟨h, [], (List.append_nil _).symm⟩
  | cons op ops ih =>
    obtain ⟨h1, m1, h2⟩ := runOp_listed (hk op List.mem_cons_self) h
    obtain ⟨h3, m2, h4⟩ := ih (fun op' h' => hk op' (List.mem_cons_of_mem _ h')) h1
    exact ⟨h3, m1 ++ m2, by rw [show run (op :: ops) st = run ops (runOp op st).2 from rfl, h4, h2, List.append_assoc]⟩

/-- **C38, partial.**  Subscribers may register events, bind anything (also to the running
event), and unbind whole events, the running one included: a finished dispatch has called each
subscriber bound at its start exactly once, in order. -/
theorem c38_scripted_partial (f : Call → List Op) (hf : ∀ c, ∀ op ∈ f c, op.Keeps)
    {fuel : Nat} {t : Tid} {o : Obj} {e : Name} {x : List Value} {st : St} (ha : Apart st) (hd : Delivers t e st)
    (hn : (subsOf st o e).Nodup)
    {cs : List Call} {st' : St} (h : dispatch (scripted f) fuel t o e x st = some (cs, .ok (), st')) :
    (∀ s ∈ subsOf st o e, cs.count (.bound s x) = 1) ∧ ((subsOf st o e).map (.bound · x)) <+: cs := by
  cases hr : (st.inst o).subs.get? e with
  | none => simp [subsOf, hr]
  | some r =>
    have hs : subsOf st o e = st.lists r := by simp only [subsOf, hr]
    exact c38_once_partial (r := r) (I := Listed r) (fun c st h => run_listed (hf c) h) (fun _ h => h.nodup) hd hr
      ⟨⟨ha.nodup, ha.lt, ha.inj⟩, ha.lt _ _ _ hr, by rw [hs] at hn; exact hn⟩ h

/-! ### Subscribers that unbind -/

/-- What the loop does if the list only shrinks: it comes to an end, and calls some of the subscribers that were
in the list from the position on, in order. -/
theorem callBound_shrink {beh : Beh} {r : Ref} {x : List Value} {I : St → Prop}
    (hI : ∀ c st, I st → I (beh c st).2 ∧ (beh c st).2.lists r <+ st.lists r)
    {fuel i : Nat} {st : St} (hi : I st) (hf : (st.lists r).length < fuel + i) (h0 : 0 < fuel) :
    ∃ cs res st', callBound beh r x fuel i st = some (cs, res, st') ∧
      cs <+ ((st.lists r).drop i).map (.bound · x) := by
  induction fuel generalizing i st with
  | zero => cases h0
  | succ fuel ih =>
    unfold callBound
    cases hg : (st.lists r)[i]? with
    | none => exact ⟨[], .ok (), st, rfl, List.nil_sublist _⟩
    | some s =>
      obtain ⟨h1, h2⟩ := hI (.bound s x) st hi
      obtain ⟨hlt, hs⟩ := List.getElem?_eq_some_iff.mp hg
      rw [List.drop_eq_getElem_cons hlt, hs, List.map_cons]
      simp only
      rcases hb : beh (.bound s x) st with ⟨err | ⟨⟩, st1⟩
      · exact ⟨_, _, _, rfl, (List.nil_sublist _).cons_cons _⟩
      · rw [hb] at h1 h2
        have hle := h2.length_le
        obtain ⟨cs, res, st', h3, h4⟩ := ih (i := i + 1) h1 (by simp only at hle ⊢; omega) (by omega)
        refine ⟨_, _, _, by simp only [h3, Option.map_some]; rfl, List.Sublist.cons_cons _ ?_⟩
        exact h4.trans ((h2.drop (i + 1)).map _)

/-- **C38, partial.**  If the subscribers may unbind anything but bind nothing to the event, a dispatch comes to
an end and has called some of the subscribers bound at its start, in the order of binding, each at most once.
`I` is any invariant of what the subscribers do. -/
theorem c38_shrink_partial {beh : Beh} {r : Ref} {I : St → Prop}
    (hI : ∀ c st, I st → I (beh c st).2 ∧ (beh c st).2.lists r <+ st.lists r)
    {fuel : Nat} {t : Tid} {o : Obj} {e : Name} {x : List Value} {st : St} (hd : Delivers t e st)
    (hr : (st.inst o).subs.get? e = some r) (hi : I (inject t [] st)) (hf : (subsOf st o e).length < fuel) :
    ∃ cs res st', dispatch beh fuel t o e x st = some (cs, res, st') ∧
      cs <+ (subsOf st o e).map (.bound · x) := by
  rw [dispatch_plain hd]
  have hr' : ((inject t [] st).inst o).subs.get? e = some r := hr
  have hs : (inject t [] st).lists r = subsOf st o e := by simp only [subsOf, hr]; rfl
  simp only [callSubs, hr']
  obtain ⟨cs, res, st', h1, h2⟩ := callBound_shrink (beh := beh) (x := x) hI (fuel := fuel) (i := 0) hi
    (by rw [hs]; omega) (by omega)
  exact ⟨cs, res, st', h1, by rwa [hs, List.drop_zero] at h2⟩

/-- What the loop does as long as `pre` stays the beginning of the list. -/
theorem callBound_prefix {beh : Beh} {r : Ref} {x : List Value} {I : St → Prop} {pre : List Sub}
    (hI : ∀ c st, I st → I (beh c st).2) (hp : ∀ st, I st → pre <+: st.lists r)
    {fuel i : Nat} {st : St} {cs : List Call} {st' : St} (hi : I st)
    (h : callBound beh r x fuel i st = some (cs, .ok (), st')) :
    ((pre.drop i).map (.bound · x)) <+: cs := by
  induction fuel generalizing i st cs with
  | zero => cases h
  | succ fuel ih =>
    obtain ⟨more, hm⟩ := hp st hi
    unfold callBound at h
    cases hg : (st.lists r)[i]? with
    | none =>
      rw [List.drop_of_length_le]
      · exact List.nil_prefix
      · rw [List.getElem?_eq_none_iff, ← hm, List.length_append] at hg
        omega
    | some s =>
      simp only [hg] at h
      have h1 := hI (.bound s x) st hi
      rcases hb : beh (.bound s x) st with ⟨err | ⟨⟩, st1⟩
      · rw [hb] at h
        cases h
      · rw [hb] at h h1
        cases hc : callBound beh r x fuel (i + 1) st1 with
        | none => simp only [hc] at h; cases h
        | some y =>
          obtain ⟨cs1, res1, st2⟩ := y
          simp only [hc, Option.map_some, Option.some.injEq, Prod.mk.injEq] at h
          obtain ⟨rfl, rfl, rfl⟩ := h
          have := ih h1 hc
          by_cases hl : i < pre.length
          · rw [List.drop_eq_getElem_cons hl, List.map_cons]
            have : pre[i] = s := by
              rw [← hm, List.getElem?_append_left hl, List.getElem?_eq_getElem hl] at hg
              exact Option.some.inj hg
            rw [this]
            exact List.prefix_cons_inj _ |>.mpr (ih h1 hc)
          · rw [List.drop_of_length_le (by omega)]
            exact List.nil_prefix

/-- **C38, partial.**  Whatever the subscribers do, those bound first are called first, in order, as long as none
of them is taken out while the dispatch goes on: `pre` may be any beginning of the list of subscribers, and
behind it any may be bound and unbound. -/
theorem c38_prefix_partial {beh : Beh} {r : Ref} {I : St → Prop} {pre : List Sub}
    (hI : ∀ c st, I st → I (beh c st).2) (hp : ∀ st, I st → pre <+: st.lists r)
    {fuel : Nat} {t : Tid} {o : Obj} {e : Name} {x : List Value} {st : St} (hd : Delivers t e st)
    (hr : (st.inst o).subs.get? e = some r) (hi : I (inject t [] st))
    {cs : List Call} {st' : St} (h : dispatch beh fuel t o e x st = some (cs, .ok (), st')) :
    (pre.map (.bound · x)) <+: cs := by
  rw [dispatch_plain hd] at h
  have hr' : ((inject t [] st).inst o).subs.get? e = some r := hr
  simp only [callSubs, hr'] at h
  simpa using callBound_prefix hI hp hi h

/-- The operation binds nothing. -/
def Op.Frees : Op → Prop
  | .bind _ _ => False
  | _ => True

theorem dropSub_sub {r' : Ref} {s : Sub} {st : St} (r : Ref) : (dropSub r' s st).lists r <+ st.lists r := by
  unfold dropSub
  simp only [put]
  split
  · rename_i h
    subst h
    exact List.erase_sublist
  · exact List.Sublist.refl _

theorem dropAll_sub {s : Sub} (rs : List Ref) {st : St} (r : Ref) : (dropAll s rs st).lists r <+ st.lists r := by
  induction rs generalizing st with
  | nil => exact List.Sublist.refl _
  | cons a rs ih => exact ih.trans (dropSub_sub r)

theorem run_sub {ops : List Op} (hk : ∀ op ∈ ops, op.Frees) (r : Ref) {st : St} : (run ops st).lists r <+ st.lists r := by
  induction ops generalizing st with
  | nil => exact List.Sublist.refl _
  | cons op ops ih =>
    refine (ih (fun op' h' => hk op' (List.mem_cons_of_mem _ h'))).trans ?_
    match op, hk op List.mem_cons_self with
    | .register o e, _ =>
      show (register o e st).lists r <+ _
      unfold register
      split <;> exact List.Sublist.refl _
    | .unbind o none none, _ => exact List.Sublist.refl _
    | .unbind o (some e) none, _ => exact List.Sublist.refl _
    | .unbind o none (some s), _ => exact dropAll_sub _ r
    | .unbind o (some e) (some s), _ =>
      show (unbind o (some e) (some s) st).lists r <+ _
      unfold unbind
      simp only
      split
      · exact dropSub_sub r
      · exact List.Sublist.refl _

/-- **C38, partial.**  Subscribers may unbind themselves, others and whole events, and register events, in any
order: the dispatch returns, and has called some of the subscribers bound at its start, each at most once and in
the order of binding. -/
theorem c38_unbinding_partial (f : Call → List Op) (hf : ∀ c, ∀ op ∈ f c, op.Frees)
    {fuel : Nat} {t : Tid} {o : Obj} {e : Name} {x : List Value} {st : St} (hd : Delivers t e st)
    (hl : (subsOf st o e).length < fuel) :
    ∃ cs res st', dispatch (scripted f) fuel t o e x st = some (cs, res, st') ∧
      cs <+ (subsOf st o e).map (.bound · x) ∧
      ((subsOf st o e).Nodup → ∀ s, cs.count (.bound s x) ≤ 1) := by
  have key : ∃ cs res st', dispatch (scripted f) fuel t o e x st = some (cs, res, st') ∧
      cs <+ (subsOf st o e).map (.bound · x) := by
    cases hr : (st.inst o).subs.get? e with
    | none => exact ⟨[], .ok (), _, c38_nobody hd hr, List.nil_sublist _⟩
    | some r =>
      exact c38_shrink_partial (beh := scripted f) (r := r) (I := fun _ => True)
        (fun c st _ => ⟨trivial, run_sub (hf c) r⟩) hd hr trivial hl
  obtain ⟨cs, res, st', h1, h2⟩ := key
  refine ⟨cs, res, st', h1, h2, fun hn s => ?_⟩
  have hinj : ∀ a b, Call.bound a x = Call.bound b x → a = b := fun a b h => by cases h; rfl
  exact Nat.le_trans (h2.count_le _) (List.nodup_iff_count.mp
    (List.pairwise_map.mpr (hn.imp fun hne he => hne (hinj _ _ he))) _)

/-! ### Witnesses -/

/-- Two subscribers of event `a`. -/
def twoSubs : St := run [.bind 0 [("a", 1)], .bind 0 [("a", 2)]] sampleSt

theorem twoSubs_delivers : Delivers 0 "a" twoSubs := ⟨by rfl, by rfl⟩

/-- Subscriber 1 unbinds itself when called. -/
def selfUnbind : Beh := scripted fun
  | .bound 1 _ => [.unbind 0 (some "a") (some 1)]
  | _ => []

/-- Subscriber 1 binds 3 and takes all subscriptions away. -/
def bindMore : Call → List Op
  | .bound 1 _ => [.bind 0 [("a", 3)], .unbind 0 none none]
  | _ => []

/-- The hypotheses of `c38_scripted_partial` hold and the dispatch finishes: 1, 2 and 3 are
called. -/
example : (dispatch (scripted bindMore) 5 0 0 "a" [] twoSubs).map (·.1) =
    some [.bound 1 [], .bound 2 [], .bound 3 []] := by decide +kernel

example : ∀ c, ∀ op ∈ bindMore c, op.Keeps := by
  intro c op h
  unfold bindMore at h
  split at h
  · simp only [List.mem_cons, List.not_mem_nil, or_false] at h
    rcases h with rfl | rfl <;> trivial
  · cases h

/-- `c38_unbinding_partial` about the subscriber that unbinds itself. -/
example : ∃ cs res st', dispatch selfUnbind 5 0 0 "a" [] twoSubs = some (cs, res, st') ∧
    cs <+ [.bound 1 [], .bound 2 []] := by
  obtain ⟨cs, res, st', h1, h2, -⟩ := c38_unbinding_partial (fuel := 5) (o := 0) (x := []) (fun
      | .bound 1 _ => [.unbind 0 (some "a") (some 1)]
      | _ => []) (by
    intro c op h
    split at h
    · rcases List.mem_singleton.mp h with rfl
      trivial
    · cases h) twoSubs_delivers (by decide +kernel)
  exact ⟨cs, res, st', h1, h2⟩

/-- `c38_prefix_partial` about a subscriber that unbinds the next one: it has been called itself. -/
example {cs : List Call} {st' : St} (h : dispatch (scripted fun
      | .bound 1 _ => [.unbind 0 (some "a") (some 2)]
      | _ => []) 5 0 0 "a" [] twoSubs = some (cs, .ok (), st')) : [.bound 1 []] <+: cs := by
  refine c38_prefix_partial (r := 0) (pre := [1]) (I := fun st => st.lists 0 = [1, 2] ∨ st.lists 0 = [1])
    (fun c st hi => ?_) (fun st hi => ?_) twoSubs_delivers (by decide +kernel) (.inl (by decide +kernel)) h
  · unfold scripted
    dsimp only
    split
    · show (unbind 0 (some "a") (some 2) st).lists 0 = _ ∨ (unbind 0 (some "a") (some 2) st).lists 0 = _
      unfold unbind
      dsimp only
      split
      · simp only [dropSub, put]
        split
        · right
          rename_i hr
          rw [← hr]
          rcases hi with hi | hi <;> rw [hi] <;> rfl
        · exact hi
      · exact hi
    · exact hi
  · rcases hi with hi | hi <;> rw [hi]
    · exact ⟨[2], rfl⟩
    · exact ⟨[], rfl⟩

/-- **C38 is false**: 1 and 2 are bound to `a`, 1 unbinds itself while being notified, and the
dispatch returns without having called 2. -/
theorem c38_refuted : ¬ ∀ (beh : Beh) (fuel : Nat) (t : Tid) (o : Obj) (e : Name) (x : List Value) (st : St)
    (cs : List Call) (st' : St), Apart st → Delivers t e st →
    dispatch beh fuel t o e x st = some (cs, .ok (), st') → ∀ s ∈ subsOf st o e, cs.count (.bound s x) = 1 := by
  intro h
  have hrun : (dispatch selfUnbind 5 0 0 "a" [] twoSubs).map (fun y => (y.1, y.2.1)) =
      some ([.bound 1 []], .ok ()) := by rfl
  have hap : Apart twoSubs :=
    (bind_spec _ (bind_spec _ sampleSt_apart (by decide)).1 (by decide)).1
  cases hd : dispatch selfUnbind 5 0 0 "a" [] twoSubs with
  | none => rw [hd] at hrun; cases hrun
  | some y =>
    obtain ⟨cs, res, st'⟩ := y
    rw [hd] at hrun
    simp only [Option.map_some, Option.some.injEq, Prod.mk.injEq] at hrun
    obtain ⟨rfl, rfl⟩ := hrun
    have := h selfUnbind 5 0 0 "a" [] twoSubs _ st' hap twoSubs_delivers hd 2 (by decide +kernel)
    exact absurd this (by decide)

/-- And a subscriber unbinding one that was called before makes the next be passed over. -/
theorem c38_refuted_other : (dispatch (scripted fun
      | .bound 2 _ => [.unbind 0 (some "a") (some 1)]
      | _ => []) 5 0 0 "a" [] (run [.bind 0 [("a", 1)], .bind 0 [("a", 2)], .bind 0 [("a", 3)]] sampleSt)).map (·.1) =
    some [.bound 1 [], .bound 2 []] := by decide +kernel

end Verif.Events
