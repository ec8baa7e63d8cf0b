import Verif.Spec.Events
import Verif.Lemmas.Odict

/-! # C37: subscriptions behave like an ordered set -/

namespace Verif.Events

theorem put_same {α : Type} (f : Nat → α) (i : Nat) (a : α) : put f i a i = a := if_pos rfl
theorem put_other {α : Type} {f : Nat → α} {i j : Nat} {a : α} (h : j ≠ i) : put f i a j = f j := if_neg h

/-- What one operation does to the subscribers of an event. -/
def after (D : Bool) (l : List Sub) : Option Sub → List Sub
  | some s => if D then (if s ∈ l then l else l ++ [s]) else l
  | none => l

theorem subsList_spec {o : Obj} {e : Name} {st : St} (h : Apart st) :
    ∃ r st', subsList o e st = (r, st') ∧
    Apart st' ∧ (st'.inst o).subs.get? e = some r ∧ (∀ o' e', subsOf st' o' e' = subsOf st o' e') ∧
      (∀ p, (st'.inst p).events = (st.inst p).events ∧ (st'.inst p).cls = (st.inst p).cls) ∧
      st'.names = st.names ∧ st'.clsEvents = st.clsEvents := by
  cases hg : (st.inst o).subs.get? e with
  | some r =>
    exact ⟨r, st, by simp only [subsList, hg], h, hg, fun _ _ => rfl, fun _ => ⟨rfl, rfl⟩, rfl, rfl⟩
  | none =>
    have hsame : ∀ p, (put st.inst o { st.inst o with subs := (st.inst o).subs.set e st.nlist } p).subs =
        if p = o then (st.inst o).subs.set e st.nlist else (st.inst p).subs := fun p => by
      simp only [put]; split <;> rfl
    have hget : ∀ o' e' r, ((put st.inst o { st.inst o with subs := (st.inst o).subs.set e st.nlist } o').subs.get? e') =
        some r → (o' = o ∧ e' = e ∧ r = st.nlist) ∨ (st.inst o').subs.get? e' = some r := by
      intro o' e' r hr
      rw [hsame] at hr
      by_cases ho : o' = o
      · subst ho
        rw [if_pos rfl, Od.get?_set] at hr
        by_cases he : e' = e
        · simp only [he, if_true, Option.some.injEq] at hr
          exact .inl ⟨rfl, he, hr.symm⟩
        · simp only [he, if_false] at hr
          exact .inr hr
      · rw [if_neg ho] at hr
        exact .inr hr
    refine ⟨st.nlist, { st with
      inst := put st.inst o { st.inst o with subs := (st.inst o).subs.set e st.nlist }
      lists := put st.lists st.nlist []
      nlist := st.nlist + 1 }, by simp only [subsList, hg],
      ⟨fun p => ?_, fun o' e' r hr => ?_, fun o1 e1 o2 e2 r h1 h2 => ?_⟩, ?_, fun o' e' => ?_, fun p => ?_, rfl, rfl⟩
    · show (put st.inst o _ p).subs.keys.Nodup
      rw [hsame]
      split
      · exact Od.nodup_keys_set (h.nodup o) _ _
      · exact h.nodup p
    · rcases hget o' e' r hr with ⟨-, -, rfl⟩ | hr
      · exact Nat.lt_succ_self _
      · exact Nat.lt_succ_of_lt (h.lt _ _ _ hr)
    · rcases hget o1 e1 r h1 with ⟨a1, a2, a3⟩ | h1' <;> rcases hget o2 e2 r h2 with ⟨b1, b2, b3⟩ | h2'
      · exact ⟨a1.trans b1.symm, a2.trans b2.symm⟩
      · exact absurd (a3 ▸ h.lt _ _ _ h2') (Nat.lt_irrefl _)
      · exact absurd (b3 ▸ h.lt _ _ _ h1') (Nat.lt_irrefl _)
      · exact h.inj _ _ _ _ _ h1' h2'
    · show (put st.inst o _ o).subs.get? e = _
      rw [hsame, if_pos rfl, Od.get?_set, if_pos rfl]
    · show (match (put st.inst o _ o').subs.get? e' with | some r => put st.lists st.nlist [] r | none => []) = _
      rw [hsame]
      simp only [subsOf]
      have old : ∀ e', (match (st.inst o').subs.get? e' with | some r => put st.lists st.nlist [] r | none => []) =
          match (st.inst o').subs.get? e' with | some r => st.lists r | none => [] := fun e' => by
        cases hg' : (st.inst o').subs.get? e' with
        | none => rfl
        | some r => exact put_other (Nat.ne_of_lt (h.lt _ _ _ hg'))
      by_cases ho : o' = o
      · subst ho
        rw [if_pos rfl, Od.get?_set]
        by_cases he : e' = e
        · subst he
          simp only [if_true, hg, put_same]
        · rw [if_neg he]
          exact old e'
      · rw [if_neg ho]
        exact old e'
    · show (put st.inst o _ p).events = _ ∧ (put st.inst o _ p).cls = _
      simp only [put]
      split
      · rename_i hp; subst hp; exact ⟨rfl, rfl⟩
      · exact ⟨rfl, rfl⟩

/-- Changing the list of one subscription. -/
theorem subsOf_lists {st : St} (h : Apart st) {o : Obj} {e : Name} {r : Ref} (hr : (st.inst o).subs.get? e = some r)
    (l : List Sub) (o' : Obj) (e' : Name) :
    subsOf { st with lists := put st.lists r l } o' e' = if o' = o ∧ e' = e then l else subsOf st o' e' := by
  simp only [subsOf]
  by_cases hh : o' = o ∧ e' = e
  · obtain ⟨rfl, rfl⟩ := hh
    simp [hr, put_same]
  · rw [if_neg hh]
    cases hg : (st.inst o').subs.get? e' with
    | none => rfl
    | some r' =>
      refine put_other fun e1 => hh ?_
      subst e1
      exact h.inj _ _ _ _ _ hg hr

theorem apart_lists {st : St} (h : Apart st) (f : Ref → List Sub) : Apart { st with lists := f } :=
  ⟨h.nodup, h.lt, h.inj⟩

theorem addSub_spec {st : St} (h : Apart st) {o : Obj} {e : Name} {r : Ref} (hr : (st.inst o).subs.get? e = some r)
    (s : Sub) :
    Apart (addSub r s st) ∧ (addSub r s st).inst = st.inst ∧ (addSub r s st).names = st.names ∧
      (addSub r s st).clsEvents = st.clsEvents ∧
      ∀ o' e', subsOf (addSub r s st) o' e' = if o' = o ∧ e' = e then
        (if s ∈ subsOf st o e then subsOf st o e else subsOf st o e ++ [s]) else subsOf st o' e' := by
  have hl : subsOf st o e = st.lists r := by simp only [subsOf, hr]
  by_cases hs : s ∈ st.lists r
  · have e1 : addSub r s st = st := if_pos hs
    rw [e1]
    refine ⟨h, rfl, rfl, rfl, fun o' e' => ?_⟩
    rw [hl, if_pos hs]
    split
    · rename_i hh; obtain ⟨rfl, rfl⟩ := hh; exact hl
    · rfl
  · have e1 : addSub r s st = { st with lists := put st.lists r (st.lists r ++ [s]) } := if_neg hs
    rw [e1]
    refine ⟨apart_lists h _, rfl, rfl, rfl, fun o' e' => ?_⟩
    rw [subsOf_lists h hr, hl, if_neg hs]

theorem declared_congr {st st' : St} {o : Obj} {e : Name} (h1 : (st'.inst o).events = (st.inst o).events)
    (h2 : (st'.inst o).cls = (st.inst o).cls) (h3 : st'.names = st.names) (h4 : st'.clsEvents = st.clsEvents) :
    declared o e st' = declared o e st := by
  simp only [declared, h1, h2, h3, h4]

/-- The parts of the state that subscriptions leave alone. -/
def SameDecl (st st' : St) : Prop :=
  (∀ p, (st'.inst p).events = (st.inst p).events ∧ (st'.inst p).cls = (st.inst p).cls) ∧
    st'.names = st.names ∧ st'.clsEvents = st.clsEvents

/-- The accepted keyword argument for an event. -/
def Accepted (o : Obj) (st : St) (kw : List (Name × Sub)) (e : Name) (s : Sub) : Prop :=
  ∃ pre post, kw = pre ++ (e, s) :: post ∧ (∀ x ∈ pre, declared o x.1 st = true) ∧ declared o e st = true

theorem SameDecl.rfl (st : St) : SameDecl st st := ⟨fun _ => ⟨Eq.refl _, Eq.refl _⟩, Eq.refl _, Eq.refl _⟩

theorem bind_spec {o : Obj} (kw : List (Name × Sub)) {st : St} (h : Apart st) (hk : (kw.map (·.1)).Nodup) :
    Apart (bind o kw st).2 ∧ SameDecl st (bind o kw st).2 ∧
      (∀ o' e', (o' ≠ o ∨ ∀ s, ¬ Accepted o st kw e' s) → subsOf (bind o kw st).2 o' e' = subsOf st o' e') ∧
      ∀ e s, Accepted o st kw e s → subsOf (bind o kw st).2 o e =
        if s ∈ subsOf st o e then subsOf st o e else subsOf st o e ++ [s] := by
  induction kw generalizing st with
  | nil =>
    refine ⟨h, SameDecl.rfl st, fun _ _ _ => rfl, ?_⟩
    rintro e s ⟨pre, post, hh, -⟩
    cases pre <;> cases hh
  | cons a kw ih =>
    obtain ⟨e0, s0⟩ := a
    simp only [List.map_cons, List.nodup_cons] at hk
    by_cases hd : declared o e0 st = true
    · obtain ⟨r, st1, hsl, a1, a2, a3, a4, a5, a6⟩ := subsList_spec (o := o) (e := e0) h
      obtain ⟨b1, b2, b3, b4, b5⟩ := addSub_spec a1 a2 s0
      have hdecl : SameDecl st (addSub r s0 st1) :=
        ⟨fun p => by rw [b2]; exact a4 p, b3.trans a5, b4.trans a6⟩
      have hdd : ∀ e, declared o e (addSub r s0 st1) = declared o e st := fun e =>
        declared_congr (hdecl.1 o).1 (hdecl.1 o).2 hdecl.2.1 hdecl.2.2
      obtain ⟨c1, c2, c3, c4⟩ := ih b1 hk.2
      have hacc : ∀ e s, Accepted o (addSub r s0 st1) kw e s ↔ Accepted o st kw e s :=
        fun e s => by simp only [Accepted, hdd]
      have hcons : ∀ e s, Accepted o st ((e0, s0) :: kw) e s ↔ (e = e0 ∧ s = s0) ∨ Accepted o st kw e s := by
        intro e s
        constructor
        · rintro ⟨pre, post, hh, h1, h2⟩
          cases pre with
          | nil =>
            simp only [List.nil_append, List.cons.injEq, Prod.mk.injEq] at hh
            exact .inl ⟨hh.1.1.symm, hh.1.2.symm⟩
          | cons x pre =>
            simp only [List.cons_append, List.cons.injEq] at hh
            exact .inr ⟨pre, post, hh.2, fun y hy => h1 y (List.mem_cons_of_mem _ hy), h2⟩
        · rintro (⟨rfl, rfl⟩ | ⟨pre, post, rfl, h1, h2⟩)
          · exact ⟨[], kw, rfl, fun _ h => (nomatch h), hd⟩
          · refine ⟨(e0, s0) :: pre, post, rfl, fun y hy => ?_, h2⟩
            rcases List.mem_cons.mp hy with rfl | hy
            · exact hd
            · exact h1 y hy
      have hne : ∀ e s, Accepted o st kw e s → e ≠ e0 := by
        rintro e s ⟨pre, post, rfl, -⟩ rfl
        exact hk.1 (by simp)
      simp only [bind, hd, if_true, hsl]
      refine ⟨c1, ⟨fun p => ⟨(c2.1 p).1.trans (hdecl.1 p).1, (c2.1 p).2.trans (hdecl.1 p).2⟩,
        c2.2.1.trans hdecl.2.1, c2.2.2.trans hdecl.2.2⟩, fun o' e' hn => ?_, fun e s hs => ?_⟩
      · rw [c3 o' e' (hn.imp id fun hn s hs => hn s ((hcons _ _).mpr (.inr ((hacc _ _).mp hs)))), b5, if_neg, a3]
        rintro ⟨rfl, rfl⟩
        rcases hn with hn | hn
        · exact hn rfl
        · exact hn s0 ((hcons _ _).mpr (.inl ⟨rfl, rfl⟩))
      · rcases (hcons e s).mp hs with ⟨rfl, rfl⟩ | hs
        · rw [c3 o e (.inr fun s' hs' => hne e s' ((hacc _ _).mp hs') rfl), b5, if_pos ⟨rfl, rfl⟩, a3]
        · rw [c4 e s ((hacc _ _).mpr hs), b5, if_neg (show ¬ (o = o ∧ e = e0) from fun hh => hne e s hs hh.2), a3]
    · simp only [bind, hd, Bool.false_eq_true, if_false]
      refine ⟨h, SameDecl.rfl st, fun _ _ _ => trivial, ?_⟩
      rintro e s ⟨pre, post, hh, h1, h2⟩
      cases pre with
      | nil =>
        simp only [List.nil_append, List.cons.injEq, Prod.mk.injEq] at hh
        exact absurd (hh.1.1 ▸ h2) hd
      | cons x pre =>
        simp only [List.cons_append, List.cons.injEq] at hh
        exact absurd (by have := h1 x List.mem_cons_self; rw [← hh.1] at this; exact this) hd

/-! ### Unbinding -/

theorem dropAll_spec {s : Sub} (rs : List Ref) {st : St} (hnd : rs.Nodup) :
    (dropAll s rs st).inst = st.inst ∧ (dropAll s rs st).names = st.names ∧
      (dropAll s rs st).clsEvents = st.clsEvents ∧ (dropAll s rs st).nlist = st.nlist ∧
      ∀ r, (dropAll s rs st).lists r = if r ∈ rs then (st.lists r).erase s else st.lists r := by
  induction rs generalizing st with
  | nil => exact ⟨rfl, rfl, rfl, rfl, fun r => by simp [dropAll]⟩
  | cons a rs ih =>
    have hnd' := List.nodup_cons.mp hnd
    obtain ⟨h1, h2, h3, h4, h5⟩ := ih (st := dropSub a s st) hnd'.2
    refine ⟨h1, h2, h3, h4, fun r => ?_⟩
    rw [dropAll, h5]
    simp only [dropSub]
    by_cases e : r = a
    · subst e
      simp [hnd'.1, put_same]
    · simp [e, put_other]

theorem refs_nodup {st : St} (h : Apart st) (o : Obj) : ((st.inst o).subs.map (·.2)).Nodup := by
  have key : ∀ l : Od Name Ref, l.keys.Nodup → (∀ e e' r, l.get? e = some r → l.get? e' = some r → e = e') →
      (l.map (·.2)).Nodup := by
    intro l
    induction l with
    | nil => intro _ _; exact List.nodup_nil
    | cons a l ih =>
      obtain ⟨k, v⟩ := a
      intro hnd hinj
      have hnd' : k ∉ Od.keys l ∧ (Od.keys l).Nodup := List.nodup_cons.mp hnd
      have hcons : ∀ e, Od.get? ((k, v) :: l) e = if e = k then some v else Od.get? l e := fun e => by
        simp only [Od.get?]
        by_cases h' : e = k
        · simp [h']
        · have h'' : ¬ k = e := fun x => h' x.symm
          simp [h', h'']
      refine List.nodup_cons.mpr ⟨fun hm => ?_, ih hnd'.2 fun e e' r h1 h2 => ?_⟩
      · obtain ⟨⟨k', v'⟩, hm', hv⟩ := List.mem_map.mp hm
        have hv : v' = v := hv
        subst hv
        have hm := hm'
        have hk' : k' ∈ Od.keys l := List.mem_map.mpr ⟨(k', v'), hm, rfl⟩
        have hne : k' ≠ k := fun e => hnd'.1 (e ▸ hk')
        have hget : Od.get? l k' = some v' := Od.get?_of_mem hnd'.2 hm
        have := hinj k k' v' (by rw [hcons]; simp) (by rw [hcons]; simp [hne, hget])
        exact hne this.symm
      · have n1 : e ≠ k := fun h' => hnd'.1 (h' ▸ Od.mem_keys_of_get? h1)
        have n2 : e' ≠ k := fun h' => hnd'.1 (h' ▸ Od.mem_keys_of_get? h2)
        exact hinj e e' r (by rw [hcons]; simp [n1, h1]) (by rw [hcons]; simp [n2, h2])
  exact key _ (h.nodup o) fun e e' r h1 h2 => (h.inj o e o e' r h1 h2).2


theorem subsOf_congr {st st' : St} (h1 : st'.inst = st.inst) (o : Obj) (e : Name)
    (h2 : ∀ r, (st.inst o).subs.get? e = some r → st'.lists r = st.lists r) : subsOf st' o e = subsOf st o e := by
  simp only [subsOf, h1]
  cases hg : (st.inst o).subs.get? e with
  | none => rfl
  | some r => exact h2 r hg

theorem unbind_spec {o : Obj} (e : Option Name) (s : Option Sub) {st : St} (h : Apart st) :
    Apart (unbind o e s st) ∧ SameDecl st (unbind o e s st) ∧
      ∀ o' e', subsOf (unbind o e s st) o' e' =
        if o' = o ∧ (e = none ∨ e = some e') then
          (match s with | none => [] | some s => (subsOf st o' e').erase s) else subsOf st o' e' := by
  have hsubs : ∀ (d : Od Name Ref) p, (put st.inst o { st.inst o with subs := d } p).subs =
      if p = o then d else (st.inst p).subs := fun d p => by simp only [put]; split <;> rfl
  have hdecl : ∀ (d : Od Name Ref), SameDecl st { st with inst := put st.inst o { st.inst o with subs := d } } := fun d =>
    ⟨fun p => by
      show (put st.inst o _ p).events = _ ∧ (put st.inst o _ p).cls = _
      simp only [put]
      split
      · rename_i hp; subst hp; exact ⟨rfl, rfl⟩
      · exact ⟨rfl, rfl⟩, rfl, rfl⟩
  have hap : ∀ (d : Od Name Ref), d.keys.Nodup → (∀ e r, d.get? e = some r → (st.inst o).subs.get? e = some r) →
      Apart { st with inst := put st.inst o { st.inst o with subs := d } } := fun d hd hm => by
    have hget : ∀ p e r, (put st.inst o { st.inst o with subs := d } p).subs.get? e = some r →
        (st.inst p).subs.get? e = some r := fun p e r hr => by
      rw [hsubs] at hr
      split at hr
      · rename_i hp; subst hp; exact hm e r hr
      · exact hr
    refine ⟨fun p => ?_, fun p e r hr => h.lt p e r (hget p e r hr),
      fun p e p' e' r h1 h2 => h.inj p e p' e' r (hget _ _ _ h1) (hget _ _ _ h2)⟩
    show (put st.inst o _ p).subs.keys.Nodup
    rw [hsubs]
    split
    · exact hd
    · exact h.nodup p
  have hsub : ∀ (d : Od Name Ref) p e, subsOf { st with inst := put st.inst o { st.inst o with subs := d } } p e =
      if p = o then (match d.get? e with | some r => st.lists r | none => []) else subsOf st p e := fun d p e => by
    show (match (put st.inst o _ p).subs.get? e with | some r => st.lists r | none => []) = _
    rw [hsubs]
    by_cases hp : p = o
    · rw [if_pos hp, if_pos hp]
    · rw [if_neg hp, if_neg hp]
      rfl
  match e, s with
  | none, none =>
    refine ⟨hap [] (by simp [Od.keys]) (fun _ _ hr => nomatch hr), hdecl _, fun o' e' => ?_⟩
    simp only [unbind]
    rw [hsub]
    simp [Od.get?]
  | some e, none =>
    refine ⟨hap _ (Od.nodup_keys_del (h.nodup o) _) (fun e' r hr => ?_), hdecl _, fun o' e' => ?_⟩
    · rw [Od.get?_del (h.nodup o)] at hr
      split at hr
      · cases hr
      · exact hr
    · simp only [unbind]
      rw [hsub, Od.get?_del (h.nodup o)]
      by_cases ho : o' = o
      · subst ho
        by_cases he : e = e'
        · subst he
          simp
        · have : ¬ e' = e := fun h => he h.symm
          rw [if_pos rfl, if_neg this, if_neg (by simp [he])]
          rfl
      · simp [ho]
  | none, some s =>
    obtain ⟨d1, d2, d3, d4, d5⟩ := dropAll_spec (s := s) ((st.inst o).subs.map (·.2)) (st := st) (refs_nodup h o)
    have hmem : ∀ r, r ∈ (st.inst o).subs.map (·.2) ↔ ∃ e, (st.inst o).subs.get? e = some r := fun r => by
      constructor
      · intro hm
        obtain ⟨⟨k, v⟩, hm', rfl⟩ := List.mem_map.mp hm
        exact ⟨k, Od.get?_of_mem (h.nodup o) hm'⟩
      · rintro ⟨e, he⟩
        exact List.mem_map.mpr ⟨(e, r), Od.get?_some_mem he, rfl⟩
    refine ⟨⟨fun p => by simp only [unbind, d1]; exact h.nodup p, fun p e r => by
        simp only [unbind, d1, d4]; exact h.lt p e r, fun p e p' e' r => by
        simp only [unbind, d1]; exact h.inj p e p' e' r⟩,
      ⟨fun p => ⟨congrArg (fun f => (f p).events) d1, congrArg (fun f => (f p).cls) d1⟩, d2, d3⟩, fun o' e' => ?_⟩
    simp only [unbind, subsOf, d1, true_or, and_true]
    cases hg : (st.inst o').subs.get? e' with
    | none => by_cases ho : o' = o <;> simp [ho]
    | some r =>
      simp only [d5]
      by_cases ho : o' = o
      · subst ho
        rw [if_pos ((hmem r).mpr ⟨e', hg⟩), if_pos rfl]
      · rw [if_neg ho, if_neg]
        intro hm
        obtain ⟨e1, he1⟩ := (hmem r).mp hm
        exact ho (h.inj _ _ _ _ _ hg he1).1
  | some e, some s =>
    simp only [unbind]
    cases hg : (st.inst o).subs.get? e with
    | none =>
      refine ⟨h, SameDecl.rfl st, fun o' e' => ?_⟩
      by_cases hh : o' = o ∧ (some e = none ∨ some e = some e')
      · rw [if_pos hh]
        obtain ⟨rfl, hh⟩ := hh
        have : e = e' := by simpa using hh
        subst this
        simp [subsOf, hg]
      · rw [if_neg hh]
    | some r =>
      refine ⟨apart_lists h _, SameDecl.rfl st, fun o' e' => ?_⟩
      simp only [dropSub]
      rw [subsOf_lists h hg]
      by_cases hh : o' = o ∧ e' = e
      · obtain ⟨rfl, rfl⟩ := hh
        simp [subsOf, hg]
      · rw [if_neg hh, if_neg]
        rintro ⟨h1, h2⟩
        exact hh ⟨h1, by simpa using Eq.symm (a := e) (b := e') (by simpa using h2)⟩

/-! ### Histories -/

theorem register_spec {o : Obj} {e : Name} {st : St} (h : Apart st) :
    Apart (register o e st) ∧ (∀ o' e', subsOf (register o e st) o' e' = subsOf st o' e') ∧
      ∀ o' e', declared o' e' (register o e st) = true ↔ declared o' e' st = true ∨ (o' = o ∧ e' = e) := by
  by_cases hm : e ∈ (st.inst o).events
  · have e1 : register o e st = st := if_pos hm
    rw [e1]
    refine ⟨h, fun _ _ => rfl, fun o' e' => ⟨.inl, ?_⟩⟩
    rintro (h | ⟨rfl, rfl⟩)
    · exact h
    · simp [declared, hm]
  · have e1 : register o e st =
        { st with inst := put st.inst o { st.inst o with events := (st.inst o).events ++ [e] } } := if_neg hm
    have hs : ∀ p, (put st.inst o { st.inst o with events := (st.inst o).events ++ [e] } p).subs = (st.inst p).subs :=
      fun p => by simp only [put]; split <;> simp_all
    have hc : ∀ p, (put st.inst o { st.inst o with events := (st.inst o).events ++ [e] } p).cls = (st.inst p).cls :=
      fun p => by simp only [put]; split <;> simp_all
    rw [e1]
    refine ⟨⟨fun p => by simp only [hs]; exact h.nodup p, fun p e r => by simp only [hs]; exact h.lt p e r,
      fun p e p' e' r => by simp only [hs]; exact h.inj p e p' e' r⟩, fun o' e' => by simp only [subsOf, hs],
      fun o' e' => ?_⟩
    simp only [declared, hc, Bool.or_eq_true, decide_eq_true_eq]
    simp only [put]
    by_cases ho : o' = o
    · subst ho
      simp only [if_true, List.mem_append, List.mem_singleton, true_and]
      constructor
      · rintro ((h | h) | h)
        · exact .inl (.inl h)
        · exact .inr h
        · exact .inl (.inr h)
      · rintro ((h | h) | h)
        · exact .inl (.inl h)
        · exact .inr h
        · exact .inl (.inr h)
    · simp [ho]

theorem SameDecl.declared {st st' : St} (h : SameDecl st st') (o : Obj) (e : Name) :
    declared o e st' = declared o e st :=
  declared_congr (h.1 o).1 (h.1 o).2 h.2.1 h.2.2

theorem lives_append {D : Obj → Name → Prop} {h : List Op} {op : Op} {o : Obj} {e : Name} {i : Nat} {s : Sub} :
    Lives D (h ++ [op]) o e i s ↔
      (Lives D h o e i s ∧ ¬ Unbinds op o e s) ∨ (i = h.length ∧ Binds D h op o e s) := by
  constructor
  · rintro ⟨⟨op', h1, h2⟩, h3⟩
    have hi : i < (h ++ [op]).length := by
      exact (List.getElem?_eq_some_iff.mp h1).1
    rw [List.length_append, List.length_singleton] at hi
    by_cases e1 : i = h.length
    · subst e1
      rw [List.getElem?_append_right (Nat.le_refl _), Nat.sub_self] at h1
      simp only [List.getElem?_cons_zero, Option.some.injEq] at h1
      subst h1
      rw [List.take_append_of_le_length (Nat.le_refl _), List.take_length] at h2
      exact .inr ⟨rfl, h2⟩
    · have hi' : i < h.length := by omega
      rw [List.getElem?_append_left hi'] at h1
      rw [List.take_append_of_le_length (Nat.le_of_lt hi')] at h2
      refine .inl ⟨⟨⟨op', h1, h2⟩, fun j op'' hj hop => ?_⟩, ?_⟩
      · refine h3 j op'' hj ?_
        rw [List.getElem?_append_left (List.getElem?_eq_some_iff.mp hop).1]
        exact hop
      · refine h3 h.length op hi' ?_
        rw [List.getElem?_append_right (Nat.le_refl _), Nat.sub_self]
        rfl
  · rintro (⟨⟨⟨op', h1, h2⟩, h3⟩, h4⟩ | ⟨rfl, h2⟩)
    · have hi' := (List.getElem?_eq_some_iff.mp h1).1
      refine ⟨⟨op', by rw [List.getElem?_append_left hi']; exact h1, by
        rw [List.take_append_of_le_length (Nat.le_of_lt hi')]; exact h2⟩, fun j op'' hj hop => ?_⟩
      by_cases e1 : j < h.length
      · rw [List.getElem?_append_left e1] at hop
        exact h3 j op'' hj hop
      · rw [List.getElem?_append_right (Nat.le_of_not_lt e1)] at hop
        have : j - h.length = 0 := by
          have := (List.getElem?_eq_some_iff.mp hop).1
          simp only [List.length_singleton] at this
          omega
        rw [this] at hop
        simp only [List.getElem?_cons_zero, Option.some.injEq] at hop
        subst hop
        exact h4
    · refine ⟨⟨op, ?_, ?_⟩, fun j op'' hj hop => ?_⟩
      · rw [List.getElem?_append_right (Nat.le_refl _), Nat.sub_self]
        rfl
      · rw [List.take_append_of_le_length (Nat.le_refl _), List.take_length]
        exact h2
      · have := (List.getElem?_eq_some_iff.mp hop).1
        rw [List.length_append, List.length_singleton] at this
        omega

theorem lives_lt {D : Obj → Name → Prop} {h : List Op} {o : Obj} {e : Name} {i : Nat} {s : Sub}
    (hl : Lives D h o e i s) : i < h.length := by
  obtain ⟨⟨op, h1, -⟩, -⟩ := hl
  exact (List.getElem?_eq_some_iff.mp h1).1

theorem born_of_lives {D : Obj → Name → Prop} {h : List Op} {o : Obj} {e : Name} {s : Sub} {i : Nat}
    (hl : Lives D h o e i s) : ∃ j, Born D h o e j s := by
  induction i using Nat.strongRecOn with
  | _ i ih =>
    by_cases hh : ∃ j, j < i ∧ Lives D h o e j s
    · obtain ⟨j, hj, hl'⟩ := hh
      exact ih j hj hl'
    · exact ⟨i, hl, fun j hj hl' => hh ⟨j, hj, hl'⟩⟩

/-- No binding in the last operation: the living are those it does not unbind. -/
theorem born_append {D : Obj → Name → Prop} {h : List Op} {op : Op} {o : Obj} {e : Name} {i : Nat} {s : Sub}
    (hb : ¬ Binds D h op o e s) : Born D (h ++ [op]) o e i s ↔ Born D h o e i s ∧ ¬ Unbinds op o e s := by
  have key : ∀ i, Lives D (h ++ [op]) o e i s ↔ Lives D h o e i s ∧ ¬ Unbinds op o e s := fun i => by
    rw [lives_append]
    exact ⟨fun h => h.elim id fun h => absurd h.2 hb, .inl⟩
  simp only [Born, key]
  constructor
  · rintro ⟨⟨h1, h2⟩, h3⟩
    exact ⟨⟨h1, fun j hj hl => h3 j hj ⟨hl, h2⟩⟩, h2⟩
  · rintro ⟨⟨h1, h3⟩, h2⟩
    exact ⟨⟨h1, h2⟩, fun j hj hl => h3 j hj hl.1⟩

/-- A subscriber bound by the last operation is born there unless it lived already. -/
theorem born_bind {D : Obj → Name → Prop} {h : List Op} {op : Op} {o : Obj} {e : Name} {i : Nat} {s : Sub}
    (hb : Binds D h op o e s) :
    Born D (h ++ [op]) o e i s ↔ Born D h o e i s ∨ (i = h.length ∧ ∀ j, ¬ Lives D h o e j s) := by
  have hu : ¬ Unbinds op o e s := by
    obtain ⟨pre, post, rfl, -⟩ := hb
    rintro ⟨e', s', h, -⟩
    cases h
  have key : ∀ i, Lives D (h ++ [op]) o e i s ↔ Lives D h o e i s ∨ i = h.length := fun i => by
    rw [lives_append]
    exact ⟨fun h => h.elim (fun h => .inl h.1) fun h => .inr h.1, fun h => h.elim (fun h => .inl ⟨h, hu⟩) fun h => .inr ⟨h, hb⟩⟩
  simp only [Born, key]
  constructor
  · rintro ⟨h1 | h1, h2⟩
    · exact .inl ⟨h1, fun j hj hl => h2 j hj (.inl hl)⟩
    · subst h1
      exact .inr ⟨rfl, fun j hl => h2 j (lives_lt hl) (.inl hl)⟩
  · rintro (⟨h1, h2⟩ | ⟨rfl, h2⟩)
    · refine ⟨.inl h1, fun j hj hl => hl.elim (h2 j hj) fun e => ?_⟩
      have := lives_lt h1
      omega
    · refine ⟨.inr rfl, fun j hj hl => hl.elim (h2 j) fun e => ?_⟩
      omega

/-- The state agrees with the history. -/
structure Agrees (D : Obj → Name → Prop) (h : List Op) (st : St) : Prop where
  apart : Apart st
  known : ∀ o e, declared o e st = true ↔ Known D h o e
  subs : ∀ o e, ∃ ps : List (Nat × Sub), subsOf st o e = ps.map (·.2) ∧
    ps.Pairwise (fun a b => a.1 < b.1) ∧ ∀ i s, (i, s) ∈ ps ↔ Born D h o e i s

theorem Agrees.mem {D : Obj → Name → Prop} {h : List Op} {st : St} (ha : Agrees D h st) {o : Obj} {e : Name} {s : Sub} :
    s ∈ subsOf st o e ↔ ∃ i, Lives D h o e i s := by
  obtain ⟨ps, h1, -, h3⟩ := ha.subs o e
  rw [h1, List.mem_map]
  constructor
  · rintro ⟨⟨i, s'⟩, hm, rfl⟩
    exact ⟨i, ((h3 _ _).mp hm).1⟩
  · rintro ⟨i, hl⟩
    obtain ⟨j, hj⟩ := born_of_lives hl
    exact ⟨(j, s), (h3 _ _).mpr hj, rfl⟩

theorem Agrees.nodup {D : Obj → Name → Prop} {h : List Op} {st : St} (ha : Agrees D h st) (o : Obj) (e : Name) :
    (subsOf st o e).Nodup := by
  obtain ⟨ps, h1, h2, h3⟩ := ha.subs o e
  rw [h1]
  refine List.pairwise_map.mpr (h2.imp_of_mem fun {a b} ha' hb hab hne => ?_)
  obtain ⟨i, s⟩ := a
  obtain ⟨j, s'⟩ := b
  have hne : s = s' := hne
  subst hne
  exact ((h3 _ _).mp hb).2 i hab ((h3 _ _).mp ha').1

theorem Agrees.step {D : Obj → Name → Prop} {h : List Op} {st : St} (ha : Agrees D h st) (op : Op) (hop : op.Ok) :
    Agrees D (h ++ [op]) (runOp op st).2 := by
  have same : ∀ st', (∀ o e, subsOf st' o e = subsOf st o e) → (∀ o e s, ¬ Binds D h op o e s) →
      (∀ o e s, ¬ Unbinds op o e s) → ∀ o e, ∃ ps : List (Nat × Sub), subsOf st' o e = ps.map (·.2) ∧
        ps.Pairwise (fun a b => a.1 < b.1) ∧ ∀ i s, (i, s) ∈ ps ↔ Born D (h ++ [op]) o e i s := by
    intro st' h1 h2 h3 o e
    obtain ⟨ps, p1, p2, p3⟩ := ha.subs o e
    exact ⟨ps, (h1 o e).trans p1, p2, fun i s => by rw [born_append (h2 o e s), p3]; simp [h3 o e s]⟩
  cases op with
  | register o0 e0 =>
    obtain ⟨r1, r2, r3⟩ := register_spec (o := o0) (e := e0) ha.apart
    refine ⟨r1, fun o e => ?_, same _ r2 ?_ ?_⟩
    · show declared o e (register o0 e0 st) = true ↔ _
      rw [r3, ha.known]
      simp only [Known, List.mem_append, List.mem_singleton, Op.register.injEq, or_assoc]
    · rintro o e s ⟨pre, post, hh, -⟩; cases hh
    · rintro o e s ⟨e', s', hh, -⟩; cases hh
  | bind o0 kw =>
    obtain ⟨b1, b2, b3, b4⟩ := bind_spec kw (o := o0) ha.apart hop
    have hacc : ∀ o e s, Binds D h (.bind o0 kw) o e s ↔ o = o0 ∧ Accepted o0 st kw e s := by
      intro o e s
      constructor
      · rintro ⟨pre, post, hh, h1, h2⟩
        simp only [Op.bind.injEq] at hh
        obtain ⟨rfl, rfl⟩ := hh
        exact ⟨rfl, pre, post, rfl, fun x hx => (ha.known _ _).mpr (h1 x hx), (ha.known _ _).mpr h2⟩
      · rintro ⟨rfl, pre, post, rfl, h1, h2⟩
        exact ⟨pre, post, rfl, fun x hx => (ha.known _ _).mp (h1 x hx), (ha.known _ _).mp h2⟩
    have huniq : ∀ e s s', Accepted o0 st kw e s → Accepted o0 st kw e s' → s = s' := by
      rintro e s s' ⟨pre, post, hh, -⟩ ⟨pre', post', hh', -⟩
      have hnd : (kw.map (·.1)).Nodup := hop
      have m1 : (e, s) ∈ kw := by rw [hh]; simp
      have m2 : (e, s') ∈ kw := by rw [hh']; simp
      have := Od.get?_of_mem (d := kw) hnd m1
      rw [Od.get?_of_mem (d := kw) hnd m2] at this
      exact (Option.some.inj this).symm
    have hu : ∀ o e s, ¬ Unbinds (.bind o0 kw) o e s := by
      rintro o e s ⟨e', s', hh, -⟩; cases hh
    refine ⟨b1, fun o e => ?_, fun o e => ?_⟩
    · show declared o e (bind o0 kw st).2 = true ↔ _
      rw [b2.declared, ha.known]
      simp [Known]
    · obtain ⟨ps, p1, p2, p3⟩ := ha.subs o e
      by_cases hh : ∃ s, Binds D h (.bind o0 kw) o e s
      · obtain ⟨s, hs⟩ := hh
        obtain ⟨rfl, hs'⟩ := (hacc _ _ _).mp hs
        have hother : ∀ s', s' ≠ s → ¬ Binds D h (.bind o kw) o e s' := fun s' hn hb =>
          hn (huniq e s' s ((hacc _ _ _).mp hb).2 hs')
        have hnew := b4 e s hs'
        by_cases hm : s ∈ subsOf st o e
        · rw [if_pos hm] at hnew
          refine ⟨ps, hnew.trans p1, p2, fun i s' => ?_⟩
          by_cases e1 : s' = s
          · subst e1
            rw [born_bind hs, p3]
            obtain ⟨j, hj⟩ := ha.mem.mp hm
            exact ⟨.inl, fun h => h.elim id fun h => absurd hj (h.2 j)⟩
          · rw [born_append (hother s' e1), p3]
            simp [hu]
        · rw [if_neg hm] at hnew
          have hno : ∀ j, ¬ Lives D h o e j s := fun j hj => hm (ha.mem.mpr ⟨j, hj⟩)
          refine ⟨ps ++ [(h.length, s)], by rw [List.map_append, ← p1]; exact hnew, ?_, fun i s' => ?_⟩
          · refine List.pairwise_append.mpr ⟨p2, List.pairwise_singleton _ _, fun a ha' b hb => ?_⟩
            rw [List.mem_singleton] at hb
            subst hb
            obtain ⟨i, s'⟩ := a
            exact lives_lt ((p3 i s').mp ha').1
          · rw [List.mem_append, List.mem_singleton, Prod.mk.injEq, p3]
            by_cases e1 : s' = s
            · subst e1
              rw [born_bind hs]
              exact ⟨fun h => h.imp id fun h => ⟨h.1, hno⟩, fun h => h.imp id fun h => ⟨h.1, rfl⟩⟩
            · rw [born_append (hother s' e1)]
              simp [hu, e1]
      · refine ⟨ps, ?_, p2, fun i s => ?_⟩
        · show subsOf (bind o0 kw st).2 o e = _
          rw [b3 o e, p1]
          by_cases ho : o = o0
          · exact .inr fun s hs => hh ⟨s, (hacc _ _ _).mpr ⟨ho, hs⟩⟩
          · exact .inl ho
        · rw [born_append (fun hb => hh ⟨s, hb⟩), p3]
          simp [hu]
  | unbind o0 e0 s0 =>
    obtain ⟨u1, u2, u3⟩ := unbind_spec (o := o0) e0 s0 ha.apart
    have hb : ∀ o e s, ¬ Binds D h (.unbind o0 e0 s0) o e s := by
      rintro o e s ⟨pre, post, hh, -⟩; cases hh
    refine ⟨u1, fun o e => ?_, fun o e => ?_⟩
    · show declared o e (unbind o0 e0 s0 st) = true ↔ _
      rw [u2.declared, ha.known]
      simp [Known]
    · obtain ⟨ps, p1, p2, p3⟩ := ha.subs o e
      have hunb : ∀ s, Unbinds (.unbind o0 e0 s0) o e s ↔
          (o = o0 ∧ (e0 = none ∨ e0 = some e)) ∧ (s0 = none ∨ s0 = some s) := fun s => by
        constructor
        · rintro ⟨e', s', hh, h1, h2⟩
          simp only [Op.unbind.injEq] at hh
          obtain ⟨rfl, rfl, rfl⟩ := hh
          exact ⟨⟨rfl, h1⟩, h2⟩
        · rintro ⟨⟨rfl, h1⟩, h2⟩
          exact ⟨e0, s0, rfl, h1, h2⟩
      show ∃ ps : List (Nat × Sub), subsOf (unbind o0 e0 s0 st) o e = _ ∧ _
      rw [u3]
      by_cases hh : o = o0 ∧ (e0 = none ∨ e0 = some e)
      · rw [if_pos hh]
        cases s0 with
        | none =>
          refine ⟨[], rfl, List.Pairwise.nil, fun i s => ?_⟩
          rw [born_append (hb o e s), hunb]
          simp [hh]
        | some s1 =>
          refine ⟨ps.filter (fun x => x.2 != s1), ?_, p2.filter _, fun i s => ?_⟩
          · simp only
            rw [(ha.nodup o e).erase_eq_filter, p1, List.filter_map]
            rfl
          · rw [born_append (hb o e s), hunb, List.mem_filter, p3]
            simp only [hh, true_and, reduceCtorEq, Option.some.injEq, false_or, bne_iff_ne, ne_eq]
            exact and_congr_right fun _ => not_congr eq_comm
      · rw [if_neg hh]
        refine ⟨ps, p1, p2, fun i s => ?_⟩
        rw [born_append (hb o e s), hunb, p3]
        simp [hh]

/-- **C37.**  After any history of `register_event`, `bind` and `unbind` on any instances, the
subscribers of an event are those bound and not unbound since, each once, in the order of
their (first living) bindings.  `D` are the events known at the start, from the classes or
registered before. -/
theorem c37_ordered_set {st : St} (h0 : Apart st) (hnone : ∀ o e, subsOf st o e = []) (h : List Op)
    (hok : ∀ op ∈ h, op.Ok) (o : Obj) (e : Name) :
    (∃ ps : List (Nat × Sub), subsOf (run h st) o e = ps.map (·.2) ∧ ps.Pairwise (fun a b => a.1 < b.1) ∧
      ∀ i s, (i, s) ∈ ps ↔ Born (fun o e => declared o e st = true) h o e i s) ∧
    (subsOf (run h st) o e).Nodup ∧
    (declared o e (run h st) = true ↔ Known (fun o e => declared o e st = true) h o e) := by
  have key : ∀ (h h' : List Op) (st' : St), (∀ op ∈ h, op.Ok) →
      Agrees (fun o e => declared o e st = true) h' st' →
      Agrees (fun o e => declared o e st = true) (h' ++ h) (run h st') := by
    intro h
    induction h with
    | nil => intro h' st' _ ha; rw [List.append_nil]; exact ha
    | cons op h ih =>
      intro h' st' hok ha
      have := ih (h' ++ [op]) _ (fun op' hm => hok op' (List.mem_cons_of_mem _ hm)) (ha.step op (hok op List.mem_cons_self))
      rw [List.append_assoc] at this
      exact this
  have := key h [] st hok ⟨h0, fun o e => by simp [Known], fun o e =>
    ⟨[], hnone o e, List.Pairwise.nil, fun i s => by
      simp only [List.not_mem_nil, false_iff]
      intro hb
      exact absurd (lives_lt hb.1) (Nat.not_lt_zero _)⟩⟩
  exact ⟨this.subs o e, this.nodup o e, this.known o e⟩

/-- C37: `bind` raises `UnknownEvent` exactly if one of the events is not declared; it names
the first such event, binds nothing for it and for those after it, and those before it are
bound. -/
theorem c37_unknown {o : Obj} {kw : List (Name × Sub)} {st : St} (h : Apart st) (hk : (kw.map (·.1)).Nodup) :
    ((bind o kw st).1 = .ok () ↔ ∀ x ∈ kw, declared o x.1 st = true) ∧
    ∀ err, (bind o kw st).1 = .error err → ∃ pre e s post, kw = pre ++ (e, s) :: post ∧ err = .unknown e ∧
      declared o e st = false ∧ (∀ x ∈ pre, declared o x.1 st = true ∧ x.2 ∈ subsOf (bind o kw st).2 o x.1) ∧
      ∀ x ∈ (e, s) :: post, subsOf (bind o kw st).2 o x.1 = subsOf st o x.1 := by
  have hres : ∀ kw st', (∀ e, declared o e st' = declared o e st) → Apart st' →
      ((bind o kw st').1 = .ok () ∧ ∀ x ∈ kw, declared o x.1 st = true) ∨
      ∃ pre e s post, kw = pre ++ (e, s) :: post ∧ (bind o kw st').1 = .error (.unknown e) ∧
        declared o e st = false ∧ ∀ x ∈ pre, declared o x.1 st = true := by
    intro kw
    induction kw with
    | nil => exact fun _ _ _ => .inl ⟨rfl, fun _ h => (nomatch h)⟩
    | cons a kw ih =>
      obtain ⟨e0, s0⟩ := a
      intro st' hd hap
      by_cases hd0 : declared o e0 st' = true
      · obtain ⟨r, st1, hsl, a1, a2, a3, a4, a5, a6⟩ := subsList_spec (o := o) (e := e0) hap
        obtain ⟨b1, b2, b3, b4, b5⟩ := addSub_spec a1 a2 s0
        have hdd : ∀ e, declared o e (addSub r s0 st1) = declared o e st := fun e =>
          (declared_congr (by rw [b2]; exact (a4 o).1) (by rw [b2]; exact (a4 o).2) (b3.trans a5) (b4.trans a6)).trans (hd e)
        simp only [bind, hd0, if_true, hsl]
        rcases ih _ hdd b1 with ⟨h1, h2⟩ | ⟨pre, e, s, post, rfl, h1, h2, h3⟩
        · refine .inl ⟨h1, fun x hx => ?_⟩
          rcases List.mem_cons.mp hx with rfl | hx
          · exact (hd _).symm.trans hd0
          · exact h2 x hx
        · refine .inr ⟨(e0, s0) :: pre, e, s, post, rfl, h1, h2, fun x hx => ?_⟩
          rcases List.mem_cons.mp hx with rfl | hx
          · exact (hd _).symm.trans hd0
          · exact h3 x hx
      · simp only [bind, hd0, Bool.false_eq_true, if_false]
        exact .inr ⟨[], e0, s0, kw, rfl, rfl, by rw [← hd]; simpa using hd0, fun _ h => (nomatch h)⟩
  obtain ⟨b1, b2, b3, b4⟩ := bind_spec kw (o := o) h hk
  rcases hres kw st (fun _ => rfl) h with ⟨h1, h2⟩ | ⟨pre, e, s, post, rfl, h1, h2, h3⟩
  · exact ⟨⟨fun _ => h2, fun _ => h1⟩, fun err he => by rw [h1] at he; cases he⟩
  · refine ⟨⟨fun he => (by rw [h1] at he; cases he), fun hall => ?_⟩, fun err he => ?_⟩
    · have := hall (e, s) (by simp)
      rw [h2] at this
      cases this
    · rw [h1] at he
      cases he
      refine ⟨pre, e, s, post, rfl, rfl, h2, fun x hx => ⟨h3 x hx, ?_⟩, fun x hx => ?_⟩
      · obtain ⟨p1, p2, rfl⟩ := List.append_of_mem hx
        have := b4 x.1 x.2 ⟨p1, p2 ++ (e, s) :: post, by simp, fun y hy => h3 y (by simp [hy]), h3 x hx⟩
        rw [this]
        split
        · assumption
        · simp
      · refine b3 o x.1 (.inr fun s' ⟨q1, q2, hq, hq1, hq2⟩ => ?_)
        have hmem : x.1 ∈ ((e, s) :: post).map (·.1) := List.mem_map.mpr ⟨x, hx, rfl⟩
        have hlen : pre.length ≤ q1.length ∨ q1.length < pre.length := Nat.lt_or_ge _ _ |>.symm
        rcases hlen with hlen | hlen
        · rcases Nat.lt_or_ge pre.length q1.length with hlt | hge
          · have h4 : (e, s) ∈ q1 := by
              have e1 : (pre ++ (e, s) :: post)[pre.length]? = some (e, s) := by simp
              rw [hq, List.getElem?_append_left hlt] at e1
              exact List.mem_of_getElem? e1
            have := hq1 _ h4
            rw [h2] at this
            cases this
          · have e0 : q1.length = pre.length := by omega
            have e1 : (pre ++ (e, s) :: post)[pre.length]? = some (e, s) := by simp
            rw [hq, ← e0] at e1
            simp at e1
            rw [← e1.1, hq2] at h2
            cases h2
        · have h4 : (x.1, s') ∈ pre := by
            have e1 : (q1 ++ (x.1, s') :: q2)[q1.length]? = some (x.1, s') := by simp
            rw [← hq, List.getElem?_append_left hlen] at e1
            exact List.mem_of_getElem? e1
          rw [List.map_append] at hk
          exact (List.nodup_append.mp hk).2.2 x.1 (List.mem_map.mpr ⟨_, h4, rfl⟩) x.1 hmem rfl

/-! ### A concrete history -/

/-- Instance 0 of a class declaring the events `a` and `b`. -/
def sampleSt : St := { names := fun _ => ["a", "b"] }

theorem sampleSt_apart : Apart sampleSt :=
  ⟨fun _ => List.nodup_nil, fun _ _ _ h => (nomatch h), fun _ _ _ _ _ h => (nomatch h)⟩

def sampleHist : List Op := [.bind 0 [("a", 1), ("b", 1)], .bind 0 [("a", 2)], .bind 0 [("a", 1)],
  .register 0 "c", .bind 0 [("c", 3), ("d", 4)], .unbind 0 none (some 1), .bind 0 [("a", 1)]]

/-- 1 comes after 2: it was unbound and bound again. -/
example : subsOf (run sampleHist sampleSt) 0 "a" = [2, 1] ∧ subsOf (run sampleHist sampleSt) 0 "b" = [] ∧
    subsOf (run sampleHist sampleSt) 0 "c" = [3] ∧ subsOf (run sampleHist sampleSt) 0 "d" = [] := by
  decide +kernel

example : (subsOf (run sampleHist sampleSt) 0 "a").Nodup :=
  (c37_ordered_set sampleSt_apart (fun _ _ => rfl) sampleHist (by
    intro op h
    simp only [sampleHist, List.mem_cons, List.not_mem_nil, or_false] at h
    rcases h with rfl | rfl | rfl | rfl | rfl | rfl | rfl <;> simp [Op.Ok]) 0 "a").2.1

end Verif.Events
