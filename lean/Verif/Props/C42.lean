import Verif.Props.C37

/-!
# C42: events declared by classes

Refuted both ways: a class inheriting `__events__` adds the names of its event attributes to
the list of its base class, and a class with an `__events__` of its own hides that of its base
class.  The exact rule is proved for every hierarchy.
-/

namespace Verif.Events

/-- A class statement: the class the attribute `__events__` is inherited from, the `__events__`
of the class body, the names of the event attributes of the class body. -/
structure Decl where
  cls : ClassId
  base : Option ClassId
  own : Option (List Name)
  attrs : List Name

/-- Execute class statements. -/
def declare : List Decl → St → St
  | [], st => st
  | d :: ds, st => declare ds (mkClass d.cls d.base d.own d.attrs st)

/-- Class statements in order: each defines a new class, bases come before. -/
inductive Hierarchy : List Decl → Prop
  | nil : Hierarchy []
  | snoc {ds : List Decl} {d : Decl} : Hierarchy ds → (∀ d' ∈ ds, d'.cls ≠ d.cls) →
      (∀ b, d.base = some b → ∃ d' ∈ ds, d'.cls = b) → Hierarchy (ds ++ [d])

/-- The class an `__events__` list belongs to, seen from a class: the nearest one up the
hierarchy that has its own, or that has no base. -/
inductive Home (ds : List Decl) : ClassId → ClassId → Prop
  | own {d : Decl} {l : List Name} : d ∈ ds → d.own = some l → Home ds d.cls d.cls
  | root {d : Decl} : d ∈ ds → d.own = none → d.base = none → Home ds d.cls d.cls
  | up {d : Decl} {b h : ClassId} : d ∈ ds → d.own = none → d.base = some b → Home ds b h → Home ds d.cls h

/-- The class itself or one up the hierarchy declares the event: what C42 expects. -/
inductive Declares (ds : List Decl) (e : Name) : ClassId → Prop
  | own {d : Decl} {l : List Name} : d ∈ ds → d.own = some l → e ∈ l → Declares ds e d.cls
  | attr {d : Decl} : d ∈ ds → e ∈ d.attrs → Declares ds e d.cls
  | up {d : Decl} {b : ClassId} : d ∈ ds → d.base = some b → Declares ds e b → Declares ds e d.cls

/-- What the code makes of it: the own list of the home, and the event attributes of all
classes with that home. -/
def Carries (ds : List Decl) (h : ClassId) (e : Name) : Prop :=
  (∃ d ∈ ds, d.cls = h ∧ ∃ l, d.own = some l ∧ e ∈ l) ∨ ∃ d ∈ ds, Home ds d.cls h ∧ e ∈ d.attrs

theorem collect_spec (r : Ref) (es : List Name) (st : St) :
    (∀ e, e ∈ (collect r es st).names r ↔ e ∈ st.names r ∨ e ∈ es) ∧
      (∀ r', r' ≠ r → (collect r es st).names r' = st.names r') ∧ (collect r es st).clsEvents = st.clsEvents ∧
      (collect r es st).nnames = st.nnames ∧ (collect r es st).inst = st.inst := by
  induction es generalizing st with
  | nil => exact ⟨fun e => by simp [collect], fun _ _ => rfl, rfl, rfl, rfl⟩
  | cons a es ih =>
    unfold collect
    split
    · rename_i hm
      obtain ⟨h1, h2⟩ := ih st
      refine ⟨fun e => ?_, h2⟩
      rw [h1, List.mem_cons]
      constructor
      · exact fun h => h.imp id .inr
      · rintro (h | rfl | h)
        · exact .inl h
        · exact .inl hm
        · exact .inr h
    · obtain ⟨h1, h2, h3, h4, h5⟩ := ih { st with names := put st.names r (st.names r ++ [a]) }
      refine ⟨fun e => ?_, fun r' hr => ?_, h3, h4, h5⟩
      · rw [h1]
        show e ∈ put st.names r _ r ∨ _ ↔ _
        rw [show put st.names r _ r = _ from if_pos rfl, List.mem_append, List.mem_singleton, List.mem_cons, or_assoc]
      · rw [h2 r' hr]
        exact if_neg hr

theorem Home.mono {ds : List Decl} {x : Decl} {c h : ClassId} (hh : Home ds c h) : Home (ds ++ [x]) c h := by
  induction hh with
  | own h1 h2 => exact .own (List.mem_append.mpr (.inl h1)) h2
  | root h1 h2 h3 => exact .root (List.mem_append.mpr (.inl h1)) h2 h3
  | up h1 h2 h3 _ ih => exact .up (List.mem_append.mpr (.inl h1)) h2 h3 ih

theorem Home.exists {ds : List Decl} {c h : ClassId} (hh : Home ds c h) :
    (∃ d ∈ ds, d.cls = c) ∧ ∃ d ∈ ds, d.cls = h := by
  induction hh with
  | own h1 _ => exact ⟨⟨_, h1, rfl⟩, ⟨_, h1, rfl⟩⟩
  | root h1 _ _ => exact ⟨⟨_, h1, rfl⟩, ⟨_, h1, rfl⟩⟩
  | up h1 _ _ _ ih => exact ⟨⟨_, h1, rfl⟩, ih.2⟩

/-- A later class changes nothing about the homes of the earlier ones. -/
theorem Home.old {ds : List Decl} {x : Decl} (hnew : ∀ d ∈ ds, d.cls ≠ x.cls)
    (hbase : ∀ d ∈ ds, ∀ b, d.base = some b → ∃ d' ∈ ds, d'.cls = b) {c h : ClassId}
    (hh : Home (ds ++ [x]) c h) (hc : ∃ d ∈ ds, d.cls = c) : Home ds c h := by
  have hmem : ∀ d, d ∈ ds ++ [x] → (∃ d' ∈ ds, d'.cls = d.cls) → d ∈ ds := by
    rintro d hd ⟨d', h1, h2⟩
    rcases List.mem_append.mp hd with h | h
    · exact h
    · rw [List.mem_singleton] at h
      subst h
      exact absurd h2 (hnew d' h1)
  induction hh with
  | own h1 h2 => exact .own (hmem _ h1 hc) h2
  | root h1 h2 h3 => exact .root (hmem _ h1 hc) h2 h3
  | up h1 h2 h3 _ ih =>
    have h1' := hmem _ h1 hc
    exact .up h1' h2 h3 (ih (hbase _ h1' _ h3))

theorem Hierarchy.bases {ds : List Decl} (h : Hierarchy ds) :
    ∀ d ∈ ds, ∀ b, d.base = some b → ∃ d' ∈ ds, d'.cls = b := by
  induction h with
  | nil => exact fun d h => (nomatch h)
  | snoc _ _ hb ih =>
    intro d hd b he
    rcases List.mem_append.mp hd with h | h
    · obtain ⟨d', h1, h2⟩ := ih d h b he
      exact ⟨d', List.mem_append.mpr (.inl h1), h2⟩
    · rw [List.mem_singleton] at h
      subst h
      obtain ⟨d', h1, h2⟩ := hb b he
      exact ⟨d', List.mem_append.mpr (.inl h1), h2⟩

theorem Hierarchy.unique {ds : List Decl} (h : Hierarchy ds) :
    ∀ d ∈ ds, ∀ d' ∈ ds, d.cls = d'.cls → d = d' := by
  induction h with
  | nil => exact fun d h => (nomatch h)
  | snoc _ hn _ ih =>
    intro d hd d' hd' he
    rcases List.mem_append.mp hd with h | h <;> rcases List.mem_append.mp hd' with h' | h'
    · exact ih d h d' h' he
    · rw [List.mem_singleton] at h'; subst h'; exact absurd he (hn d h)
    · rw [List.mem_singleton] at h; subst h; exact absurd he.symm (hn d' h')
    · rw [List.mem_singleton] at h h'; rw [h, h']

theorem Home.unique {ds : List Decl} (hd : Hierarchy ds) {c h h' : ClassId} (hh : Home ds c h) (hh' : Home ds c h') :
    h = h' := by
  have key : ∀ {c h'}, Home ds c h' → ∀ d ∈ ds, d.cls = c →
      (d.own ≠ none → h' = c) ∧ (d.own = none → d.base = none → h' = c) ∧
        ∀ b, d.own = none → d.base = some b → Home ds b h' := by
    intro c h' hh d hdm he
    cases hh with
    | own h1 h2 =>
      have := hd.unique _ hdm _ h1 he
      subst this
      exact ⟨fun _ => rfl, fun h => (by rw [h2] at h; cases h), fun b h => (by rw [h2] at h; cases h)⟩
    | root h1 h2 h3 =>
      have := hd.unique _ hdm _ h1 he
      subst this
      exact ⟨fun _ => rfl, fun _ _ => rfl, fun b _ h => (by rw [h3] at h; cases h)⟩
    | up h1 h2 h3 h4 =>
      have := hd.unique _ hdm _ h1 he
      subst this
      refine ⟨fun h => absurd h2 h, fun _ h => (by rw [h3] at h; cases h), fun b _ h => ?_⟩
      rw [h3] at h
      cases h
      exact h4
  induction hh generalizing h' with
  | own h1 h2 => exact ((key hh' _ h1 rfl).1 (by rw [h2]; exact Option.some_ne_none _)).symm
  | root h1 h2 h3 => exact ((key hh' _ h1 rfl).2.1 h2 h3).symm
  | up h1 h2 h3 _ ih => exact ih ((key hh' _ h1 rfl).2.2 _ h2 h3)

/-- The state after the class statements. -/
structure Homed (ds : List Decl) (st : St) : Prop where
  fresh : ∀ d ∈ ds, st.clsEvents d.cls < st.nnames
  same : ∀ c h, Home ds c h → st.clsEvents c = st.clsEvents h
  apart : ∀ c c' h h', Home ds c h → Home ds c' h' → st.clsEvents c = st.clsEvents c' → h = h'
  carries : ∀ c h e, Home ds c h → (e ∈ st.names (st.clsEvents c) ↔ Carries ds h e)

theorem Hierarchy.home {ds : List Decl} (hd : Hierarchy ds) : ∀ d ∈ ds, ∃ h, Home ds d.cls h := by
  induction hd with
  | nil => exact fun d h => (nomatch h)
  | @snoc ds x hds hn hb ih =>
    intro d hdm
    rcases List.mem_append.mp hdm with h | h
    · obtain ⟨h', hh⟩ := ih d h
      exact ⟨h', hh.mono⟩
    · rw [List.mem_singleton] at h
      subst h
      cases ho : d.own with
      | some l => exact ⟨_, .own hdm ho⟩
      | none =>
        cases hbs : d.base with
        | none => exact ⟨_, .root hdm ho hbs⟩
        | some b =>
          obtain ⟨d', h1, h2⟩ := hb b hbs
          obtain ⟨h', hh⟩ := ih d' h1
          exact ⟨h', .up hdm ho hbs (h2 ▸ hh.mono)⟩

theorem carries_append {ds : List Decl} {x : Decl} (hd : Hierarchy (ds ++ [x])) (hds : Hierarchy ds)
    (hn : ∀ d ∈ ds, d.cls ≠ x.cls) {h : ClassId} (hh : ∃ d ∈ ds, d.cls = h) (e : Name) :
    Carries (ds ++ [x]) h e ↔ Carries ds h e ∨ (Home (ds ++ [x]) x.cls h ∧ e ∈ x.attrs) := by
  constructor
  · rintro (⟨d, h1, h2, h3⟩ | ⟨d, h1, h2, h3⟩)
    · rcases List.mem_append.mp h1 with h4 | h4
      · exact .inl (.inl ⟨d, h4, h2, h3⟩)
      · rw [List.mem_singleton] at h4
        subst h4
        obtain ⟨d', h5, h6⟩ := hh
        exact absurd (h6.trans h2.symm) (hn d' h5)
    · rcases List.mem_append.mp h1 with h4 | h4
      · exact .inl (.inr ⟨d, h4, h2.old hn hds.bases ⟨d, h4, rfl⟩, h3⟩)
      · rw [List.mem_singleton] at h4
        subst h4
        exact .inr ⟨h2, h3⟩
  · rintro ((⟨d, h1, h2, h3⟩ | ⟨d, h1, h2, h3⟩) | ⟨h1, h2⟩)
    · exact .inl ⟨d, List.mem_append.mpr (.inl h1), h2, h3⟩
    · exact .inr ⟨d, List.mem_append.mpr (.inl h1), h2.mono, h3⟩
    · exact .inr ⟨x, by simp, h1, h2⟩

theorem Homed.step {ds : List Decl} {x : Decl} {st : St} (h : Homed ds st) (hd : Hierarchy (ds ++ [x]))
    (hds : Hierarchy ds) (hn : ∀ d ∈ ds, d.cls ≠ x.cls) (hb : ∀ b, x.base = some b → ∃ d' ∈ ds, d'.cls = b) :
    Homed (ds ++ [x]) (mkClass x.cls x.base x.own x.attrs st) := by
  have hxm : x ∈ ds ++ [x] := by simp
  have hold : ∀ {c}, (∃ d ∈ ds, d.cls = c) → c ≠ x.cls := by
    rintro c ⟨d, h1, rfl⟩; exact hn d h1
  have hcase : ∀ {c h'}, Home (ds ++ [x]) c h' → Home ds c h' ∨ c = x.cls := by
    intro c h' hh
    obtain ⟨⟨d, h1, rfl⟩, -⟩ := hh.exists
    rcases List.mem_append.mp h1 with h2 | h2
    · exact .inl (hh.old hn hds.bases ⟨d, h2, rfl⟩)
    · rw [List.mem_singleton] at h2
      exact .inr (by rw [h2])
  by_cases hfr : x.own ≠ none ∨ x.base = none
  · -- a list of its own
    have hhome : ∀ {h'}, Home (ds ++ [x]) x.cls h' → h' = x.cls := fun {h'} hh => by
      rcases hfr with hf | hf
      · obtain ⟨l, hl⟩ := Option.ne_none_iff_exists'.mp hf
        exact hh.unique hd (.own hxm hl)
      · cases ho : x.own with
        | some l => exact hh.unique hd (.own hxm ho)
        | none => exact hh.unique hd (.root hxm ho hf)
    obtain ⟨l0, hl0, hmk⟩ : ∃ l0, (∀ e, e ∈ l0 ↔ ∃ l, x.own = some l ∧ e ∈ l) ∧
        mkClass x.cls x.base x.own x.attrs st = collect st.nnames x.attrs { st with
          clsEvents := put st.clsEvents x.cls st.nnames
          names := put st.names st.nnames l0
          nnames := st.nnames + 1 } := by
      have hp : ∀ r, put st.clsEvents x.cls r x.cls = r := fun r => if_pos rfl
      cases ho : x.own with
      | some l =>
        refine ⟨l, fun e => ⟨fun h => ⟨l, rfl, h⟩, fun ⟨l', h1, h2⟩ => by cases h1; exact h2⟩, ?_⟩
        simp only [mkClass, hp]
      | none =>
        have hbn : x.base = none := hfr.resolve_left fun h => h ho
        refine ⟨[], fun e => by simp, ?_⟩
        simp only [mkClass, hbn, hp]
    rw [hmk]
    obtain ⟨c1, c2, c3, c4, -⟩ := collect_spec st.nnames x.attrs { st with
          clsEvents := put st.clsEvents x.cls st.nnames
          names := put st.names st.nnames l0
          nnames := st.nnames + 1 }
    have hce : ∀ c, c ≠ x.cls → put st.clsEvents x.cls st.nnames c = st.clsEvents c := fun c h => if_neg h
    have hcx : put st.clsEvents x.cls st.nnames x.cls = st.nnames := if_pos rfl
    refine ⟨?_, ?_, ?_, ?_⟩
    · intro d hdm
      rw [c3, c4]
      show put st.clsEvents x.cls st.nnames d.cls < st.nnames + 1
      rcases List.mem_append.mp hdm with h1 | h1
      · rw [hce _ (hn d h1)]; exact Nat.lt_succ_of_lt (h.fresh d h1)
      · rw [List.mem_singleton] at h1; rw [h1, hcx]; exact Nat.lt_succ_self _
    · intro c h' hh
      rw [c3]
      show put st.clsEvents x.cls st.nnames c = put st.clsEvents x.cls st.nnames h'
      rcases hcase hh with h1 | rfl
      · rw [hce _ (hold h1.exists.1), hce _ (hold h1.exists.2)]; exact h.same c h' h1
      · rw [hhome hh]
    · intro c c' h1 h2 hh1 hh2
      rw [c3]
      show put st.clsEvents x.cls st.nnames c = put st.clsEvents x.cls st.nnames c' → _
      intro he
      rcases hcase hh1 with k1 | rfl <;> rcases hcase hh2 with k2 | rfl
      · rw [hce _ (hold k1.exists.1), hce _ (hold k2.exists.1)] at he
        exact h.apart c c' h1 h2 k1 k2 he
      · rw [hce _ (hold k1.exists.1), hcx] at he
        obtain ⟨d, hdm, rfl⟩ := k1.exists.1
        have := h.fresh d hdm
        rw [he] at this
        exact absurd this (Nat.lt_irrefl _)
      · rw [hce _ (hold k2.exists.1), hcx] at he
        obtain ⟨d, hdm, rfl⟩ := k2.exists.1
        have := h.fresh d hdm
        rw [← he] at this
        exact absurd this (Nat.lt_irrefl _)
      · rw [hhome hh1, hhome hh2]
    · intro c h' e hh
      rw [c3]
      show e ∈ (collect st.nnames x.attrs _).names (put st.clsEvents x.cls st.nnames c) ↔ _
      rcases hcase hh with h1 | rfl
      · have hlt : st.clsEvents c ≠ st.nnames := by
          obtain ⟨d, hdm, rfl⟩ := h1.exists.1
          exact Nat.ne_of_lt (h.fresh d hdm)
        rw [hce _ (hold h1.exists.1), c2 _ hlt, carries_append hd hds hn h1.exists.2]
        show e ∈ put st.names st.nnames l0 (st.clsEvents c) ↔ _
        rw [show put st.names st.nnames l0 (st.clsEvents c) = _ from if_neg hlt, h.carries c h' e h1]
        refine ⟨.inl, fun hc => hc.elim id fun ⟨hc, _⟩ => ?_⟩
        exact absurd (hhome hc) (hold h1.exists.2)
      · rw [hcx, c1]
        show e ∈ put st.names st.nnames l0 st.nnames ∨ _ ↔ _
        rw [show put st.names st.nnames l0 st.nnames = l0 from if_pos rfl, hhome hh, hl0]
        constructor
        · rintro (⟨l, h1, h2⟩ | h1)
          · exact .inl ⟨x, hxm, rfl, l, h1, h2⟩
          · exact .inr ⟨x, hxm, hhome hh ▸ hh, h1⟩
        · rintro (⟨d, h1, h2, l, h3, h4⟩ | ⟨d, h1, h2, h3⟩)
          · have := hd.unique _ h1 _ hxm h2
            subst this
            exact .inl ⟨l, h3, h4⟩
          · rcases List.mem_append.mp h1 with h4 | h4
            · have := (h2.old hn hds.bases ⟨d, h4, rfl⟩).exists.2
              exact absurd rfl (hold this)
            · rw [List.mem_singleton] at h4
              exact .inr (h4 ▸ h3)
  · -- the list of the base
    have hon : x.own = none := by
      cases ho : x.own with
      | none => rfl
      | some l => exact absurd (.inl (by rw [ho]; exact Option.some_ne_none _)) hfr
    obtain ⟨b, hbs⟩ : ∃ b, x.base = some b := by
      cases hbb : x.base with
      | none => exact absurd (.inr hbb) hfr
      | some b => exact ⟨b, rfl⟩
    obtain ⟨db, hdb, rfl⟩ := hb b hbs
    have hp : ∀ r, put st.clsEvents x.cls r x.cls = r := fun r => if_pos rfl
    have hmk : mkClass x.cls x.base x.own x.attrs st = collect (st.clsEvents db.cls) x.attrs { st with
          clsEvents := put st.clsEvents x.cls (st.clsEvents db.cls) } := by
      simp only [mkClass, hon, hbs, hp]
    rw [hmk]
    obtain ⟨c1, c2, c3, c4, -⟩ := collect_spec (st.clsEvents db.cls) x.attrs { st with
          clsEvents := put st.clsEvents x.cls (st.clsEvents db.cls) }
    have hce : ∀ c, c ≠ x.cls → put st.clsEvents x.cls (st.clsEvents db.cls) c = st.clsEvents c := fun c h => if_neg h
    have hcx : put st.clsEvents x.cls (st.clsEvents db.cls) x.cls = st.clsEvents db.cls := if_pos rfl
    have hup : ∀ {h'}, Home (ds ++ [x]) x.cls h' → Home ds db.cls h' := fun {h'} hh => by
      obtain ⟨h1, hh1⟩ := hds.home db hdb
      have : h' = h1 := hh.unique hd (.up hxm hon hbs hh1.mono)
      rw [this]
      exact hh1
    refine ⟨?_, ?_, ?_, ?_⟩
    · intro d hdm
      rw [c3, c4]
      show put st.clsEvents x.cls _ d.cls < st.nnames
      rcases List.mem_append.mp hdm with h1 | h1
      · rw [hce _ (hn d h1)]; exact h.fresh d h1
      · rw [List.mem_singleton] at h1; rw [h1, hcx]; exact h.fresh db hdb
    · intro c h' hh
      rw [c3]
      show put st.clsEvents x.cls _ c = put st.clsEvents x.cls _ h'
      rcases hcase hh with h1 | rfl
      · rw [hce _ (hold h1.exists.1), hce _ (hold h1.exists.2)]; exact h.same c h' h1
      · have h1 := hup hh
        rw [hcx, hce _ (hold h1.exists.2)]; exact h.same _ _ h1
    · intro c c' h1 h2 hh1 hh2
      rw [c3]
      show put st.clsEvents x.cls _ c = put st.clsEvents x.cls _ c' → _
      intro he
      rcases hcase hh1 with k1 | rfl <;> rcases hcase hh2 with k2 | rfl
      · rw [hce _ (hold k1.exists.1), hce _ (hold k2.exists.1)] at he
        exact h.apart c c' h1 h2 k1 k2 he
      · rw [hce _ (hold k1.exists.1), hcx] at he
        exact h.apart _ _ h1 h2 k1 (hup hh2) he
      · rw [hce _ (hold k2.exists.1), hcx] at he
        exact h.apart _ _ h1 h2 (hup hh1) k2 he
      · exact hh1.unique hd hh2
    · have key : ∀ c h' e, Home ds c h' → (Home (ds ++ [x]) x.cls h' ↔ st.clsEvents c = st.clsEvents db.cls) ∧
          (e ∈ (collect (st.clsEvents db.cls) x.attrs { st with
            clsEvents := put st.clsEvents x.cls (st.clsEvents db.cls) }).names (st.clsEvents c) ↔
            Carries (ds ++ [x]) h' e) := by
        intro c h' e h1
        have hx : Home (ds ++ [x]) x.cls h' ↔ st.clsEvents c = st.clsEvents db.cls := by
          constructor
          · intro hh
            rw [h.same _ _ h1, h.same _ _ (hup hh)]
          · intro he
            obtain ⟨h2, hh2⟩ := hds.home db hdb
            have := h.apart _ _ _ _ h1 hh2 he
            subst this
            exact .up hxm hon hbs hh2.mono
        refine ⟨hx, ?_⟩
        rw [carries_append hd hds hn h1.exists.2, hx, ← h.carries c h' e h1]
        by_cases he : st.clsEvents c = st.clsEvents db.cls
        · rw [he, c1]
          simp
        · rw [c2 _ he]
          simp [he]
      intro c h' e hh
      rw [c3]
      show e ∈ (collect _ x.attrs _).names (put st.clsEvents x.cls _ c) ↔ _
      rcases hcase hh with h1 | rfl
      · rw [hce _ (hold h1.exists.1)]; exact (key c h' e h1).2
      · rw [hcx]; exact (key _ h' e (hup hh)).2

theorem declare_append (ds : List Decl) (x : Decl) (st : St) :
    declare (ds ++ [x]) st = mkClass x.cls x.base x.own x.attrs (declare ds st) := by
  induction ds generalizing st with
  | nil => rfl
  | cons d ds ih => exact ih _

theorem Hierarchy.homed {ds : List Decl} (hd : Hierarchy ds) (st : St) : Homed ds (declare ds st) := by
  induction hd with
  | nil =>
    refine ⟨fun d h => (nomatch h), ?_, ?_, ?_⟩
    · intro c h hh; obtain ⟨⟨_, h, _⟩, _⟩ := hh.exists; cases h
    · intro c c' h h' hh; obtain ⟨⟨_, h, _⟩, _⟩ := hh.exists; cases h
    · intro c h e hh; obtain ⟨⟨_, h, _⟩, _⟩ := hh.exists; cases h
  | snoc h1 h2 h3 ih =>
    rw [declare_append]
    exact ih.step (.snoc h1 h2 h3) h1 h2 h3

theorem mkClass_inst (c : ClassId) (b : Option ClassId) (own : Option (List Name)) (as : List Name) (st : St) :
    (mkClass c b own as st).inst = st.inst := by
  unfold mkClass
  rw [(collect_spec _ _ _).2.2.2.2]
  cases own <;> cases b <;> rfl

theorem declare_inst (ds : List Decl) (st : St) : (declare ds st).inst = st.inst := by
  induction ds generalizing st with
  | nil => rfl
  | cons d ds ih => exact (ih _).trans (mkClass_inst _ _ _ _ _)

/-- **C42, partial: the exact rule.**  For every hierarchy of classes, `bind` accepts an event
on an instance exactly if it was registered on the instance, or stands in the `__events__` of
the nearest class up the hierarchy having one (its home), or names an event attribute of any
class with the same home — also of subclasses and of siblings. -/
theorem c42_rule_partial {ds : List Decl} (hd : Hierarchy ds) (st : St) {o : Obj} {d : Decl} (hdm : d ∈ ds)
    (ho : (st.inst o).cls = d.cls) {h : ClassId} (hh : Home ds d.cls h) (e : Name) :
    declared o e (declare ds st) = true ↔ e ∈ (st.inst o).events ∨ Carries ds h e := by
  have hi := declare_inst ds st
  simp only [declared, Bool.or_eq_true, decide_eq_true_eq, hi, ho]
  rw [(hd.homed st).carries d.cls h e hh]

/-- Every class has a home, so the rule covers all. -/
theorem c42_home {ds : List Decl} (hd : Hierarchy ds) {d : Decl} (hdm : d ∈ ds) : ∃ h, Home ds d.cls h :=
  hd.home d hdm

/-- **C42, partial.**  The claim holds for hierarchies where event names stay apart: no class
hides an `__events__` of a base (`own` only without base), and every event attribute of a class
belongs to one without base. -/
theorem c42_roots_partial {ds : List Decl} (hd : Hierarchy ds) (st : St) {o : Obj} {d : Decl} (hdm : d ∈ ds)
    (ho : (st.inst o).cls = d.cls) (hown : ∀ d' ∈ ds, d'.own ≠ none → d'.base = none)
    (hattr : ∀ d' ∈ ds, d'.attrs ≠ [] → d'.base = none) (e : Name) :
    declared o e (declare ds st) = true ↔ e ∈ (st.inst o).events ∨ Declares ds e d.cls := by
  obtain ⟨h, hh⟩ := hd.home d hdm
  rw [c42_rule_partial hd st hdm ho hh]
  refine or_congr_right ?_
  have hroot : ∀ {c h'}, Home ds c h' → ∃ d' ∈ ds, d'.cls = h' ∧ d'.base = none := by
    intro c h' hh
    induction hh with
    | own h1 h2 => exact ⟨_, h1, rfl, hown _ h1 (by rw [h2]; exact Option.some_ne_none _)⟩
    | root h1 _ h3 => exact ⟨_, h1, rfl, h3⟩
    | up _ _ _ _ ih => exact ih
  have hself : ∀ {d' h'}, d' ∈ ds → d'.base = none → Home ds d'.cls h' → h' = d'.cls := by
    intro d' h' h1 h2 hh
    refine hh.unique hd ?_
    cases ho : d'.own with
    | some l => exact .own h1 ho
    | none => exact .root h1 ho h2
  have hlift : ∀ {c h'}, Home ds c h' → Declares ds e h' → Declares ds e c := by
    intro c h' hh
    induction hh with
    | own _ _ => exact id
    | root _ _ _ => exact id
    | up h1 _ h3 _ ih => exact fun hdec => .up h1 h3 (ih hdec)
  constructor
  · rintro (⟨d', h1, rfl, l, h3, h4⟩ | ⟨d', h1, h2, h3⟩)
    · exact hlift hh (.own h1 h3 h4)
    · have hb := hattr d' h1 (fun h => by rw [h] at h3; cases h3)
      have := hself h1 hb h2
      subst this
      exact hlift hh (.attr h1 h3)
  · intro hdec
    have key : ∀ {c}, Declares ds e c → ∀ h', Home ds c h' → Carries ds h' e := by
      intro c hdec
      induction hdec with
      | own h1 h2 h3 =>
        intro h' hh'
        have := hh'.unique hd (.own h1 h2)
        subst this
        exact .inl ⟨_, h1, rfl, _, h2, h3⟩
      | attr h1 h2 => exact fun h' hh' => .inr ⟨_, h1, hh', h2⟩
      | @up d1 b h1 h2 _ ih =>
        intro h' hh'
        have hon : d1.own = none := by
          cases ho' : d1.own with
          | none => rfl
          | some l => have := hown d1 h1 (by rw [ho']; exact Option.some_ne_none _); rw [this] at h2; cases h2
        obtain ⟨db, h3, h4⟩ := hd.bases d1 h1 b h2
        obtain ⟨h5, h6⟩ := hd.home db h3
        rw [h4] at h6
        have := hh'.unique hd (.up h1 hon h2 h6)
        subst this
        exact ih _ h6
    exact key hdec h hh

/-! ### Witnesses -/

/-- Class 1 declares `a`; its subclass 2 has the event attribute `b`; its subclass 3 declares
`c` in a list of its own. -/
def sampleDecls : List Decl :=
  [⟨1, none, some ["a"], []⟩, ⟨2, some 1, none, ["b"]⟩, ⟨3, some 1, some ["c"], []⟩]

theorem sampleDecls_ok : Hierarchy sampleDecls := by
  have h1 : Hierarchy [⟨1, none, some ["a"], []⟩] :=
    .snoc (ds := []) .nil (fun _ h => (nomatch h)) (fun b h => (nomatch h))
  have h2 : Hierarchy [⟨1, none, some ["a"], []⟩, ⟨2, some 1, none, ["b"]⟩] :=
    .snoc (ds := [_]) h1 (fun d h => by rw [List.mem_singleton] at h; subst h; decide)
      (fun b h => by cases h; exact ⟨_, List.mem_singleton.mpr rfl, rfl⟩)
  exact .snoc (ds := [_, _]) h2 (fun d h => by
      simp only [List.mem_cons, List.not_mem_nil, or_false] at h
      rcases h with rfl | rfl <;> decide)
    (fun b h => by cases h; exact ⟨_, List.mem_cons_self, rfl⟩)

/-- Instance 0 of class 1, instance 1 of class 3. -/
def sampleInsts : St := { inst := fun o => if o = 0 then { cls := 1 } else { cls := 3 } }

theorem not_declares_b : ¬ Declares sampleDecls "b" 1 := by
  have : ∀ {c}, Declares sampleDecls "b" c → c = 2 := by
    intro c h
    induction h with
    | own h1 h2 h3 =>
      simp only [sampleDecls, List.mem_cons, List.not_mem_nil, or_false] at h1
      rcases h1 with rfl | rfl | rfl
      · simp only [Option.some.injEq] at h2; subst h2; simp at h3
      · cases h2
      · simp only [Option.some.injEq] at h2; subst h2; simp at h3
    | attr h1 h2 =>
      simp only [sampleDecls, List.mem_cons, List.not_mem_nil, or_false] at h1
      rcases h1 with rfl | rfl | rfl
      · cases h2
      · rfl
      · cases h2
    | up h1 h2 _ ih =>
      simp only [sampleDecls, List.mem_cons, List.not_mem_nil, or_false] at h1
      rcases h1 with rfl | rfl | rfl
      · cases h2
      · rfl
      · simp only [Option.some.injEq] at h2; subst h2; cases ih
  intro h
  cases this h

/-- **C42 is false**: an instance of class 1 accepts `b`, an event attribute of a subclass, and
an instance of class 3 refuses `a`, declared by its base class. -/
theorem c42_refuted :
    (Hierarchy sampleDecls ∧ declared 0 "b" (declare sampleDecls sampleInsts) = true ∧ ¬ Declares sampleDecls "b" 1) ∧
    (declared 1 "a" (declare sampleDecls sampleInsts) = false ∧ Declares sampleDecls "a" 3) := by
  refine ⟨⟨sampleDecls_ok, by decide +kernel, not_declares_b⟩, by decide +kernel, ?_⟩
  exact .up (d := ⟨3, some 1, some ["c"], []⟩) (b := 1) (by simp [sampleDecls]) rfl
    (.own (d := ⟨1, none, some ["a"], []⟩) (l := ["a"]) (by simp [sampleDecls]) rfl (by simp))

/-- The rule on this hierarchy. -/
example : declared 0 "b" (declare sampleDecls sampleInsts) = true ↔ "b" ∈ ([] : List Name) ∨ Carries sampleDecls 1 "b" :=
  c42_rule_partial sampleDecls_ok sampleInsts (d := ⟨1, none, some ["a"], []⟩) (by simp [sampleDecls]) rfl
    (.own (by simp [sampleDecls]) rfl) "b"

/-- All declarations in classes without bases, and one class below: `c42_roots_partial`. -/
def rootDecls : List Decl := [⟨1, none, some ["a"], ["b"]⟩, ⟨3, some 1, none, []⟩]

theorem rootDecls_ok : Hierarchy rootDecls :=
  .snoc (ds := [⟨1, none, some ["a"], ["b"]⟩]) (.snoc (ds := []) .nil (by simp) (by simp)) (by simp) (by simp)

example : declared 1 "b" (declare rootDecls sampleInsts) = true :=
  (c42_roots_partial rootDecls_ok sampleInsts (o := 1) (d := ⟨3, some 1, none, []⟩) (by simp [rootDecls]) rfl
    (by simp [rootDecls]) (by simp [rootDecls]) "b").mpr
    (.inr (.up (d := ⟨3, some 1, none, []⟩) (by simp [rootDecls]) rfl
      (.attr (d := ⟨1, none, some ["a"], ["b"]⟩) (by simp [rootDecls]) (by simp))))

end Verif.Events
