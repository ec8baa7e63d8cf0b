import Verif.Lemmas.Chain

/-! Trees as seen from containment. -/

namespace Verif

variable {w : World}

theorem InTree.refl (o : Oid) : InTree w o o := ⟨[], .root⟩

theorem InTree.child {a p c : Oid} {k : Key} (h : InTree w a p) (hc : Contains w p k c) :
    InTree w a c := by
  obtain ⟨ks, h⟩ := h
  exact ⟨_, .child h hc⟩

theorem InTree.cases {a x : Oid} (h : InTree w a x) :
    x = a ∨ ∃ p k, InTree w a p ∧ Contains w p k x := by
  obtain ⟨ks, h⟩ := h
  cases h with
  | root => exact .inl rfl
  | child h hc => exact .inr ⟨_, _, ⟨_, h⟩, hc⟩

theorem InTree.induct {a : Oid} {P : Oid → Prop} (h0 : P a)
    (h1 : ∀ p k c, InTree w a p → Contains w p k c → P p → P c) {x : Oid} (h : InTree w a x) : P x := by
  obtain ⟨ks, h⟩ := h
  induction h with
  | root => exact h0
  | child h hc ih => exact h1 _ _ _ ⟨_, h⟩ hc ih

theorem Below.append {a b c : Oid} {ks js : List Key} (h : Below w a ks b) (h' : Below w b js c) :
    Below w a (ks ++ js) c := by
  induction h' with
  | root => rw [List.append_nil]; exact h
  | child _ hc ih => rw [← List.append_assoc]; exact .child ih hc

theorem InTree.trans {a b c : Oid} (h : InTree w a b) (h' : InTree w b c) : InTree w a c := by
  obtain ⟨ks, h⟩ := h
  obtain ⟨js, h'⟩ := h'
  exact ⟨_, h.append h'⟩

/-- The first step down. -/
theorem InTree.down {a x : Oid} (h : InTree w a x) :
    x = a ∨ ∃ k c, Contains w a k c ∧ InTree w c x := by
  refine h.induct (P := fun x => x = a ∨ ∃ k c, Contains w a k c ∧ InTree w c x) (.inl rfl)
    fun p k c _ hc ih => .inr ?_
  rcases ih with rfl | ⟨j, d, h1, h2⟩
  · exact ⟨k, c, hc, .refl c⟩
  · exact ⟨j, d, h1, h2.child hc⟩

/-- Two trees that share a node are nested. -/
theorem InTree.meet (hs : Sole w) {a b x : Oid} (h : InTree w a x) (h' : InTree w b x) :
    InTree w a b ∨ InTree w b a := by
  revert h'
  refine h.induct (P := fun x => InTree w b x → _) (fun h' => .inr h') fun p k c hp hc ih h' => ?_
  rcases h'.cases with rfl | ⟨q, j, hq, hc'⟩
  · exact .inl (hp.child hc)
  · obtain ⟨rfl, -⟩ := hs _ _ _ _ _ hc hc'
    exact ih hq

/-- The way from a root to a node is unique. -/
theorem Below.unique (hs : Sole w) {a x : Oid} (ha : ∀ p k, ¬ Contains w p k a) {ks js : List Key}
    (h : Below w a ks x) (h' : Below w a js x) : ks = js := by
  induction h generalizing js with
  | root =>
    cases h' with
    | root => rfl
    | child _ hc => exact absurd hc (ha _ _)
  | child _ hc ih =>
    cases h' with
    | root => exact absurd hc (ha _ _)
    | child h2 hc' =>
      obtain ⟨rfl, rfl⟩ := hs _ _ _ _ _ hc hc'
      rw [ih h2]

/-- There are no cycles below a root. -/
theorem InTree.acyclic (hs : Sole w) {a p c : Oid} {k : Key} (ha : ∀ p k, ¬ Contains w p k a)
    (hp : InTree w a p) (hc : Contains w p k c) (h : InTree w c p) : False := by
  obtain ⟨ks, hp⟩ := hp
  obtain ⟨js, h⟩ := h
  have := congrArg List.length (hp.unique hs ha ((hp.child hc).append h))
  simp at this

theorem InTree.antisymm (hs : Sole w) {a x y : Oid} (ha : ∀ p k, ¬ Contains w p k a)
    (hx : InTree w a x) (h : InTree w x y) (h' : InTree w y x) : x = y := by
  rcases h'.cases with e | ⟨p, k, h1, h2⟩
  · exact e
  · exact ((hx.trans (h.trans h1)).acyclic hs ha h2 (h.trans h1)).elim

/-- Different children have disjoint trees. -/
theorem InTree.siblings (hs : Sole w) {a p c d x : Oid} {k j : Key} (ha : ∀ p k, ¬ Contains w p k a)
    (hp : InTree w a p) (hc : Contains w p k c) (hd : Contains w p j d) (h : InTree w c x)
    (h' : InTree w d x) : c = d := by
  have key : ∀ {c d k j}, Contains w p k c → Contains w p j d → InTree w c d → c = d := by
    intro c d k j hc hd h
    rcases h.cases with e | ⟨q, i, h1, h2⟩
    · exact e.symm
    · obtain ⟨rfl, -⟩ := hs _ _ _ _ _ h2 hd
      exact (hp.acyclic hs ha hc h1).elim
  rcases h.meet hs h' with h | h
  · exact key hc hd h
  · exact (key hd hc h).symm

/-- Trees are not deeper than there are nodes. -/
theorem Below.length (hs : Sole w) {a x : Oid} (ha : ∀ p k, ¬ Contains w p k a) (hl : a < w.nobj)
    (hb : ∀ p k c, Contains w p k c → c < w.nobj) {ks : List Key} (h : Below w a ks x) :
    ks.length < w.nobj := by
  have key : ∃ l : List Oid, l.Nodup ∧ l.length = ks.length + 1 ∧
      ∀ y ∈ l, y < w.nobj ∧ ∃ js, Below w a js y ∧ js.length ≤ ks.length := by
    induction h with
    | root =>
      refine ⟨[a], by simp, rfl, fun y hy => ?_⟩
      rw [List.mem_singleton.mp hy]
      exact ⟨hl, [], .root, Nat.le_refl _⟩
    | @child ks p c k h hc ih =>
      obtain ⟨l, h1, h2, h3⟩ := ih
      refine ⟨c :: l, List.nodup_cons.mpr ⟨fun hm => ?_, h1⟩, by simp [h2], fun y hy => ?_⟩
      · obtain ⟨-, js, h4, h5⟩ := h3 c hm
        have := congrArg List.length (h4.unique hs ha (h.child hc))
        simp at this
        omega
      · rcases List.mem_cons.mp hy with rfl | hy
        · exact ⟨hb _ _ _ hc, _, .child h hc, Nat.le_refl _⟩
        · obtain ⟨h4, js, h5, h6⟩ := h3 y hy
          exact ⟨h4, js, h5, by simp; omega⟩
  obtain ⟨l, h1, h2, h3⟩ := key
  have := nodup_length_le h1 fun y hy => (h3 y hy).1
  omega

theorem InTree.congr {w' : World} (h : ∀ p k c, Contains w' p k c ↔ Contains w p k c) {a x : Oid} :
    InTree w' a x ↔ InTree w a x := by
  constructor
  · exact fun hx => hx.induct (.refl a) fun p k c _ hc ih => ih.child ((h p k c).mp hc)
  · exact fun hx => hx.induct (.refl a) fun p k c _ hc ih => ih.child ((h p k c).mpr hc)

/-- After adding a node without children. -/
theorem InTree.added {w' : World} {o n : Oid} {k : Key}
    (h : ∀ p j c, Contains w' p j c ↔ Contains w p j c ∨ p = o ∧ j = k ∧ c = n)
    (hn : ∀ j c, ¬ Contains w n j c) (hon : o ≠ n) (hnot : ∀ p j, ¬ Contains w p j n) {a x : Oid}
    (han : a ≠ n) : InTree w' a x ↔ InTree w a x ∨ x = n ∧ InTree w a o := by
  constructor
  · intro hx
    refine hx.induct (P := fun x => InTree w a x ∨ x = n ∧ InTree w a o) (.inl (.refl a))
      fun p j c _ hc ih => ?_
    rcases ih with ih | ⟨rfl, -⟩
    · rcases (h p j c).mp hc with hc | ⟨rfl, rfl, rfl⟩
      · exact .inl (ih.child hc)
      · exact .inr ⟨rfl, ih⟩
    · rcases (h _ _ _).mp hc with hc | ⟨e, -⟩
      · exact (hn _ _ hc).elim
      · exact (hon e.symm).elim
  · have mono : ∀ {x}, InTree w a x → InTree w' a x := fun hx =>
      hx.induct (.refl a) fun p j c _ hc ih => ih.child ((h p j c).mpr (.inl hc))
    rintro (hx | ⟨rfl, ho⟩)
    · exact mono hx
    · exact (mono ho).child ((h _ _ _).mpr (.inr ⟨rfl, rfl, rfl⟩))

/-- After taking a child away. -/
theorem InTree.removed {w' : World} (hs : Sole w) {o n : Oid} {k : Key} (hc : Contains w o k n)
    (h : ∀ p j c, Contains w' p j c ↔ Contains w p j c ∧ ¬ (p = o ∧ j = k)) {a x : Oid}
    (ha : ∀ p k, ¬ Contains w p k a) (hao : InTree w a o) :
    InTree w' a x ↔ InTree w a x ∧ ¬ InTree w n x := by
  constructor
  · intro hx
    refine hx.induct (P := fun x => InTree w a x ∧ ¬ InTree w n x) ⟨.refl a, fun hn => ?_⟩
      fun p j c _ hc' ih => ?_
    · rcases hn.cases with rfl | ⟨p, j, -, h'⟩
      · exact ha _ _ hc
      · exact ha _ _ h'
    · obtain ⟨h1, h2⟩ := (h p j c).mp hc'
      refine ⟨ih.1.child h1, fun hn => ?_⟩
      rcases hn.cases with rfl | ⟨p', j', h3, h4⟩
      · obtain ⟨rfl, rfl⟩ := hs _ _ _ _ _ h1 hc
        exact h2 ⟨rfl, rfl⟩
      · obtain ⟨rfl, -⟩ := hs _ _ _ _ _ h1 h4
        exact ih.2 h3
  · rintro ⟨hx, hn⟩
    revert hn
    refine hx.induct (P := fun x => ¬ InTree w n x → InTree w' a x) (fun _ => .refl a)
      fun p j c hp hc' ih hn => ?_
    have hp' : ¬ InTree w n p := fun h' => hn (h'.child hc')
    refine (ih hp').child ((h p j c).mpr ⟨hc', ?_⟩)
    rintro ⟨rfl, rfl⟩
    unfold Contains at hc hc'
    rw [hc] at hc'
    cases hc'
    exact hn (.refl n)

/-- The tree taken away stays what it was. -/
theorem InTree.rest {w' : World} {o : Oid} {k : Key}
    (h : ∀ p j c, Contains w' p j c ↔ Contains w p j c ∧ ¬ (p = o ∧ j = k)) {b x : Oid}
    (hb : ¬ InTree w b o) :
    InTree w' b x ↔ InTree w b x := by
  constructor
  · exact fun hx => hx.induct (.refl b) fun p j c _ hc' ih => ih.child ((h p j c).mp hc').1
  · refine fun hx => hx.induct (.refl b) fun p j c hp hc' ih => ih.child ((h p j c).mpr ⟨hc', ?_⟩)
    rintro ⟨rfl, -⟩
    exact hb hp

end Verif
