import Verif.Lemmas.FixedNew
import Verif.Sample

/-!
# C73: constructors put nodes in place

`Class(name=..., parent=...)` gives a node with this name and this parent, for every class that takes
them (`c73_located_partial`).  False in general: classes without `DefaultInit` refuse the arguments, and
so does every class with `Events`, whose `__new__` passes them to `object.__new__`
(`c73_refuted_init`, `c73_refuted_events`).
-/

namespace Verif

variable {E : Env}

/-- C73, what is true of it: calling a class that takes a location yields a new node with exactly this
name and this parent, without children and with the class called; no node that was there changes its
children, class, name or parent. -/
theorem c73_located_partial (hE : 0 < E.depth) {c : ClassId} (hl : (E.cls c).Located)
    (hx : Bhv.fixedChildren ∉ (E.cls c).bhvs) {w : World} (hw : WF w) (name : Key) (parent : Option Oid) :
    ∃ o w', exec E (.new c name parent) w = (.ok (.val (.node o)), w') ∧ w.nobj ≤ o ∧ o < w'.nobj ∧
      (w'.objs o).name = name ∧ (w'.objs o).parent = parent ∧ (w'.omap o).keys = [] ∧ (w'.objs o).cls = c ∧
      ∀ p, p < w.nobj → w'.omap p = w.omap p ∧ w'.loc p = w.loc p ∧ (w'.objs p).cls = (w.objs p).cls := by
  obtain ⟨w', h1, h2⟩ := newNode_tree (name := name) (parent := parent) hE (.inr hl) hx hw
  have h3 := h2.loc hl.1
  refine ⟨w.nobj, w', by simp only [exec, M.bind_apply, h1, M.pure_apply], Nat.le_refl _, h2.lt,
    congrArg Prod.fst h3, congrArg Prod.snd h3, ?_, h2.cls, fun p hp => ?_⟩
  · show (w'.children w.nobj).keys = []
    rw [h2.empty]; rfl
  · have := h2.old p hp
    exact ⟨this.omap, this.loc, this.cls⟩

/-- The same for classes with `FixedChildren` whose declarations are not circular: the new node has its
location, and under every declared key a child of the declared class, located there; these children are
new as well. -/
theorem c73_fixed_partial {rank : ClassId → Nat} (hr : FixedRank E rank) {c : ClassId} (hn : rank c < E.depth)
    (hl : (E.cls c).Located) (hx : Bhv.fixedChildren ∈ (E.cls c).bhvs)
    (hk : ((E.cls c).fixed.map Prod.fst).Nodup) {w : World} (hw : WF w) (name : Key) (parent : Option Oid) :
    ∃ o w', exec E (.new c name parent) w = (.ok (.val (.node o)), w') ∧ w.nobj ≤ o ∧ o < w'.nobj ∧
      (w'.objs o).name = name ∧ (w'.objs o).parent = parent ∧ (w'.objs o).cls = c ∧
      (w'.objs o).fixed.keys = (E.cls c).fixed.map Prod.fst ∧
      (∀ k d, (k, d) ∈ (E.cls c).fixed → ∃ x, (k, Val.node x) ∈ (w'.objs o).fixed ∧ o < x ∧ x < w'.nobj ∧
        (w'.objs x).name = k ∧ (w'.objs x).parent = some o ∧ (w'.objs x).cls = d) ∧
      ∀ p, p < w.nobj → w'.omap p = w.omap p ∧ w'.loc p = w.loc p ∧ (w'.objs p).cls = (w.objs p).cls := by
  obtain ⟨w', h1⟩ := newNode_runs hr hn (.inr hl : (E.cls c).Accepts name parent) w
  obtain ⟨-, h2, h3⟩ := newNode_constructed hw h1 fun _ => hk
  obtain ⟨b1, -, b3, b4⟩ := newNode_builds E c name parent hw
  rw [h1] at b1 b3 b4
  have h4 := h3.loc hl.1
  have hcl : ((alloc c w).2.objs w.nobj).cls = c := by simp [alloc]
  obtain ⟨h5, h6⟩ := h3.fixed hx (by rw [hcl]; exact hk)
  rw [hcl] at h5
  have all : ∀ {l : List (Key × ClassId)} {t : Od Key Val}, FixedAs w' w.nobj l t → t.keys = l.map Prod.fst ∧
      ∀ k d, (k, d) ∈ l → ∃ x, (k, Val.node x) ∈ t ∧ w'.loc x = (k, some w.nobj) ∧ (w'.objs x).cls = d := by
    intro l t h
    induction h with
    | nil => exact ⟨rfl, fun _ _ h => nomatch h⟩
    | cons e1 e2 _ ih =>
      refine ⟨by simp only [Od.keys, List.map_cons, List.cons.injEq, true_and] at ih ⊢; exact ih.1, fun k d hm => ?_⟩
      rcases List.mem_cons.mp hm with e | hm
      · cases e; exact ⟨_, List.mem_cons_self, e1, e2⟩
      · obtain ⟨x, hx, h⟩ := ih.2 k d hm
        exact ⟨x, List.mem_cons_of_mem _ hx, h⟩
  refine ⟨w.nobj, w', by simp only [exec, M.bind_apply, h1, M.pure_apply], Nat.le_refl _, (b4 _ rfl).2,
    congrArg Prod.fst h4, congrArg Prod.snd h4, h2, (all h5).1, fun k d hm => ?_, fun p hp =>
      ⟨(⟨b3.children p hp, by rw [b3.nsview p hp], b3.cls p hp, b3.loc p hp⟩ : Agree w w' p).omap, b3.loc p hp,
        b3.cls p hp⟩⟩
  obtain ⟨x, e1, e2, e3⟩ := (all h5).2 k d hm
  obtain ⟨f1, f2⟩ := h6 k x e1
  exact ⟨x, e1, f1, f2, congrArg Prod.fst e2, congrArg Prod.snd e2, e3⟩

/-- Exactly the classes that take a location can be called with one; the others refuse with `TypeError`,
and nothing happens. -/
theorem c73_refuses {c : ClassId} (hl : ¬ (E.cls c).Located) {name : Key} {parent : Option Oid}
    (ha : name ≠ .none ∨ parent ≠ none) (w : World) : exec E (.new c name parent) w = (.error .type, w) := by
  have h : ¬ (E.cls c).Accepts name parent := by
    rintro (⟨h1, h2⟩ | h)
    · exact ha.elim (· h1) (· h2)
    · exact hl h
  simp only [exec, M.bind_apply, newNode_refuses h]
  rfl

/-- A node class with `Events`. -/
def eventsEnv : Env where
  cls _ := { bhvs := [.events, .nodeChildValidate, .adopt, .defaultInit, .nodify, .odictStorage] }

/-- C73 is false: a class without `DefaultInit` (such as `AbstractNode`) cannot be called with a name. -/
theorem c73_refuted_init : exec sampleEnv (.new 4 ka none) {} = (.error .type, {}) ∧
    (exec sampleEnv (.new 4 .none none) {}).1 = .ok (.val (.node 0)) :=
  ⟨c73_refuses (by decide) (.inl (by decide)) _, by decide +kernel⟩

/-- C73 is false: a class with `Events` cannot be called with a name although it has `DefaultInit`. -/
theorem c73_refuted_events : Bhv.defaultInit ∈ (eventsEnv.cls 0).bhvs ∧
    exec eventsEnv (.new 0 ka none) {} = (.error .type, {}) ∧
    (exec eventsEnv (.new 0 .none none) {}).1 = .ok (.val (.node 0)) :=
  ⟨by decide, c73_refuses (by decide) (.inl (by decide)) _, by decide +kernel⟩

/-- A second node with the first as parent. -/
example : ∃ o w', exec sampleEnv (.new 2 kb (some 0)) (after sampleEnv [.new 1 ka none]) = (.ok (.val (.node o)), w') ∧
    (w'.objs o).name = kb ∧ (w'.objs o).parent = some 0 ∧ w'.loc 0 = (ka, none) := by
  obtain ⟨o, w', h1, -, -, h2, h3, -, -, h4⟩ := c73_located_partial (E := sampleEnv) (c := 2) (by decide) (by decide) (by decide)
    (reachable_after sampleEnv [.new 1 ka none]).wf kb (some 0)
  exact ⟨o, w', h1, h2, h3, (h4 0 (by decide +kernel)).2.1.trans (by decide +kernel)⟩

/-- A class with fixed children that have fixed children, behind `Reference`. -/
def nestedEnv : Env where
  cls c := match c with
    | 0 => { bhvs := [.uuidAware, .reference, .fixedChildren, .defaultInit, .nodify, .odictStorage]
             fixed := [(ka, 1), (kb, 1), (kc, 2)] }
    | 1 => { bhvs := [.reference, .fixedChildren, .defaultInit, .nodify], fixed := [(kb, 2)] }
    | _ => { bhvs := [.reference, .defaultInit, .nodify, .odictStorage] }

/-- Its constructor succeeds in every state. -/
example (w : World) (hw : WF w) : ∃ o w', exec nestedEnv (.new 0 ka none) w = (.ok (.val (.node o)), w') ∧
    (w'.objs o).name = ka ∧ ∃ x, (kb, Val.node x) ∈ (w'.objs o).fixed ∧ (w'.objs x).parent = some o := by
  have hr : FixedRank nestedEnv (fun c => 2 - c) := by
    intro c hc kc hm
    match c with
    | 0 => revert hm; revert kc; decide
    | 1 => revert hm; revert kc; decide
    | n + 2 => exact absurd hc (show Bhv.fixedChildren ∉ [Bhv.reference, .defaultInit, .nodify, .odictStorage] by decide)
  obtain ⟨o, w', h1, -, -, h2, -, -, -, h3, -⟩ := c73_fixed_partial hr (c := 0) (by decide) (by decide) (by decide)
    (by decide) hw ka none
  obtain ⟨x, h4, -, -, -, h5, -⟩ := h3 kb 1 (by decide)
  exact ⟨o, w', h1, h2, x, h4, h5⟩

end Verif
