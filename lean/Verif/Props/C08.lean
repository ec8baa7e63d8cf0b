import Verif.Spec.Tree
import Verif.Lemmas.Insert
import Verif.Props.C06

/-!
# C08 Containment and location agree

In every heap reached by a history that assigns and inserts only nodes not
contained anywhere, and creates, deletes, pops, clears, detaches, swaps, reads and
invalidates at will, every child has its key as name and its container as parent.

The assignments are to classes with `Adopt`, without `Alias` (the name is then the
translated key) and without `AttributesLifecycle` (which reports failure after the
write); programs with `ChildFactory` are left out, as are insertions that fail
(they leave a child behind, see C24).
-/

namespace Verif

/-- `o[..] = v` puts in a node that exists and is contained nowhere. -/
structure Admissible (E : Env) (w : World) (o : Oid) (v : Val) : Prop where
  adopt : Bhv.adopt ∈ (clsOf E w o).bhvs
  noAlias : Bhv.alias ∉ (clsOf E w o).bhvs
  noAttributes : Bhv.attributesLifecycle ∉ (clsOf E w o).bhvs
  free : ∀ c, v = .node c → c < w.nobj ∧ ∀ p k, ¬ Contains w p k c

/-- Each assignment of an `update` is admissible when it is made. -/
def AllAdmissible (E : Env) (o : Oid) : List (Key × Val) → World → Prop
  | [], _ => True
  | (k, v) :: r, w => Admissible E w o v ∧ AllAdmissible E o r (setitem E o k v w).2

/-- The operations of the histories considered. -/
def TreeOp (E : Env) (w : World) : Op → Prop
  | .new _ _ _ | .attrs _ => True
  | .set o _ v | .setdefault o _ v => Admissible E w o v
  | .update o kvs => AllAdmissible E o kvs w
  | .insertBefore o n r =>
    Admissible E w o (.node n) ∧ ∃ x, (exec E (.insertBefore o n r) w).1 = .ok x
  | .insertAfter o n r =>
    Admissible E w o (.node n) ∧ ∃ x, (exec E (.insertAfter o n r) w).1 = .ok x
  | .insertFirst o n => Admissible E w o (.node n) ∧ ∃ x, (exec E (.insertFirst o n) w).1 = .ok x
  | .insertLast o n => Admissible E w o (.node n) ∧ ∃ x, (exec E (.insertLast o n) w).1 = .ok x
  | _ => True

/-- Histories of such operations. -/
def TreeHistory (E : Env) : List Op → World → Prop
  | [], _ => True
  | op :: rest, w => TreeOp E w op ∧ TreeHistory E rest (exec E op w).2

/-- Contained nodes exist and are located where they are contained. -/
def Tidy (w : World) : Prop := ∀ p k c, Contains w p k c → w.loc c = (k, some p) ∧ c < w.nobj

theorem contains_iff {w : World} {p c : Oid} {k : Key} :
    Contains w p k c ↔ (w.children p).get? k = some (.node c) := Iff.rfl

theorem Tidy.shrink {w w' : World} (h : Tidy w) (hs : Shrink w w') : Tidy w' := fun p k c hc => by
  obtain ⟨a, b⟩ := h p k c (hs.sub p k _ hc)
  exact ⟨(hs.loc c).trans a, by rw [hs.nobj]; exact b⟩

theorem Tidy.same {w w' : World} (h : Tidy w) (hs : Same w w') : Tidy w' := fun p k c hc => by
  rw [contains_iff, hs.children] at hc
  obtain ⟨a, b⟩ := h p k c hc
  exact ⟨(hs.loc c).trans a, by rw [hs.nobj]; exact b⟩

theorem Admissible.same {E : Env} {w w' : World} {o : Oid} {v : Val} (h : Admissible E w o v)
    (hs : Same w w') : Admissible E w' o v := by
  have hc : clsOf E w' o = clsOf E w o := congrArg E.cls (hs.obj o).cls
  refine ⟨hc ▸ h.adopt, hc ▸ h.noAlias, hc ▸ h.noAttributes, fun c hv => ?_⟩
  rw [hs.nobj]
  refine ⟨(h.free c hv).1, fun p k hx => (h.free c hv).2 p k ?_⟩
  rw [contains_iff, hs.children] at hx; exact hx

theorem noAlias_dest (al : Option Aliaser) {bs : List Bhv} (h : Bhv.alias ∉ bs) {k j : Key}
    (hd : dest al bs k = some (.child j)) : j = k := by
  induction bs with
  | nil => injection hd with hd; injection hd with hd; exact hd.symm
  | cons b r ih =>
    have hr : Bhv.alias ∉ r := fun x => h (List.mem_cons_of_mem _ x)
    cases b
    case alias => exact absurd List.mem_cons_self h
    case nodespaces =>
      cases k with
      | str s =>
        simp only [dest] at hd
        split at hd
        · cases hd
        · exact ih hr hd
      | _ => exact nomatch hd
    all_goals exact ih hr hd

/-- One assignment. -/
theorem Tidy.setitem {E : Env} {o : Oid} {k : Key} {v : Val} {w : World} (hw : WF w) (h : Tidy w)
    (ha : Admissible E w o v) : Tidy (setitem E o k v w).2 := by
  have hm := (setitem_moves E o k v w hw).2
  rcases hx : Verif.setitem E o k v w with ⟨e | u, w'⟩
  · rw [hx] at hm
    have hs := c02_set_partial E o k v hw ha.noAttributes hx
    intro p j c hc
    unfold Contains at hc
    rw [hs p] at hc
    obtain ⟨a, b⟩ := h p j c hc
    refine ⟨(hm.loc c fun e => (ha.free c e).2 p j hc).trans a, ?_⟩
    rw [hm.nobj]; exact b
  · rw [hx] at hm
    intro p j c hc
    have old : ∀ {p j c}, Contains w p j c → w'.loc c = (j, some p) ∧ c < w'.nobj := fun {p j c} hc => by
      obtain ⟨a, b⟩ := h p j c hc
      refine ⟨(hm.loc c fun e => (ha.free c e).2 p j hc).trans a, ?_⟩
      rw [hm.nobj]; exact b
    rcases c02_set_ok E o k v hw hx with ⟨i, hd, h1, h2⟩ | ⟨i, hd, h1⟩
    · have hik := noAlias_dest _ ha.noAlias hd
      subst hik
      by_cases hp : p = o
      · subst hp
        unfold Contains at hc
        rw [h1] at hc
        simp only [OMap.set] at hc
        split at hc
        · rename_i hj
          subst hj
          injection hc with hc
          subst hc
          refine ⟨(c06_adopted E p j c hw ha.adopt ha.noAlias hx).1, ?_⟩
          rw [hm.nobj]; exact (ha.free c rfl).1
        · exact old hc
      · unfold Contains at hc; rw [h2 p hp] at hc; exact old hc
    · unfold Contains at hc; rw [h1 p] at hc; exact old hc

theorem Tidy.update {E : Env} {o : Oid} {kvs : List (Key × Val)} {w : World} (hw : WF w) (h : Tidy w)
    (ha : AllAdmissible E o kvs w) : Tidy (mupdate E o kvs w).2 := by
  induction kvs generalizing w with
  | nil => exact h
  | cons a r ih =>
    obtain ⟨k, v⟩ := a
    have h1 := Tidy.setitem (k := k) hw h ha.1
    have h2 := (setitem_moves E o k v w hw).1
    have h3 := ha.2
    show Tidy ((do Verif.setitem E o k v; mupdate E o r) w).2
    simp only [M.bind_apply]
    revert h1 h2 h3
    generalize Verif.setitem E o k v w = x
    intro h1 h2 h3
    rcases x with ⟨e | u, w1⟩
    · exact h1
    · exact ih h2 h1 h3

theorem Tidy.grown {w w' : World} (h : Tidy w) {pa : Option Oid} (hn : w.nobj ≤ w'.nobj)
    (hN : NewObjs w.nobj pa w') (hl : ∀ p, p < w.nobj → w'.loc p = w.loc p)
    (hb : ∀ p, w'.children p = w.children p ∨ w'.children p = []) : Tidy w' := by
  intro p k c hc
  rw [contains_iff] at hc
  rcases hb p with e | e
  · rw [e] at hc
    obtain ⟨a, b⟩ := h p k c hc
    exact ⟨(hl c b).trans a, by omega⟩
  · rw [e] at hc; cases hc

/-- A successful insertion. -/
theorem Tidy.insertAt {E : Env} {before : Bool} {o n ref : Oid} {w : World} (hw : WF w) (h : Tidy w)
    (ha : Admissible E w o (.node n)) (hok : ∃ x, (insertAt E before o n ref w).1 = .ok x) :
    Tidy (insertAt E before o n ref w).2 := by
  obtain ⟨x, hok⟩ := hok
  rcases insertAt_cases E before o n ref w with ⟨e, he, -⟩ | ⟨e, w1, -, -, he⟩ | ⟨w1, -, hs, he⟩
  · rw [he] at hok; cases hok
  · rw [he] at hok; cases hok
  · rw [he] at hok ⊢
    have hi := (storageInsert_out E before o (w.objs ref).name (w.objs n).name (.node n) hw).1 (by rw [hs])
    rw [hs] at hi
    have hm := (setitem_moves E o (w.objs n).name (.node n) w1 hi.wf).2
    rcases hx : Verif.setitem E o (w.objs n).name (.node n) w1 with ⟨e | u, w'⟩
    · rw [hx] at hok; cases hok
    · rw [hx] at hm
      have hcls : clsOf E w1 o = clsOf E w o := congrArg E.cls (hi.cls o)
      have had := c06_adopted E o (w.objs n).name n hi.wf (hcls ▸ ha.adopt) (hcls ▸ ha.noAlias) hx
      have hchild : ∀ p j c, Contains w' p j c →
          (p = o ∧ j = (w.objs n).name ∧ c = n) ∨ Contains w p j c := by
        intro p j c hc
        have h1 : Contains w1 p j c → (p = o ∧ j = (w.objs n).name ∧ c = n) ∨ Contains w p j c := by
          intro hc
          rw [contains_iff] at hc
          by_cases hp : p = o
          · subst hp
            rw [hi.get?] at hc
            split at hc
            · rename_i hj
              injection hc with hc; injection hc with hc
              exact .inl ⟨rfl, hj, hc.symm⟩
            · exact .inr hc
          · rw [hi.other p hp] at hc; exact .inr hc
        rcases c02_set_ok E o _ _ hi.wf hx with ⟨i, hd, e1, e2⟩ | ⟨i, hd, e1⟩
        · have hik := noAlias_dest _ (hcls ▸ ha.noAlias) hd
          subst hik
          by_cases hp : p = o
          · subst hp
            unfold Contains at hc
            rw [e1] at hc
            simp only [OMap.set] at hc
            split at hc
            · rename_i hj
              injection hc with hc; injection hc with hc
              exact .inl ⟨rfl, hj, hc.symm⟩
            · exact h1 hc
          · unfold Contains at hc; rw [e2 p hp] at hc; exact h1 hc
        · unfold Contains at hc; rw [e1 p] at hc; exact h1 hc
      intro p j c hc
      have hnobj : w'.nobj = w.nobj := hm.nobj.trans hi.nobj
      rcases hchild p j c hc with ⟨rfl, rfl, rfl⟩ | hc
      · exact ⟨had.1, by rw [hnobj]; exact (ha.free c rfl).1⟩
      · obtain ⟨a, b⟩ := h p j c hc
        have hne : c ≠ n := fun e => (ha.free n rfl).2 p j (e ▸ hc)
        exact ⟨(had.2 c hne).trans ((hi.loc c).trans a), by rw [hnobj]; exact b⟩

theorem Tidy.insertEnd {E : Env} (hE : NoFactory E) {first : Bool} {o n : Oid} {w : World}
    (hw : WF w) (h : Tidy w) (ha : Admissible E w o (.node n))
    (hok : ∃ x, (insertEnd E first o n w).1 = .ok x) : Tidy (insertEnd E first o n w).2 := by
  obtain ⟨w1, hw1, hs, ⟨e, he⟩ | he | ⟨ref, he⟩⟩ := insertEnd_cases hE first o n hw
  · rw [he] at hok; obtain ⟨x, hx⟩ := hok; cases hx
  · rw [he]; exact (h.same hs).setitem hw1 (ha.same hs)
  · rw [he] at hok ⊢; exact (h.same hs).insertAt hw1 (ha.same hs) hok

theorem exec_ok {α : Type} {m : M α} {f : α → Res} {w : World} :
    (∃ x, ((do let a ← m; pure (f a) : M Res) w).1 = .ok x) → ∃ x, (m w).1 = .ok x := by
  rintro ⟨x, hx⟩
  simp only [M.bind_apply] at hx
  rcases h : m w with ⟨e | a, w'⟩
  · rw [h] at hx; cases hx
  · exact ⟨a, rfl⟩

theorem exec_snd {α : Type} (m : M α) (f : α → Res) (w : World) :
    ((do let a ← m; pure (f a) : M Res) w).2 = (m w).2 := by
  simp only [M.bind_apply]
  rcases m w with ⟨e | a, w'⟩ <;> rfl

/-- One operation. -/
theorem Tidy.exec {E : Env} (hE : NoFactory E) {op : Op} {w : World} (hw : WF w) (h : Tidy w)
    (ha : TreeOp E w op) : Tidy (exec E op w).2 := by
  have rem : op.removes = true → Tidy (Verif.exec E op w).2 := fun hr =>
    h.shrink ((shrink_prims hE).exec hr w hw).2
  cases op
  case new c name parent =>
    obtain ⟨-, b2, b3, -⟩ := newNode_builds E c name parent hw
    have := h.grown b3.nobj b2 b3.loc b3.beyond
    rwa [← exec_snd (newNode E c name parent) (fun o => .val (.node o))] at this
  case attrs o =>
    obtain ⟨-, b2, b3, -, b5, -, b7⟩ := attrs_builds E o hw
    have := h.grown b3 b2 b5 b7
    rwa [← exec_snd (attrs E o) (fun a => .val (.node a))] at this
  case set o k v =>
    have := h.setitem (k := k) hw ha
    rwa [← exec_snd (Verif.setitem E o k v) (fun _ => .unit)] at this
  case setdefault o k v =>
    have hx : Tidy (msetdefault E o k v w).2 := by
      unfold msetdefault
      simp only [M.catchIf_apply]
      have hg := getitem_quiet hE o k w
      rcases hy : getitem E o k w with ⟨e | x, w1⟩
      · rw [hy] at hg
        obtain ⟨hw1, hs⟩ := hg hw
        simp only
        split
        · have := (h.same hs).setitem (k := k) hw1 (Admissible.same ha hs)
          simp only [M.bind_apply]
          revert this
          generalize Verif.setitem E o k v w1 = y
          rcases y with ⟨e | a, w2⟩ <;> exact id
        · exact h.same hs
      · rw [hy] at hg
        exact h.same (hg hw).2
    rwa [← exec_snd (msetdefault E o k v) (fun x => .val x)] at hx
  case update o kvs =>
    have := h.update hw ha
    rwa [← exec_snd (mupdate E o kvs) (fun _ => .unit)] at this
  case insertBefore o n r =>
    have := h.insertAt hw ha.1 (exec_ok (f := fun _ => .unit) ha.2)
    rwa [← exec_snd (Verif.insertAt E true o n r) (fun _ => .unit)] at this
  case insertAfter o n r =>
    have := h.insertAt hw ha.1 (exec_ok (f := fun _ => .unit) ha.2)
    rwa [← exec_snd (Verif.insertAt E false o n r) (fun _ => .unit)] at this
  case insertFirst o n =>
    have := h.insertEnd hE hw ha.1 (exec_ok (f := fun _ => .unit) ha.2)
    rwa [← exec_snd (Verif.insertEnd E true o n) (fun _ => .unit)] at this
  case insertLast o n =>
    have := h.insertEnd hE hw ha.1 (exec_ok (f := fun _ => .unit) ha.2)
    rwa [← exec_snd (Verif.insertEnd E false o n) (fun _ => .unit)] at this
  all_goals exact rem rfl

theorem Tidy.execAll {E : Env} (hE : NoFactory E) (ops : List Op) {w : World} (hw : WF w)
    (h : Tidy w) (ha : TreeHistory E ops w) : Tidy (execAll E ops w).2 := by
  induction ops generalizing w with
  | nil => exact h
  | cons op r ih =>
    exact ih ((grow_exec E op w).wf hw) (h.exec hE hw ha.1) ha.2

/-- C08: after every history of tree operations, whatever raised in between, every
child has its key as name and its container as parent. -/
theorem c08_located_partial {E : Env} (hE : NoFactory E) (ops : List Op) (h : TreeHistory E ops {}) :
    Located (execAll E ops {}).2 := fun p k c hc =>
  (Tidy.execAll hE ops WF.empty (fun _ _ _ h => nomatch h) h p k c hc).1

/-- Consequently no node has two places in such a heap. -/
theorem c08_one_place_partial {E : Env} (hE : NoFactory E) (ops : List Op)
    (h : TreeHistory E ops {}) {p q c : Oid} {j k : Key}
    (h1 : Contains (execAll E ops {}).2 p j c) (h2 : Contains (execAll E ops {}).2 q k c) :
    p = q ∧ j = k := by
  have e := (c08_located_partial hE ops h p j c h1).symm.trans (c08_located_partial hE ops h q k c h2)
  simp only [Prod.mk.injEq, Option.some.injEq] at e
  exact ⟨e.2, e.1⟩

/-! ### Instances -/

theorem treeHistory_append {E : Env} (ops : List Op) (op : Op) {w : World} :
    TreeHistory E (ops ++ [op]) w ↔ TreeHistory E ops w ∧ TreeOp E (execAll E ops w).2 op := by
  induction ops generalizing w with
  | nil => simp [TreeHistory, execAll]
  | cons a r ih => simp only [List.cons_append, TreeHistory, ih, and_assoc, execAll]

/-- In such heaps a node without parent can be put anywhere. -/
theorem admissible_parentless {E : Env} (hE : NoFactory E) {ops : List Op} (h : TreeHistory E ops {})
    {o c : Oid} (ha : Bhv.adopt ∈ (clsOf E (after E ops) o).bhvs)
    (hn : Bhv.alias ∉ (clsOf E (after E ops) o).bhvs)
    (hl : Bhv.attributesLifecycle ∉ (clsOf E (after E ops) o).bhvs)
    (hc : c < (after E ops).nobj) (hp : ((after E ops).loc c).2 = none) :
    Admissible E (after E ops) o (.node c) :=
  ⟨ha, hn, hl, fun x hx => by
    injection hx with hx
    subst hx
    refine ⟨hc, fun p k hk => ?_⟩
    have := c08_located_partial hE ops h p k c hk
    rw [show World.loc (execAll E ops {}).2 c = (after E ops).loc c from rfl] at this
    rw [this] at hp; cases hp⟩

/-- Three full nodes below each other, the lowest deleted again, a fourth inserted
before the second, and the second detached. -/
def c08Ops : List Op :=
  [.new 2 (.str ['r']) none, .new 2 .none none, .new 2 .none none, .new 2 kc none,
   .set 1 kb (.node 2), .set 0 ka (.node 1), .del 1 kb, .insertBefore 0 3 1, .attrs 3]

theorem c08Ops_history : TreeHistory sampleEnv c08Ops {} := by
  have h4 : TreeHistory sampleEnv [.new 2 (.str ['r']) none, .new 2 .none none, .new 2 .none none,
      .new 2 kc none] {} := ⟨trivial, trivial, trivial, trivial, trivial⟩
  have h5 : TreeHistory sampleEnv [.new 2 (.str ['r']) none, .new 2 .none none, .new 2 .none none,
      .new 2 kc none, .set 1 kb (.node 2)] {} := by
    refine (treeHistory_append [_, _, _, _] _).mpr ⟨h4, ?_⟩
    exact admissible_parentless sample_noFactory h4 (by decide) (by decide) (by decide)
      (by decide) (by decide)
  have h6 : TreeHistory sampleEnv [.new 2 (.str ['r']) none, .new 2 .none none, .new 2 .none none,
      .new 2 kc none, .set 1 kb (.node 2), .set 0 ka (.node 1)] {} := by
    refine (treeHistory_append [_, _, _, _, _] _).mpr ⟨h5, ?_⟩
    exact admissible_parentless sample_noFactory h5 (by decide) (by decide) (by decide)
      (by decide +kernel) (by decide +kernel)
  have h7 : TreeHistory sampleEnv [.new 2 (.str ['r']) none, .new 2 .none none, .new 2 .none none,
      .new 2 kc none, .set 1 kb (.node 2), .set 0 ka (.node 1), .del 1 kb] {} :=
    (treeHistory_append [_, _, _, _, _, _] _).mpr ⟨h6, trivial⟩
  have h8 : TreeHistory sampleEnv [.new 2 (.str ['r']) none, .new 2 .none none, .new 2 .none none,
      .new 2 kc none, .set 1 kb (.node 2), .set 0 ka (.node 1), .del 1 kb, .insertBefore 0 3 1] {} := by
    refine (treeHistory_append [_, _, _, _, _, _, _] _).mpr ⟨h7, ?_, ?_⟩
    · exact admissible_parentless sample_noFactory h7 (by decide) (by decide) (by decide)
        (by decide +kernel) (by decide +kernel)
    · exact ⟨.unit, rfl⟩
  exact (treeHistory_append [_, _, _, _, _, _, _, _] _).mpr ⟨h8, trivial⟩

example : Located (after sampleEnv c08Ops) ∧ ((after sampleEnv c08Ops).omap 0).keys = [kc, ka] :=
  ⟨c08_located_partial sample_noFactory c08Ops c08Ops_history, rfl⟩

/-- The full statement is false: inserting a node named by a number into a `Node`
fails after the storage was written, and the node stays there without parent. -/
theorem c08_refuted : ∃ ops, ¬ Located (after sampleEnv ops) ∧
    (execAll sampleEnv ops {}).1.getLast? = some (.error .attr) :=
  ⟨[.new 2 .none none, .new 2 .none none, .new 2 (.int 5) none, .set 0 ka (.node 1),
    .insertBefore 0 2 1], fun h => by
      have := h 0 (.int 5) 2 rfl
      exact absurd this (by decide +kernel), by decide +kernel⟩

end Verif
