import Verif.Model.TestTree
import Verif.Props.C06
import Verif.Props.C83
import Verif.Lemmas.NewNode
import Verif.Lemmas.Construct
import Verif.Lemmas.Shape
import Verif.Lemmas.PassThrough
import Verif.Sample

/-!
# C87: create_tree

Whatever the composition of the class: a call that returns has made a tree of ten new nodes, three
children with two children each, in order and located if the class adopts; all other nodes stay as
they are.
-/

namespace Verif

/-! ### Specification -/

/-- `p` has exactly the children `l`, in this order, under the keys `kf 0`, `kf 1`, … -/
def Kids (w : World) (p : Oid) (kf : Nat → Key) (l : List Oid) : Prop :=
  w.children p = l.mapIdx fun i n => (kf i, Val.node n)

/-- The nodes of a tree of depth two, in document order. -/
def flatten (r : Oid) (l : List (Oid × List Oid)) : List Oid := r :: l.flatMap fun e => e.1 :: e.2

/-- `c` is the child of `p` under `k`. -/
def AtHome (w : World) (p : Oid) (kf : Nat → Key) (l : List Oid) : Prop :=
  ∀ (i : Nat) (n : Oid), l[i]? = some n → w.loc n = (kf i, some p)

variable {E : Env} {c : ClassId}

/-! ### Steps -/

theorem shown_old {w w' : World} {n : Nat} (h : OldSame n w w') {p : Oid} (hp : p < n) (k : Key) :
    w'.shown E p k = w.shown E p k := by
  have hc : clsOf E w' p = clsOf E w p := by unfold clsOf; rw [h.cls p hp]
  have hb : ∀ bs k, w'.shownBy E p bs k = w.shownBy E p bs k := by
    intro bs
    induction bs with
    | nil =>
      intro k
      show w'.stored E p k = w.stored E p k
      unfold World.stored
      rw [hc, h.fixed p hp, h.children p hp]
    | cons b r ih =>
      intro k
      cases b <;> simp only [World.shownBy, ih, hc, h.cached p hp, h.nsview p hp]
  unfold World.shown
  rw [hc, hb]

/-- Calling the class. -/
theorem new_step {w w' : World} {n : Oid} (hw : WF w) (h : newNode E c .none none w = (.ok n, w')) :
    n = w.nobj ∧ n < w'.nobj ∧ w'.children n = [] ∧ (w'.objs n).cls = c ∧ WF w' ∧ OldSame w.nobj w w' := by
  obtain ⟨h1, h2, h3, h4⟩ := newNode_builds E c .none none hw
  rw [h] at h1 h2 h3 h4
  obtain ⟨rfl, h5⟩ := h4 n rfl
  refine ⟨rfl, h5, (h2 _ (Nat.le_refl _) h5).1, ?_, h1, h3⟩
  have h := newNode_ok h
  cases hd : E.depth with
  | zero => rw [hd] at h; cases h
  | succ m =>
    rw [hd] at h
    have g := (newNodeN_split E m c .none none h).2
    have := (grow_initPipe E (fun c' => grow_newNodeN E m c' .none none) (E.cls c).bhvs (E.cls c).bhvs w.nobj
      .none none (alloc c w).2).cls w.nobj (Nat.lt_succ_self _)
    rw [g] at this
    refine this.trans ?_
    simp [alloc]

theorem childName_dest (al : Option Aliaser) {bs : List Bhv} (ha : Bhv.alias ∉ bs) {k : Key}
    (hk : ∃ s, k = .str s ∧ ¬ Reserved s) : dest al bs k = some (.child k) := by
  obtain ⟨s, rfl, hs⟩ := hk
  induction bs with
  | nil => rfl
  | cons b r ih =>
    have ih := ih fun x => ha (List.mem_cons_of_mem _ x)
    cases b
    case alias => exact absurd List.mem_cons_self ha
    case nodespaces => simp only [dest, if_neg hs]; exact ih
    all_goals exact ih

/-- Assigning the new node. -/
theorem set_step {w w' : World} {o n : Oid} {k : Key} (hw : WF w) (ha : Bhv.alias ∉ (clsOf E w o).bhvs)
    (hk : ∃ s, k = .str s ∧ ¬ Reserved s) (h : setitem E o k (.node n) w = (.ok (), w')) :
    WF w' ∧ w'.nobj = w.nobj ∧ (∀ p, (w'.objs p).cls = (w.objs p).cls) ∧
    (∀ p, w'.children p = if p = o then (w.children o).set k (.node n) else w.children p) ∧
    (Bhv.adopt ∈ (clsOf E w o).bhvs → w'.loc n = (k, some o)) ∧
    (∀ p, p ≠ n → w'.loc p = w.loc p) ∧ w'.shown E o k = some (.node n) ∧
    ∀ p j, p ≠ o → w'.shown E p j = w.shown E p j := by
  have i := wrote_setitem hw h
  have s := setitem_out E o k (.node n) hw
  rw [h] at s
  have d : ChildSet w w' o (.node n) (dest (clsOf E w o).aliaser (clsOf E w o).bhvs k) := s.ok rfl
  rw [childName_dest _ ha hk] at d
  refine ⟨i.wf, i.nobj, i.cls, d, fun had => (c06_adopted E o k n hw had ha h).1, fun p hp => ?_,
    (c83_shown hw h).2, fun p j hp => c83_others hw h hp j⟩
  have := c06_any_stack E o k (.node n) hw h p
  split at this
  · rw [if_neg (fun e => hp (by injection e with e; exact e.symm))] at this
    exact this
  · exact this

theorem child_plain (i : Nat) : ∃ s, childName i = .str s ∧ ¬ Reserved s :=
  ⟨_, rfl, fun h => by
    obtain ⟨⟨t, ht⟩, -⟩ := h
    simp at ht⟩

theorem subchild_plain (i : Nat) : ∃ s, subchildName i = .str s ∧ ¬ Reserved s :=
  ⟨_, rfl, fun h => by
    obtain ⟨⟨t, ht⟩, -⟩ := h
    simp at ht⟩

/-- The inner loop, `ys` being made so far. -/
structure Inner (E : Env) (c : ClassId) (w1 : World) (r x : Oid) (k : Key) (ys : List Oid) (w : World) : Prop where
  wf : WF w
  nobj : w1.nobj ≤ w.nobj
  children : ∀ p, p < w1.nobj → p ≠ x → w.children p = w1.children p
  loc : ∀ p, p < w1.nobj → w.loc p = w1.loc p
  cls : ∀ p, p < w1.nobj → (w.objs p).cls = (w1.objs p).cls
  kids : Kids w x subchildName ys
  leaf : ∀ y ∈ ys, w1.nobj ≤ y ∧ y < w.nobj ∧ w.children y = [] ∧ (w.objs y).cls = c
  home : Bhv.adopt ∈ (E.cls c).bhvs → AtHome w x subchildName ys
  sorted : ys.Pairwise (· < ·)
  shown : w.shown E r k = some (.node x)

theorem Kids.snoc {w w' : World} {p n : Oid} {kf : Nat → Key} {l : List Oid} (h : Kids w p kf l)
    (hk : ∀ i, i < l.length → kf i ≠ kf l.length)
    (hs : w'.children p = (w.children p).set (kf l.length) (.node n)) : Kids w' p kf (l ++ [n]) := by
  unfold Kids at h ⊢
  rw [hs, h, Od.set_append_new, List.mapIdx_concat]
  intro hm
  simp only [Od.keys, List.mem_map, List.mem_mapIdx] at hm
  obtain ⟨_, ⟨i, hi, rfl⟩, e⟩ := hm
  exact hk i hi e

theorem AtHome.snoc {w w' : World} {p n : Oid} {kf : Nat → Key} {l : List Oid} (h : AtHome w p kf l)
    (hl : ∀ x ∈ l, w'.loc x = w.loc x) (hn : w'.loc n = (kf l.length, some p)) : AtHome w' p kf (l ++ [n]) := by
  intro i x hx
  rcases List.getElem?_append (l₁ := l) (l₂ := [n]) (i := i) ▸ hx with hx
  split at hx
  · rw [hl x (List.mem_of_getElem? hx)]
    exact h i x hx
  · rename_i hi
    have : i = l.length := by
      have := (List.getElem?_eq_some_iff.mp hx).1
      simp at this
      omega
    subst this
    simp at hx
    subst hx
    exact hn

theorem Inner.step {w1 w w' : World} {r x : Oid} {i : Nat} {ys : List Oid}
    (hn : Bhv.alias ∉ (E.cls c).bhvs) (hr : r < w1.nobj) (hx : x < w1.nobj) (hrx : r ≠ x)
    (hcx : (w1.objs x).cls = c)
    (hk : ∀ j, j < ys.length → subchildName j ≠ subchildName ys.length)
    (h : Inner E c w1 r x (childName i) ys w) (hs : createSub E c r i ys.length w = (.ok (), w')) :
    Inner E c w1 r x (childName i) (ys ++ [w.nobj]) w' := by
  simp only [createSub, M.bind_apply] at hs
  rcases h1 : newNode E c .none none w with ⟨_ | n, w2⟩
  · rw [h1] at hs; cases hs
  · rw [h1] at hs
    simp only at hs
    obtain ⟨rfl, a2, a3, a4, a5, a6⟩ := new_step h.wf h1
    have hr' : r < w.nobj := Nat.lt_of_lt_of_le hr h.nobj
    have hx' : x < w.nobj := Nat.lt_of_lt_of_le hx h.nobj
    have hsh : w2.shown E r (childName i) = some (.node x) := (shown_old a6 hr' _).trans h.shown
    obtain ⟨w3, h3, b1, b2, -, b4⟩ := c82_get a5 hsh
    rw [h3] at hs
    simp only [setIn] at hs
    have hcls3 : ∀ p, p < w.nobj → (w3.objs p).cls = (w.objs p).cls := fun p hp =>
      (b2.obj p).cls.trans (a6.cls p hp)
    have hc3 : clsOf E w3 x = E.cls c := by
      unfold clsOf
      rw [hcls3 x hx', h.cls x hx, hcx]
    obtain ⟨c1, c2, c3, c4, c5, c6, -, c8⟩ := set_step b1 (by rw [hc3]; exact hn) (subchild_plain _) hs
    have hch : ∀ p, p ≠ x → w'.children p = w2.children p := fun p hp => by
      rw [c4, if_neg hp, b2.children]
    have hloc : ∀ p, p < w.nobj → w'.loc p = w.loc p := fun p hp =>
      (c6 p (Nat.ne_of_lt hp)).trans ((b2.loc p).trans (a6.loc p hp))
    have hcls : ∀ p, p < w.nobj → (w'.objs p).cls = (w.objs p).cls := fun p hp => (c3 p).trans (hcls3 p hp)
    have hnobj : w'.nobj = w2.nobj := c2.trans b2.nobj
    refine ⟨c1, ?_, fun p hp hpx => ?_, fun p hp => ?_, fun p hp => ?_, ?_, ?_, fun had => ?_, ?_, ?_⟩
    · rw [hnobj]; exact Nat.le_trans h.nobj (Nat.le_of_lt a2)
    · rw [hch p hpx, a6.children p (Nat.lt_of_lt_of_le hp h.nobj), h.children p hp hpx]
    · rw [hloc p (Nat.lt_of_lt_of_le hp h.nobj), h.loc p hp]
    · rw [hcls p (Nat.lt_of_lt_of_le hp h.nobj), h.cls p hp]
    · refine h.kids.snoc hk ?_
      rw [c4, if_pos rfl, b2.children, a6.children x hx']
    · intro y hy
      rcases List.mem_append.mp hy with hy | hy
      · obtain ⟨d1, d2, d3, d4⟩ := h.leaf y hy
        refine ⟨d1, by rw [hnobj]; omega, ?_, (hcls y d2).trans d4⟩
        rw [hch y (by omega), a6.children y d2, d3]
      · obtain rfl := List.mem_singleton.mp hy
        refine ⟨h.nobj, by rw [hnobj]; exact a2, ?_, (c3 _).trans ((b2.obj _).cls.trans a4)⟩
        rw [hch _ (by omega), a3]
    · refine (h.home had).snoc (fun y hy => hloc y (h.leaf y hy).2.1) ?_
      exact c5 (by rw [hc3]; exact had)
    · refine List.pairwise_append.mpr ⟨h.sorted, List.pairwise_singleton _ _, fun a ha b hb => ?_⟩
      obtain rfl := List.mem_singleton.mp hb
      exact (h.leaf a ha).2.1
    · rw [c8 r _ hrx]; exact b4

/-- The outer loop, `l` being made so far. -/
structure Outer (E : Env) (c : ClassId) (w0 : World) (r : Oid) (l : List (Oid × List Oid)) (w : World) : Prop where
  wf : WF w
  nobj : w0.nobj ≤ w.nobj
  children : ∀ p, p < w0.nobj → w.children p = w0.children p
  loc : ∀ p, p < w0.nobj → w.loc p = w0.loc p
  cls : ∀ p, p < w0.nobj → (w.objs p).cls = (w0.objs p).cls
  kids : Kids w r childName (l.map (·.1))
  below : ∀ e ∈ l, e.2.length = 2 ∧ Kids w e.1 subchildName e.2 ∧ ∀ y ∈ e.2, w.children y = []
  home : Bhv.adopt ∈ (E.cls c).bhvs → AtHome w r childName (l.map (·.1)) ∧
    ∀ e ∈ l, AtHome w e.1 subchildName e.2
  sorted : (flatten r l).Pairwise (· < ·)
  fresh : ∀ p ∈ flatten r l, w0.nobj ≤ p ∧ p < w.nobj ∧ (w.objs p).cls = c

theorem flatten_snoc (r : Oid) (l : List (Oid × List Oid)) (e : Oid × List Oid) :
    flatten r (l ++ [e]) = flatten r l ++ e.1 :: e.2 := by
  simp [flatten]

theorem mem_flatten_fst {r : Oid} {l : List (Oid × List Oid)} {e : Oid × List Oid} (h : e ∈ l) :
    e.1 ∈ flatten r l := by
  simp only [flatten, List.mem_cons, List.mem_flatMap]
  exact .inr ⟨e, h, .inl rfl⟩

theorem mem_flatten_snd {r : Oid} {l : List (Oid × List Oid)} {e : Oid × List Oid} (h : e ∈ l) {y : Oid}
    (hy : y ∈ e.2) : y ∈ flatten r l := by
  simp only [flatten, List.mem_cons, List.mem_flatMap]
  exact .inr ⟨e, h, .inr hy⟩

theorem Outer.step {w0 w w' : World} {r : Oid} {l : List (Oid × List Oid)}
    (hn : Bhv.alias ∉ (E.cls c).bhvs)
    (hk : ∀ j, j < l.length → childName j ≠ childName l.length)
    (h : Outer E c w0 r l w) (hs : createChild E c r l.length w = (.ok (), w')) :
    ∃ e, Outer E c w0 r (l ++ [e]) w' := by
  simp only [createChild, M.bind_apply] at hs
  rcases h1 : newNode E c .none none w with ⟨_ | x, w2⟩
  · rw [h1] at hs; cases hs
  · rw [h1] at hs
    simp only at hs
    obtain ⟨rfl, a2, a3, a4, a5, a6⟩ := new_step h.wf h1
    rcases h2 : setitem E r (childName l.length) (.node w.nobj) w2 with ⟨_ | _, w3⟩
    · rw [h2] at hs; cases hs
    · rw [h2] at hs
      simp only at hs
      obtain ⟨hr0, hr, hrc⟩ := h.fresh r List.mem_cons_self
      have hc2 : clsOf E w2 r = E.cls c := by
        unfold clsOf
        rw [a6.cls r hr, hrc]
      obtain ⟨c1, c2, c3, c4, c5, c6, c7, -⟩ := set_step a5 (by rw [hc2]; exact hn) (child_plain _) h2
      have i0 : Inner E c w3 r w.nobj (childName l.length) [] w3 :=
        ⟨c1, Nat.le_refl _, fun _ _ _ => rfl, fun _ _ => rfl, fun _ _ => rfl, by
          show w3.children w.nobj = []
          rw [c4, if_neg (by omega), a3], by simp, fun _ i n hin => by simp at hin, .nil, c7⟩
      have hrw : r ≠ w.nobj := Nat.ne_of_lt hr
      have hxw : w.nobj < w3.nobj := by rw [c2]; exact a2
      have hcx : (w3.objs w.nobj).cls = c := (c3 _).trans a4
      rw [show List.range 2 = [0, 1] from rfl] at hs
      simp only [forU, M.bind_apply] at hs
      rcases g1 : createSub E c r l.length 0 w3 with ⟨_ | _, w4⟩
      · rw [g1] at hs; cases hs
      · rw [g1] at hs
        simp only at hs
        have i1 := i0.step hn (Nat.lt_trans hr hxw) hxw hrw hcx (by intro j hj; cases hj) g1
        rcases g2 : createSub E c r l.length 1 w4 with ⟨_ | _, w5⟩
        · rw [g2] at hs; cases hs
        · rw [g2] at hs
          obtain rfl : w5 = w' := (Prod.mk.inj hs).2
          have i2 := i1.step hn (Nat.lt_trans hr hxw) hxw hrw hcx (by
            intro j hj
            have : j = 0 := by simp at hj; omega
            subst this
            show subchildName 0 ≠ subchildName 1
            decide) g2
          generalize hys : ([] ++ [w3.nobj] ++ [w4.nobj] : List Oid) = ys at i2
          have hlen : ys.length = 2 := by rw [← hys]; rfl
          have hold : ∀ p, p < w.nobj → p < w3.nobj := fun p hp => Nat.lt_trans hp hxw
          have hch : ∀ p, p < w.nobj → p ≠ r → w5.children p = w.children p := fun p hp hpr => by
            rw [i2.children p (hold p hp) (Nat.ne_of_lt hp), c4, if_neg hpr, a6.children p hp]
          have hloc : ∀ p, p < w.nobj → w5.loc p = w.loc p := fun p hp => by
            rw [i2.loc p (hold p hp), c6 p (Nat.ne_of_lt hp), a6.loc p hp]
          have hcls : ∀ p, p < w.nobj → (w5.objs p).cls = (w.objs p).cls := fun p hp => by
            rw [i2.cls p (hold p hp), c3, a6.cls p hp]
          have hnob : w.nobj < w5.nobj := Nat.lt_of_lt_of_le hxw i2.nobj
          have hlt : ∀ {p}, p ∈ flatten r l → p < w.nobj := fun hp => (h.fresh _ hp).2.1
          have hnr : ∀ {p}, p ∈ l.flatMap (fun e => e.1 :: e.2) → p ≠ r := fun {p} hp e => by
            have := (List.pairwise_cons.mp h.sorted).1 p hp
            omega
          refine ⟨(w.nobj, ys), i2.wf, Nat.le_trans h.nobj (Nat.le_of_lt hnob), fun p hp => ?_, fun p hp => ?_,
            fun p hp => ?_, ?_, ?_, fun had => ⟨?_, ?_⟩, ?_, ?_⟩
          · rw [hch p (Nat.lt_of_lt_of_le hp h.nobj) (by omega), h.children p hp]
          · rw [hloc p (Nat.lt_of_lt_of_le hp h.nobj), h.loc p hp]
          · rw [hcls p (Nat.lt_of_lt_of_le hp h.nobj), h.cls p hp]
          · rw [List.map_append]
            refine h.kids.snoc (by rw [List.length_map]; exact hk) ?_
            rw [i2.children r (hold r hr) hrw, c4, if_pos rfl, a6.children r hr, List.length_map]
          · intro e he
            rcases List.mem_append.mp he with he | he
            · obtain ⟨d1, d2, d3⟩ := h.below e he
              have hm : ∀ p, p = e.1 ∨ p ∈ e.2 → p ∈ l.flatMap fun e => e.1 :: e.2 := fun p hp =>
                List.mem_flatMap.mpr ⟨e, he, by simpa using hp⟩
              refine ⟨d1, ?_, fun y hy => ?_⟩
              · unfold Kids
                rw [hch e.1 (hlt (mem_flatten_fst he)) (hnr (hm _ (.inl rfl)))]
                exact d2
              · rw [hch y (hlt (mem_flatten_snd he hy)) (hnr (hm _ (.inr hy)))]
                exact d3 y hy
            · obtain rfl := List.mem_singleton.mp he
              exact ⟨hlen, i2.kids, fun y hy => (i2.leaf y hy).2.2.1⟩
          · rw [List.map_append]
            refine (h.home had).1.snoc (fun x hx => ?_) ?_
            · obtain ⟨e, he, rfl⟩ := List.mem_map.mp hx
              exact hloc _ (hlt (mem_flatten_fst he))
            · rw [i2.loc _ hxw, List.length_map]
              exact c5 (by rw [hc2]; exact had)
          · intro e he
            rcases List.mem_append.mp he with he | he
            · intro i n hin
              rw [hloc n (hlt (mem_flatten_snd he (List.mem_of_getElem? hin)))]
              exact (h.home had).2 e he i n hin
            · obtain rfl := List.mem_singleton.mp he
              exact i2.home had
          · rw [flatten_snoc]
            refine List.pairwise_append.mpr ⟨h.sorted, List.pairwise_cons.mpr ⟨fun y hy => ?_, i2.sorted⟩,
              fun a ha b hb => ?_⟩
            · exact Nat.lt_of_lt_of_le hxw (i2.leaf y hy).1
            · rcases List.mem_cons.mp hb with rfl | hb
              · exact hlt ha
              · exact Nat.lt_trans (hlt ha) (Nat.lt_of_lt_of_le hxw (i2.leaf b hb).1)
          · intro p hp
            rw [flatten_snoc] at hp
            rcases List.mem_append.mp hp with hp | hp
            · obtain ⟨f1, f2, f3⟩ := h.fresh p hp
              exact ⟨f1, by omega, (hcls p f2).trans f3⟩
            · rcases List.mem_cons.mp hp with rfl | hp
              · exact ⟨h.nobj, hnob, (i2.cls _ hxw).trans hcx⟩
              · obtain ⟨f1, f2, -, f4⟩ := i2.leaf p hp
                have := h.nobj
                exact ⟨by omega, f2, f4⟩

/-! ### The claim -/

/-- C87: whatever its composition, if `create_tree(class_)` returns for a class that does not
translate keys, it has made ten new nodes of the class: the root with three children, in order under
`child_0` to `child_2`, each with two children under `subchild_0` and `subchild_1`, which have none.
With `Adopt` every node is located where it is. All other nodes keep their children and location. -/
theorem c87_tree {w w' : World} {r : Oid} (hw : WF w) (hn : Bhv.alias ∉ (E.cls c).bhvs)
    (h : createTree E c w = (.ok r, w')) :
    ∃ l : List (Oid × List Oid), l.length = 3 ∧
      Kids w' r childName (l.map (·.1)) ∧
      (∀ e ∈ l, e.2.length = 2 ∧ Kids w' e.1 subchildName e.2 ∧ ∀ y ∈ e.2, w'.children y = []) ∧
      (Bhv.adopt ∈ (E.cls c).bhvs →
        AtHome w' r childName (l.map (·.1)) ∧ ∀ e ∈ l, AtHome w' e.1 subchildName e.2) ∧
      (flatten r l).Pairwise (· < ·) ∧
      (∀ p ∈ flatten r l, w.nobj ≤ p ∧ p < w'.nobj ∧ (w'.objs p).cls = c) ∧
      ∀ p, p < w.nobj → w'.children p = w.children p ∧ w'.loc p = w.loc p := by
  simp only [createTree, M.bind_apply] at h
  rcases h1 : newNode E c .none none w with ⟨_ | x, w1⟩
  · rw [h1] at h; cases h
  · rw [h1] at h
    simp only at h
    obtain ⟨rfl, a2, a3, a4, a5, a6⟩ := new_step hw h1
    have o0 : Outer E c w w.nobj [] w1 :=
      ⟨a5, a6.nobj, a6.children, a6.loc, a6.cls, a3, by simp, fun _ => ⟨fun i n hin => by simp at hin, by simp⟩,
        List.pairwise_singleton _ _, fun p hp => by
          obtain rfl := List.mem_singleton.mp hp
          exact ⟨Nat.le_refl _, a2, a4⟩⟩
    rw [show List.range 3 = [0, 1, 2] from rfl] at h
    simp only [forU, M.bind_apply] at h
    rcases g1 : createChild E c w.nobj 0 w1 with ⟨_ | _, w2⟩
    · rw [g1] at h; cases h
    rw [g1] at h
    simp only at h
    obtain ⟨e1, o1⟩ := o0.step hn (by intro j hj; cases hj) g1
    rcases g2 : createChild E c w.nobj 1 w2 with ⟨_ | _, w3⟩
    · rw [g2] at h; cases h
    rw [g2] at h
    simp only at h
    obtain ⟨e2, o2⟩ := o1.step hn (by
      intro j hj
      have : j = 0 := by simp at hj; omega
      subst this
      show childName 0 ≠ childName 1
      decide) g2
    rcases g3 : createChild E c w.nobj 2 w3 with ⟨_ | _, w4⟩
    · rw [g3] at h; cases h
    rw [g3] at h
    obtain ⟨e3, o3⟩ := o2.step hn (by
      intro j hj
      have : j = 0 ∨ j = 1 := by simp at hj; omega
      rcases this with rfl | rfl
      · show childName 0 ≠ childName 2
        decide
      · show childName 1 ≠ childName 2
        decide) g3
    obtain ⟨hr, hw'⟩ := Prod.mk.inj h
    injection hr with hr
    obtain rfl : w4 = w' := hw'
    subst hr
    exact ⟨[] ++ [e1] ++ [e2] ++ [e3], rfl, o3.kids, o3.below, o3.home, o3.sorted, o3.fresh,
      fun p hp => ⟨o3.children p hp, o3.loc p hp⟩⟩

/-! ### When it returns -/

/-- Classes for which `create_tree` works: a storage, and no translated, refused or announced keys;
with `Reference`, no factories for children of the nodes made. -/
structure TreeClass (cd : ClassDef) : Prop where
  take : TakeClass cd
  plain : Bhv.reference ∈ cd.bhvs → Bhv.childFactory ∉ cd.bhvs

theorem TreeClass.concrete {cd : ClassDef} (h : TreeClass cd) (hr : Bhv.reference ∈ cd.bhvs) : Concrete cd :=
  ⟨h.take.kind, h.take.not (by decide), h.take.not (by decide), h.plain hr⟩

/-- The node is in an index if its class has `Reference`. -/
def InIndex (E : Env) (c : ClassId) (w : World) (o : Oid) : Prop :=
  o < w.nobj ∧ (Bhv.reference ∈ (E.cls c).bhvs → (w.objs o).index.isSome = true)

theorem InIndex.keep {w w' : World} {o : Oid} (h : InIndex E c w o) (i : IxKeep w w') : InIndex E c w' o :=
  ⟨Nat.lt_of_lt_of_le h.1 i.le, fun hr => i.keep o h.1 (h.2 hr)⟩

/-- Assigning a new node to a node of the class returns. -/
theorem set_returns (hm : TreeClass (E.cls c)) {w : World} {o n : Oid} (hw : WF w)
    (ho : (w.objs o).cls = c) (hi : InIndex E c w o) {k : Key} (hk : ∃ s, k = .str s ∧ ¬ Reserved s)
    (hn : (w.objs n).cls = c) (hin : InIndex E c w n) (he : w.children n = []) :
    ∃ w', setitem E o k (.node n) w = (.ok (), w') ∧ IxKeep w w' := by
  have e : clsOf E w o = E.cls c := by unfold clsOf; rw [ho]
  obtain ⟨w', h, h1, -⟩ := setitem_tree (E := E) (o := o) (k := k) (v := .node n) hw (by rw [e]; exact hm.take)
    (fun _ => hk) rfl hi.1 (fun x hx hr => by
      injection hx with hx
      subst hx
      rw [e] at hr
      refine ⟨hi.2 hr, hin.1, hin.2 hr, ?_, he⟩
      unfold clsOf
      rw [hn]
      exact hm.concrete hr)
  exact ⟨w', h, h1.index⟩

theorem sub_returns (hE : 0 < E.depth) (hm : TreeClass (E.cls c))
    {w1 w : World} {r x : Oid} {i : Nat} {ys : List Oid} (hr : r < w1.nobj) (hx : x < w1.nobj)
    (hcx : (w1.objs x).cls = c) (hix : InIndex E c w x)
    (h : Inner E c w1 r x (childName i) ys w) (j : Nat) :
    ∃ w', createSub E c r i j w = (.ok (), w') ∧ IxKeep w w' := by
  obtain ⟨w2, h2, m⟩ := newNode_tree (c := c) hE (.inl ⟨rfl, rfl⟩) (hm.take.not (by decide)) h.wf
  obtain ⟨-, -, -, -, a5, a6⟩ := new_step h.wf h2
  have hsh : w2.shown E r (childName i) = some (.node x) :=
    (shown_old a6 (Nat.lt_of_lt_of_le hr h.nobj) _).trans h.shown
  obtain ⟨w3, h3, b1, b2, -⟩ := c82_get a5 hsh
  have i3 : IxKeep w2 w3 :=
    ⟨Nat.le_of_eq b2.nobj.symm, fun p _ hp => by rw [(b2.obj p).index]; exact hp⟩
  have hn : InIndex E c w2 w.nobj := ⟨m.lt, m.indexed⟩
  obtain ⟨w4, h4, i4⟩ := set_returns hm (w := w3) (o := x) (n := w.nobj) b1
    ((b2.obj x).cls.trans ((a6.cls x (Nat.lt_of_lt_of_le hx h.nobj)).trans ((h.cls x hx).trans hcx)))
    ((hix.keep m.index).keep i3) (subchild_plain j) ((b2.obj _).cls.trans m.cls) (hn.keep i3)
    ((b2.children _).trans m.empty)
  exact ⟨w4, by simp only [createSub, M.bind_apply, h2, h3, setIn, h4], (m.index.trans i3).trans i4⟩

theorem child_returns (hE : 0 < E.depth) (hm : TreeClass (E.cls c))
    {w0 w : World} {r : Oid} {l : List (Oid × List Oid)} (hir : InIndex E c w r) (h : Outer E c w0 r l w) (i : Nat) :
    ∃ w', createChild E c r i w = (.ok (), w') ∧ IxKeep w w' := by
  have ha : Bhv.alias ∉ (E.cls c).bhvs := hm.take.not (by decide)
  obtain ⟨w2, h2, m⟩ := newNode_tree (c := c) hE (.inl ⟨rfl, rfl⟩) (hm.take.not (by decide)) h.wf
  obtain ⟨-, a2, a3, a4, a5, a6⟩ := new_step h.wf h2
  obtain ⟨-, hr, hrc⟩ := h.fresh r List.mem_cons_self
  have hr2 : (w2.objs r).cls = c := (a6.cls r hr).trans hrc
  have hn : InIndex E c w2 w.nobj := ⟨m.lt, m.indexed⟩
  obtain ⟨w3, h3, i3⟩ := set_returns hm a5 hr2 (hir.keep m.index) (child_plain i) a4 hn a3
  have hc2 : clsOf E w2 r = E.cls c := by unfold clsOf; rw [hr2]
  obtain ⟨c1, c2, c3, c4, -, -, c7, -⟩ := set_step a5 (by rw [hc2]; exact ha) (child_plain _) h3
  have i0 : Inner E c w3 r w.nobj (childName i) [] w3 :=
    ⟨c1, Nat.le_refl _, fun _ _ _ => rfl, fun _ _ => rfl, fun _ _ => rfl, by
      show w3.children w.nobj = []
      rw [c4, if_neg (by omega), a3], by simp, fun _ i n hin => by simp at hin, .nil, c7⟩
  have hxw : w.nobj < w3.nobj := by rw [c2]; exact a2
  have hcx : (w3.objs w.nobj).cls = c := (c3 _).trans a4
  obtain ⟨w4, h4, i4⟩ := sub_returns hE hm (Nat.lt_trans hr hxw) hxw hcx (hn.keep i3) i0 0
  have i1 := i0.step ha (Nat.lt_trans hr hxw) hxw (Nat.ne_of_lt hr) hcx (by intro j hj; cases hj) h4
  obtain ⟨w5, h5, i5⟩ := sub_returns hE hm (Nat.lt_trans hr hxw) hxw hcx ((hn.keep i3).keep i4) i1 1
  exact ⟨w5, by
    simp only [createChild, M.bind_apply, h2, h3, show List.range 2 = [0, 1] from rfl, forU, h4, h5, M.pure_apply],
    ((m.index.trans i3).trans i4).trans i5⟩

/-- C87: `create_tree` returns for every class with a storage that takes children under plain keys,
`Reference`, `Cache`, `Lifecycle`, `Fallback`, `UUIDAware` and the others in any order; with `Reference` the class has
no factories of its own. -/
theorem c87_returns_partial (hE : 0 < E.depth) (hm : TreeClass (E.cls c)) {w : World}
    (hw : WF w) : ∃ r w', createTree E c w = (.ok r, w') := by
  have ha : Bhv.alias ∉ (E.cls c).bhvs := hm.take.not (by decide)
  obtain ⟨w1, h1, m⟩ := newNode_tree (c := c) hE (.inl ⟨rfl, rfl⟩) (hm.take.not (by decide)) hw
  obtain ⟨-, a2, a3, a4, a5, a6⟩ := new_step hw h1
  have hi : InIndex E c w1 w.nobj := ⟨m.lt, m.indexed⟩
  have o0 : Outer E c w w.nobj [] w1 :=
    ⟨a5, a6.nobj, a6.children, a6.loc, a6.cls, a3, by simp, fun _ => ⟨fun i n hin => by simp at hin, by simp⟩,
      List.pairwise_singleton _ _, fun p hp => by
        obtain rfl := List.mem_singleton.mp hp
        exact ⟨Nat.le_refl _, a2, a4⟩⟩
  obtain ⟨w2, h2, i2⟩ := child_returns hE hm hi o0 0
  obtain ⟨e1, o1⟩ := o0.step ha (by intro j hj; cases hj) h2
  obtain ⟨w3, h3, i3⟩ := child_returns hE hm (hi.keep i2) o1 1
  obtain ⟨e2, o2⟩ := o1.step ha (by
    intro j hj
    have : j = 0 := by simp at hj; omega
    subst this
    show childName 0 ≠ childName 1
    decide) h3
  obtain ⟨w4, h4, -⟩ := child_returns hE hm ((hi.keep i2).keep i3) o2 2
  exact ⟨w.nobj, w4, by
    simp only [createTree, M.bind_apply, h1, show List.range 3 = [0, 1, 2] from rfl, forU, h2, h3, h4, M.pure_apply]⟩

/-- It does not return for every class: one without a storage cannot take the children. -/
theorem c87_refuted : (createTree sampleEnv 4 {}).1 = .error .notImpl := by decide +kernel

/-! ### Instances -/

/-- A full node, with `Reference`, beside another tree. -/
example : ∃ r w', createTree sampleEnv 2 (after sampleEnv [.new 2 ka none]) = (.ok r, w') ∧
    ∃ l : List (Oid × List Oid), l.length = 3 ∧ Kids w' r childName (l.map (·.1)) ∧
      AtHome w' r childName (l.map (·.1)) := by
  have h : (createTree sampleEnv 2 (after sampleEnv [.new 2 ka none])).1 = .ok 1 := by decide +kernel
  have hw := (reachable_after sampleEnv [.new 2 ka none]).wf
  generalize after sampleEnv [.new 2 ka none] = w at h hw ⊢
  rcases hx : createTree sampleEnv 2 w with ⟨x, w'⟩
  rw [hx] at h
  obtain rfl : x = .ok 1 := h
  obtain ⟨l, h1, h2, -, h3, -⟩ := c87_tree hw (by decide) hx
  exact ⟨1, w', rfl, l, h1, h2, (h3 (by decide)).1⟩

/-- `Node`, a class with `Cache` and one with `Lifecycle`. -/
example : TreeClass (sampleEnv.cls 2) ∧ TreeClass (sampleEnv.cls 5) ∧ TreeClass (sampleEnv.cls 6) ∧ 0 < sampleEnv.depth ∧
    Bhv.reference ∈ (sampleEnv.cls 2).bhvs ∧ Bhv.cache ∈ (sampleEnv.cls 5).bhvs := by
  refine ⟨⟨⟨⟨_, rfl, by decide⟩, by decide⟩, by decide⟩, ⟨⟨⟨_, rfl, by decide⟩, by decide⟩, by decide⟩,
    ⟨⟨⟨_, rfl, by decide⟩, by decide⟩, by decide⟩, by decide, by decide, by decide⟩

end Verif
