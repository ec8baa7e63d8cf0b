import Verif.Lemmas.RefUuid
import Verif.Lemmas.DecodeRef
import Verif.Props.C58

/-!
# Deep copies of `Reference` trees

`copy.deepcopy` copies the dictionary `_index` together with the nodes it holds: the copy of a tree that is
exactly indexed is exactly indexed, and giving its nodes new uuids keeps it so.
-/

namespace Verif

variable {E : Env}

theorem get?_moveVals {f : Oid → Oid} {k : Key} : ∀ d : Od Key Val, (moveVals f d).get? k = (d.get? k).map (Val.moved f)
  | [] => rfl
  | (j, v) :: r => by
    simp only [moveVals, List.map_cons, Od.get?]
    split
    · rfl
    · exact get?_moveVals r

theorem get?_moveIdx {f : Oid → Oid} {k : Option Nat} : ∀ d : Od (Option Nat) Oid,
    (moveIdx f d).get? k = (d.get? k).map f
  | [] => rfl
  | (j, v) :: r => by
    simp only [moveIdx, List.map_cons, Od.get?]
    split
    · rfl
    · exact get?_moveIdx r

section
variable {w : World} {L : List Oid}

theorem children_beyond {p : Oid} (h : w.nobj + L.length ≤ p) : (w.deep L).children p = [] := by
  unfold World.children
  rw [deep_beyond h]

theorem children_old {p : Oid} (hw : WF w) (h : p < w.nobj) : (w.deep L).children p = w.children p := by
  unfold World.children
  rw [deep_old h]
  split
  · rfl
  · rename_i r hr
    exact moveDicts_old (hw.sLt hr)

/-- What contains what after the copy. -/
theorem contains_copied (hw : WF w) (hL : Complete w L) {x c : Oid} {k : Key} : Contains (w.deep L) x k c ↔
    (x < w.nobj ∧ Contains w x k c) ∨ ∃ q ∈ L, ∃ d ∈ L, x = w.moved L q ∧ Contains w q k d ∧ c = w.moved L d := by
  show ((w.deep L).children x).get? k = _ ↔ _
  by_cases h1 : x < w.nobj
  · rw [children_old hw h1]
    refine ⟨fun h => .inl ⟨h1, h⟩, ?_⟩
    rintro (h | ⟨q, hq, d, -, rfl, -⟩)
    · exact h.2
    · exact absurd h1 (Nat.not_lt.mpr (moved_lt hq).1)
  · by_cases h2 : x < w.nobj + L.length
    · obtain ⟨q, hq, rfl⟩ := deep_new (by omega) h2 hL.nodup
      rw [children_moved hq, get?_moveVals]
      constructor
      · intro h
        cases hv : (w.children q).get? k with
        | none => rw [hv] at h; cases h
        | some v =>
          rw [hv] at h
          cases v with
          | data d => cases h
          | node d =>
            injection h with h
            injection h with h
            have hd : Contains w q k d := hv
            exact .inr ⟨q, hq, d, hL.next q hq d (mem_reach_child hd), rfl, hd, h.symm⟩
      · rintro (h | ⟨q', hq', d, -, e, h, rfl⟩)
        · exact absurd h.1 h1
        · have := moved_inj hq hq' e
          subst this
          replace h : (w.children q).get? k = _ := h
          rw [h]
          rfl
    · rw [children_beyond (by omega)]
      constructor
      · nofun
      · rintro (h | ⟨q, hq, d, -, rfl, -⟩)
        · exact absurd h.1 h1
        · exact absurd (moved_lt hq).2 h2

/-- The copy of a tree. -/
theorem inTree_copied (hw : WF w) (hL : Complete w L) {R x : Oid} (hR : R ∈ L) :
    InTree (w.deep L) (w.moved L R) x ↔ ∃ p ∈ L, InTree w R p ∧ x = w.moved L p := by
  constructor
  · intro h
    refine h.induct (P := fun x => ∃ p ∈ L, InTree w R p ∧ x = w.moved L p) ⟨R, hR, .refl R, rfl⟩ fun x k c _ hc ih => ?_
    obtain ⟨p, hp, hin, rfl⟩ := ih
    rcases (contains_copied hw hL).mp hc with h | ⟨q, hq, d, hd, e, h, rfl⟩
    · exact absurd h.1 (Nat.not_lt.mpr (moved_lt hp).1)
    · have := moved_inj hp hq e
      subst this
      exact ⟨d, hd, hin.child h, rfl⟩
  · rintro ⟨p, hp, hin, rfl⟩
    have key : ∀ {p}, InTree w R p → p ∈ L ∧ InTree (w.deep L) (w.moved L R) (w.moved L p) := fun h =>
      h.induct (P := fun p => p ∈ L ∧ InTree (w.deep L) (w.moved L R) (w.moved L p)) ⟨hR, .refl _⟩ fun q k c _ hc ih => by
        have hcL := hL.next q ih.1 c (mem_reach_child hc)
        exact ⟨hcL, ih.2.child ((contains_copied hw hL).mpr (.inr ⟨q, ih.1, c, hcL, rfl, hc, rfl⟩))⟩
    exact (key hin).2

/-- The copy of an exactly indexed tree is exactly indexed. -/
theorem Forest.deep {Rs : List Oid} (hf : Forest E w Rs) (hL : Complete w L) {R : Oid} (hR : R ∈ Rs)
    (hin : ∀ p, InTree w R p → p ∈ L) : Forest E (w.deep L) [w.moved L R] := by
  obtain ⟨r, hr⟩ := hf.live R hR
  have hRL := hin R (.refl R)
  have hw := hf.wf
  have hcon := @contains_copied w L hw hL
  have htree : ∀ {x}, InTree (w.deep L) (w.moved L R) x → ∃ p ∈ L, InTree w R p ∧ x = w.moved L p :=
    fun h => (inTree_copied hw hL hRL).mp h
  have huuid : ∀ p ∈ L, ∀ u, HasUuid (w.deep L) (w.moved L p) u ↔ HasUuid w p u := fun p hp u => by
    unfold HasUuid
    rw [deep_moved hp]
    rfl
  have hsole : Sole (w.deep L) := fun p k p' k' c h h' => by
    rcases hcon.mp h with ⟨h1, h2⟩ | ⟨q, hq, d, hd, rfl, h2, rfl⟩
    · rcases hcon.mp h' with ⟨h3, h4⟩ | ⟨q', hq', d', hd', rfl, h4, rfl⟩
      · exact hf.sole _ _ _ _ _ h2 h4
      · exact absurd (hf.bounds _ _ _ h2) (Nat.not_lt.mpr (moved_lt hd').1)
    · rcases hcon.mp h' with ⟨h3, h4⟩ | ⟨q', hq', d', hd', rfl, h4, e⟩
      · exact absurd (hf.bounds _ _ _ h4) (Nat.not_lt.mpr (moved_lt hd).1)
      · have := moved_inj hd hd' e
        subst this
        obtain ⟨rfl, rfl⟩ := hf.sole _ _ _ _ _ h2 h4
        exact ⟨rfl, rfl⟩
  have hbounds : ∀ p k c, Contains (w.deep L) p k c → c < (w.deep L).nobj := fun p k c h => by
    show c < w.nobj + L.length
    rcases hcon.mp h with ⟨h1, h2⟩ | ⟨q, hq, d, hd, rfl, h2, rfl⟩
    · exact Nat.lt_of_lt_of_le (hf.bounds _ _ _ h2) (Nat.le_add_right _ _)
    · exact (moved_lt hd).2
  have hinj : ∀ x y u, InTree (w.deep L) (w.moved L R) x → InTree (w.deep L) (w.moved L R) y →
      HasUuid (w.deep L) x u → HasUuid (w.deep L) y u → x = y := fun x y u hx hy h1 h2 => by
    obtain ⟨p, hp, hxw, rfl⟩ := htree hx
    obtain ⟨q, hq, hyw, rfl⟩ := htree hy
    rw [hr.tree.inj p q u hxw hyw ((huuid p hp u).mp h1) ((huuid q hq u).mp h2)]
  refine ⟨hw.deep hL, hf.pos, hsole, hbounds, by simp, fun A hA => ?_, fun A hA B hB _ => ?_,
    fun A hA B hB x y u hx hy => ?_⟩
  · rw [List.mem_singleton] at hA
    subst hA
    refine ⟨w.nidx + r, ⟨hsole, fun p k h => ?_, (moved_lt hRL).2, hbounds, fun x hx => ?_, fun x hx k hk => ?_,
      fun x hx => ?_, hinj⟩, fun x hx => ?_, fun v x => ?_, fun x u hx hu => ?_⟩
    · rcases hcon.mp h with ⟨h1, h2⟩ | ⟨q, hq, d, hd, rfl, h2, e⟩
      · exact absurd (hf.bounds _ _ _ h2) (Nat.not_lt.mpr (moved_lt hRL).1)
      · have := moved_inj hRL hd e
        subst this
        exact hr.tree.top _ _ h2
    · obtain ⟨p, hp, hxw, rfl⟩ := htree hx
      rw [show clsOf E (w.deep L) (w.moved L p) = clsOf E w p by unfold clsOf; rw [deep_moved hp]; rfl]
      exact hr.tree.cls p hxw
    · obtain ⟨p, hp, hxw, rfl⟩ := htree hx
      rw [show clsOf E (w.deep L) (w.moved L p) = clsOf E w p by unfold clsOf; rw [deep_moved hp]; rfl]
      rw [children_moved hp, keys_moveVals] at hk
      exact hr.tree.keys p hxw k hk
    · obtain ⟨p, hp, hxw, rfl⟩ := htree hx
      obtain ⟨u, hu⟩ := hr.tree.uuid p hxw
      exact ⟨u, (huuid p hp u).mpr hu⟩
    · obtain ⟨p, hp, hxw, rfl⟩ := htree hx
      rw [deep_moved hp]
      show (w.objs p).index.map (w.nidx + ·) = _
      rw [hr.shared p hxw]
      rfl
    · rw [show (w.deep L).idxs (w.nidx + r) = moveIdx (w.moved L) (w.idxs r) from
        moveDicts_moved hRL (hr.shared R (.refl R)), get?_moveIdx]
      constructor
      · intro h
        cases hg : (w.idxs r).get? v with
        | none => rw [hg] at h; cases h
        | some p =>
          rw [hg] at h
          injection h with h
          subst h
          obtain ⟨u, e, hp, hu⟩ := (hr.exact v p).mp hg
          exact ⟨u, e, (inTree_copied hw hL hRL).mpr ⟨p, hin p hp, hp, rfl⟩, (huuid p (hin p hp) u).mpr hu⟩
      · rintro ⟨u, rfl, hx, hu⟩
        obtain ⟨p, hp, hxw, rfl⟩ := htree hx
        rw [(hr.exact (some u) p).mpr ⟨u, rfl, hxw, (huuid p hp u).mp hu⟩]
        rfl
    · obtain ⟨p, hp, hxw, rfl⟩ := htree hx
      exact hr.real p u hxw ((huuid p hp u).mp hu)
  · rw [List.mem_singleton] at hA hB
    rw [hA, hB]
  · rw [List.mem_singleton] at hA hB
    subst hA hB
    exact hinj x y u hx hy

/-- The index holds the whole tree, so the whole tree is copied. -/
theorem Forest.reached {Rs : List Oid} (hf : Forest E w Rs) (hs : Intact w) {R o : Oid} (hR : R ∈ Rs) (ho : InTree w R o) :
    ∀ p, InTree w R p → p ∈ w.reach o := fun p hp => by
  obtain ⟨r, hr⟩ := hf.live R hR
  have hL := (Verif.reached (hf.lt hR ho)).complete hs
  obtain ⟨u, hu⟩ := hr.tree.uuid p hp
  have hg := (hr.exact (some u) p).mpr ⟨u, rfl, hp, hu⟩
  refine hL.next o (Verif.reached (hf.lt hR ho)).self p (mem_next.mpr (.inr (.inr (.inr (.inr (.inl ⟨some u, ?_⟩))))))
  rw [hr.shared o ho]
  exact Od.get?_some_mem hg

end

/-- `node.deepcopy()` of a node in an exactly indexed tree: the copy is in a new tree, which is exactly indexed. -/
theorem Forest.deepPipe {w : World} {Rs : List Oid} (hf : Forest E w Rs) (hs : Intact w) {R o : Oid}
    (hR : R ∈ Rs) (ho : InTree w R o) : ∀ (bs : List Bhv), (Bhv.uuidAware ∈ bs → Issued w) → ∀ {c : Oid} {w' : World},
    Verif.deepPipe E bs o w = (.ok c, w') →
    c = w.moved (w.reach o) o ∧ Forest E w' [w.moved (w.reach o) R] ∧ (Issued w → Issued w') ∧
      ∀ p, w'.children p = (w.deep (w.reach o)).children p
  | [], _, c, w', h => by
    obtain ⟨rfl, rfl⟩ := deepEnd_ok h
    have hlt := hf.lt hR ho
    have hL := (Verif.reached hlt).complete hs
    exact ⟨rfl, hf.deep hL hR (hf.reached hs hR ho), fun hi => (numbered_deep hs hlt hi).toIssued, fun _ => rfl⟩
  | b :: r, hi, c, w', h => by
    by_cases hb : b = .uuidAware
    · subst hb
      simp only [Verif.deepPipe, M.bind_apply] at h
      rcases hx : Verif.deepPipe E r o w with ⟨e | c1, w1⟩
      · rw [hx] at h; cases h
      · rw [hx] at h
        obtain ⟨rfl, hf1, hi1, ht1⟩ := deepPipe hf hs hR ho r (fun _ => hi List.mem_cons_self) hx
        replace hi1 := hi1 (hi List.mem_cons_self)
        simp only [M.getW_apply] at h
        have hin := hf.reached hs hR ho
        have hc : InTree w1 (w.moved (w.reach o) R) (w.moved (w.reach o) o) :=
          (InTree.congr fun p k c => by
            show (w1.children p).get? k = _ ↔ ((w.deep (w.reach o)).children p).get? k = _
            rw [ht1]).mpr ((inTree_copied hf.wf ((Verif.reached (hf.lt hR ho)).complete hs) (hin R (.refl R))).mpr
              ⟨o, hin o ho, ho, rfl⟩)
        rcases hy : Verif.setUuidFor E true (clsOf E w1 o).overwriteRecursiv (w1.nobj + 1)
          (.node (w.moved (w.reach o) o)) w1 with ⟨e | u, w2⟩
        · rw [hy] at h; cases h
        · rw [hy] at h
          simp only [M.pure_apply, Prod.mk.injEq, Except.ok.injEq] at h
          obtain ⟨rfl, rfl⟩ := h
          have hf2 := hf1.setUuids (rec := (clsOf E w1 o).overwriteRecursiv) (ov := true) hi1 List.mem_cons_self hc hy
          have hre : Renew E (fun p => ∃ A ∈ [w.moved (w.reach o) R], InTree w1 A p) w1.nuuid w1 w2 := by
            cases hov : (clsOf E w1 o).overwriteRecursiv with
            | true =>
              rw [hov] at hy
              exact (setUuidFor_any true _ hf1.wf hi1.numbered hf1.openSet
                (fun c hc' => by injection hc' with hc'; subst hc'; exact ⟨_, List.mem_cons_self, hc⟩) hy).1
            | false =>
              rw [hov] at hy
              have := (assignUuid_any (E := E) (S := fun p => ∃ A ∈ [w.moved (w.reach o) R], InTree w1 A p) true hf1.wf
                hi1.numbered ⟨_, List.mem_cons_self, hc⟩ (hf1.lt List.mem_cons_self hc)).1
              simp only [Verif.setUuidFor, M.bind_apply, Bool.false_eq_true, if_false] at hy
              rcases h1 : Verif.assignUuid E true (w.moved (w.reach o) o) w1 with ⟨e | ⟨⟩, w3⟩
              all_goals
                rw [h1] at hy this
                injection hy with _ h2
                exact h2 ▸ this
          exact ⟨rfl, hf2, fun _ => hre.num.toIssued, fun p => (hre.children p).trans (ht1 p)⟩
    · have : Verif.deepPipe E (b :: r) o = Verif.deepPipe E r o := by
        cases b <;> first | exact absurd rfl hb | rfl
      rw [this] at h
      exact deepPipe hf hs hR ho r (fun hm => hi (List.mem_cons_of_mem _ hm)) h

/-- The trees that were there, after their nodes have been left alone. -/
theorem Forest.untouched {w w' : World} {Rs Rs' : List Oid} (hf : Forest E w Rs) (hf' : Forest E w' Rs')
    (hu : ∀ p, p < w.nobj → Unchanged w w' p) (hn : w.nobj ≤ w'.nobj)
    (hc : ∀ p k c, w.nobj ≤ p → Contains w' p k c → w.nobj ≤ c) : Forest E w' Rs := by
  have hcon : ∀ p, p < w.nobj → ∀ k c, Contains w' p k c ↔ Contains w p k c := fun p hp k c => by
    show (w'.children p).get? k = _ ↔ (w.children p).get? k = _
    rw [(hu p hp).children]
  have hlt : ∀ {R}, R ∈ Rs → ∀ {x}, InTree w R x → x < w.nobj := fun hR _ hx => hf.lt hR hx
  have hin : ∀ {R}, R ∈ Rs → ∀ {x}, InTree w' R x ↔ InTree w R x := fun {R} hR {x} => by
    constructor
    · exact fun h => h.induct (P := fun x => InTree w R x) (.refl R) fun x k c _ hk ih =>
        ih.child ((hcon x (hlt hR ih) k c).mp hk)
    · exact fun h => h.induct (P := fun x => InTree w' R x) (.refl R) fun x k c hx hk ih =>
        ih.child ((hcon x (hlt hR hx) k c).mpr hk)
  have huuid : ∀ {R}, R ∈ Rs → ∀ {x}, InTree w R x → ∀ u, HasUuid w' x u ↔ HasUuid w x u := fun hR _ hx u => by
    unfold HasUuid
    rw [(hu _ (hlt hR hx)).obj]
  refine ⟨hf'.wf, hf'.pos, hf'.sole, hf'.bounds, hf.nodup, fun R hR => ?_, fun R hR R' hR' e => ?_,
    fun R hR R' hR' x y u hx hy h1 h2 => ?_⟩
  · obtain ⟨r, hr⟩ := hf.live R hR
    refine ⟨r, ⟨hf'.sole, fun p k h => ?_, Nat.lt_of_lt_of_le hr.tree.bound hn, hf'.bounds, fun x hx => ?_, fun x hx k hk => ?_,
      fun x hx => ?_, fun x y u hx hy h1 h2 => ?_⟩, fun x hx => ?_, fun v x => ?_, fun x u hx h => ?_⟩
    · by_cases hp : p < w.nobj
      · exact hr.tree.top p k ((hcon p hp k R).mp h)
      · exact absurd hr.tree.bound (Nat.not_lt.mpr (hc p k R (Nat.not_lt.mp hp) h))
    · have hx := (hin hR).mp hx
      unfold clsOf
      rw [(hu _ (hlt hR hx)).obj]
      exact hr.tree.cls x hx
    · have hx := (hin hR).mp hx
      unfold clsOf
      rw [(hu _ (hlt hR hx)).obj]
      rw [(hu _ (hlt hR hx)).children] at hk
      exact hr.tree.keys x hx k hk
    · have hx := (hin hR).mp hx
      obtain ⟨u, h⟩ := hr.tree.uuid x hx
      exact ⟨u, (huuid hR hx u).mpr h⟩
    · have hx := (hin hR).mp hx
      have hy := (hin hR).mp hy
      exact hr.tree.inj x y u hx hy ((huuid hR hx u).mp h1) ((huuid hR hy u).mp h2)
    · have hx := (hin hR).mp hx
      rw [(hu _ (hlt hR hx)).obj]
      exact hr.shared x hx
    · have hi := (hu R hr.tree.bound).indexed
      unfold World.indexed at hi
      rw [(hu R hr.tree.bound).obj, hr.shared R (.refl R)] at hi
      replace hi : w'.idxs r = w.idxs r := hi
      rw [hi, hr.exact]
      constructor
      · rintro ⟨u, e, h1, h2⟩
        exact ⟨u, e, (hin hR).mpr h1, (huuid hR h1 u).mpr h2⟩
      · rintro ⟨u, e, h1, h2⟩
        have h1 := (hin hR).mp h1
        exact ⟨u, e, h1, (huuid hR h1 u).mp h2⟩
    · have hx := (hin hR).mp hx
      exact hr.real x u hx ((huuid hR hx u).mp h)
  · rw [(hu R (hlt hR (.refl R))).obj, (hu R' (hlt hR' (.refl R'))).obj] at e
    exact hf.apart R hR R' hR' e
  · have hx := (hin hR).mp hx
    have hy := (hin hR').mp hy
    exact hf.inj R hR R' hR' x y u hx hy ((huuid hR hx u).mp h1) ((huuid hR' hy u).mp h2)

/-- A node is in one tree. -/
theorem Forest.oneRoot {w : World} {Rs : List Oid} (hf : Forest E w Rs) {R A x : Oid} (hR : R ∈ Rs) (h : InTree w R x)
    (hA : InTree w A x) (ht : ∀ p k, ¬ Contains w p k A) : A = R := by
  obtain ⟨r, hr⟩ := hf.live R hR
  refine hA.induct (P := fun x => InTree w R x → A = R) (fun h => ?_) (fun x k c _ hc ih h => ?_) h
  · rcases h.cases with e | ⟨p, k, -, hc⟩
    · exact e
    · exact absurd hc (ht p k)
  · rcases h.cases with e | ⟨p, j, hp, hc'⟩
    · exact absurd (e ▸ hc) (hr.tree.top x k)
    · exact ih ((hf.sole _ _ _ _ _ hc hc').1 ▸ hp)

/-- `node.deepcopy()`: the tree of the copy and the trees that were there. -/
theorem Forest.deepcopy {w w' : World} {Rs : List Oid} (hf : Forest E w Rs) (hs : Intact w) {R o c : Oid} (hR : R ∈ Rs)
    (ho : InTree w R o) (hi : Bhv.uuidAware ∈ (clsOf E w o).bhvs → Issued w) (h : Verif.deepcopy E o w = (.ok c, w')) :
    c = w.moved (w.reach o) o ∧ Forest E w' [w.moved (w.reach o) R] ∧ Forest E w' Rs ∧ (Issued w → Issued w') ∧
      ∀ x, InTree w' (w.moved (w.reach o) R) x ↔ ∃ p, InTree w R p ∧ x = w.moved (w.reach o) p := by
  have hlt := hf.lt hR ho
  have hL := (Verif.reached hlt).complete hs
  have hin := hf.reached hs hR ho
  rcases deepcopy_inv hf.wf hs hlt h with ⟨⟨e, he⟩, _⟩ | ⟨hI, hn, _⟩
  · cases he
  unfold Verif.deepcopy at h
  split at h
  · obtain ⟨e, h1, h2, h3⟩ := hf.deepPipe hs hR ho _ hi h
    refine ⟨e, h1, hf.untouched h1 (fun p hp => hI.unchanged_old hf.wf hp) (Nat.le_trans (Nat.le_add_right _ _) hn)
      fun p k d hp hd => ?_, h2, fun x => ?_⟩
    · have hd' : Contains (w.deep (w.reach o)) p k d := by
        show ((w.deep (w.reach o)).children p).get? k = _
        rw [← h3]
        exact hd
      rcases (contains_copied hf.wf hL).mp hd' with hd | ⟨q, -, y, hy, -, -, rfl⟩
      · exact absurd hd.1 (Nat.not_lt.mpr hp)
      · exact (moved_lt hy).1
    · rw [InTree.congr (w := w.deep (w.reach o)) (w' := w') fun p k c => by
        show (w'.children p).get? k = _ ↔ ((w.deep (w.reach o)).children p).get? k = _
        rw [h3], inTree_copied hf.wf hL (hin R (.refl R))]
      exact ⟨fun ⟨p, _, h⟩ => ⟨p, h⟩, fun ⟨p, h⟩ => ⟨p, hin p h.1, h⟩⟩
  · cases h

end Verif
