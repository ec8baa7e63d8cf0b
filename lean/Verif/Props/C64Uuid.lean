import Verif.Props.C64
import Verif.Props.C71Index

/-!
# C64 for copies with new uuids

`deepcopy` of a `UUIDAware` node gives the copies new uuids, which are not written: a deep copy of such a tree has the
shape of the tree and is written like it.
-/

namespace Verif.Ser

variable {E : Env} {N : Codec}

theorem Shapes.pick {P : Oid → Prop} {A : Data → Prop} {w : World} {o c : Oid} {k : Key} : ∀ {ts : List NTree}
    {l : List (Key × Val)}, Shapes E P w o ts l → Readables E A ts → (k, Val.node c) ∈ l →
    ∃ t ∈ ts, t.name = k ∧ Shape E P w t c ∧ Readable E A t
  | [], l, h, _, hm => by
    have h : l = [] := h
    subst h
    cases hm
  | t :: ts, l, ⟨d, r, e, _, h3, h4⟩, hr, hm => by
    subst e
    rcases List.mem_cons.mp hm with e | hm
    · injection e with e1 e2
      injection e2 with e2
      subst e1 e2
      exact ⟨t, List.mem_cons_self, rfl, h3, hr.1⟩
    · obtain ⟨t', h1, h2⟩ := Shapes.pick h4 hr.2 hm
      exact ⟨t', List.mem_cons_of_mem _ h1, h2⟩

theorem Shapes.names {P : Oid → Prop} {w : World} {o : Oid} {k : Key} : ∀ {ts : List NTree}
    {l : List (Key × Val)}, Shapes E P w o ts l → k ∈ l.map Prod.fst → ∃ t ∈ ts, t.name = k
  | [], l, h, hm => by
    have h : l = [] := h
    subst h
    cases hm
  | t :: ts, l, ⟨d, r, e, _, _, h4⟩, hm => by
    subst e
    rcases List.mem_cons.mp hm with e | hm
    · exact ⟨t, List.mem_cons_self, e.symm⟩
    · obtain ⟨t', h1, h2⟩ := Shapes.names h4 hm
      exact ⟨t', List.mem_cons_of_mem _ h1, h2⟩

/-- A tree that is read item by item is read so at every node. -/
theorem Shape.open {P : Oid → Prop} {A : Data → Prop} {w : World} (hw : WF w) {t : NTree} {o : Oid}
    (hs : Shape E P w t o) (hr : Readable E A t) : ∀ p, InTree w o p → Open E w p := by
  have key : ∀ p, InTree w o p → ∃ t, Shape E P w t p ∧ Readable E A t := fun p hp =>
    hp.induct (P := fun p => ∃ t, Shape E P w t p ∧ Readable E A t) ⟨t, hs, hr⟩ fun q k c _ hc ⟨t, h1, h2⟩ => by
      cases t with
      | mk cls name at' kids =>
        have hm : (k, Val.node c) ∈ (w.omap q).items := by
          rw [show (w.omap q).items = _ from toMap_items (hw.children_nodup q)]
          exact Od.get?_some_mem hc
        obtain ⟨t, -, -, h⟩ := Shapes.pick h1.2.2.2.2 h2.2.2.2.2 hm
        exact ⟨t, h⟩
  intro p hp
  obtain ⟨t, h1, h2⟩ := key p hp
  cases t with
  | mk cls name at' kids =>
    obtain ⟨-, hc, -, -, hk⟩ := h1
    obtain ⟨hrc, -, -, hn, -⟩ := h2
    have hcl : clsOf E w p = E.cls cls := congrArg E.cls hc
    refine ⟨?_, fun k hkm => ?_, fun hx => ?_⟩
    · rw [hcl]
      exact hrc.concrete
    · rw [hcl]
      have : k ∈ (w.omap p).items.map Prod.fst := by
        rw [show (w.omap p).items = _ from toMap_items (hw.children_nodup p)]
        exact hkm
      obtain ⟨t, ht, rfl⟩ := Shapes.names hk this
      exact hn t ht
    · rw [hcl] at hx
      exact absurd hx (hrc.not (by decide))

/-- A deep copy that returns is `copy.deepcopy` up to uuids. -/
theorem deepPipe_again {w : World} {o : Oid} (hw : WF w) (hs : Intact w) (ho : o < w.nobj) (hi : Issued w)
    (hop : ∀ p, InTree w o p → Open E w p) : ∀ (bs : List Bhv) {c : Oid} {w' : World},
    deepPipe E bs o w = (.ok c, w') → c = w.moved (w.reach o) o ∧
      Renew E (InTree (w.deep (w.reach o)) c) w.nuuid (w.deep (w.reach o)) w'
  | [], c, w', h => by
    obtain ⟨rfl, rfl⟩ := deepEnd_ok h
    exact ⟨rfl, .refl (hw.deep ((reached ho).complete hs)) (numbered_deep hs ho hi)⟩
  | b :: r, c, w', h => by
    by_cases hb : b = .uuidAware
    · subst hb
      simp only [deepPipe, M.bind_apply] at h
      rcases hx : deepPipe E r o w with ⟨e | c1, w1⟩
      · rw [hx] at h; cases h
      · rw [hx] at h
        simp only [M.getW_apply] at h
        obtain ⟨rfl, r1⟩ := deepPipe_again hw hs ho hi hop r hx
        rcases hy : setUuidFor E true (clsOf E w1 o).overwriteRecursiv (w1.nobj + 1)
          (.node (w.moved (w.reach o) o)) w1 with ⟨e | u, w2⟩
        · rw [hy] at h; cases h
        · rw [hy] at h
          injection h with h1 h2
          injection h1 with h1
          subst h1 h2
          have hS := (openSet_deep hs ho hop).renew r1
          refine ⟨rfl, r1.trans ?_⟩
          cases hov : (clsOf E w1 o).overwriteRecursiv with
          | true =>
            rw [hov] at hy
            exact (setUuidFor_any true _ r1.wf r1.num hS (fun c hc => by injection hc with hc; subst hc; exact .refl _) hy).1
          | false =>
            rw [hov] at hy
            have := (assignUuid_any (E := E) (S := InTree (w.deep (w.reach o)) (w.moved (w.reach o) o)) true r1.wf
              r1.num (.refl _) (hS.lt _ (.refl _))).1
            simp only [setUuidFor, M.bind_apply, Bool.false_eq_true, if_false] at hy
            rcases h1 : assignUuid E true (w.moved (w.reach o) o) w1 with ⟨e | ⟨⟩, w3⟩
            all_goals
              rw [h1] at hy this
              injection hy with _ h2
              exact h2 ▸ this
    · have : deepPipe E (b :: r) o = deepPipe E r o := by
        cases b <;> first | exact absurd rfl hb | rfl
      rw [this] at h
      exact deepPipe_again hw hs ho hi hop r h

/-- The deep copy of a tree that is read item by item is a tree of the same shape, made of new nodes only, whether or
not the copies get new uuids. -/
theorem c60_shape_uuid_partial {w w' : World} {o c : Oid} {P : Oid → Prop} {A : Data → Prop} {t : NTree} (hw : WF w)
    (hs : Intact w) (ho : o < w.nobj) (hi : Bhv.uuidAware ∈ (clsOf E w o).bhvs → Issued w) (hsh : Shape E P w t o)
    (hr : Readable E A t) (h : deepcopy E o w = (.ok c, w')) :
    WF w' ∧ Shape E (fun q => w.nobj ≤ q ∧ q < w'.nobj) w' t c := by
  by_cases hu : Bhv.uuidAware ∈ (clsOf E w o).bhvs
  · unfold deepcopy at h
    split at h
    · obtain ⟨rfl, hre⟩ := deepPipe_again hw hs ho (hi hu) (Shape.open hw hsh hr) _ h
      have hL := (reached ho).complete hs
      have hm : ∀ p, Linked w o p → p ∈ w.reach o := fun p hp => hp.mem hL (reached ho).self
      refine ⟨hre.wf, Shape.agree (w := w.deep (w.reach o)) (fun p _ => ⟨hre.children p, ?_, hre.cls p, hre.loc p⟩) t _ ?_⟩
      · rw [hre.nsview p]
      · rw [hre.nobj]
        exact hsh.copied hw (hw.deep hL) (fun p hp => ⟨copyOf_deep hw hL (hm p hp), moved_lt (hm p hp)⟩) .self
    · cases h
  · exact ⟨deepcopy_wf hw hs ho hu h, c60_shape_partial hw hs ho hu hsh h⟩

/-- C64, what is true of it: a deep copy is written like the original, in any mode, also if the copies got new uuids. -/
theorem c64_uuid_partial (hE : 0 < E.depth) {w w' : World} (hw : WF w) (hs : Intact w) {t : NTree} {o c : Oid}
    (hsh : Shape E (· < w.nobj) w t o) (hr : Readable E Writable t)
    (hi : Bhv.uuidAware ∈ (clsOf E w o).bhvs → Issued w)
    (h : deepcopy E o w = (.ok c, w')) {n : Nat} (hn : tall t < n) (m : Mode) :
    c ≠ o ∧ ∃ j w1 w2, serialize E N m n (.val (.node c)) w' = (.ok j, w1) ∧
      serialize E N m n (.val (.node o)) w = (.ok j, w2) := by
  have ho : o < w.nobj := by cases t; exact hsh.1
  obtain ⟨hw', hc⟩ := c60_shape_uuid_partial hw hs ho hi hsh hr h
  obtain ⟨w1, h1, _⟩ := serialize_tree (N := N) (f := shown N m) (fun d hd => enc_shown m d hd) hE hw'
    (Shape.mono (fun p hp => hp.2) t _ hc) hr hn
  obtain ⟨w2, h2, _⟩ := serialize_tree (N := N) (f := shown N m) (fun d hd => enc_shown m d hd) hE hw hsh hr hn
  have : w.nobj ≤ c := by cases t; exact hc.1.1
  exact ⟨by omega, _, w1, w2, h1, h2⟩

/-! ### A concrete case -/

/-- The shape of `c71Pair`, of a class with `UUIDAware` and `Reference`. -/
def pairTree : NTree := .mk 0 (.str ['r']) [] [.mk 0 ka [] []]

theorem pair_shape : Shape gapEnv (· < (after gapEnv c71Pair).nobj) (after gapEnv c71Pair) pairTree 0 :=
  ⟨by decide, rfl, rfl, rfl, 1, [], rfl, rfl, ⟨by decide, rfl, rfl, rfl, rfl⟩, rfl⟩

theorem pair_readable : Readable gapEnv Writable pairTree :=
  ⟨⟨⟨.odictStorage, rfl, nofun⟩, by decide⟩, nofun, fun h => absurd h (by decide), fun t ht => by
    rw [List.mem_singleton] at ht
    subst ht
    exact fun h => absurd h (by decide), ⟨⟨⟨.odictStorage, rfl, nofun⟩, by decide⟩, nofun, fun h => absurd h (by decide),
      nofun, trivial⟩, trivial⟩

/-- The copy 2 of the root 0 has another uuid and is written like it. -/
example (N : Codec) (w' : World) (h : deepcopy gapEnv 0 (after gapEnv c71Pair) = (.ok 2, w')) (m : Mode) :
    ∃ j w1 w2, serialize gapEnv N m 3 (.val (.node 2)) w' = (.ok j, w1) ∧
      serialize gapEnv N m 3 (.val (.node 0)) (after gapEnv c71Pair) = (.ok j, w2) :=
  (c64_uuid_partial (by decide) (reachable_after _ _).wf (intact_after (by decide +kernel)) pair_shape pair_readable
    (fun _ => c71Pair_issued 3) h (by decide) m).2

example : (deepcopy gapEnv 0 (after gapEnv c71Pair)).1 = .ok 2 ∧
    ((deepcopy gapEnv 0 (after gapEnv c71Pair)).2.objs 2).uuid ≠ ((after gapEnv c71Pair).objs 0).uuid := by
  decide +kernel

end Verif.Ser
