import Verif.Lemmas.FullMappingCached
import Verif.Props.C44Cached
import Verif.Props.C15Cached
import Verif.Lemmas.FullMappingRun
import Verif.Props.C15
import Verif.Props.C62
import Verif.Props.C72
import Verif.Sample

/-!
# C67: the tester of mappings accepts nodes
-/

namespace Verif.FullMapping

open Verif.Tester (run okText)

section
variable {E : Env} {c : ClassId} {nc : Bool} {o : Oid} {L : Od Key Oid} {F : List Oid}
  {H : Od Key Oid → List Oid → World → Prop} (hp : Prims E c nc o H)
include hp

theorem run_checkName {k : Key} {x : Oid} {m : String} (h : (k, x) ∈ L) :
    Ret (H L F) (checkName nc (.node x) k m) () (H L F) := fun w hw => by
  cases nc with
  | false => exact ⟨w, rfl, hw⟩
  | true =>
    have := hp.named hw rfl h
    refine ⟨w, ?_, hw⟩
    simp only [checkName, if_true, nameOf, getO, M.bind_apply, M.getW_apply, M.pure_apply]
    simp only [this, failIf, ne_eq, not_true_eq_false, decide_false, Bool.false_eq_true, if_false, M.pure_apply]

omit hp in
theorem run_checkKeys {P : World → Prop} {ks expected : List Key} (hl : ks.length = expected.length)
    (h : ∀ k ∈ ks, k ∈ expected) : Ret P (checkKeys ks expected) () P :=
  (Ret.failIf (by simp [hl])).seq (Ret.failIf (by simpa using h))

theorem run_checkValues {expected : List Key} (hl : L.length = expected.length) (h : ∀ k ∈ L.keys, k ∈ expected) :
    Ret (H L F) (checkValues nc (L.map fun x => .node x.2) expected) () (H L F) := by
  refine (Ret.failIf (by simp [hl])).seq ?_
  cases nc with
  | false => exact .pure
  | true =>
    refine Ret.forU fun v hv => ?_
    obtain ⟨x, hx, rfl⟩ := List.mem_map.mp hv
    intro w hw
    have := hp.named hw rfl hx
    have hk := h x.1 (List.mem_map.mpr ⟨x, hx, rfl⟩)
    refine ⟨w, ?_, hw⟩
    simp only [nameOf, getO, M.bind_apply, M.getW_apply, M.pure_apply]
    simp only [this, failIf, hk, not_true_eq_false, decide_false, Bool.false_eq_true, if_false, M.pure_apply]


theorem run_checkItems {expected : List Key} (hn : L.keys.Nodup) (hl : L.length = expected.length)
    (hk : ∀ k ∈ L.keys, k ∈ expected) (hor : ∀ k ∈ L.keys, Ordinary k) :
    Ret (H L F) (checkItems E nc o (kids L) expected) () (H L F) := by
  refine (Ret.failIf (by simp [hl, kids])).seq ((Ret.forU fun kv hkv => ?_).seq (Ret.forU fun kv hkv => ?_))
  all_goals
    obtain ⟨x, hx, rfl⟩ := List.mem_map.mp hkv
    have hxk : x.1 ∈ L.keys := List.mem_map.mpr ⟨x, hx, rfl⟩
  · exact (Ret.failIf (by simpa using hk _ hxk)).seq (run_checkName hp hx)
  · exact (hp.get (hor _ hxk) (Od.get?_of_mem hn hx)).seq (Ret.failIf (by simp))

theorem run_len : Ret (H L F) (mlen E o) L.length (H L F) :=
  hp.keys.seq (by
    have : L.keys.length = L.length := by simp [Od.keys]
    rw [this]; exact .pure)

theorem run_lacks {a b : Key} {x y : Oid} (ha : Ordinary a) (hb : Ordinary b) (hx : L.get? a = some x) (hy : L.get? b = some y) :
    Ret (H L F) (lacks E o a b) false (H L F) := by
  refine Ret.seq (v := true) (Ret.try ((hp.get ha hx).seq .pure)) ?_
  exact Ret.seq (v := true) (Ret.try ((hp.get hb hy).seq .pure)) .pure

theorem run_testSetitem (hl : nc = true → (E.cls c).Located) : Gives (H [] []) (testSetitem E c nc o) fun _ w =>
    ∃ x y, H [(foo, x), (bar, y)] [] w := by
  refine (hp.new .none (.inl ⟨rfl, rfl⟩)).bind fun x => ?_
  refine (hp.set ord_foo (by decide) List.mem_cons_self).bind ?_
  rw [List.erase_cons_head]
  refine (hp.new _ (by cases nc with | true => exact .inr (hl rfl) | false => exact .inl ⟨rfl, rfl⟩)).bind fun y => ?_
  refine (hp.set (L := [(foo, x)]) ord_bar (show bar ∉ [foo] by decide) List.mem_cons_self).unit.post fun _ w hw => ⟨x, y, ?_⟩
  rw [List.erase_cons_head] at hw
  exact hw

theorem run_testGetitem {x y : Oid} : Ret (H [(foo, x), (bar, y)] F) (testGetitem E nc o) ()
    (H [(foo, x), (bar, y)] F) := by
  refine (hp.get ord_foo rfl).seq ?_
  cases nc with
  | false => exact .pure
  | true => exact (hp.get ord_bar rfl).seq (run_checkName hp (by simp))

theorem run_testGet {x y : Oid} : Ret (H [(foo, x), (bar, y)] F) (testGet E o) ()
    (H [(foo, x), (bar, y)] F) := by
  refine (Ret.try (hp.get ord_foo rfl)).seq ((Ret.failIf (by simp [marker])).seq ?_)
  exact ((hp.miss ord_xxx rfl).caught rfl .pure).seq (Ret.failIf (by simp))

theorem run_testKeys {x y : Oid} : Ret (H [(foo, x), (bar, y)] F) (testKeys E o) ()
    (H [(foo, x), (bar, y)] F) :=
  hp.keys.seq (run_checkKeys rfl fun _ h => h)

theorem run_testValues {x y : Oid} : Ret (H [(foo, x), (bar, y)] F) (testValues E nc o) ()
    (H [(foo, x), (bar, y)] F) :=
  hp.values.seq (run_checkValues hp rfl fun _ h => h)

theorem run_testItems {x y : Oid} : Ret (H [(foo, x), (bar, y)] F) (testItems E nc o) ()
    (H [(foo, x), (bar, y)] F) :=
  hp.items.seq (run_checkItems hp (show [foo, bar].Nodup by decide) rfl (fun _ h => h) fun k hk => by
    rcases List.mem_cons.mp hk with rfl | hk
    · exact ord_foo
    · rw [List.mem_singleton.mp hk]; exact ord_bar)

theorem run_testContains {x y : Oid} : Ret (H [(foo, x), (bar, y)] F) (testContains E o) ()
    (H [(foo, x), (bar, y)] F) := by
  refine (run_lacks hp ord_foo ord_bar rfl rfl).seq ((Ret.failIf rfl).seq ?_)
  exact Ret.seq (v := false) ((hp.miss ord_xxx rfl).bind.caught rfl .pure) (Ret.failIf rfl)

theorem run_testHasKey {x y : Oid} : Ret (H [(foo, x), (bar, y)] F) (testHasKey E o) ()
    (H [(foo, x), (bar, y)] F) :=
  (run_lacks hp ord_foo ord_bar rfl rfl).seq (Ret.failIf rfl)

theorem run_testLen {x y : Oid} : Ret (H [(foo, x), (bar, y)] F) (testLen E o) ()
    (H [(foo, x), (bar, y)] F) :=
  (run_len hp).seq (Ret.failIf rfl)

theorem run_testUpdate {x y : Oid} : Gives (H [(foo, x), (bar, y)] []) (testUpdate E c o) fun _ w =>
    ∃ z F, H [(foo, x), (bar, y), (baz, z)] F w := by
  refine (hp.new .none (.inl ⟨rfl, rfl⟩)).bind fun a => ?_
  refine (hp.new .none (.inl ⟨rfl, rfl⟩)).bind fun b => ?_
  refine (hp.itemsFree (x := a) (by simp)).bind ?_
  refine (Ret.pure (v := ())).bind ?_
  refine Gives.know (φ := a ≠ b) (fun w hw e => ?_) fun hab => ?_
  · have := hp.nodup hw
    simp only [List.nodup_cons, List.mem_singleton] at this
    exact this.1 e.symm
  have hF : [b, a].erase a = [b] := by
    rw [List.erase_cons_tail (by simpa using hab.symm), List.erase_cons_head]
  refine Ret.bind (v := ()) (Q := H [(foo, x), (bar, y), (baz, a), (blub, b)] []) ?_ ?_
  · refine (hp.set (L := [(foo, x), (bar, y)]) ord_baz (show baz ∉ [foo, bar] by decide) (by simp)).seq ?_
    rw [hF]
    have h2 := hp.set (L := [(foo, x), (bar, y), (baz, a)]) ord_blub (show blub ∉ [foo, bar, baz] by decide) (List.mem_cons_self (a := b) (l := []))
    rw [List.erase_cons_head] at h2
    exact h2.seq .pure
  have hga := hp.get (F := []) ord_baz (show Od.get? [(foo, x), (bar, y), (baz, a), (blub, b)] baz = some a from rfl)
  have hgb := hp.get (F := []) ord_blub (show Od.get? [(foo, x), (bar, y), (baz, a), (blub, b)] blub = some b from rfl)
  refine (Ret.try (v := ()) (hga.seq (Ret.seq hgb (Ret.pure (v := ()))))).bind ?_
  refine hga.bind ((Ret.failIf (by simp)).bind (hgb.bind ((Ret.failIf (by simp)).bind ?_)))
  refine (Ret.try (hp.del (L := [(foo, x), (bar, y), (baz, a), (blub, b)]) ord_blub (show blub ∈ [foo, bar, baz, blub] by decide))).bind ?_
  exact (Raises.caught (v := ()) (Raises.raise.bind) rfl .pure).unit.post fun _ w hw => ⟨a, [], hw⟩

theorem run_testDelitem {x y z : Oid} : Ret (H [(foo, x), (bar, y), (baz, z)] F) (testDelitem E o) ()
    (H [(foo, x), (baz, z)] F) := by
  refine (Ret.try (hp.del (L := [(foo, x), (bar, y), (baz, z)]) ord_bar (show bar ∈ [foo, bar, baz] by decide))).seq ?_
  exact hp.keys.seq (run_checkKeys rfl (show ∀ k ∈ [foo, baz], k ∈ [baz, foo] by decide))

theorem run_testSetdefault {x z : Oid} : Gives (H [(foo, x), (baz, z)] F) (testSetdefault E c nc o) fun _ w =>
    ∃ y F, H [(foo, x), (baz, z), (bar, y)] F w := by
  refine (hp.new .none (.inl ⟨rfl, rfl⟩)).bind fun a => ?_
  refine Gives.know (φ := x ≠ a) (fun w hw => hp.apart (x := (foo, x)) hw (by simp) List.mem_cons_self) fun hxa => ?_
  refine (Ret.try (hp.get ord_foo rfl)).bind ?_
  refine (Ret.failIf (by simpa using hxa)).bind ?_
  refine ((hp.miss ord_bar rfl).caught rfl
    (Ret.seq (v := ()) (hp.set (L := [(foo, x), (baz, z)]) ord_bar (show bar ∉ [foo, baz] by decide) List.mem_cons_self) (Ret.pure (v := Val.node a)))).bind ?_
  refine (Ret.failIf (by simp)).bind (hp.items.bind ?_)
  refine (run_checkItems hp (L := [(foo, x), (baz, z), (bar, a)]) (show [foo, baz, bar].Nodup by decide) rfl
    (show ∀ k ∈ [foo, baz, bar], k ∈ [foo, bar, baz] by decide) ?_).unit.post fun _ w hw => ⟨a, _, hw⟩
  intro k hk
  replace hk : k ∈ [foo, baz, bar] := hk
  simp only [List.mem_cons, List.not_mem_nil, or_false] at hk
  rcases hk with rfl | rfl | rfl
  · exact ord_foo
  · exact ord_baz
  · exact ord_bar

theorem run_testPop {x y z : Oid} : Ret (H [(foo, x), (baz, z), (bar, y)] F) (testPop E o) ()
    (H [(baz, z), (bar, y)] F) := by
  have hmiss := hp.miss (F := F) ord_xxx (show Od.get? [(foo, x), (baz, z), (bar, y)] xxx = none from rfl)
  refine Ret.seq (v := ()) (Raises.caught (Raises.bind (hmiss.bind.recaught rfl .raise)) rfl .pure) ?_
  refine Ret.seq (v := marker) (hmiss.bind.caught rfl (Ret.pure (v := marker))) ((Ret.failIf rfl).seq ?_)
  refine (run_len hp).seq ((hp.get ord_foo rfl).seq ?_)
  refine (Ret.try ((hp.get ord_foo rfl).seq
    ((hp.del (L := [(foo, x), (baz, z), (bar, y)]) ord_foo (show foo ∈ [foo, baz, bar] by decide)).seq (Ret.pure (v := Val.node x))))).seq ?_
  refine (run_len hp).seq ((Ret.failIf (by simp)).seq ((Ret.failIf rfl).seq ?_))
  exact hp.keys.seq (run_checkKeys rfl fun _ h => h)

theorem run_popitem {k : Key} {x : Oid} {L' : Od Key Oid} (hl : L = L' ++ [(k, x)]) (hk : Ordinary k) (hn : L.keys.Nodup) :
    Ret (H L F) (mpopitem E o) (k, .node x) (H (L.del k) F) := by
  have hmem : (k, x) ∈ L := by rw [hl]; simp
  refine hp.keys.seq ?_
  have : L.keys.reverse = k :: L'.keys.reverse := by rw [hl]; simp [Od.keys]
  rw [this]
  exact (hp.get hk (Od.get?_of_mem hn hmem)).seq
    ((hp.del hk (List.mem_map.mpr ⟨_, hmem, rfl⟩)).seq .pure)

theorem run_testPopitem {y z : Oid} : Ret (H [(baz, z), (bar, y)] F) (testPopitem E o) ()
    (H [] F) := by
  refine (run_popitem hp (L' := [(baz, z)]) rfl ord_bar (show [baz, bar].Nodup by decide)).seq ?_
  refine hp.keys.seq ((Ret.failIf rfl).seq ?_)
  refine (run_popitem hp (L := [(baz, z)]) (L' := []) rfl ord_baz (show [baz].Nodup by decide)).seq ?_
  exact Raises.caught (Raises.bind (Ret.raises hp.keys .raise)) rfl .pure

theorem run_testClear : Gives (H [] F) (testClear E c o) fun _ w => ∃ F, H [] F w := by
  refine (hp.new .none (.inl ⟨rfl, rfl⟩)).bind fun x => ?_
  refine (hp.set ord_foo (by decide) List.mem_cons_self).bind ?_
  refine (hp.new _ (.inl ⟨rfl, rfl⟩)).bind fun y => ?_
  refine (hp.set (L := [(foo, x)]) ord_bar (show bar ∉ [foo] by decide) List.mem_cons_self).bind ?_
  refine hp.keys.bind ((run_checkKeys rfl fun _ h => h).bind ?_)
  refine Ret.bind (v := ()) (hp.keys.seq ((hp.del (L := [(foo, x), (bar, y)]) ord_foo (show foo ∈ [foo, bar] by decide)).seq
    ((hp.del (L := [(bar, y)]) ord_bar (show bar ∈ [bar] by decide)).seq .pure))) ?_
  exact (hp.keys.seq (run_checkKeys (expected := []) rfl fun _ h => h)).unit.post fun _ w hw => ⟨_, hw⟩


omit hp in
theorem run_step {ts : Tester.Tests World} {d : Bool} {n : Tester.Name} {rest : List Tester.Name} {r : Od Tester.Name String}
    {rp : Exc → String} {m : M Unit} {w w' : World} (ht : ts n = some (outcomeOf rp m)) (hm : m w = (.ok (), w')) :
    run ts d (n :: rest) r w = run ts d rest (r.set n okText) w' := by
  conv => lhs; unfold run
  simp only [ht, outcomeOf, hm]

end

/-- Each method of the contract is reported with `OK`. -/
def allOk : Od Tester.Name String := contract.map fun n => (n, "OK")

/-- A run of the tester over an empty context. -/
theorem accepts {E : Env} {c : ClassId} {nc : Bool} {w : World} {o : Oid} {H : Od Key Oid → List Oid → World → Prop}
    (hp : Prims E c nc o H) (hl : nc = true → (E.cls c).Located) (h0 : H [] [] w) (rp : Exc → String) (direct : Bool) :
    ∃ w' F, run (tests E c nc o rp) direct contract [] w = (.finished, allOk, w') ∧ H [] F w' := by
  obtain ⟨_, w1, e1, x, y, h1⟩ := run_testSetitem hp hl _ h0
  obtain ⟨w2, e2, h2⟩ := run_testGetitem hp _ h1
  obtain ⟨w3, e3, h3⟩ := run_testGet hp _ h2
  obtain ⟨w4, e4, h4⟩ := run_testKeys hp _ h3
  obtain ⟨w5, e5, h5⟩ := run_testKeys hp _ h4
  obtain ⟨w6, e6, h6⟩ := run_testKeys hp _ h5
  obtain ⟨w7, e7, h7⟩ := run_testValues hp _ h6
  obtain ⟨w8, e8, h8⟩ := run_testValues hp _ h7
  obtain ⟨w9, e9, h9⟩ := run_testItems hp _ h8
  obtain ⟨w10, e10, h10⟩ := run_testItems hp _ h9
  obtain ⟨w11, e11, h11⟩ := run_testContains hp _ h10
  obtain ⟨w12, e12, h12⟩ := run_testHasKey hp _ h11
  obtain ⟨w13, e13, h13⟩ := run_testLen hp _ h12
  obtain ⟨_, w14, e14, z, F, h14⟩ := run_testUpdate hp _ h13
  obtain ⟨w15, e15, h15⟩ := run_testDelitem hp _ h14
  obtain ⟨w16, e16, h16⟩ := hp.copy _ h15
  obtain ⟨_, w17, e17, y, F, h17⟩ := run_testSetdefault hp _ h16
  obtain ⟨w18, e18, h18⟩ := run_testPop hp _ h17
  obtain ⟨w19, e19, h19⟩ := run_testPopitem hp _ h18
  obtain ⟨_, w20, e20, F, h20⟩ := run_testClear hp _ h19
  refine ⟨w20, F, ?_, h20⟩
  unfold contract
  rw [run_step rfl e1, run_step rfl e2, run_step rfl e3, run_step rfl e4, run_step rfl e5, run_step rfl e6,
    run_step rfl e7, run_step rfl e8, run_step rfl e9, run_step rfl e10, run_step rfl e11, run_step rfl e12,
    run_step rfl e13, run_step rfl e14, run_step rfl e15, run_step rfl e16, run_step rfl e17, run_step rfl e18,
    run_step rfl e19, run_step rfl e20]
  unfold run
  have : contract.foldl (fun r n => Od.set r n okText) [] = allOk := by decide +kernel
  rw [← this]
  rfl

/-- A run of the tester over an empty node ends normally and reports `OK` for each of the twenty
methods, with `direct_error` or not; the node is empty again, has its name and parent, and so has every
other node that was there, each with the children it had. -/
theorem c67_accepts_partial {E : Env} {c : ClassId} {nc : Bool} {w : World} {o : Oid} (hE : NoFactory E)
    (hd : 0 < E.depth) (hm : MapClass (E.cls c)) (hl : nc = true → (E.cls c).Located) (hc : TestClass (clsOf E w o) nc)
    (hmc : MapClass (clsOf E w o)) (hw : WF w) (ho : o < w.nobj)
    (he : w.children o = []) (rp : Exc → String) (direct : Bool) :
    ∃ w', run (tests E c nc o rp) direct contract [] w = (.finished, allOk, w') ∧ w'.children o = [] ∧
      ∀ p, p < w.nobj → w'.children p = w.children p ∧ w'.loc p = w.loc p ∧ clsOf E w' p = clsOf E w p := by
  obtain ⟨w', F, h1, h2⟩ := accepts (holds_prims hE hd hm hc hmc ho) hl (Holds.start hw he) rp direct
  refine ⟨w', h1, h2.children, fun p hp => ⟨?_, h2.loc p hp, congrArg E.cls (h2.cls p hp)⟩⟩
  by_cases e : p = o
  · subst e; exact h2.children.trans he.symm
  · exact h2.others p hp e

/-- What is left behind by a run over an empty node of a forest of `Reference` nodes. -/
theorem left_behind {E : Env} {c : ClassId} {nc : Bool} {w w' : World} {o : Oid} {Rs F : List Oid} (hf : Forest E w Rs)
    (he : w.children o = []) (h2 : RefHolds E c nc w o Rs [] F w') : w'.children o = [] ∧
      (∀ p, p < w.nobj → w'.children p = w.children p ∧ w'.loc p = w.loc p ∧ clsOf E w' p = clsOf E w p) ∧
      ∀ A ∈ Rs, ∀ p, InTree w A p → ∀ u, (refNode p u w').1 = (refNode p u w).1 := by
  have hlt : ∀ {A x}, A ∈ Rs → InTree w A x → x < w.nobj := fun {A x} hA hx => by
    obtain ⟨a, ha⟩ := hf.live A hA
    exact hx.induct (P := (· < w.nobj)) ha.tree.bound fun p j c _ hc _ => hf.bounds p j c hc
  have hb := h2.base
  have hch : ∀ p, p < w.nobj → w'.children p = w.children p := fun p hp => by
    by_cases e : p = o
    · subst e; exact hb.children.trans he.symm
    · exact hb.others p hp e
  refine ⟨hb.children, fun p hp => ⟨hch p hp, hb.loc p hp, congrArg E.cls (hb.cls p hp)⟩,
    fun A hA p hp u => ?_⟩
  obtain ⟨Rs', f1, f2, -⟩ := h2.forest
  obtain ⟨a, ha⟩ := hf.live A hA
  obtain ⟨a', ha'⟩ := f1.live A (f2 A hA)
  have hin : ∀ {x}, InTree w' A x ↔ InTree w A x := fun {x} => by
    constructor
    · refine fun hx => hx.induct (P := InTree w A) (.refl A) fun p j c _ h ih => ih.child (k := j) ?_
      show (w.children p).get? j = _
      rw [← hch p (hlt hA ih)]; exact h
    · refine fun hx => hx.induct (P := InTree w' A) (.refl A) fun p j c hp h ih => ih.child (k := j) ?_
      show (w'.children p).get? j = _
      rw [hch p (hlt hA hp)]; exact h
  rw [refNode_known (ha.shared p hp), refNode_known (ha'.shared p (hin.mpr hp))]
  have key : ∀ x, (w'.known p).get? (some u) = some x ↔ (w.known p).get? (some u) = some x := fun x => by
    rw [ha'.indexed p (hin.mpr hp), ha.indexed p hp, hin]
    refine and_congr_right fun hx => ?_
    simp only [HasUuid, h2.uuid x (hlt hA hx)]
  show Except.ok _ = Except.ok _
  congr 1
  cases h : (w.known p).get? (some u) with
  | some x => exact (key x).mpr h
  | none =>
    cases h' : (w'.known p).get? (some u) with
    | none => rfl
    | some x => rw [(key x).mp h'] at h; cases h

/-- The same for nodes with `Reference`, among them `Node`: run over an empty node of a tree grown
through the API. Afterwards also `node(uuid)` answers as before on all nodes of all trees. -/
theorem c67_reference_partial {E : Env} {c : ClassId} {nc : Bool} {w : World} {o R : Oid} {Rs : List Oid}
    (hE : NoFactory E) (hd : 0 < E.depth) (hm : RefClass (E.cls c)) (hl : nc = true → (E.cls c).Located)
    (hc : TestClass (clsOf E w o) nc) (hg : Grown E w Rs) (hi : Issued w) (hR : R ∈ Rs) (hRo : InTree w R o)
    (he : w.children o = []) (rp : Exc → String) (direct : Bool) :
    ∃ w', run (tests E c nc o rp) direct contract [] w = (.finished, allOk, w') ∧ w'.children o = [] ∧
      (∀ p, p < w.nobj → w'.children p = w.children p ∧ w'.loc p = w.loc p ∧ clsOf E w' p = clsOf E w p) ∧
      ∀ A ∈ Rs, ∀ p, InTree w A p → ∀ u, (refNode p u w').1 = (refNode p u w).1 := by
  have hf := hg.forest hd
  have hlt : ∀ {A x}, A ∈ Rs → InTree w A x → x < w.nobj := fun {A x} hA hx => by
    obtain ⟨a, ha⟩ := hf.live A hA
    exact hx.induct (P := (· < w.nobj)) ha.tree.bound fun p j c _ hc _ => hf.bounds p j c hc
  obtain ⟨w', F, h1, h2⟩ := accepts (refHolds_prims hE hd hm hc hf hR hRo he (hlt hR hRo)) hl
    ⟨Holds.start hf.wf he, ⟨Rs, hf, fun _ h => h, fun _ h => nomatch h⟩, fun _ _ => rfl, hi.uuid⟩ rp direct
  exact ⟨w', h1, left_behind hf he h2⟩

/-! ### With `Cache` -/

/-- C67 for classes with a `Cache` that is transparent (C31), after any history of the API: the classes without
their `Cache` are such classes as above. -/
theorem c67_cached_partial {E : Env} {c : ClassId} {nc : Bool} {ops : List Op} {o : Oid} (hE : NoFactory E)
    (hd : 0 < E.depth) (hs : ∀ c, CacheSafe (E.cls c)) (hh : FitsAll E ops {}) (hm : MapClass (E.cls c).uncached)
    (hl : nc = true → (E.cls c).Located) (hc : TestClass (clsOf E (after E ops) o).uncached nc)
    (hmc : MapClass (clsOf E (after E ops) o).uncached) (ho : o < (after E ops).nobj)
    (he : (after E ops).children o = []) (rp : Exc → String) (direct : Bool) :
    ∃ w', run (tests E c nc o rp) direct contract [] (after E ops) = (.finished, allOk, w') ∧ w'.children o = [] ∧
      ∀ p, p < (after E ops).nobj → w'.children p = (after E ops).children p ∧ w'.loc p = (after E ops).loc p ∧
        clsOf E w' p = clsOf E (after E ops) p := by
  have hf := fresh_after hs hh
  have hr := reachable_uncached hs hh
  generalize after E ops = w at *
  have hc' : TestClass (clsOf E.uncached w.uncache o) nc := hc
  have hE' : NoFactory E.uncached := fun c hc => hE c ((mem_uncached (by simp)).mp hc)
  obtain ⟨w', F, h1, h2⟩ := accepts (prims_cached hs (holds_prims (E := E.uncached) (c := c) (w0 := w.uncache) hE' hd hm hc' hmc ho) id
    (fun h => h.released ho) hc' ho) hl ⟨hf, Holds.start hr.wf he⟩ rp direct
  refine ⟨w', h1, h2.2.children, fun p hp => ⟨?_, h2.2.loc p hp, congrArg E.cls (h2.2.cls p hp)⟩⟩
  by_cases e : p = o
  · subst e; exact h2.2.children.trans he.symm
  · exact h2.2.others p hp e

/-- The same for nodes with `Reference`, in trees that are grown through the API as far as one can tell without
looking into caches. -/
theorem c67_cached_reference_partial {E : Env} {c : ClassId} {nc : Bool} {ops : List Op} {o R : Oid} {Rs : List Oid}
    (hE : NoFactory E) (hd : 0 < E.depth) (hs : ∀ c, CacheSafe (E.cls c)) (hh : FitsAll E ops {})
    (hm : RefClass (E.cls c).uncached) (hl : nc = true → (E.cls c).Located)
    (hc : TestClass (clsOf E (after E ops) o).uncached nc) (hg : Grown E.uncached (after E ops).uncache Rs)
    (hi : Issued (after E ops).uncache) (hR : R ∈ Rs) (hRo : InTree (after E ops) R o)
    (he : (after E ops).children o = []) (rp : Exc → String) (direct : Bool) :
    ∃ w', run (tests E c nc o rp) direct contract [] (after E ops) = (.finished, allOk, w') ∧ w'.children o = [] ∧
      (∀ p, p < (after E ops).nobj → w'.children p = (after E ops).children p ∧ w'.loc p = (after E ops).loc p ∧
        clsOf E w' p = clsOf E (after E ops) p) ∧
      ∀ A ∈ Rs, ∀ p, InTree (after E ops) A p → ∀ u, (refNode p u w').1 = (refNode p u (after E ops)).1 := by
  have hfr := fresh_after hs hh
  generalize after E ops = w at *
  have hf := Grown.forest (E := E.uncached) hd hg
  have hin : ∀ {A p}, InTree w A p → InTree w.uncache A p := fun h => (InTree.congr (w := w) (w' := w.uncache) fun _ _ _ => Iff.rfl).mpr h
  have ho : o < w.nobj := by
    obtain ⟨a, ha⟩ := hf.live R hR
    exact (hin hRo).induct (P := (· < w.nobj)) ha.tree.bound fun p j c _ hc _ => hf.bounds p j c hc
  have hc' : TestClass (clsOf E.uncached w.uncache o) nc := hc
  have hE' : NoFactory E.uncached := fun c hc => hE c ((mem_uncached (by simp)).mp hc)
  obtain ⟨w', F, h1, h2⟩ := accepts (prims_cached hs
    (refHolds_prims (E := E.uncached) (c := c) (w0 := w.uncache) hE' hd hm hc' hf hR (hin hRo) he ho) RefHolds.base
    (fun h => h.released ho) hc' ho) hl
    ⟨hfr, Holds.start hf.wf he, ⟨Rs, hf, fun _ h => h, fun _ h => nomatch h⟩, fun _ _ => rfl, hi.uuid⟩ rp direct
  obtain ⟨h3, h4, h5⟩ := left_behind hf he h2.2
  refine ⟨w', h1, h3, fun p hp => ⟨(h4 p hp).1, (h4 p hp).2.1, congrArg E.cls (h2.2.base.cls p hp)⟩, fun A hA p hp u => ?_⟩
  have := h5 A hA p (hin hp) u
  have key : ∀ v : World, (refNode p u v.uncache).1 = (refNode p u v).1 := fun v => by
    simp only [refNode, indexRef, M.bind_apply, World.uncache]
    cases (v.objs p).index <;> rfl
  rwa [key, key] at this

/-! ### Concrete runs -/

/-- An ordered node below another and its sibling, which has a child. -/
def c67Ops : List Op :=
  [.new 1 (.str ['r']) none, .new 1 .none none, .set 0 ka (.node 1), .new 1 .none none, .set 0 kb (.node 2),
   .new 1 .none none, .set 2 kc (.node 3)]

theorem ordered_map : MapClass orderedNode := by
  refine ⟨?_, ?_, ?_⟩ <;> decide

theorem orderedTestClass : TestClass orderedNode true := by
  refine ⟨ordered_map.concrete, ?_, ?_, ?_, ?_, ?_, ?_⟩ <;> decide

/-- The tester accepts the first child and leaves the tree around it alone. -/
example : ∃ w', run (tests sampleEnv 1 true 1 (fun _ => "")) false contract [] (after sampleEnv c67Ops) =
      (.finished, allOk, w') ∧ w'.children 1 = [] ∧ w'.loc 1 = (ka, some 0) ∧ w'.children 2 = [(kc, .node 3)] := by
  obtain ⟨w', h1, h2, h3⟩ := c67_accepts_partial (E := sampleEnv) (c := 1) (nc := true) (o := 1) (w := after sampleEnv c67Ops)
    sample_noFactory (by decide) ordered_map (fun _ => by decide) (show TestClass (sampleEnv.cls _) true from orderedTestClass)
    (show MapClass (sampleEnv.cls _) from ordered_map)
    (reachable_after _ _).wf (by decide +kernel) (by decide +kernel) (fun _ => "") false
  exact ⟨w', h1, h2, (h3 1 (by decide +kernel)).2.1.trans (by decide +kernel), (h3 2 (by decide +kernel)).1.trans (by decide +kernel)⟩

theorem referenceTestClass : TestClass referenceNode true := by
  refine ⟨RefClass.concrete sample_refClass, ?_, ?_, ?_, ?_, ?_, ?_⟩ <;> decide

/-- The tester accepts the last node of a chain of three `Reference` nodes, and each of the three is found by
its uuid as before. -/
example : ∃ w', run (tests sampleEnv 7 true 2 (fun _ => "")) false contract [] (after sampleEnv refChain) =
      (.finished, allOk, w') ∧ w'.children 2 = [] ∧ (refNode 2 1 w').1 = .ok (some 0) ∧ (refNode 0 3 w').1 = .ok (some 2) ∧
      (refNode 0 4 w').1 = .ok none := by
  have h1 : InTree (after sampleEnv refChain) 0 2 := .child (.child (.refl 0) (k := ka) rfl) (k := kb) rfl
  obtain ⟨w', e1, e2, -, e4⟩ := c67_reference_partial (E := sampleEnv) (c := 7) (nc := true) (o := 2) (R := 0)
    (w := after sampleEnv refChain) sample_noFactory (by decide) sample_refClass (fun _ => by decide)
    (show TestClass (sampleEnv.cls _) true from referenceTestClass) refChain_grown
    (issued_execAll (E := sampleEnv) (ops := refChain) (by unfold refChain; simp)) (by decide) h1 (by decide +kernel) (fun _ => "") false
  exact ⟨w', e1, e2, (e4 0 (by decide) 2 h1 1).trans (by decide +kernel),
    (e4 0 (by decide) 0 (.refl 0) 3).trans (by decide +kernel), (e4 0 (by decide) 0 (.refl 0) 4).trans (by decide +kernel)⟩

/-- A node with `Cache` below another and a sibling with a child; all of them have been read. -/
def c67CacheOps : List Op :=
  [.new 5 (.str ['r']) none, .new 5 .none none, .set 0 ka (.node 1), .new 5 .none none, .set 0 kb (.node 2),
   .new 5 .none none, .set 2 kc (.node 3), .values 0, .values 1, .values 2, .get 1 ka]

theorem cacheNodeUncached_map : MapClass cacheNode.uncached := by
  refine ⟨?_, ?_, ?_⟩ <;> decide

theorem sample_cacheSafe (c : ClassId) : CacheSafe (sampleEnv.cls c) := by
  unfold sampleEnv; dsimp only
  split <;> exact ⟨by decide, by decide, by decide⟩

/-- The tester accepts the first child although the caches of the others are in use. -/
example : ((after sampleEnv c67CacheOps).cached 0).length = 2 ∧
    ∃ w', run (tests sampleEnv 5 true 1 (fun _ => "")) false contract [] (after sampleEnv c67CacheOps) =
      (.finished, allOk, w') ∧ w'.children 1 = [] ∧ w'.loc 1 = (ka, some 0) ∧ w'.children 2 = [(kc, .node 3)] := by
  have ht : TestClass cacheNode.uncached true := by
    refine ⟨cacheNodeUncached_map.concrete, ?_, ?_, ?_, ?_, ?_, ?_⟩ <;> decide
  refine ⟨by decide +kernel, ?_⟩
  obtain ⟨w', h1, h2, h3⟩ := c67_cached_partial (E := sampleEnv) (c := 5) (nc := true) (o := 1) (ops := c67CacheOps)
    sample_noFactory (by decide) sample_cacheSafe (fits_of_fitsB (by decide +kernel)) cacheNodeUncached_map (fun _ => by decide)
    (show TestClass (sampleEnv.cls _).uncached true from ht) (show MapClass (sampleEnv.cls _).uncached from cacheNodeUncached_map)
    (by decide +kernel) (by decide +kernel) (fun _ => "") false
  exact ⟨w', h1, h2, (h3 1 (by decide +kernel)).2.1.trans (by decide +kernel), (h3 2 (by decide +kernel)).1.trans (by decide +kernel)⟩

/-- The tester accepts a child with `Reference` and `Cache` below a node whose cache is in use, and both nodes are
found by their uuids as before. -/
example : ((after cachedRefEnv cachedRefOps).cached 0).length = 1 ∧
    ∃ w', run (tests cachedRefEnv 0 true 1 (fun _ => "")) false contract [] (after cachedRefEnv cachedRefOps) =
      (.finished, allOk, w') ∧ w'.children 1 = [] ∧ (refNode 1 1 w').1 = .ok (some 0) ∧ (refNode 0 2 w').1 = .ok (some 1) ∧
      (refNode 0 3 w').1 = .ok none := by
  have h1 : InTree (after cachedRefEnv cachedRefOps) 0 1 := .child (.refl 0) (k := ka) (by unfold Contains; decide +kernel)
  have ht : TestClass (cachedRefEnv.cls 0).uncached true := by
    refine ⟨RefClass.concrete (cachedRef_class 0), ?_, ?_, ?_, ?_, ?_, ?_⟩ <;> decide
  have hi : Issued (after cachedRefEnv cachedRefOps).uncache := by
    rw [← show after cachedRefEnv.uncached cachedRefOps = (after cachedRefEnv cachedRefOps).uncache from
      (c31_all_partial _ cachedRef_safe _ cachedRef_fits).2]
    exact issued_execAll (by unfold cachedRefOps; simp)
  refine ⟨by decide +kernel, ?_⟩
  obtain ⟨w', e1, e2, -, e4⟩ := c67_cached_reference_partial (E := cachedRefEnv) (c := 0) (nc := true) (o := 1) (R := 0)
    (ops := cachedRefOps) (fun c => show _ ∉ (cachedRefEnv.cls 0).bhvs by decide) (by decide) cachedRef_safe cachedRef_fits
    (cachedRef_class 0) (fun _ => by decide) ht cachedRef_grown hi (by decide) h1 (by decide +kernel) (fun _ => "") false
  exact ⟨w', e1, e2, (e4 0 (by decide) 1 h1 1).trans (by decide +kernel),
    (e4 0 (by decide) 0 (.refl 0) 2).trans (by decide +kernel), (e4 0 (by decide) 0 (.refl 0) 3).trans (by decide +kernel)⟩

/-- What a run over a new node reports. -/
def report (E : Env) (c : ClassId) : Od Tester.Name String :=
  (run (tests E c true 0 fun e => match e with | .plain m => m | .runtime => "RuntimeError" | _ => "other") false contract []
    (after E [.new c .none none])).2.1

/-- `Node` is such a class. -/
example : RefClass fullNode ∧ TestClass fullNode true := by
  have h : RefClass fullNode := ⟨⟨.odictStorage, by decide, by decide⟩,
    ⟨[.nodeChildValidate, .nodespaces, .adopt, .attributes], _, rfl, by decide, by decide⟩, by decide⟩
  exact ⟨h, h.concrete, by decide, by decide, by decide, by decide, by decide, by decide⟩

/-- A node with `Fallback`, which the theorems leave out, is accepted as well, when new, as one with `Cache` is. -/
example : report sampleEnv 5 = allOk ∧ report sampleEnv 10 = allOk := by decide +kernel

/-- A class with `UUIDAware`. -/
def uuidEnv : Env where
  cls _ := { bhvs := [.adopt, .uuidAware, .defaultInit, .nodify, .odictStorage] }

/-- With `UUIDAware` the tester reports that `copy` has failed, and no other method. -/
theorem c67_refuted : (report uuidEnv 0).filter (fun x => x.2 ≠ okText) =
    [("copy", "failed: RuntimeError")] := by decide +kernel

end Verif.FullMapping
