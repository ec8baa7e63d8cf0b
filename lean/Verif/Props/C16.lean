import Verif.Props.C15

/-!
# C16, C18, C19, C20: adding nodes twice, setting uuids, merging, adding again

What holds of these, and the witnesses for what does not.
-/

namespace Verif

variable {E : Env}

theorem known_of {w : World} {o : Oid} {r : Ref} (h : (w.objs o).index = some r) : w.known o = w.idxs r := by
  simp only [World.known, h]

theorem index_of_known {w : World} {o : Oid} {u : Option Nat} (h : u ∈ (w.known o).keys) :
    ∃ r, (w.objs o).index = some r := by
  cases e : (w.objs o).index with
  | some r => exact ⟨r, rfl⟩
  | none =>
    simp only [World.known, e] at h
    exact absurd h (by simp [Od.keys])

/-! ### C16 -/

/-- **C16**, for values that have children: a node whose index shares a uuid with the index
of the tree is refused with `ValueError`; children, index, uuids and all locations are as
before.  Missing: values without children, for which the code skips the check
(`c16_refuted`). -/
theorem c16_partial {w : World} {o c : Oid} {k : Key} {u : Option Nat} (hw : WF w)
    (hco : RefClass (clsOf E w o)) (hcc : RefClass (clsOf E w c)) (hk : KeyFor (clsOf E w o) k)
    (hu : u ∈ (w.known o).keys) (hu' : u ∈ (w.known c).keys) (hne : w.children c ≠ []) :
    ∃ w', setitem E o k (.node c) w = (.error (.value "Node with uuid already exists"), w') ∧
      (∀ p, w'.children p = w.children p) ∧ (∀ p, w'.known p = w.known p) ∧
      (∀ p v, HasUuid w' p v ↔ HasUuid w p v) ∧ ∀ p, w'.loc p = w.loc p := by
  obtain ⟨si, hs⟩ := index_of_known hu
  obtain ⟨vi, hv⟩ := index_of_known hu'
  obtain ⟨w', e1, e2, e3⟩ := setitem_refused (u := u) hw hco hcc hk hs hv hne (known_of hs ▸ hu)
    (known_of hv ▸ hu')
  refine ⟨w', e1, e2.children, fun p => ?_, fun p v => by simp only [HasUuid, e2.uuid], e3⟩
  simp only [World.known, e2.index, e2.idxs]

/-- C16 for trees grown through the API: a node of the tree that has children is refused
wherever it is put in again. -/
theorem c16_grown_partial (hE : 0 < E.depth) {w : World} {Rs : List Oid} (h : Grown E w Rs) {R o c : Oid}
    {k : Key} (hR : R ∈ Rs) (ho : InTree w R o) (hc : InTree w R c) (hne : w.children c ≠ [])
    (hk : KeyFor (clsOf E w o) k) :
    ∃ w', setitem E o k (.node c) w = (.error (.value "Node with uuid already exists"), w') ∧
      Grown E w' Rs ∧ (∀ p, w'.children p = w.children p) ∧ (∀ p, w'.known p = w.known p) ∧
      ∀ p, w'.loc p = w.loc p := by
  obtain ⟨w', e1, e2, e3⟩ := (h.forest hE).again hR ho hc hne hk
  exact ⟨w', e1, .again h hR ho hc hne hk e1, e2.children, fun p => by
    simp only [World.known, e2.index, e2.idxs], e3⟩

/-- A leaf of the tree is accepted a second time, under another key; its uuid is in the
index before. -/
theorem c16_refuted : ∃ ops o k c u, (refNode o u (after sampleEnv ops)).1 = .ok (some c) ∧
    HasUuid (after sampleEnv ops) c u ∧
    (setitem sampleEnv o k (.node c) (after sampleEnv ops)).1 = .ok () ∧
    ((setitem sampleEnv o k (.node c) (after sampleEnv ops)).2.omap o).keys = [ka, kb] :=
  ⟨[.new 7 .none none, .new 7 .none none, .set 0 ka (.node 1)], 0, kb, 1, 2,
    by decide +kernel, by unfold HasUuid; decide +kernel, by decide +kernel, by decide +kernel⟩

/-- In the chain of three, the middle node is refused below the last. -/
example : ∃ w', setitem sampleEnv 2 kc (.node 1) (after sampleEnv refChain) =
    (.error (.value "Node with uuid already exists"), w') ∧ Grown sampleEnv w' [0] ∧
    (∀ p, w'.children p = (after sampleEnv refChain).children p) ∧
    (∀ p, w'.known p = (after sampleEnv refChain).known p) ∧
    ∀ p, w'.loc p = (after sampleEnv refChain).loc p :=
  c16_grown_partial (by decide) refChain_grown (by decide)
    (.child (.child (.refl 0) (k := ka) rfl) (k := kb) (c := 2) rfl) (.child (.refl 0) (k := ka) rfl)
    (by decide +kernel) (fun h => absurd h (by decide +kernel))

/-! ### C18 -/

/-- **C18**, the refusal: a uuid under which the node's index knows another node is refused
and nothing at all changes. -/
theorem c18_refused {w : World} {o x : Oid} {u : Nat} (h0 : 0 < u)
    (h : (w.known o).get? (some u) = some x) (hx : x ≠ o) :
    setUuidRef o (some u) w = (.error (.value "Given uuid was already used for another Node"), w) := by
  obtain ⟨r, hr⟩ := index_of_known (Od.mem_keys_of_get? h)
  rw [known_of hr] at h
  simp only [setUuidRef, M.bind_apply, indexRef, hr, M.getW_apply, iuuid_pos h0, h]
  simp [hx, M.raise]

theorem iuuid_eq {a : Option Nat} {v : Nat} (hv : 0 < v) : iuuid a = some v ↔ a = some v := by
  match a with
  | none => simp [iuuid]
  | some 0 =>
    simp only [iuuid, Option.some.injEq]
    exact ⟨fun h => (nomatch h), fun h => by omega⟩
  | some (n + 1) => simp [iuuid]

/-- **C18**, the success, for every uuid but the nil one: the node gets the uuid; asked on
any node sharing the index, the new uuid finds the node, the old one nothing, every other
uuid what it found before; other indexes and all children are untouched.  Missing: the nil
uuid (`c18_refuted`). -/
theorem c18_set_partial {w : World} {o : Oid} {r : Ref} {u : Nat} (hw : WF w) (h0 : 0 < u)
    (hr : (w.objs o).index = some r)
    (h : ∀ x, (w.known o).get? (some u) = some x → x = o) :
    ∃ w', setUuidRef o (some u) w = (.ok (), w') ∧
      (∀ p v, HasUuid w' p v ↔ if p = o then v = u else HasUuid w p v) ∧
      (∀ p v, 0 < v → (w.objs p).index = some r → ∀ x, (w'.known p).get? (some v) = some x ↔
        v = u ∧ x = o ∨ v ≠ u ∧ ¬ HasUuid w o v ∧ (w.known p).get? (some v) = some x) ∧
      (∀ p, (w.objs p).index ≠ some r → w'.known p = w.known p) ∧
      ∀ p, w'.children p = w.children p := by
  rw [known_of hr] at h
  have hany : (((w.idxs r).get? (some u)).any fun x => x ≠ o) = false := by
    cases hg : (w.idxs r).get? (some u) with
    | none => rfl
    | some x => simp [h x hg]
  have hidx : ∀ p, ((upd w.objs o { w.objs o with uuid := some u } p).index) = (w.objs p).index :=
    proj_upd Obj.index w.objs o _ (by rfl)
  refine ⟨{ w with
      idxs := upd w.idxs r (((w.idxs r).del (iuuid (w.objs o).uuid)).set (some u) o)
      objs := upd w.objs o { w.objs o with uuid := some u } }, ?_, fun p v => ?_, fun p v hv hp x => ?_,
    fun p hp => ?_, fun p => ?_⟩
  · simp only [setUuidRef, M.bind_apply, indexRef, hr, M.getW_apply, iuuid_pos h0, hany,
      Bool.false_eq_true, if_false, M.modifyW_apply, modO_apply]
  · simp only [HasUuid, upd]
    by_cases e : p = o
    · subst e
      simp only [if_true, Option.some.injEq]
      exact eq_comm
    · simp only [e, if_false]
  · rw [known_of hp]
    simp only [World.known, hidx, hp, upd_same]
    rw [Od.get?_set, Od.get?_del (hw.iNd r)]
    by_cases e : v = u
    · simp [e, eq_comm]
    · have e' : ¬ some v = some u := fun h => e (Option.some.inj h)
      simp only [e', if_false, e, false_and, false_or, not_false_eq_true, true_and, HasUuid, ne_eq]
      rw [← iuuid_eq hv (a := (w.objs o).uuid)]
      by_cases e'' : iuuid (w.objs o).uuid = some v
      · simp [e'']
      · have : ¬ some v = iuuid (w.objs o).uuid := fun h => e'' h.symm
        simp [this, e'']
  · simp only [World.known, hidx]
    cases hp' : (w.objs p).index with
    | none => rfl
    | some q =>
      simp only [upd]
      rw [if_neg]
      exact fun e => hp (hp'.trans (congrArg some e))
  · exact children_modO (w := { w with idxs := upd w.idxs r _ }) o (fun ob => { ob with uuid := some u }) rfl p

/-- C18 in trees grown through the API: setting an unused uuid keeps the index exact. -/
theorem c18_grown (hE : 0 < E.depth) {w : World} {Rs : List Oid} (h : Grown E w Rs) {R o : Oid} {u : Nat}
    (hR : R ∈ Rs) (ho : InTree w R o) (h0 : 0 < u) (hun : Unused w Rs u) :
    ∃ w', setUuidRef o (some u) w = (.ok (), w') ∧ Grown E w' Rs ∧
      (∀ p, w'.children p = w.children p) ∧
      ∀ p, InTree w R p → ∀ v x, (w'.known p).get? (some v) = some x ↔
        x = o ∧ v = u ∨ x ≠ o ∧ InTree w R x ∧ HasUuid w x v := by
  obtain ⟨w', e1, e2, e3, e4, -⟩ := (h.forest hE).setUuid hR ho h0 (.inl hun)
  have hcon : ∀ p j c, Contains w' p j c ↔ Contains w p j c := fun p j c => by
    show (w'.children p).get? j = _ ↔ (w.children p).get? j = _
    rw [e3]
  have hin : ∀ {x}, InTree w' R x ↔ InTree w R x := InTree.congr hcon
  refine ⟨w', e1, .uuid h hR ho h0 (fun R' hR' => hun R' (List.mem_filter.mp hR').1) e1, e3, fun p hp v x => ?_⟩
  obtain ⟨i, hi⟩ := e2.live R hR
  rw [hi.indexed p (hin.mpr hp), hin]
  simp only [HasUuid, e4]
  by_cases hx : x = o
  · simp only [hx, if_true, true_and, Option.some.injEq, not_true_eq_false, false_and, or_false, ne_eq]
    exact ⟨fun h => h.2.symm, fun h => ⟨ho, h.symm⟩⟩
  · simp [hx]

/-- Given the nil uuid, the node has it but is not found under it. -/
theorem c18_refuted : ∃ ops o, HasUuid (after sampleEnv ops) o 0 ∧
    (execAll sampleEnv ops {}).1.getLast? = some (.ok .unit) ∧
    (refNode o 0 (after sampleEnv ops)).1 = .ok none :=
  ⟨[.new 7 .none none, .setUuid 0 (some 0)], 0, by unfold HasUuid; decide +kernel, by decide +kernel,
    by decide +kernel⟩

/-- In the chain, the middle node's uuid cannot be given to the last one; 9 can. -/
example : (setUuidRef 2 (some 2) (after sampleEnv refChain)).1 =
      .error (.value "Given uuid was already used for another Node") ∧
    (refNode 0 9 (setUuidRef 2 (some 9) (after sampleEnv refChain)).2).1 = .ok (some 2) ∧
    (refNode 0 3 (setUuidRef 2 (some 9) (after sampleEnv refChain)).2).1 = .ok none ∧
    (refNode 0 2 (setUuidRef 2 (some 9) (after sampleEnv refChain)).2).1 = .ok (some 1) := by decide +kernel

/-! ### C19 -/

/-- Whatever stores the root of another tree, at whatever position, and merges its index. -/
theorem Forest.graftShift {w w' : World} {Rs : List Oid} (hf : Forest E w Rs) {R o N : Oid} {k : Key} {r n : Ref}
    {ch : Oid → Od Key Val} (hR : R ∈ Rs) (ho : InTree w R o) (hN : N ∈ Rs) (hNR : N ≠ R)
    (hk : k ∉ (w.children o).keys) (hkf : KeyFor (clsOf E w o) k)
    (hr : LiveTree E w R r) (hn : LiveTree E w N n)
    (e2 : Shift ch (upd w.idxs r ((w.idxs r).update (w.idxs n)))
      (upd (fun p => (w.objs p).index) N (some r)) w w')
    (hch : ∀ p j, (w'.children p).get? j = (chSet w o k (.node N) p).get? j) :
      ((∀ x, InTree w' R x ↔ InTree w R x ∨ InTree w N x) ∧ (∀ x u, HasUuid w' x u ↔ HasUuid w x u) ∧
      (∀ p, InTree w R p ∨ p = N → ∀ u x, (w'.known p).get? (some u) = some x ↔
        InTree w' R x ∧ HasUuid w' x u) ∧
      (∀ p, InTree w N p → p ≠ N → ∀ u x, (w'.known p).get? (some u) = some x ↔
        InTree w N x ∧ HasUuid w' x u)) ∧ RefTree E w' R ∧ WF w' ∧ Contains w' o k N ∧
      ∃ r, (w'.objs o).index = some r := by
  have hrn : n ≠ r := fun e => hNR (hf.apart N hN R hR (by
    rw [hn.shared N (.refl N), hr.shared R (.refl R), e]))
  have hoN : ¬ InTree w N o := fun h' => hNR (hf.disjoint hN hR h' ho)
  have hcon : ∀ p j c, Contains w' p j c ↔ Contains w p j c ∨ p = o ∧ j = k ∧ c = N := fun p j c => by
    rw [contains_chSet hch hk]
    simp only [Val.node.injEq, eq_comm]
  have hin : ∀ x, InTree w' R x ↔ InTree w R x ∨ InTree w N x := fun x => by
    rw [InTree.grafted hcon hoN]
    simp [ho]
  have hu : ∀ x u, HasUuid w' x u ↔ HasUuid w x u := fun x u => by simp only [HasUuid, e2.uuid]
  have hoo : (w'.objs o).index = some r := by
    rw [e2.index, upd_other _ _ (fun e : o = N => hoN (by rw [e]; exact .refl N))]
    exact hr.shared o ho
  have htree : RefTree E w' R := by
    have hcl := e2.clsOf (E := E)
    have hold : ∀ x, InTree w' R x → ∃ A ∈ Rs, InTree w A x ∧ ∃ r, LiveTree E w A r := fun x hx => by
      rcases (hin x).mp hx with h | h
      · exact ⟨R, hR, h, r, hr⟩
      · exact ⟨N, hN, h, n, hn⟩
    refine ⟨?_, fun p j h => ?_, by rw [e2.nobj]; exact hr.tree.bound, fun p j c h => ?_, fun x hx => ?_, fun x hx j hj => ?_,
      fun x hx => ?_, fun x y u hx hy h1 h2 => ?_⟩
    · intro p j p' j' c h1 h2
      rcases (hcon _ _ _).mp h1 with h1 | ⟨a1, a2, a3⟩ <;> rcases (hcon _ _ _).mp h2 with h2 | ⟨b1, b2, b3⟩
      · exact hf.sole _ _ _ _ _ h1 h2
      · exact absurd h1 (b3 ▸ hn.tree.top _ _)
      · exact absurd h2 (a3 ▸ hn.tree.top _ _)
      · exact ⟨a1.trans b1.symm, a2.trans b2.symm⟩
    · rcases (hcon _ _ _).mp h with h | ⟨-, -, e⟩
      · exact hr.tree.top _ _ h
      · exact hNR e.symm
    · rw [e2.nobj]
      rcases (hcon _ _ _).mp h with h | ⟨-, -, rfl⟩
      · exact hf.bounds _ _ _ h
      · exact hn.tree.bound
    · obtain ⟨A, hA, ha, a, hla⟩ := hold x hx
      rw [hcl]
      exact hla.tree.cls x ha
    · obtain ⟨A, hA, ha, a, hla⟩ := hold x hx
      rw [hcl]
      rw [mem_keys_chSet hch] at hj
      simp only [chSet] at hj
      by_cases hxo : x = o
      · subst hxo
        rw [if_pos rfl, Od.mem_keys_set] at hj
        rcases hj with rfl | hj
        · exact hkf
        · exact hr.tree.keys x ho j hj
      · rw [if_neg hxo] at hj
        exact hla.tree.keys x ha j hj
    · obtain ⟨A, hA, ha, a, hla⟩ := hold x hx
      obtain ⟨u, h⟩ := hla.tree.uuid x ha
      exact ⟨u, (hu x u).mpr h⟩
    · obtain ⟨A, hA, ha, -⟩ := hold x hx
      obtain ⟨B, hB, hb, -⟩ := hold y hy
      exact hf.inj A hA B hB x y u ha hb ((hu x u).mp h1) ((hu y u).mp h2)
  refine ⟨⟨hin, hu, fun p hp u x => ?_, fun p hp hpN u x => ?_⟩, htree, e2.wf,
    (hcon _ _ _).mpr (.inr ⟨rfl, rfl, rfl⟩), r, hoo⟩
  · have hi : (w'.objs p).index = some r := by
      rw [e2.index]
      rcases hp with hp | rfl
      · simp only [upd]
        split
        · rfl
        · exact hr.shared p hp
      · exact upd_same ..
    rw [known_of hi, e2.idxs, upd_same, Od.get?_update (hf.wf.iNd n), hin, hu]
    have key : ∀ {A a}, LiveTree E w A a → ((w.idxs a).get? (some u) = some x ↔ InTree w A x ∧ HasUuid w x u) := by
      intro A a ha
      rw [ha.exact]
      exact ⟨fun ⟨v, e, hv⟩ => by cases e; exact hv, fun hv => ⟨u, rfl, hv⟩⟩
    cases hg : (w.idxs n).get? (some u) with
    | none =>
      simp only [Option.none_or]
      rw [key hr]
      constructor
      · exact fun hx => ⟨.inl hx.1, hx.2⟩
      · rintro ⟨hx | hx, hxu⟩
        · exact ⟨hx, hxu⟩
        · rw [(key hn).mpr ⟨hx, hxu⟩] at hg
          cases hg
    | some y =>
      simp only [Option.some_or, Option.some.injEq]
      obtain ⟨v, hv, hy1, hy2⟩ := (hn.exact _ _).mp hg
      cases hv
      constructor
      · rintro rfl
        exact ⟨.inr hy1, hy2⟩
      · rintro ⟨hx | hx, hxu⟩
        · exact hf.inj N hN R hR y x u hy1 hx hy2 hxu
        · exact hf.inj N hN N hN y x u hy1 hx hy2 hxu
  · have hi : (w'.objs p).index = some n := by
      rw [e2.index, upd_other _ _ hpN]
      exact hn.shared p hp
    rw [known_of hi, e2.idxs, upd_other _ _ hrn, hn.exact, hu]
    exact ⟨fun ⟨v, e, hv⟩ => by cases e; exact hv, fun hv => ⟨u, rfl, hv⟩⟩

/-- Assigning the root of another tree. -/
theorem Forest.graft {w : World} {Rs : List Oid} (hf : Forest E w Rs) {R o N : Oid} {k : Key}
    (hR : R ∈ Rs) (ho : InTree w R o) (hN : N ∈ Rs) (hNR : N ≠ R) (hk : k ∉ (w.children o).keys)
    (hkf : KeyFor (clsOf E w o) k) :
    ∃ w', setitem E o k (.node N) w = (.ok (), w') ∧
      ((∀ x, InTree w' R x ↔ InTree w R x ∨ InTree w N x) ∧ (∀ x u, HasUuid w' x u ↔ HasUuid w x u) ∧
      (∀ p, InTree w R p ∨ p = N → ∀ u x, (w'.known p).get? (some u) = some x ↔
        InTree w' R x ∧ HasUuid w' x u) ∧
      (∀ p, InTree w N p → p ≠ N → ∀ u x, (w'.known p).get? (some u) = some x ↔
        InTree w N x ∧ HasUuid w' x u)) ∧ RefTree E w' R ∧ WF w' ∧ Contains w' o k N ∧
      ∃ r, (w'.objs o).index = some r := by
  obtain ⟨r, hr⟩ := hf.live R hR
  obtain ⟨n, hn⟩ := hf.live N hN
  obtain ⟨w', e1, e2⟩ := setitem_ref (k := k) hf.wf (hr.tree.cls o ho) (hn.tree.cls N (.refl N)) hkf
    (hr.shared o ho) (hn.shared N (.refl N)) (hf.apartKeys hR hN hNR hr hn)
  exact ⟨w', e1, hf.graftShift hR ho hN hNR hk hkf hr hn e2 fun p j => by rw [e2.children]⟩

/-- **C19**, for the nodes of the receiving tree and the merged root: after assigning the root
`N` of another tree, with everything below it, they find exactly the nodes of the merged
tree.  Missing: the nodes strictly below `N` (`c19_refuted`). -/
theorem c19_partial (hE : 0 < E.depth) {w : World} {Rs : List Oid} (h : Grown E w Rs) {R o N : Oid} {k : Key}
    (hR : R ∈ Rs) (ho : InTree w R o) (hN : N ∈ Rs) (hNR : N ≠ R) (hk : k ∉ (w.children o).keys)
    (hkf : KeyFor (clsOf E w o) k) :
    ∃ w', setitem E o k (.node N) w = (.ok (), w') ∧
      (∀ x, InTree w' R x ↔ InTree w R x ∨ InTree w N x) ∧ (∀ x u, HasUuid w' x u ↔ HasUuid w x u) ∧
      (∀ p, InTree w R p ∨ p = N → ∀ u x, (w'.known p).get? (some u) = some x ↔
        InTree w' R x ∧ HasUuid w' x u) ∧
      (∀ p, InTree w N p → p ≠ N → ∀ u x, (w'.known p).get? (some u) = some x ↔
        InTree w N x ∧ HasUuid w' x u) := by
  obtain ⟨w', e1, e2, -⟩ := (h.forest hE).graft hR ho hN hNR hk hkf
  exact ⟨w', e1, e2⟩

/-- After adding 1, which has the child 2, to 0: node 2 does not find 0. -/
theorem c19_refuted : ∃ ops R o x u, InTree (after sampleEnv ops) R o ∧ InTree (after sampleEnv ops) R x ∧
    HasUuid (after sampleEnv ops) x u ∧ (refNode o u (after sampleEnv ops)).1 = .ok none :=
  ⟨[.new 7 .none none, .new 7 .none none, .new 7 .none none, .set 1 kb (.node 2), .set 0 ka (.node 1)],
    0, 2, 0, 1, .child (.child (.refl 0) (k := ka) (c := 1) rfl) (k := kb) rfl, .refl 0,
    by unfold HasUuid; decide +kernel, by decide +kernel⟩

/-- There the root and the merged node find everything. -/
example : let w := after sampleEnv [.new 7 .none none, .new 7 .none none, .new 7 .none none,
      .set 1 kb (.node 2), .set 0 ka (.node 1)]
    (refNode 0 3 w).1 = .ok (some 2) ∧ (refNode 1 1 w).1 = .ok (some 0) ∧
    (refNode 2 2 w).1 = .ok (some 1) := by decide +kernel

/-! ### C20 -/

theorem Od.update_self_get? {K V : Type} [DecidableEq K] {d : Od K V} (h : d.keys.Nodup) (k : K) :
    (d.update d).get? k = d.get? k := by
  rw [Od.get?_update h]
  cases d.get? k <;> rfl

/-- C20 fails for every leaf: deleted and put in again (under any unused key), it is a child
again, but no node of the tree finds it. -/
theorem c20_leaf_lost (hE : 0 < E.depth) {w : World} {Rs : List Oid} (h : Grown E w Rs) {R o n : Oid}
    {k j : Key} {u : Nat} (hR : R ∈ Rs) (ho : InTree w R o) (hc : Contains w o k n)
    (hl : w.children n = []) (hu : HasUuid w n u) (hj : KeyFor (clsOf E w o) j) :
    ∃ w1 w2, delitem E o k w = (.ok (), w1) ∧ setitem E o j (.node n) w1 = (.ok (), w2) ∧
      Contains w2 o j n ∧ HasUuid w2 n u ∧ ∀ p, InTree w R p → (w2.known p).get? (some u) = none := by
  have hf := h.forest hE
  obtain ⟨r, hr⟩ := hf.live R hR
  have hn : InTree w R n := ho.child hc
  have hno : n ≠ o := fun e => ho.acyclic hf.sole hr.tree.top hc (e ▸ .refl n)
  obtain ⟨d, w1, e1, e2, e3⟩ := delitem_ref hr hf.wf ho (k := k) (v := .node n) hc
  obtain ⟨w2, f1, f2⟩ := setitem_same (k := j) (o := o) (c := n) (si := r) e2.wf
    (by rw [e2.clsOf]; exact hr.tree.cls o ho) (by rw [e2.clsOf]; exact hr.tree.cls n hn)
    (by rw [e2.clsOf]; exact hj) ((e2.index o).trans (hr.shared o ho)) ((e2.index n).trans (hr.shared n hn))
    (by rw [e2.children]; simp only [chDel, hno, if_false]; exact hl)
  refine ⟨w1, w2, e1, f1, ?_, ?_, fun p hp => ?_⟩
  · show (w2.children o).get? j = _
    rw [f2.children]
    simp only [chSet, if_true]
    rw [Od.get?_set]
    simp
  · exact (f2.uuid n).trans ((e2.uuid n).trans hu)
  · have hi : (w2.objs p).index = some r := by
      rw [f2.index]
      simp only [upd]
      split
      · rfl
      · exact (e2.index p).trans (hr.shared p hp)
    have hnd : d.keys.Nodup := by
      have := e2.wf.iNd r
      rw [e2.idxs, upd_same] at this
      exact this
    rw [known_of hi, f2.idxs, upd_same, e2.idxs, upd_same, Od.update_self_get? hnd]
    cases hg : d.get? (some u) with
    | none => rfl
    | some x => exact absurd rfl (((e3 _ x).mp hg).2 n u rfl ⟨n, .refl n, hu⟩)

/-- C20 fails for every subtree: deleted and put in again, it is refused. -/
theorem c20_subtree_refused (hE : 0 < E.depth) {w : World} {Rs : List Oid} (h : Grown E w Rs) {R o n : Oid}
    {k j : Key} (hR : R ∈ Rs) (ho : InTree w R o) (hc : Contains w o k n)
    (hl : w.children n ≠ []) (hj : KeyFor (clsOf E w o) j) :
    ∃ w1 w2, delitem E o k w = (.ok (), w1) ∧
      setitem E o j (.node n) w1 = (.error (.value "Node with uuid already exists"), w2) := by
  have hf := h.forest hE
  obtain ⟨r, hr⟩ := hf.live R hR
  have hn : InTree w R n := ho.child hc
  have hno : n ≠ o := fun e => ho.acyclic hf.sole hr.tree.top hc (e ▸ .refl n)
  obtain ⟨d, w1, e1, e2, e3⟩ := delitem_ref hr hf.wf ho (k := k) (v := .node n) hc
  obtain ⟨u, hu, hgu⟩ := hr.own (.refl R)
  have hd : d.get? (some u) = some R := (e3 _ _).mpr ⟨hgu, fun n' v e hv e' => by
    cases e; cases e'
    obtain ⟨x, hx, hxu⟩ := hv
    have := hf.inj R hR R hR x R u (hn.trans hx) (.refl R) hxu hu
    subst this
    rcases hx.cases with rfl | ⟨p, i, -, hp⟩
    · exact hr.tree.top _ _ hc
    · exact hr.tree.top _ _ hp⟩
  have hk : some u ∈ (w1.idxs r).keys := by
    rw [e2.idxs, upd_same]; exact Od.mem_keys_of_get? hd
  obtain ⟨w2, f1, -⟩ := setitem_refused (k := j) (o := o) (c := n) (si := r) (vi := r) (u := some u) e2.wf
    (by rw [e2.clsOf]; exact hr.tree.cls o ho) (by rw [e2.clsOf]; exact hr.tree.cls n hn)
    (by rw [e2.clsOf]; exact hj) ((e2.index o).trans (hr.shared o ho)) ((e2.index n).trans (hr.shared n hn))
    (by rw [e2.children]; simp only [chDel, hno, if_false]; exact hl) hk hk
  exact ⟨w1, w2, e1, f1⟩

/-- **C20** if the leaf is taken out by `detach` instead of `del`: it can be put in again,
is found, and can be deleted and put in again. -/
theorem c20_detach_partial (hE : 0 < E.depth) {w : World} {Rs : List Oid} (h : Grown E w Rs) {R o n : Oid}
    {k j : Key} {u : Nat} (hR : R ∈ Rs) (ho : InTree w R o) (hc : Contains w o k n)
    (hl : ∀ j c, ¬ Contains w n j c) (hu : HasUuid w n u) (hj : KeyFor (clsOf E w o) j)
    (hfree : j ∉ (w.children o).keys ∨ j = k) :
    ∃ w1 w2 w3, detach E o k w = (.ok (.node n), w1) ∧ setitem E o j (.node n) w1 = (.ok (), w2) ∧
      Contains w2 o j n ∧ (∀ p, InTree w2 R p → (w2.known p).get? (some u) = some n) ∧
      delitem E o j w2 = (.ok (), w3) := by
  have hf := h.forest hE
  obtain ⟨r, hr⟩ := hf.live R hR
  have hno : ¬ InTree w n o := fun h' => ho.acyclic hf.sole hr.tree.top hc h'
  obtain ⟨w1, e1, e2, e3⟩ := hf.detach hR ho hc
  have hcon := contains_chDel hf.wf e3.children
  have ho1 : InTree w1 R o := (InTree.removed hf.sole hc hcon hr.tree.top ho).mpr ⟨ho, hno⟩
  have hRn : n ≠ R := fun e => hr.tree.top _ _ (e ▸ hc)
  obtain ⟨w2, f1, f2, f3, f4, -⟩ := e2.setLeaf (R := R) (o := o) (N := n) (k := j) (List.mem_cons_of_mem _ hR) ho1
    List.mem_cons_self hRn (fun i c hi => hl i c ((hcon _ _ _).mp hi).1) (by
      rw [e3.children]
      simp only [chDel, if_true]
      rw [← Od.get?_eq_none_iff, Od.get?_del (hf.wf.children_nodup _)]
      rcases hfree with hx | hx
      · split
        · rfl
        · exact (Od.get?_eq_none_iff _ _).mpr hx
      · rw [if_pos hx])
    (by rw [show clsOf E w1 o = clsOf E w o from congrArg E.cls (e3.cls o)]; exact hj)
  have hc2 : Contains w2 o j n := by
    show (w2.children o).get? j = _
    rw [f3]
    simp only [chSet, if_true]
    rw [Od.get?_set]
    simp
  have hR2 : R ∈ (n :: Rs).filter (· ≠ n) := by
    rw [List.mem_filter]
    exact ⟨List.mem_cons_of_mem _ hR, by simpa using fun e : R = n => hRn e.symm⟩
  obtain ⟨i, hi⟩ := f2.live R hR2
  have ho2 : InTree w2 R o := by
    have hk1 : ∀ p c' i', Contains w1 p i' c' → Contains w2 p i' c' := by
      intro p c' i' hp
      show (w2.children p).get? i' = _
      rw [f3]
      simp only [chSet]
      split
      · rename_i hpo
        subst hpo
        rw [Od.get?_set]
        split
        · rename_i hij
          subst hij
          have hx := (hcon _ _ _).mp hp
          rcases hfree with hx' | hx'
          · exact absurd (Od.mem_keys_of_get? hx.1) hx'
          · exact absurd ⟨rfl, hx'⟩ hx.2
        · exact hp
      · exact hp
    exact ho1.induct (P := InTree w2 R) (.refl R) fun p i' c' _ hp ih => ih.child (hk1 p c' i' hp)
  obtain ⟨w3, g1, -⟩ := f2.delitem hR2 ho2 (k := j) (v := .node n) hc2
  refine ⟨w1, w2, w3, e1, f1, hc2, fun p hp => ?_, g1⟩
  rw [hi.indexed p hp]
  exact ⟨ho2.child hc2, (f4 n).trans ((e3.uuid n).trans hu)⟩

/-- **C20** if a subtree of any size is taken out by `detach` instead of `del`: it can be put in again at any
node of the tree, below any key that is free then; all its nodes are found by their uuids, except by the nodes
strictly below the one put in (C19); and it can be deleted again. -/
theorem c20_detach_subtree_partial (hE : 0 < E.depth) {w : World} {Rs : List Oid} (h : Grown E w Rs) {R o n p : Oid}
    {k j : Key} (hR : R ∈ Rs) (ho : InTree w R o) (hc : Contains w o k n) (hp : InTree w R p) (hpn : ¬ InTree w n p)
    (hj : KeyFor (clsOf E w p) j) (hfree : j ∉ (w.children p).keys ∨ p = o ∧ j = k) :
    ∃ w1 w2 w3, detach E o k w = (.ok (.node n), w1) ∧ setitem E p j (.node n) w1 = (.ok (), w2) ∧
      Contains w2 p j n ∧ (∀ x, InTree w2 R x ↔ InTree w R x) ∧ (∀ x u, HasUuid w2 x u ↔ HasUuid w x u) ∧
      (∀ q, InTree w R q → ¬ InTree w n q ∨ q = n → ∀ u x, (w2.known q).get? (some u) = some x ↔
        InTree w R x ∧ HasUuid w x u) ∧ delitem E p j w2 = (.ok (), w3) := by
  have hf := h.forest hE
  obtain ⟨r, hr⟩ := hf.live R hR
  obtain ⟨w1, e1, e2, e3⟩ := hf.detach hR ho hc
  have hcon := contains_chDel hf.wf e3.children
  have hno : ¬ InTree w n o := fun h' => ho.acyclic hf.sole hr.tree.top hc h'
  have hin : ∀ x, InTree w1 R x ↔ InTree w R x ∧ ¬ InTree w n x := fun x =>
    InTree.removed hf.sole hc hcon hr.tree.top ho
  have hinn : ∀ x, InTree w1 n x ↔ InTree w n x := fun x => by
    constructor
    · exact fun hx => hx.induct (P := InTree w n) (.refl n) fun q i c _ hq ih => ih.child ((hcon _ _ _).mp hq).1
    · exact fun hx => (hx.induct (P := fun x => InTree w n x ∧ InTree w1 n x) ⟨.refl n, .refl n⟩ fun q i c _ hq ih =>
        ⟨ih.1.child hq, ih.2.child ((hcon _ _ _).mpr ⟨hq, fun e => hno (e.1 ▸ ih.1)⟩)⟩).2
  have hp1 : InTree w1 R p := (hin p).mpr ⟨hp, hpn⟩
  have hRn : n ≠ R := fun e => hr.tree.top _ _ (e ▸ hc)
  obtain ⟨w2, f1, ⟨f2, f3, f4, -⟩, f5, f6, f7, i, f8⟩ := e2.graft (R := R) (o := p) (N := n) (k := j)
    (List.mem_cons_of_mem _ hR) hp1 List.mem_cons_self hRn (by
      rw [e3.children]
      simp only [chDel]
      split
      · rename_i hpo
        subst hpo
        rw [← Od.get?_eq_none_iff, Od.get?_del (hf.wf.children_nodup _)]
        rcases hfree with hx | ⟨-, hx⟩
        · split
          · rfl
          · exact (Od.get?_eq_none_iff _ _).mpr hx
        · rw [if_pos hx]
      · rename_i hpo
        rcases hfree with hx | ⟨hx, -⟩
        · exact hx
        · exact absurd hx hpo)
    (by rw [show clsOf E w1 p = clsOf E w p from congrArg E.cls (e3.cls p)]; exact hj)
  have hR2 : ∀ x, InTree w2 R x ↔ InTree w R x := fun x => by
    rw [f2, hin, hinn]
    by_cases hx : InTree w n x
    · exact ⟨fun _ => (ho.child hc).trans hx, fun _ => .inr hx⟩
    · exact ⟨fun h => h.elim (·.1) fun h => absurd h hx, fun h => .inl ⟨h, hx⟩⟩
  have hu2 : ∀ x u, HasUuid w2 x u ↔ HasUuid w x u := fun x u => by
    rw [f3]
    simp only [HasUuid, e3.uuid]
  have hkn : ∀ q, InTree w R q → ¬ InTree w n q ∨ q = n → ∀ u x, (w2.known q).get? (some u) = some x ↔
      InTree w R x ∧ HasUuid w x u := fun q hq hqn u x => by
    rw [f4 q (hqn.imp (fun h => (hin q).mpr ⟨hq, h⟩) id), hR2, hu2]
  obtain ⟨d, w3, g1, -⟩ := delitem_refTree f5 f8 (fun u x hx hu => by
    have := (hkn p hp (.inl hpn) u x).mpr ⟨(hR2 x).mp hx, (hu2 x u).mp hu⟩
    rwa [known_of f8] at this) f6 ((hR2 p).mpr hp) (k := j) (v := .node n) f7
  exact ⟨w1, w2, w3, e1, f1, f7, hR2, hu2, hkn, g1⟩

/-- Add, delete, add again, delete again: the second addition is accepted but the node is not
found, and the second deletion raises `KeyError`. -/
theorem c20_refuted : ∃ ops,
    (execAll sampleEnv (ops ++ [.del 0 ka, .set 0 ka (.node 1), .del 0 ka]) {}).1.drop ops.length =
      [.ok .unit, .ok .unit, .error (.key (.uuid (some 2)))] ∧
    (refNode 0 2 (after sampleEnv ops)).1 = .ok (some 1) ∧
    (refNode 0 2 (after sampleEnv (ops ++ [.del 0 ka, .set 0 ka (.node 1)]))).1 = .ok none :=
  ⟨[.new 7 .none none, .new 7 .none none, .set 0 ka (.node 1)], by decide +kernel, by decide +kernel,
    by decide +kernel⟩

/-- Both refusals on the chain of three, and the way through `detach`. -/
example : (execAll sampleEnv (refChain ++ [.del 1 kb, .set 1 kb (.node 2), .del 0 ka]) {}).1.drop 5 =
      [.ok .unit, .ok .unit, .error (.key (.uuid (some 3)))] ∧
    (execAll sampleEnv (refChain ++ [.del 0 ka, .set 0 ka (.node 1)]) {}).1.drop 5 =
      [.ok .unit, .error (.value "Node with uuid already exists")] ∧
    (execAll sampleEnv (refChain ++ [.detach 1 kb, .set 1 kb (.node 2), .del 1 kb]) {}).1.drop 5 =
      [.ok (.val (.node 2)), .ok .unit, .ok .unit] := by decide +kernel

/-- The subtree of the chain, put in again under another key and deleted. -/
example : (execAll sampleEnv (refChain ++ [.detach 0 ka, .set 0 kc (.node 1), .del 0 kc]) {}).1.drop 5 =
      [.ok (.val (.node 1)), .ok .unit, .ok .unit] ∧
    (refNode 0 3 (after sampleEnv (refChain ++ [.detach 0 ka, .set 0 kc (.node 1)]))).1 = .ok (some 2) := by
  decide +kernel

example : ∃ w1 w2 w3, detach sampleEnv 0 ka (after sampleEnv refChain) = (.ok (.node 1), w1) ∧
    setitem sampleEnv 0 kc (.node 1) w1 = (.ok (), w2) ∧ delitem sampleEnv 0 kc w2 = (.ok (), w3) := by
  obtain ⟨w1, w2, w3, h1, h2, -, -, -, -, h3⟩ := c20_detach_subtree_partial (by decide) refChain_grown (R := 0) (o := 0)
    (n := 1) (p := 0) (k := ka) (j := kc) (by decide) (.refl 0) rfl (.refl 0) (fun h => by
      rcases h.cases with h | ⟨p, k, -, h⟩
      · cases h
      · exact ((refChain_grown.forest (by decide)).live 0 (by decide)).elim fun _ hr => hr.tree.top _ _ h)
    (fun h => absurd h (by decide)) (.inl (by decide +kernel))
  exact ⟨w1, w2, w3, h1, h2, h3⟩

end Verif
