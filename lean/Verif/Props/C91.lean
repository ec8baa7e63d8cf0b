import Verif.Props.C15
import Verif.Props.C72

/-!
# C91: a tree that was loaded is indexed

`deserialize` builds trees of `Reference` nodes top down: each node is made alone, draws a uuid and an index of its
own, and is stored in its parent before its children are made.  Asked on any node of the tree it returns, `node(uuid)` answers with
the node of that tree that has the uuid, and trees that were there before go on answering about themselves.
Loaded below a node that is there (the argument `root`), the nodes are found from that node's tree, and that
tree's nodes from the new ones.

False as it stands: data that lists two children of one name loads, the second takes the place of the first,
and the first is still found (`c91_refuted`).
-/

namespace Verif

open Ser

variable {E : Env} {N : Codec}

theorem Indexed.asked {w : World} {R o : Oid} (h : Indexed w R) (ho : InTree w R o) {r : Ref}
    (hr : (w.objs o).index = some r) (u : Nat) :
    ∃ a, refNode o u w = (.ok a, w) ∧ ∀ x, a = some x ↔ InTree w R x ∧ HasUuid w x u :=
  ⟨_, refNode_known hr u, fun x => h o ho u x⟩

/-- **C91.**  In a forest of `Reference` trees grown through the API, where the uuids to be drawn are not in use,
`deserialize` of data that stands for a tree `t` of `Reference` nodes returns a new node with that shape.  Asked on
a node of any tree `R`, the new one or one that was there, `node(uuid)` answers with the node of `R` that has it.
The uuids to be drawn next are not in use either, so the next tree can be loaded. -/
theorem c91_loaded_partial (hE : 0 < E.depth) {w : World} {Rs : List Oid} (h : Grown E w Rs)
    (hi : ∀ u, w.nuuid ≤ u → Unused w Rs u) {t : NTree}
    (hb : Buildable E N (Keeps N) t) (hr : Refs E t) {n : Nat} (hn : tall t < n) :
    ∃ new w', deserialize E N n (jNode E (shown N {}) {} t) none w = (.ok (.node new), w') ∧ w.nobj ≤ new ∧
      Shape E (fun p => w.nobj ≤ p ∧ p < w'.nobj) w' t new ∧
      Grown E w' (new :: Rs) ∧ (∀ u, w'.nuuid ≤ u → Unused w' (new :: Rs) u) ∧
      ∀ R ∈ new :: Rs, ∀ o, InTree w' R o → ∀ u, ∃ a, refNode o u w' = (.ok a, w') ∧
        ∀ x, a = some x ↔ InTree w' R x ∧ HasUuid w' x u := by
  obtain ⟨w', e, hbt⟩ := decode_tree (f := shown N {}) (A := Keeps N) (fun d hd => hd.shown) hE t n none w
    (h.forest hE).wf hb hn nofun
  have hg := Grown.load h hi hb hr hn e
  have hs := (decode_ready (f := shown N {}) (A := Keeps N) (fun d hd => hd.shown) hE t n none w Rs ⟨h.forest hE, hi⟩ hb hr
    hn nofun).spare
  rw [e] at hs
  refine ⟨w.nobj, w', e, Nat.le_refl _, hbt.shape, hg, hs, fun R hR o ho u => ?_⟩
  obtain ⟨r, hl⟩ := (hg.forest hE).live R hR
  exact hl.indexed.asked ho (hl.shared o ho) u

/-- C91 for loading below a node `p` of the tree `R`, under a name not in use there: `p` has the new node
under that name, the new node is in `R`, and all trees answer about the nodes they have now. -/
theorem c91_below_partial (hE : 0 < E.depth) {w : World} {Rs : List Oid} (h : Grown E w Rs)
    (hi : ∀ u, w.nuuid ≤ u → Unused w Rs u) {t : NTree}
    (hb : Buildable E N (Keeps N) t) (hr : Refs E t) {n : Nat} (hn : tall t < n) {p : Oid} (hp : Spot E t w Rs p) :
    ∃ new w', deserialize E N n (jNode E (shown N {}) {} t) (some p) w = (.ok (.node new), w') ∧ w.nobj ≤ new ∧
      Contains w' p t.name new ∧ Shape E (fun q => w.nobj ≤ q ∧ q < w'.nobj) w' t new ∧
      Grown E w' Rs ∧ (∀ u, w'.nuuid ≤ u → Unused w' Rs u) ∧
      ∀ R ∈ Rs, ∀ o, InTree w' R o → ∀ u, ∃ a, refNode o u w' = (.ok a, w') ∧
        ∀ x, a = some x ↔ InTree w' R x ∧ HasUuid w' x u := by
  obtain ⟨w', e, hbt⟩ := decode_tree (f := shown N {}) (A := Keeps N) (fun d hd => hd.shown) hE t n (some p) w
    (h.forest hE).wf hb hn (fun q hq => Option.some.inj hq ▸ hp.toPar)
  have hg := Grown.loadBelow h hi hb hr hn hp e
  have hs := (decode_ready (f := shown N {}) (A := Keeps N) (fun d hd => hd.shown) hE t n (some p) w Rs ⟨h.forest hE, hi⟩
    hb hr hn (fun q hq => Option.some.inj hq ▸ hp)).spare
  rw [e] at hs
  refine ⟨w.nobj, w', e, Nat.le_refl _, ?_, hbt.shape, hg, hs, fun R hR o ho u => ?_⟩
  · show (w'.children p).get? _ = _
    rw [(hbt.par p rfl).1, Od.get?_set, if_pos rfl]
  · obtain ⟨r, hl⟩ := (hg.forest hE).live R hR
    exact hl.indexed.asked ho (hl.shared o ho) u

/-- In particular, if `p` is in the tree `R`, the nodes that were in `R` still are, the new node is, and it is
found from all of them. -/
theorem c91_found_partial (hE : 0 < E.depth) {w : World} {Rs : List Oid} (h : Grown E w Rs)
    (hi : ∀ u, w.nuuid ≤ u → Unused w Rs u) {t : NTree}
    (hb : Buildable E N (Keeps N) t) (hr : Refs E t) {n : Nat} (hn : tall t < n) {p R : Oid} (hp : Spot E t w Rs p)
    (hR : R ∈ Rs) (hin : InTree w R p) {new : Oid} {w' : World}
    (e : deserialize E N n (jNode E (shown N {}) {} t) (some p) w = (.ok (.node new), w')) :
    InTree w' R new ∧ ∀ o, InTree w R o → InTree w' R o ∧
      ∀ u, HasUuid w' new u → refNode o u w' = (.ok (some new), w') := by
  obtain ⟨w1, e1, hbt⟩ := decode_tree (f := shown N {}) (A := Keeps N) (fun d hd => hd.shown) hE t n (some p) w
    (h.forest hE).wf hb hn (fun q hq => Option.some.inj hq ▸ hp.toPar)
  have hstay : ∀ o, InTree w R o → InTree w1 R o := fun o ho => by
    obtain ⟨ks, ho⟩ := ho
    induction ho with
    | root => exact .refl R
    | @child ks q c k hq hc ih =>
      refine ih.child (k := k) ?_
      replace hq : InTree w R q := ⟨ks, hq⟩
      have hlt := (h.forest hE).lt hR hq
      replace hc : (w.children q).get? k = _ := hc
      show (w1.children q).get? k = _
      by_cases hqp : q = p
      · subst hqp
        rw [(hbt.par q rfl).1, Od.get?_set, if_neg, hc]
        rintro rfl
        exact hp.free ((Od.get?_isSome_iff _ _).mp (by rw [hc]; rfl))
      · rw [(hbt.old q hlt fun x => hqp (Option.some.inj x)).children, hc]
  obtain ⟨m, w2, e2, -, hc, -, -, -, ha⟩ := c91_below_partial (N := N) hE h hi hb hr hn hp
  have e' := e2.symm.trans e
  simp only [Prod.mk.injEq, Except.ok.injEq, Dec.node.injEq] at e'
  obtain ⟨rfl, rfl⟩ := e'
  have hw : w1 = w2 := snd_of (e1.symm.trans e2)
  subst hw
  have hnew : InTree w1 R m := (hstay p hin).child hc
  refine ⟨hnew, fun o ho => ⟨hstay o ho, fun u hu => ?_⟩⟩
  obtain ⟨a, e3, hx⟩ := ha R hR o (hstay o ho) u
  rw [e3, (hx m).mpr ⟨hnew, hu⟩]

/-! ### Concrete cases -/

theorem ser_full_ref : RefClass (serEnv.cls 2) :=
  ⟨⟨.odictStorage, rfl, nofun⟩, ⟨[.nodeChildValidate, .nodespaces, .adopt, .attributes],
    [.order, .asAttrAccess, .defaultInit, .nodify, .odictStorage], rfl, by decide, by decide⟩, by decide⟩

theorem c46_sample_refs : Refs serEnv c46Tree :=
  ⟨ser_full_ref, fun _ => by decide, ⟨ser_full_ref, fun _ => by decide, ⟨ser_full_ref, fun _ => by decide, trivial⟩,
    trivial⟩, ⟨ser_full_ref, fun _ => by decide, trivial⟩, trivial⟩

/-- Loaded into the empty world: root, two children, and a child of the first. -/
def c91W : World := (deserialize serEnv sampleCodec 5 (jNode serEnv (shown sampleCodec {}) {} c46Tree) none {}).2

example : ∃ new w', deserialize serEnv sampleCodec 5 (jNode serEnv (shown sampleCodec {}) {} c46Tree) none {} =
      (.ok (.node new), w') ∧ ∀ o, InTree w' new o → ∀ u, ∃ a, refNode o u w' = (.ok a, w') ∧
        ∀ x, a = some x ↔ InTree w' new x ∧ HasUuid w' x u :=
  have ⟨new, w', e, _, _, _, _, h⟩ := c91_loaded_partial (E := serEnv) (N := sampleCodec) (by decide) .start
    (fun _ _ R hR => nomatch hR) c46_sample_buildable c46_sample_refs (n := 5) (by decide)
  ⟨new, w', e, h new List.mem_cons_self⟩

example : (c91W.children 0).keys = [ka, kb] ∧ c91W.loc 2 = (kb, some 1) ∧ (c91W.objs 2).uuid = some 3 ∧
    (refNode 4 3 c91W).1 = .ok (some 2) ∧ (refNode 2 1 c91W).1 = .ok (some 0) ∧ (refNode 0 9 c91W).1 = .ok none := by
  decide +kernel

/-- A single node. -/
def c91Root : World := after serEnv [.new 2 (.str ['t']) none]

theorem c91_root_grown : Grown serEnv c91Root [0] :=
  .new (x := .ok 0) (c := 2) (name := .str ['t']) (parent := none) .start ser_full_ref (by decide) rfl
    fun _ _ _ A hA => nomatch hA

theorem c91_root_spare : ∀ u, c91Root.nuuid ≤ u → Unused c91Root [0] u :=
  ((c91_root_grown.forest (by decide)).ready (issued_execAll (by simp))).spare

/-- Loaded twice, there are two trees, each finding its own nodes. -/
example : ∃ a b w', Grown serEnv w' [b, a] ∧ a ≠ b ∧ ∀ R ∈ [b, a], ∀ o, InTree w' R o → ∀ u, ∃ x, refNode o u w' = (.ok x, w') ∧
      ∀ y, x = some y ↔ InTree w' R y ∧ HasUuid w' y u := by
  obtain ⟨a, w1, -, -, h2, hg, hs, -⟩ := c91_loaded_partial (E := serEnv) (N := sampleCodec) (by decide) .start
    (fun _ _ R hR => nomatch hR) c46_sample_buildable c46_sample_refs (n := 5) (by decide)
  obtain ⟨b, w2, -, hb, -, hg', -, h⟩ := c91_loaded_partial (E := serEnv) (N := sampleCodec) (by decide) hg hs
    c46_sample_buildable c46_sample_refs (n := 5) (by decide)
  exact ⟨a, b, w2, hg', fun e => Nat.not_lt.mpr hb (e ▸ (hg.forest (by decide)).lt List.mem_cons_self (.refl a)), h⟩

theorem c91_spot : Spot serEnv c46Tree c91Root [0] 0 where
  lt := by decide
  read := readClass_full
  adopt := by decide
  key := fun _ => ⟨_, rfl, by rintro ⟨⟨t, ht⟩, -⟩; cases ht⟩
  ref := fun _ => ⟨by decide +kernel, by decide⟩
  free := by decide +kernel
  inside := ⟨0, List.mem_singleton_self 0, .refl 0⟩

/-- The tree loaded below it is found from it. -/
example : ∃ new w', deserialize serEnv sampleCodec 5 (jNode serEnv (shown sampleCodec {}) {} c46Tree) (some 0) c91Root =
      (.ok (.node new), w') ∧ ∀ u, HasUuid w' new u → refNode 0 u w' = (.ok (some new), w') := by
  obtain ⟨new, w', e, -⟩ := c91_below_partial (E := serEnv) (N := sampleCodec) (by decide) c91_root_grown c91_root_spare
    c46_sample_buildable c46_sample_refs (n := 5) (by decide) c91_spot
  exact ⟨new, w', e, ((c91_found_partial (E := serEnv) (N := sampleCodec) (by decide) c91_root_grown c91_root_spare
    c46_sample_buildable c46_sample_refs (n := 5) (by decide) c91_spot (List.mem_singleton_self 0) (.refl 0) e).2 0
    (.refl 0)).2⟩

/-- Two children of one name. -/
def c91Twice : NTree := .mk 2 (.str ['r']) [] [.mk 2 ka [] [], .mk 2 ka [] []]

def c91Twos : Except Exc Dec × World :=
  deserialize serEnv sampleCodec 5 (jNode serEnv (shown sampleCodec {}) {} c91Twice) none {}

theorem returned {x : Except Exc Dec × World}
    (h : (match x.1 with | .ok (.node o) => o == 0 | _ => false) = true) : x = (.ok (.node 0), x.2) := by
  obtain ⟨r, w⟩ := x
  cases r with
  | error => cases h
  | ok d =>
    cases d with
    | node o => rw [show o = 0 from eq_of_beq h]
    | _ => cases h

/-- As stated the claim is false: the second child takes the place of the first, and the first is found
although it is not in the tree. -/
theorem c91_refuted : ∃ t o x u w', deserialize serEnv sampleCodec 5 (jNode serEnv (shown sampleCodec {}) {} t) none {} =
      (.ok (.node o), w') ∧ Refs serEnv t ∧ (refNode o u w').1 = .ok (some x) ∧ ¬ InTree w' o x := by
  have h1 : c91Twos = (.ok (.node 0), c91Twos.2) := returned (by decide +kernel)
  have h2 : (refNode 0 2 c91Twos.2).1 = .ok (some 1) := by decide +kernel
  have h3 : c91Twos.2.children 0 = [(ka, .node 2)] := by decide +kernel
  have h4 : c91Twos.2.children 2 = [] := by decide +kernel
  refine ⟨c91Twice, 0, 1, 2, c91Twos.2, h1, ⟨ser_full_ref, fun _ => by decide, ⟨ser_full_ref, fun _ => by decide, trivial⟩,
    ⟨ser_full_ref, fun _ => by decide, trivial⟩, trivial⟩, h2, fun h => ?_⟩
  generalize c91Twos.2 = w at h h3 h4
  have := InTree.induct (P := fun x => x = 0 ∨ x = 2) (.inl rfl) (fun p k c _ hc hp => by
    replace hc : (w.children p).get? k = _ := hc
    rcases hp with rfl | rfl
    · rw [h3] at hc
      simp only [Od.get?] at hc
      split at hc
      · cases hc
        exact .inr rfl
      · cases hc
    · rw [h4] at hc
      cases hc) h
  rcases this with h | h <;> cases h

end Verif
