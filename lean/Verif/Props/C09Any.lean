import Verif.Props.C09
import Verif.Lemmas.Shown

/-!
# C09 and C10 for every well-located tree

Nothing is assumed about how the heap came about or about the classes: the nodes on the
way may have any storage or fixed children, translate keys, cache, answer for nodespaces,
make up children or fall back.  All that counts is that each node is found in its parent
under its name.
-/

namespace Verif

variable {E : Env} {w : World} {root : Oid}

/-- What `path` and `root` see of a located node. -/
theorem LocatedAt.chain (hr : (w.loc root).2 = none) {ks : List Key} {o : Oid}
    (h : LocatedAt E w root ks o) :
    ∃ l, Chain w o l ∧ (∀ p ∈ o :: l, p < w.nobj) ∧
      (o :: l).reverse.map (fun p => (w.loc p).1) = (w.loc root).1 :: ks ∧
      (o :: l).getLast (List.cons_ne_nil _ _) = root := by
  induction h with
  | root hn => exact ⟨[], .root hr, by simpa using hn, rfl, rfl⟩
  | @item ks p c k hb _ e hn ih =>
    obtain ⟨l, h1, h2, h3, h4⟩ := ih
    refine ⟨p :: l, .up (by rw [e]) h1, fun q hq => ?_, ?_, ?_⟩
    · rcases List.mem_cons.mp hq with rfl | hq
      · exact hn
      · exact h2 q hq
    · rw [List.reverse_cons, List.map_append, h3, List.map_singleton, e]
      rfl
    · rw [List.getLast_cons (List.cons_ne_nil _ _)]
      exact h4

/-- Walking along the keys: only caches of the nodes above change. -/
theorem LocatedAt.walk (hw : WF w) (hr : (w.loc root).2 = none) {ks : List Key} {o : Oid}
    (h : LocatedAt E w root ks o) :
    ∃ l w', Chain w o l ∧ walk E (.node root) ks w = (.ok (.node o), w') ∧ WF w' ∧ Same w w' ∧
      ∀ p, p ∉ l → w'.cached p = w.cached p := by
  induction h with
  | root hn => exact ⟨[], w, .root hr, rfl, hw, .refl w, fun _ _ => rfl⟩
  | @item ks p c k hb hs e hn ih =>
    obtain ⟨l, w1, h1, h2, h3, h4, h5⟩ := ih
    rw [← shown_same h4 (h5 p h1.not_mem)] at hs
    obtain ⟨w2, h6, h7⟩ := getitem_shown h3 hs
    refine ⟨p :: l, w2, .up (by rw [e]) h1, ?_, h7.wf, h4.trans h7.same, fun q hq => ?_⟩
    · rw [walk_append, h2]
      show (do let v ← getitem E p k; Verif.walk E v []) w1 = _
      rw [M.bind_apply, h6]
      rfl
    · rw [h7.cached q fun x => hq (x ▸ List.mem_cons_self), h5 q fun x => hq (List.mem_cons_of_mem _ x)]

/-- C09: the path of a located node is the root's name and the keys that lead there; its
root is `root`. -/
theorem c09_path (hr : (w.loc root).2 = none) {ks : List Key} {o : Oid}
    (h : LocatedAt E w root ks o) :
    pathOf w o = some ((w.loc root).1 :: ks) ∧ rootOf w o = some root := by
  obtain ⟨l, h1, h2, h3, h4⟩ := h.chain hr
  have hlen := nodup_length_le h1.nodup h2
  simp only [List.length_cons] at hlen
  constructor
  · unfold pathOf
    rw [h1.namesUp (by omega), Option.map_some, ← List.map_reverse, h3]
  · unfold rootOf
    rw [h1.rootN (by omega), h4]

/-- C09: looking up `node.path[1:]` from the root finds the node, and changes nothing but
caches. -/
theorem c09_lookup (hw : WF w) (hr : (w.loc root).2 = none) {ks : List Key} {o : Oid}
    (h : LocatedAt E w root ks o) :
    ∃ p w', pathOf w o = some p ∧ nodeByPath E root p.tail w = (.ok (.node o), w') ∧ Same w w' := by
  obtain ⟨_, w', _, h1, _, h2, _⟩ := h.walk hw hr
  exact ⟨_, w', (c09_path hr h).1, h1, h2⟩

/-- C09 for string paths: names that are non-empty strings without slash, with any number
of slashes around the path. -/
theorem c09_string (hw : WF w) (hr : (w.loc root).2 = none) {names : List Str} {o : Oid}
    (h : LocatedAt E w root (names.map Key.str) o) (hs : ∀ s ∈ names, s ≠ [] ∧ '/' ∉ s) (m n : Nat) :
    (∃ r, pathOf w o = some (r :: names.map Key.str)) ∧
    ∃ w', nodeByStrPath E root (List.replicate m '/' ++ joinSlash names ++ List.replicate n '/') w =
      (.ok (.node o), w') ∧ Same w w' := by
  obtain ⟨_, w', _, h1, _, h2, _⟩ := h.walk hw hr
  refine ⟨⟨_, (c09_path hr h).1⟩, w', ?_, h2⟩
  rw [nodeByStrPath_join E root hs]
  exact h1

/-- Keys lead to one node. -/
theorem LocatedAt.functional {ks : List Key} {a b : Oid} (ha : LocatedAt E w root ks a)
    (hb : LocatedAt E w root ks b) : a = b := by
  induction ha generalizing b with
  | root _ =>
    generalize hk : ([] : List Key) = ks at hb
    cases hb with
    | root _ => rfl
    | item _ _ _ _ => simp at hk
  | @item ks p c k _ hc _ _ ih =>
    generalize hk : ks ++ [k] = ms at hb
    cases hb with
    | root _ => simp at hk
    | @item ms q d j hb hd _ _ =>
      obtain ⟨rfl, e⟩ := List.append_inj' hk rfl
      injection e with e
      subst e
      rw [← ih hb, hc] at hd
      injection hd with hd
      injection hd

/-- C10: two located nodes of the same tree with the same path are the same node. -/
theorem c10_identify (hr : (w.loc root).2 = none) {ks js : List Key} {a b : Oid}
    (ha : LocatedAt E w root ks a) (hb : LocatedAt E w root js b) (he : pathOf w a = pathOf w b) :
    a = b := by
  rw [(c09_path hr ha).1, (c09_path hr hb).1] at he
  injection he with he
  injection he with _ he
  subst he
  exact ha.functional hb

/-! ### A node in two places -/

/-- Put a node in two places of a parent and replace it in the second one. -/
def twiceOps : List Op := [.new 0 .none none, .new 0 .none none, .new 0 .none none,
  .set 0 ka (.node 1), .set 0 kb (.node 1), .set 0 kb (.node 2)]

/-- C10 is false for arbitrary trees: a node that was put in two places of its parent
remains in the first one with the name of the second, where another node may sit. -/
theorem c10_refuted : ∃ ops, (execAll sampleEnv ops {}).1.all (fun r => r.toBool) = true ∧
    Below (after sampleEnv ops) 0 [ka] 1 ∧ Below (after sampleEnv ops) 0 [kb] 2 ∧
    ((after sampleEnv ops).loc 0).2 = none ∧
    pathOf (after sampleEnv ops) 1 = pathOf (after sampleEnv ops) 2 ∧
    pathOf (after sampleEnv ops) 1 = some [.none, kb] :=
  ⟨twiceOps, by decide +kernel, .child .root (show ((after sampleEnv twiceOps).children 0).get? ka = some (.node 1) by decide +kernel),
    .child .root (show ((after sampleEnv twiceOps).children 0).get? kb = some (.node 2) by decide +kernel), by decide +kernel, by decide +kernel,
    by decide +kernel⟩

/-! ### Instances -/

/-- Translated keys behind a cache, with factories and fallback; fixed children; a full
node and its attributes. -/
def mixedEnv : Env where
  cls := fun
    | 0 => { bhvs := [.adopt, .cache, .fallback, .alias, .childFactory, .defaultInit, .nodify, .odictStorage],
             aliaser := some (.pre "p-".toList), factories := [(.str ['z'], 2)] }
    | 1 => { bhvs := [.fixedChildren, .nodify], fixed := [(.str ['a'], 2)] }
    | 2 => { fullNode with attrsFactory := 3 }
    | _ => nodeAttributes
  depth := 3

/-- A root, below it fixed children, and attributes on one of these. -/
def mixedOps : List Op := [.new 0 (.str ['r']) none, .new 1 .none none,
  .set 0 (.str ['p', '-', 'a']) (.node 1), .attrs 2]

/-- The keys that lead to the attributes. -/
def mixedNames : List Str := [['p', '-', 'a'], ['a'], "__attrs__".toList]

theorem mixed_located : LocatedAt mixedEnv (after mixedEnv mixedOps) 0 (mixedNames.map Key.str) 3 :=
  .item (ks := [_, _]) (p := 2)
    (.item (ks := [_]) (p := 1)
      (.item (ks := []) (p := 0) (.root (by decide +kernel)) (by decide +kernel) (by decide +kernel)
        (by decide +kernel))
      (by decide +kernel) (by decide +kernel) (by decide +kernel))
    (by decide +kernel) (by decide +kernel) (by decide +kernel)

example : pathOf (after mixedEnv mixedOps) 3 = some (.str ['r'] :: mixedNames.map Key.str) ∧
    rootOf (after mixedEnv mixedOps) 3 = some 0 ∧
    (nodeByStrPath mixedEnv 0 "/p-a/a/__attrs__".toList (after mixedEnv mixedOps)).1 = .ok (.node 3) := by
  obtain ⟨h1, h2⟩ := c09_path (by decide +kernel) mixed_located
  obtain ⟨-, w', h, -⟩ := c09_string (reachable_after mixedEnv mixedOps).wf (by decide +kernel)
    mixed_located (by decide) 1 0
  exact ⟨h1, h2, congrArg Prod.fst h⟩

end Verif
