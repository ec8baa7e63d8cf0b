import Verif.Props.C82
import Verif.Lemmas.Written

/-!
# C83 Reading back what was written

`node[k] = v` followed by reads, for every composition of behaviors and every well-formed
heap.  `World.shown` and `slot` are the specification (Spec/Shown.lean): what the
dictionaries of a node hold under a key, and which entry of which dictionary a key is
about.
-/

namespace Verif

variable {E : Env} {w w' : World} {o : Oid} {k : Key} {v : Val}

theorem wrote_setitem (hw : WF w) (h : setitem E o k v w = (.ok (), w')) :
    Wrote E (clsOf E w o).bhvs o k v w w' := wrote_setPipe _ hw h

/-- C83: after `node[k] = v` the node has `v` under `k`. -/
theorem c83_shown (hw : WF w) (h : setitem E o k v w = (.ok (), w')) :
    WF w' ∧ w'.shown E o k = some v := by
  have i := wrote_setitem hw h
  refine ⟨i.wf, ?_⟩
  unfold World.shown
  rw [i.clsOf]
  exact i.shown

/-- C83: `node[k]` is then `v`, `node.get(k, d)` too, and `k in node` is true: no stale
cached value, no factory, no fallback is in the way. -/
theorem c83_read (hw : WF w) (h : setitem E o k v w = (.ok (), w')) (d : Val) :
    (getitem E o k w').1 = .ok v ∧ (mget E o k d w').1 = .ok v ∧ (mcontains E o k w').1 = .ok true := by
  obtain ⟨hw', hs⟩ := c83_shown hw h
  obtain ⟨w2, h1, -⟩ := c82_get hw' hs
  rw [c82_default hw' hs, c82_contains hw' hs, h1]
  exact ⟨rfl, rfl, rfl⟩

/-- C83: all other nodes have under every key what they had. -/
theorem c83_others (hw : WF w) (h : setitem E o k v w = (.ok (), w')) {p : Oid} (hp : p ≠ o) (j : Key) :
    w'.shown E p j = w.shown E p j := by
  have i := wrote_setitem hw h
  have : ∀ bs j, w'.shownBy E p bs j = w.shownBy E p bs j := by
    intro bs
    induction bs with
    | nil =>
      intro j
      show w'.stored E p j = w.stored E p j
      unfold World.stored
      rw [i.clsOf, i.children p hp, i.fixed]
    | cons b r ih =>
      intro j
      cases b <;> simp only [World.shownBy, ih, i.clsOf, i.cached p hp, i.nsview p hp]
  unfold World.shown
  rw [i.clsOf, this]

/-- C83: and so has the node itself under the keys that are about other entries. -/
theorem c83_keys (hw : WF w) (h : setitem E o k v w = (.ok (), w'))
    (hc : (clsOf E w o).bhvs.count .cache ≤ 1) {j : Key}
    (hj : slot (clsOf E w o).aliaser (clsOf E w o).bhvs j ≠ slot (clsOf E w o).aliaser (clsOf E w o).bhvs k) :
    w'.shown E o j = w.shown E o j := by
  have i := wrote_setitem hw h
  unfold World.shown
  rw [i.clsOf]
  exact i.frame hc j hj

/-- Without `Cache` a node shows what is in the slot. -/
theorem shownBy_slot_eq {bs : List Bhv} (hb : Bhv.cache ∉ bs) {i j : Key}
    (h : slot (clsOf E w o).aliaser bs i = slot (clsOf E w o).aliaser bs j) :
    w.shownBy E o bs i = w.shownBy E o bs j := by
  suffices key : ∀ (bs : List Bhv) (j : Key), Bhv.cache ∉ bs → w.shownBy E o bs j =
      match slot (clsOf E w o).aliaser bs j with
      | none => none
      | some (.child u) => w.stored E o u
      | some (.nodespace u) => (w.nsview o).get? u by
    rw [key bs i hb, key bs j hb, h]
  intro bs
  induction bs with
  | nil => intro j _; rfl
  | cons b r ih =>
    intro j hb
    have ih := fun j => ih j fun x => hb (List.mem_cons_of_mem _ x)
    cases b
    case cache => exact absurd List.mem_cons_self hb
    case alias =>
      simp only [World.shownBy, slot]
      split
      · rename_i ha; exact ih j
      · rename_i a ha
        split
        · split
          · rename_i u hu; exact ih u
          · rfl
        · exact ih j
    case nodespaces =>
      cases j with
      | str s =>
        simp only [World.shownBy, slot]
        split
        · rfl
        · exact ih _
      | _ => exact ih _
    all_goals exact ih j

/-- C83: without `Cache`, every key about the same entry reads the same value. -/
theorem c83_alike (hw : WF w) (h : setitem E o k v w = (.ok (), w'))
    (hc : Bhv.cache ∉ (clsOf E w o).bhvs) {j : Key}
    (hj : slot (clsOf E w o).aliaser (clsOf E w o).bhvs j = slot (clsOf E w o).aliaser (clsOf E w o).bhvs k) :
    (getitem E o j w').1 = .ok v := by
  obtain ⟨hw', hs⟩ := c83_shown hw h
  have i := wrote_setitem hw h
  have : w'.shown E o j = some v := by
    unfold World.shown at hs ⊢
    rw [i.clsOf] at hs ⊢
    rw [← hs]
    exact shownBy_slot_eq hc (by rw [i.clsOf]; exact hj)
  obtain ⟨w2, h1, -⟩ := c82_get hw' this
  rw [h1]

/-! ### Instances -/

/-- Three ways to write and a key written twice, on the node with aliases, a cache,
fallback and factories. -/
def againOps : List Op := mixedOps ++ [.get 0 (.str ['p', '-', 'a']), .set 0 (.str ['p', '-', 'a']) (.node 2)]

example : (setitem mixedEnv 0 (.str ['p', '-', 'a']) (.node 2)
    (getitem mixedEnv 0 (.str ['p', '-', 'a']) (after mixedEnv mixedOps)).2).1 = .ok () := by decide +kernel

/-- The value is cached before, and the new one is read afterwards. -/
example : ((getitem mixedEnv 0 (.str ['p', '-', 'a']) (after mixedEnv mixedOps)).2.cached 0).get?
      (.str ['p', '-', 'a']) = some (.node 1) ∨
    ((getitem mixedEnv 0 (.str ['p', '-', 'a']) (after mixedEnv mixedOps)).2.cached 0).get?
      (.str ['a']) = some (.node 1) := by decide +kernel

example : (getitem mixedEnv 0 (.str ['p', '-', 'a']) (after mixedEnv againOps)).1 = .ok (.node 2) := by
  decide +kernel

example : (clsOf mixedEnv (after mixedEnv mixedOps) 0).bhvs.count .cache ≤ 1 ∧
    slot (clsOf mixedEnv (after mixedEnv mixedOps) 0).aliaser
        (clsOf mixedEnv (after mixedEnv mixedOps) 0).bhvs (.str ['p', '-', 'b']) ≠
      slot (clsOf mixedEnv (after mixedEnv mixedOps) 0).aliaser
        (clsOf mixedEnv (after mixedEnv mixedOps) 0).bhvs (.str ['p', '-', 'a']) := by decide +kernel

/-- A table that names `b` what is stored as `a` and leaves other keys alone. -/
def twoNames : Env where
  cls := fun _ => { bhvs := [.adopt, .alias, .defaultInit, .nodify, .odictStorage],
                    aliaser := some (.dict [(kb, ka)] false) }
  depth := 3

/-- Two keys about one entry: written under the one, read under the other. -/
example : slot (twoNames.cls 0).aliaser (twoNames.cls 0).bhvs kb =
      slot (twoNames.cls 0).aliaser (twoNames.cls 0).bhvs ka ∧
    (getitem twoNames 0 ka (setitem twoNames 0 kb (.node 1)
      (after twoNames [.new 0 .none none, .new 0 .none none])).2).1 = .ok (.node 1) := by
  have h : (setitem twoNames 0 kb (.node 1) (after twoNames [.new 0 .none none, .new 0 .none none])).1 =
      .ok () := by decide +kernel
  refine ⟨by decide +kernel, ?_⟩
  exact c83_alike (j := ka) (reachable_after twoNames [.new 0 .none none, .new 0 .none none]).wf
    (Prod.ext h rfl) (by decide +kernel) (by decide +kernel)

end Verif
