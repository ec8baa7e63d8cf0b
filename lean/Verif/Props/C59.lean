import Verif.Model.Copy
import Verif.Props.C02
import Verif.Lemmas.Stay

/-!
# C59: copies are independent of the original

After `c = node.copy()`, assigning or deleting items of `c` does not change the items of `node`.

This is false: `copy.copy` takes over the dictionaries of the node.  Proved: it holds as long as the
node had no storage of its own when it was copied; and where it had one, both show the same items for
ever, whatever is done.
-/

namespace Verif

variable {E : Env}

/-- What `copy` returns: a new object like the old one. -/
theorem copyPipe_ok {bs : List Bhv} {o c : Oid} {w w' : World} (ho : o < w.nobj)
    (h : copyPipe E bs o w = (.ok c, w')) : c = w.nobj ∧ w'.objs = upd w.objs w.nobj (w.objs o) ∧
      w' = { w with objs := w'.objs, nobj := w.nobj + 1 } := by
  induction bs generalizing c w' with
  | nil =>
    simp only [copyPipe, copyEnd] at h
    split at h
    · cases h
    · injection h with h1 h2
      injection h1 with h1
      subst h1 h2
      exact ⟨rfl, rfl, rfl⟩
  | cons b r ih =>
    cases b
    case uuidAware => cases h
    case nodify =>
      simp only [copyPipe, M.bind_apply] at h
      rcases hx : copyPipe E r o w with ⟨e | x, w1⟩
      · rw [hx] at h; cases h
      · obtain ⟨h1, h2, h3⟩ := ih hx
        rw [hx] at h
        simp only [nodifyCopy, M.bind_apply, getO_apply, modO_apply] at h
        injection h with g1 g2
        injection g1 with g1
        subst g1 g2 h1
        have hne : o ≠ w.nobj := Nat.ne_of_lt ho
        refine ⟨rfl, ?_, ?_⟩
        · funext p
          clear ih h3
          simp only [h2]
          by_cases hp : p = w.nobj
          · subst hp
            simp only [upd_same, upd_other _ _ hne]
          · simp only [upd_other _ _ hp]
        · rw [h3]
    all_goals exact ih h

theorem copyNode_ok {o c : Oid} {w w' : World} (ho : o < w.nobj) (h : copyNode E o w = (.ok c, w')) :
    c = w.nobj ∧ w' = { w with objs := upd w.objs w.nobj (w.objs o), nobj := w.nobj + 1 } := by
  unfold copyNode at h
  split at h
  · obtain ⟨h1, h2, h3⟩ := copyPipe_ok ho h
    rw [h2] at h3
    exact ⟨h1, h3⟩
  · cases h

/-- `copy` gives a new node with the class, the name, the parent and the items of the original, and
changes nothing else. -/
theorem c59_copied {o c : Oid} {w w' : World} (ho : o < w.nobj) (h : copyNode E o w = (.ok c, w')) :
    c = w.nobj ∧ (w'.objs c).cls = (w.objs o).cls ∧ w'.loc c = w.loc o ∧ w'.omap c = w.omap o ∧
      w'.nobj = w.nobj + 1 ∧ w'.log = w.log ∧
      ∀ p, p < w.nobj → w'.objs p = w.objs p ∧ w'.omap p = w.omap p := by
  obtain ⟨rfl, rfl⟩ := copyNode_ok ho h
  refine ⟨rfl, ?_, ?_, ?_, rfl, rfl, fun p hp => ?_⟩
  · simp
  · simp [World.loc]
  · simp [World.omap, World.children]
  · have : p ≠ w.nobj := Nat.ne_of_lt hp
    exact ⟨upd_other _ _ this, by simp [World.omap, World.children, upd, this]⟩

/-- An operation that assigns or deletes an item of `c`. -/
def Op.itemOf (c : Oid) : Op → Prop
  | .set o _ _ | .del o _ => o = c
  | _ => False

/-- A node without dictionaries of its own: copying it leaves no two nodes sharing one. -/
theorem WF.copied {o c : Oid} {w w' : World} (hw : WF w) (ho : o < w.nobj) (hs : (w.objs o).storage = none)
    (hc : (w.objs o).cache = none) (hn : (w.objs o).nodespaces = none) (h : copyNode E o w = (.ok c, w')) :
    WF w' := by
  obtain ⟨rfl, rfl⟩ := copyNode_ok ho h
  have key : ∀ {g : Obj → Option Nat} {n : Nat}, g (w.objs o) = none → RefsOK (fun p => g (w.objs p)) n →
      RefsOK (fun p => g (upd w.objs w.nobj (w.objs o) p)) n := by
    intro g n h0 hr
    have : ∀ {p r}, g (upd w.objs w.nobj (w.objs o) p) = some r → g (w.objs p) = some r := by
      intro p r hp
      unfold upd at hp
      split at hp
      · rw [h0] at hp; cases hp
      · exact hp
    exact ⟨fun hp => hr.lt (this hp), fun hp hq => hr.inj (this hp) (this hq)⟩
  exact {
    s := key (g := Obj.storage) hs hw.s
    c := key (g := Obj.cache) hc hw.c
    n := key (g := Obj.nodespaces) hn hw.n
    iLt := by
      intro p r hp
      have hp : (upd w.objs w.nobj (w.objs o) p).index = some r := hp
      unfold upd at hp
      split at hp
      · exact hw.iLt hp
      · exact hw.iLt hp
    sNd := hw.sNd, cNd := hw.cNd, nNd := hw.nNd, iNd := hw.iNd }

/-- Assigning and deleting items of one node leaves the items of the others. -/
theorem items_of_one {c : Oid} {ops : List Op} (hops : ∀ op ∈ ops, op.itemOf c) {w : World} (hc : c < w.nobj)
    (hE : DelReads E (clsOf E w c)) (hw : WF w) {p : Oid} (hp : p ≠ c) :
    (execAll E ops w).2.omap p = w.omap p := by
  induction ops generalizing w with
  | nil => rfl
  | cons op r ih =>
    have hst := dicts_exec E (c + 1) op w hc
    refine (ih (fun x hx => hops x (List.mem_cons_of_mem _ hx)) hst.1 ?_ ((grow_exec E op w).wf hw)).trans ?_
    · rw [show clsOf E (exec E op w).2 c = clsOf E w c from congrArg E.cls (hst.2 c (Nat.lt_succ_self c)).cls]
      exact hE
    have ho := hops op List.mem_cons_self
    cases op <;> try exact ho.elim
    case set o k v =>
      have ho : o = c := ho
      subst ho
      show (M.seq (setitem E o k v) _ w).2.omap p = _
      unfold M.seq
      rcases hx : setitem E o k v w with ⟨e | u, w1⟩
      · rcases c02_set_err E o k v hw hx with h | ⟨_, _, ⟨j, _, _, h⟩ | ⟨j, _, h⟩⟩
        · exact h p
        · exact h p hp
        · exact h p
      · rcases c02_set_ok E o k v hw hx with ⟨j, _, _, h⟩ | ⟨j, _, h⟩
        · exact h p hp
        · exact h p
    case del o k =>
      have ho : o = c := ho
      subst ho
      show (M.seq (delitem E o k) _ w).2.omap p = _
      unfold M.seq
      rcases hx : delitem E o k w with ⟨e | u, w1⟩
      · rcases c02_del_err o k hE hw hx with h | ⟨_, _, ⟨j, _, _, _, h⟩ | ⟨j, _, h⟩⟩
        · exact h p
        · exact h p hp
        · exact h p
      · rcases c02_del_ok o k hE hw hx with ⟨j, _, _, _, h⟩ | ⟨j, _, h⟩
        · exact h p hp
        · exact h p

/-- C59 for nodes that were not yet asked for items, caches or nodespaces when they were copied. -/
theorem c59_independent_partial {o c : Oid} {w w' : World} {ops : List Op} (hw : WF w)
    (ho : o < w.nobj) (hE : DelReads E (clsOf E w o)) (hs : (w.objs o).storage = none) (hc : (w.objs o).cache = none)
    (hn : (w.objs o).nodespaces = none) (h : copyNode E o w = (.ok c, w')) (hops : ∀ op ∈ ops, op.itemOf c) :
    (execAll E ops w').2.omap o = w.omap o := by
  have hcp := c59_copied ho h
  have hcls : clsOf E w' c = clsOf E w o := congrArg E.cls hcp.2.1
  rw [items_of_one hops (by rw [hcp.1, hcp.2.2.2.2.1]; exact Nat.lt_succ_self _) (hcls ▸ hE)
    (hw.copied ho hs hc hn h) (by rw [hcp.1]; exact Nat.ne_of_lt ho)]
  exact (hcp.2.2.2.2.2.2 o ho).2

/-! ### Shared items -/

/-- If the node had a storage when it was copied, node and copy show the same items for ever after,
whatever the program does with either of them or with any other node; likewise their nodespaces, and with
them their attributes, if the node had such. -/
theorem c59_shared {o c : Oid} {w w' : World} (ops : List Op) (ho : o < w.nobj) (h : copyNode E o w = (.ok c, w')) :
    ((w.objs o).storage ≠ none → (execAll E ops w').2.omap c = (execAll E ops w').2.omap o) ∧
    ((w.objs o).nodespaces ≠ none → (execAll E ops w').2.nmap c = (execAll E ops w').2.nmap o) ∧
    ((w.objs o).cache ≠ none → (execAll E ops w').2.cached c = (execAll E ops w').2.cached o) := by
  obtain ⟨hc, hw'⟩ := copyNode_ok ho h
  subst hc
  obtain ⟨-, hd⟩ := dicts_execAll E (w.nobj + 1) ops w' (by rw [hw']; exact Nat.le_refl _)
  have d1 := hd w.nobj (Nat.lt_succ_self _)
  have d2 := hd o (Nat.lt_succ_of_lt ho)
  have e1 : w'.objs w.nobj = w.objs o := by rw [hw']; simp
  have e2 : w'.objs o = w.objs o := by rw [hw']; simp [upd, Nat.ne_of_lt ho]
  rw [e1] at d1
  rw [e2] at d2
  refine ⟨fun hs => ?_, fun hs => ?_, fun hs => ?_⟩
  · obtain ⟨r, hr⟩ := Option.ne_none_iff_exists'.mp hs
    unfold World.omap World.children
    rw [d1.storage r hr, d2.storage r hr]
  · obtain ⟨r, hr⟩ := Option.ne_none_iff_exists'.mp hs
    unfold World.nmap World.nsview
    rw [d1.nodespaces r hr, d2.nodespaces r hr]
  · obtain ⟨r, hr⟩ := Option.ne_none_iff_exists'.mp hs
    unfold World.cached
    rw [d1.cache r hr, d2.cache r hr]

/-- A node with attributes and a child. -/
def c59Shared : World := after sampleEnv [.new 2 .none none, .attrs 0, .new 2 .none none, .set 0 ka (.node 2)]

/-- Its copy loses the child, and it gets another: both have that, and the same attributes. -/
def c59More : List Op := [.del 3 ka, .new 2 .none none, .set 0 kb (.node 4)]

example : ∃ w', copyNode sampleEnv 0 c59Shared = (.ok 3, w') ∧
    (execAll sampleEnv c59More w').2.omap 3 = (execAll sampleEnv c59More w').2.omap 0 ∧
    (execAll sampleEnv c59More w').2.nmap 3 = (execAll sampleEnv c59More w').2.nmap 0 ∧
    ((execAll sampleEnv c59More w').2.omap 3).keys = [kb] := by
  have h : copyNode sampleEnv 0 c59Shared = (.ok 3, (copyNode sampleEnv 0 c59Shared).2) := rfl
  have hs := c59_shared (w := c59Shared) c59More (by decide +kernel) h
  exact ⟨_, h, hs.1 (by decide +kernel), hs.2.1 (by decide +kernel), by decide +kernel⟩

/-- The full statement is false: `c['b'] = other` puts the child into the original as well, and
`del c['a']` takes one away. -/
theorem c59_refuted : ∃ (w w' : World), Reachable sampleEnv w ∧ copyNode sampleEnv 0 w = (.ok 3, w') ∧
    (w.omap 0).keys = [ka] ∧
    ((setitem sampleEnv 3 kb (.node 2) w').2.omap 0).keys = [ka, kb] ∧
    ((delitem sampleEnv 3 ka w').2.omap 0).keys = [] :=
  ⟨after sampleEnv [.new 1 .none none, .new 1 .none none, .new 1 .none none, .set 0 ka (.node 1)], _,
    reachable_after _ _, by rfl, by rfl, by rfl, by rfl⟩

/-- The same with the attributes of a node: those of the copy are those of the original. -/
theorem c59_refuted_attrs : ∃ (w w' : World), Reachable sampleEnv w ∧ copyNode sampleEnv 0 w = (.ok 2, w') ∧
    (attrs sampleEnv 2 w').1 = .ok 1 ∧ (attrs sampleEnv 0 w').1 = .ok 1 :=
  ⟨after sampleEnv [.new 2 .none none, .attrs 0], _, reachable_after _ _, by rfl, by rfl, by rfl⟩

/-- A node nobody asked for items yet: filling and emptying the copy leaves it empty. -/
example : ∃ w', copyNode sampleEnv 0 (after sampleEnv [.new 1 .none none, .new 1 .none none]) = (.ok 2, w') ∧
    (execAll sampleEnv [.set 2 ka (.node 1), .set 2 kb (.node 1), .del 2 ka] w').2.omap 0 =
      (after sampleEnv [.new 1 .none none, .new 1 .none none]).omap 0 :=
  ⟨_, by rfl, c59_independent_partial (c := 2) (reachable_after _ _).wf (by decide) (sample_noFactory.delReads _) rfl rfl rfl rfl
    (by intro op h; rcases List.mem_cons.mp h with rfl | h; · rfl
        rcases List.mem_cons.mp h with rfl | h; · rfl
        rcases List.mem_cons.mp h with rfl | h; · rfl
        cases h)⟩

/-- A class without `Nodify` has no `copy`: `AttributeError`, and nothing happens. -/
theorem c59_no_nodify {w : World} {o : Oid} (h : Bhv.nodify ∉ (clsOf E w o).bhvs) :
    copyNode E o w = (.error .attr, w) := by
  have h : Bhv.nodify ∉ bhvsOf E w o := h
  unfold copyNode
  rw [if_neg fun hc => h (List.contains_iff_mem.mp hc)]

end Verif
