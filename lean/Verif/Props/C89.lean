import Verif.Lemmas.Elsewhere
import Verif.Props.C57
import Verif.Spec.Shown
import Verif.Props.C02

/-!
# C89 Operations change the node they are called on

Every operation of the API, whether it returns or raises, leaves the children, the nodespaces and the
listing of every node alone on which it is not called; reading, constructing nodes and assigning uuids and
fallback keys leave all nodes alone.  Nodes with child factories are excepted: reading them makes
children.
-/

namespace Verif

variable {E : Env} {w : World} {q : Oid}

/-- What `q` holds is what it was. -/
structure HoldsSame (q : Oid) (w w' : World) : Prop where
  items : w'.omap q = w.omap q
  spaces : w'.nmap q = w.nmap q
  fixed : (w'.objs q).fixed = (w.objs q).fixed
  cls : (w'.objs q).cls = (w.objs q).cls

theorem elsewhere_execAll (hw : WF w) (hq : q < w.nobj) (hf : Bhv.childFactory ∉ (clsOf E w q).bhvs)
    {ops : List Op} (ho : ∀ op ∈ ops, op.writes ≠ some q) :
    Elsewhere E q w (execAll E ops w).2 ∧ FixKept w (execAll E ops w).2 :=
  ⟨(else_api E q).execAll (fun o u w => else_hidden _ _ (hidden_setUuidRef o u w))
    (fun op hm o h e => ho op hm (h.trans (congrArg some e)))
    (fun _ _ _ _ => trivial) w, (fixKept_api E).execAll ops w⟩

/-- C89: a history of operations that are called on other nodes, or change nothing by their nature, leaves what the
node holds as it was; whether they return or raise. -/
theorem c89_others_partial (hw : WF w) (hq : q < w.nobj) (hf : Bhv.childFactory ∉ (clsOf E w q).bhvs) {ops : List Op}
    (ho : ∀ op ∈ ops, op.writes ≠ some q) : HoldsSame q w (execAll E ops w).2 := by
  obtain ⟨h, h'⟩ := elsewhere_execAll hw hq hf ho
  obtain ⟨-, -, h3, h4, h5⟩ := h hw hq hf
  exact ⟨by simp only [World.omap, h4], by simp only [World.nmap, h5], (h' hw).2.2 q hq, h3⟩

/-- The listing as a function of what the node holds. -/
def listing (c : ClassDef) (items fixed : Od Key Val) : List Bhv → Except Exc Iter
  | [] =>
    if c.bhvs.contains .fixedChildren then .ok (fixed.keys, none)
    else
      match c.bhvs.find? fun b => b.isStorage || b == .childFactory with
      | some .childFactory => .ok (c.factories.keys, none)
      | some _ =>
        match storageKind c.bhvs with
        | none => .error .attr
        | some .storage => .error .notImpl
        | some _ => .ok (items.keys, none)
      | none => .error .notImpl
  | .alias :: r =>
    match listing c items fixed r with
    | .ok (ks, e) => .ok (aliasIter c.aliaser ks e)
    | .error e => .error e
  | _ :: r => listing c items fixed r

theorem storageRef_keys (E : Env) (w : World) (q : Oid) :
    (match storageRef E q w with
      | (.ok r, w') => ((.ok ((w'.stores r).keys, none) : Except Exc Iter), w')
      | (.error e, w') => (.error e, w')).1 =
    match storageKind (clsOf E w q).bhvs with
      | none => .error .attr
      | some .storage => .error .notImpl
      | some _ => .ok ((w.children q).keys, none) := by
  unfold storageRef World.children
  simp only [bhvsOf]
  rcases storageKind (clsOf E w q).bhvs with _ | s
  · rfl
  · cases hs : (w.objs q).storage <;> cases s <;> simp [upd, Od.keys]

theorem iterEnd_listing (E : Env) (w : World) (q : Oid) :
    (iterEnd E q w).1 = listing (clsOf E w q) (w.children q) (w.objs q).fixed [] := by
  have key := storageRef_keys E w q
  unfold iterEnd listing
  rw [show bhvsOf E w q = (clsOf E w q).bhvs from rfl]
  show (if _ then _ else _ : Except Exc Iter × World).1 = _
  by_cases h : (clsOf E w q).bhvs.contains .fixedChildren = true
  · rw [if_pos h, if_pos h]
  · rw [if_neg h, if_neg h]
    generalize List.find? _ (clsOf E w q).bhvs = f
    rcases f with _ | b
    · rfl
    · cases b <;> first | rfl | exact key

theorem iterPipe_listing (E : Env) {w : World} (hw : WF w) (q : Oid) (bs : List Bhv) :
    (iterPipe E bs q w).1 = listing (clsOf E w q) (w.children q) (w.objs q).fixed bs := by
  induction bs with
  | nil => exact iterEnd_listing E w q
  | cons b r ih =>
    cases b
    case alias =>
      have hq := ((iterPipe_quietF E r q w).1 hw).2
      simp only [iterPipe, listing, M.bind_apply, ← ih]
      generalize iterPipe E r q w = x at hq
      rcases x with ⟨e | ⟨ks, e⟩, w1⟩
      · rfl
      · have hc : clsOf E w1 q = clsOf E w q := congrArg E.cls (hq.obj q).cls
        simp only [M.bind_apply, M.getW_apply, M.pure_apply, hc]
    all_goals exact ih

theorem mkeys_listing {w' : World} (hw : WF w) (hw' : WF w') (hc : (w'.objs q).cls = (w.objs q).cls)
    (hs : w'.children q = w.children q) (hx : (w'.objs q).fixed = (w.objs q).fixed) :
    (mkeys E q w').1 = (mkeys E q w).1 := by
  have hi : (iter E q w').1 = (iter E q w).1 := by
    have h1 := iterPipe_listing E hw q (clsOf E w q).bhvs
    have h2 := iterPipe_listing E hw' q (clsOf E w' q).bhvs
    have hcl : clsOf E w' q = clsOf E w q := congrArg E.cls hc
    rw [hs, hx, hcl] at h2
    show (iterPipe E (clsOf E w' q).bhvs q w').1 = (iterPipe E (clsOf E w q).bhvs q w).1
    rw [hcl, h1, h2]
  simp only [mkeys, M.bind_apply]
  generalize iter E q w = x at hi
  generalize iter E q w' = y at hi
  rcases x with ⟨e | ⟨ks, e⟩, w1⟩ <;> rcases y with ⟨e' | ⟨ks', e'⟩, w2⟩ <;> simp only at hi
  · cases hi; rfl
  · cases hi
  · cases hi
  · cases hi
    cases e <;> rfl

/-- C89: `keys()` and `len()` of the node answer, or raise, what they did. -/
theorem c89_keys_partial (hw : WF w) (hq : q < w.nobj) (hf : Bhv.childFactory ∉ (clsOf E w q).bhvs) {ops : List Op}
    (ho : ∀ op ∈ ops, op.writes ≠ some q) :
    (mkeys E q (execAll E ops w).2).1 = (mkeys E q w).1 ∧ (mlen E q (execAll E ops w).2).1 = (mlen E q w).1 := by
  obtain ⟨h, h'⟩ := elsewhere_execAll hw hq hf ho
  obtain ⟨h1, -, h3, h4, -⟩ := h hw hq hf
  have hk := mkeys_listing (E := E) hw h1 h3 h4 ((h' hw).2.2 q hq)
  refine ⟨hk, ?_⟩
  simp only [mlen, M.bind_apply]
  generalize mkeys E q w = x at hk
  generalize mkeys E q (execAll E ops w).2 = y at hk
  rcases x with ⟨e | ks, w1⟩ <;> rcases y with ⟨e' | ks', w2⟩ <;> cases hk <;> rfl

theorem shownBy_holds {w' : World} (hc : (w'.objs q).cls = (w.objs q).cls) (hs : w'.children q = w.children q)
    (hn : w'.nsview q = w.nsview q) (hx : (w'.objs q).fixed = (w.objs q).fixed) (bs : List Bhv)
    (hb : Bhv.cache ∉ bs) (k : Key) : w'.shownBy E q bs k = w.shownBy E q bs k := by
  have hcl : clsOf E w' q = clsOf E w q := congrArg E.cls hc
  induction bs generalizing k with
  | nil => simp only [World.shownBy, World.stored, hcl, hx, hs]
  | cons b r ih =>
    have ih := ih fun h => hb (List.mem_cons_of_mem _ h)
    cases b
    case cache => exact absurd List.mem_cons_self hb
    all_goals simp only [World.shownBy, hcl, hn, ih]

/-- C89: without `Cache`, the node shows under every key what it did. -/
theorem c89_shown_partial (hw : WF w) (hq : q < w.nobj) (hf : Bhv.childFactory ∉ (clsOf E w q).bhvs)
    (hc : Bhv.cache ∉ (clsOf E w q).bhvs) {ops : List Op} (ho : ∀ op ∈ ops, op.writes ≠ some q) (k : Key) :
    (execAll E ops w).2.shown E q k = w.shown E q k := by
  obtain ⟨h, h'⟩ := elsewhere_execAll hw hq hf ho
  obtain ⟨-, -, h3, h4, h5⟩ := h hw hq hf
  have hcl : clsOf E (execAll E ops w).2 q = clsOf E w q := congrArg E.cls h3
  unfold World.shown
  rw [hcl]
  exact shownBy_holds h3 h4 h5 ((h' hw).2.2 q hq) _ hc k

/-- With child factories it is false: deleting a `Reference` child reads all nodes below it, and thereby makes
the children their factories list. -/
theorem c89_refuted : ∃ (E : Env) (w : World) (q : Oid) (op : Op), Reachable E w ∧ q < w.nobj ∧
    op.writes ≠ some q ∧ (exec E op w).1 = .ok .unit ∧ (exec E op w).2.omap q ≠ w.omap q := by
  have h1 : (exec lazyRefEnv (.del 0 ka) (after lazyRefEnv lazyRefOps)).1 = .ok .unit := by decide +kernel
  have h2 : kb ∉ ((after lazyRefEnv lazyRefOps).omap 1).keys := by decide +kernel
  have h3 : kb ∈ ((exec lazyRefEnv (.del 0 ka) (after lazyRefEnv lazyRefOps)).2.omap 1).keys := by decide +kernel
  have h4 := reachable_after lazyRefEnv lazyRefOps
  have h5 : 1 < (after lazyRefEnv lazyRefOps).nobj := by decide +kernel
  generalize after lazyRefEnv lazyRefOps = w at h1 h2 h3 h4 h5
  exact ⟨lazyRefEnv, w, 1, .del 0 ka, h4, h5, by decide, h1, fun e => h2 (by rw [← e]; exact h3)⟩

/-- A node with a child below nodes with child factories. -/
def c89Ops : List Op := [.new 20 .none none, .new 2 .none none, .new 2 .none none, .set 0 ka (.node 1), .set 1 kc (.node 2)]

/-- Operations on the nodes around it, some of which fail. -/
def c89More : List Op := [.get 0 kb, .keys 1, .new 2 .none none, .set 2 ka (.node 4), .attrs 2, .insertFirst 2 1, .swap 2 1 4,
  .del 0 ka, .del 0 ka, .set 0 kc (.node 1), .get 1 kc, .detach 0 kc, .setUuid 1 (some 9), .clear 0]

/-- The hypotheses are met: the node in the middle still has its child. -/
example : (mkeys lazyRefEnv 1 (execAll lazyRefEnv c89More (after lazyRefEnv c89Ops)).2).1 = .ok [kc] ∧
    (execAll lazyRefEnv c89More (after lazyRefEnv c89Ops)).2.shown lazyRefEnv 1 kc = some (.node 2) := by
  have hw := (reachable_after lazyRefEnv c89Ops).wf
  have h1 : 1 < (after lazyRefEnv c89Ops).nobj := by decide +kernel
  have h2 : (clsOf lazyRefEnv (after lazyRefEnv c89Ops) 1).bhvs = fullNode.bhvs := by decide +kernel
  have h3 : (mkeys lazyRefEnv 1 (after lazyRefEnv c89Ops)).1 = .ok [kc] := by decide +kernel
  have h4 : (after lazyRefEnv c89Ops).shown lazyRefEnv 1 kc = some (.node 2) := by decide +kernel
  generalize after lazyRefEnv c89Ops = w at hw h1 h2 h3 h4
  have hf : Bhv.childFactory ∉ (clsOf lazyRefEnv w 1).bhvs := by rw [h2]; decide
  have hc : Bhv.cache ∉ (clsOf lazyRefEnv w 1).bhvs := by rw [h2]; decide
  rw [(c89_keys_partial hw h1 hf (by decide)).1, c89_shown_partial hw h1 hf hc (by decide), h3, h4]
  exact ⟨rfl, rfl⟩

/-- All that did change something. -/
example : ((after lazyRefEnv c89Ops).omap 0).keys = [ka] ∧
    ((execAll lazyRefEnv c89More (after lazyRefEnv c89Ops)).2.omap 0).keys = [] ∧
    ((execAll lazyRefEnv c89More (after lazyRefEnv c89Ops)).2.omap 2).keys ≠ ((after lazyRefEnv c89Ops).omap 2).keys := by
  decide +kernel

end Verif
