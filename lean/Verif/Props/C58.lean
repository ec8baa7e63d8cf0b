import Verif.Lemmas.Uuid
import Verif.Props.C60

/-!
# C58: deep copies get fresh uuids

`deepcopy` of a `UUIDAware` tree gives every node of the copy a new uuid (only the root of the copy if
`overwrite_recursiv_on_copy` is `False`), leaves the uuids of the original alone, and `copy` always
raises.
-/

namespace Verif

variable {E : Env}

/-- `copy` of a `UUIDAware` node raises `RuntimeError` and does nothing. -/
theorem c58_copy_raises {o : Oid} {w : World} (hn : Bhv.nodify ∈ (clsOf E w o).bhvs)
    (hu : Bhv.uuidAware ∈ (clsOf E w o).bhvs) : copyNode E o w = (.error .runtime, w) := by
  have key : ∀ bs, Bhv.uuidAware ∈ bs → copyPipe E bs o w = (.error .runtime, w) := by
    intro bs
    induction bs with
    | nil => nofun
    | cons b r ih =>
      intro hb
      by_cases h : b = .uuidAware
      · subst h; rfl
      · have hr := ih ((List.mem_cons.mp hb).resolve_left fun e => h e.symm)
        cases b
        case uuidAware => exact absurd rfl h
        case nodify => simp only [copyPipe, M.bind_apply, hr]
        all_goals exact hr
  have hn : Bhv.nodify ∈ bhvsOf E w o := hn
  unfold copyNode
  rw [if_pos (List.contains_iff_mem.mpr hn)]
  exact key _ hu

/-! ### The copy before its uuids are set -/

section deep
variable {w : World} {o : Oid}

theorem numbered_deep (hs : Intact w) (ho : o < w.nobj) (h : Issued w) :
    Numbered w.nuuid (w.deep (w.reach o)) := by
  have hL := (reached ho).complete hs
  have hu : ∀ p u, ((w.deep (w.reach o)).objs p).uuid = some u → p < w.nobj + (w.reach o).length → u < w.nuuid := by
    intro p u hu hp
    by_cases h1 : p < w.nobj
    · rw [deep_old h1] at hu; exact h.uuid p u h1 hu
    · obtain ⟨q, hq, rfl⟩ := deep_new (Nat.not_lt.mp h1) hp hL.nodup
      rw [deep_moved hq] at hu
      exact h.uuid q u (hL.lt q hq) hu
  refine { uuid := fun p u hp hx => hu p u hx hp, idx := fun r i x hx => ?_, pos := h.pos, le := Nat.le_refl _
           inj := fun p q u hp _ hle h1 _ => absurd (hu p u h1 hp) (Nat.not_lt.mpr hle) }
  show i < w.nuuid
  have hx : Od.get? (moveDicts (w.reach o) (fun q => (w.objs q).index) w.nidx (moveIdx (w.moved (w.reach o))) []
    w.idxs r) (some i) = some x := hx
  have get : ∀ {d : Od (Option Nat) Oid} {u y}, Od.get? (moveIdx (w.moved (w.reach o)) d) u = some y →
      ∃ z, Od.get? d u = some z := by
    intro d u y
    induction d with
    | nil => nofun
    | cons a t ih =>
      intro hy
      show ∃ z, (if a.1 = u then some a.2 else Od.get? t u) = some z
      have hy : (if a.1 = u then some (w.moved (w.reach o) a.2) else Od.get? (moveIdx (w.moved (w.reach o)) t) u) =
        some y := hy
      split at hy
      · rename_i e; exact ⟨a.2, if_pos e⟩
      · rename_i e; rw [if_neg e]; exact ih hy
  rcases moveDicts_cases (L := w.reach o) (own := fun q => (w.objs q).index) (n := w.nidx)
    (move := moveIdx (w.moved (w.reach o))) (empty := []) (f := w.idxs) r with ⟨_, e⟩ | ⟨_, ⟨q, _, _, e⟩ | e⟩
  · rw [e] at hx; exact h.idx r i x hx
  · rw [e] at hx
    obtain ⟨z, hz⟩ := get hx
    exact h.idx _ i z hz
  · rw [e] at hx; cases hx

theorem mem_reach_tree (hs : Intact w) (ho : o < w.nobj) {p : Oid} (h : InTree w o p) : p ∈ w.reach o := by
  have hL := (reached ho).complete hs
  refine InTree.induct (reached ho).self (fun p k c _ hc hp => ?_) h
  exact hL.next p hp c (mem_reach_child hc)

theorem contains_deep {p : Oid} {k : Key} {v : Val} (hp : p ∈ w.reach o) :
    ((w.deep (w.reach o)).omap (w.moved (w.reach o) p)).val k = some v →
      ∃ x, (w.omap p).val k = some x ∧ v = x.by (w.moved (w.reach o)) := by
  intro h
  have h : Od.get? ((w.deep (w.reach o)).children (w.moved (w.reach o) p)) k = some v := h
  rw [children_moved hp, moveVals_itemsBy, get?_itemsBy] at h
  show ∃ x, Od.get? (w.children p) k = some x ∧ _
  cases hx : Od.get? (w.children p) k with
  | none => rw [hx] at h; cases h
  | some x => rw [hx] at h; injection h with h; exact ⟨x, rfl, h.symm⟩

/-- The tree below the copy is the copied tree. -/
theorem inTree_deep (hs : Intact w) (ho : o < w.nobj) {q : Oid}
    (h : InTree (w.deep (w.reach o)) (w.moved (w.reach o) o) q) :
    ∃ p, InTree w o p ∧ q = w.moved (w.reach o) p := by
  refine InTree.induct (P := fun q => ∃ p, InTree w o p ∧ q = w.moved (w.reach o) p) ⟨o, .refl o, rfl⟩
    (fun q k c _ hc hq => ?_) h
  obtain ⟨p, hp, rfl⟩ := hq
  obtain ⟨x, hx, hv⟩ := contains_deep (mem_reach_tree hs ho hp) hc
  cases x with
  | data d => cases hv
  | node a =>
    injection hv with hv
    exact ⟨a, hp.child hx, hv⟩

theorem openSet_deep (hs : Intact w) (ho : o < w.nobj) (hop : ∀ p, InTree w o p → Open E w p) :
    OpenSet E (InTree (w.deep (w.reach o)) (w.moved (w.reach o) o)) (w.deep (w.reach o)) where
  op q hq := by
    obtain ⟨p, hp, rfl⟩ := inTree_deep hs ho hq
    have hm := mem_reach_tree hs ho hp
    have hcl : clsOf E (w.deep (w.reach o)) (w.moved (w.reach o) p) = clsOf E w p := by
      unfold clsOf; rw [deep_moved hm]; rfl
    refine ⟨by rw [hcl]; exact (hop p hp).concrete, fun k hk => ?_, fun hb j v hv => ?_⟩
    · rw [hcl]
      refine (hop p hp).keys k ?_
      have hk : k ∈ ((w.deep (w.reach o)).children (w.moved (w.reach o) p)).keys := hk
      rw [children_moved hm, keys_moveVals] at hk
      exact hk
    · rw [hcl] at hb
      rw [cached_moved hm, moveVals_itemsBy, get?_itemsBy] at hv
      cases hx : Od.get? (w.cached p) j with
      | none => rw [hx] at hv; cases hv
      | some x =>
        rw [hx] at hv
        have := (hop p hp).cache hb j x hx
        show Od.get? ((w.deep (w.reach o)).children (w.moved (w.reach o) p)) j = some v
        rw [children_moved hm, moveVals_itemsBy, get?_itemsBy, show Od.get? (w.children p) j = some x from this]
        exact hv
  lt q hq := by
    obtain ⟨p, hp, rfl⟩ := inTree_deep hs ho hq
    exact (moved_lt (mem_reach_tree hs ho hp)).2
  next p k c hp hc := hp.child hc

theorem nodeTree_deep (hs : Intact w) (ho : o < w.nobj) {p : Oid} (hp : InTree w o p)
    (h : NodeTree w p) : NodeTree (w.deep (w.reach o)) (w.moved (w.reach o) p) := by
  induction h with
  | @mk p items below ih =>
    have hm := mem_reach_tree hs ho hp
    refine .mk (fun k v hv => ?_) (fun k c hc => ?_)
    · obtain ⟨x, hx, rfl⟩ := contains_deep hm hv
      obtain ⟨c, rfl⟩ := items k x hx
      exact ⟨_, rfl⟩
    · obtain ⟨x, hx, hv⟩ := contains_deep hm hc
      obtain ⟨a, rfl⟩ := items k x hx
      injection hv with hv
      subst hv
      exact ih k a hx (hp.child hx)

theorem clsOf_deep_old (ho : o < w.nobj) : clsOf E (w.deep (w.reach o)) o = clsOf E w o := by
  unfold clsOf; rw [deep_old ho]
end deep

/-! ### All uuids -/

/-- The behaviors one by one. -/
theorem deepPipe_renew {w w' : World} {o c : Oid} (hw : WF w) (hs : Intact w) (ho : o < w.nobj) (hi : Issued w)
    (hop : ∀ p, InTree w o p → Open E w p) (hr : (clsOf E w o).overwriteRecursiv = true) (bs : List Bhv)
    (h : deepPipe E bs o w = (.ok c, w')) : c = w.moved (w.reach o) o ∧
      Renew E (InTree (w.deep (w.reach o)) c) w.nuuid (w.deep (w.reach o)) w' ∧
      (Bhv.uuidAware ∈ bs → ∀ p, InTree w' c p → Bhv.uuidAware ∈ (clsOf E w' p).bhvs →
        ∃ u, (w'.objs p).uuid = some u ∧ w.nuuid ≤ u) := by
  have hL := (reached ho).complete hs
  induction bs generalizing w' with
  | nil =>
    obtain ⟨rfl, rfl⟩ := deepEnd_ok h
    exact ⟨rfl, .refl (hw.deep hL) (numbered_deep hs ho hi), nofun⟩
  | cons b r ih =>
    have other : ∀ {b}, b ≠ Bhv.uuidAware → deepPipe E (b :: r) o = deepPipe E r o := by
      intro b hb
      cases b <;> first | exact absurd rfl hb | rfl
    by_cases hb : b = .uuidAware
    · subst hb
      simp only [deepPipe, M.bind_apply] at h
      rcases hx : deepPipe E r o w with ⟨e | c1, w1⟩
      · rw [hx] at h; cases h
      · rw [hx] at h
        simp only [M.getW_apply] at h
        rcases hy : setUuidFor E true (clsOf E w1 o).overwriteRecursiv (w1.nobj + 1) (.node c1) w1 with ⟨e | u, w2⟩
        · rw [hy] at h; cases h
        · rw [hy] at h
          injection h with h1 h2
          injection h1 with h1
          subst h1 h2
          obtain ⟨rfl, r1, _⟩ := ih hx
          have hcl : (clsOf E w1 o).overwriteRecursiv = true := by
            rw [r1.clsOf, clsOf_deep_old ho]; exact hr
          rw [hcl] at hy
          have hS := (openSet_deep hs ho hop).renew r1
          obtain ⟨r2, f2⟩ := setUuidFor_ok _ r1.wf r1.num hS (fun c hc => by
            injection hc with hc; subst hc; exact .refl _) hy
          refine ⟨rfl, r1.trans r2, fun _ p hp hu => f2 _ rfl p (r2.inTree.mp hp) (by rw [← r2.clsOf]; exact hu)⟩
    · rw [other hb] at h
      obtain ⟨a1, a2, a3⟩ := ih h
      exact ⟨a1, a2, fun hm => a3 ((List.mem_cons.mp hm).resolve_left fun e => hb e.symm)⟩

/-- C58 for trees of nodes that can be read item by item: every `UUIDAware` node of the copy has a uuid
that no node had before and no other node has; apart from that the copy is like the original. -/
theorem c58_fresh_partial {w w' : World} {o c : Oid} (hw : WF w) (hs : Intact w) (ho : o < w.nobj) (hi : Issued w)
    (hop : ∀ p, InTree w o p → Open E w p) (hu : Bhv.uuidAware ∈ (clsOf E w o).bhvs)
    (hr : (clsOf E w o).overwriteRecursiv = true) (h : deepcopy E o w = (.ok c, w')) :
    (∀ p, InTree w' c p → Bhv.uuidAware ∈ (clsOf E w' p).bhvs → (w'.objs p).uuid ≠ none ∧
      ∀ q, q ≠ p → q < w'.nobj → (w'.objs q).uuid ≠ (w'.objs p).uuid) ∧
    ∃ f : Oid → Oid, f o = c ∧ (∀ p, Linked w o p → w.nobj ≤ f p ∧ f p < w'.nobj ∧
        (w'.objs (f p)).cls = (w.objs p).cls ∧ w'.loc (f p) = ((w.objs p).name, (w.objs p).parent.map f) ∧
        (w'.omap (f p)).items = itemsBy f (w.omap p).items ∧ (w'.nmap (f p)).items = itemsBy f (w.nmap p).items) ∧
      (∀ p q, Linked w o p → Linked w o q → f p = f q → p = q) := by
  unfold deepcopy at h
  split at h
  · obtain ⟨rfl, r, hf⟩ := deepPipe_renew hw hs ho hi hop hr _ h
    have hL := (reached ho).complete hs
    have hm : ∀ p, Linked w o p → p ∈ w.reach o := fun p hp => hp.mem hL (reached ho).self
    refine ⟨fun p hp hup => ?_, w.moved (w.reach o), rfl, fun p hp => ?_,
      fun p q hp hq e => moved_inj (hm p hp) (hm q hq) e⟩
    · obtain ⟨u, h1, h2⟩ := hf hu p hp hup
      refine ⟨by rw [h1]; nofun, fun q hq hlt e => hq ?_⟩
      have hpl : p < w'.nobj := by
        rw [r.nobj]; exact (openSet_deep hs ho hop).lt p (r.inTree.mp hp)
      exact r.num.inj q p u hlt hpl h2 (e.trans h1) h1
    · have hc := copyOf_deep hw hL (hm p hp)
      refine ⟨(moved_lt (hm p hp)).1, by rw [r.nobj]; exact (moved_lt (hm p hp)).2, ?_, ?_, ?_, ?_⟩
      · rw [r.cls]; exact hc.cls
      · rw [r.loc]
        unfold World.loc
        rw [hc.name, hc.parent]
      · rw [r.omap]; exact hc.children
      · unfold World.nmap
        rw [r.nsview]
        exact hc.nodespaces
  · cases h

/-- Such a `deepcopy` does return, if all items in the tree are nodes. -/
theorem c58_returns_partial {w : World} {o : Oid} (hw : WF w) (hs : Intact w) (ho : o < w.nobj) (hi : Issued w)
    (hop : ∀ p, InTree w o p → Open E w p) (hix : ∀ p, InTree w o p → HasIndex E w p) (ht : NodeTree w o)
    (hn : Bhv.nodify ∈ (clsOf E w o).bhvs) (hr : (clsOf E w o).overwriteRecursiv = true)
    (hg : ∀ p, p < w.nobj → Bhv.getattrChildren ∉ (clsOf E w p).bhvs) :
    ∃ c w', deepcopy E o w = (.ok c, w') := by
  have hL := (reached ho).complete hs
  have key : ∀ bs, ∃ c w', deepPipe E bs o w = (.ok c, w') := by
    intro bs
    induction bs with
    | nil =>
      refine ⟨_, _, if_neg fun ha => ?_⟩
      obtain ⟨q, hq, hb⟩ := List.any_eq_true.mp ha
      exact hg q (hL.lt q hq) (List.contains_iff_mem.mp hb)
    | cons b r ih =>
      by_cases hb : b = .uuidAware
      · subst hb
        obtain ⟨c, w1, h1⟩ := ih
        obtain ⟨rfl, r1, _⟩ := deepPipe_renew hw hs ho hi hop hr r h1
        have hcl : (clsOf E w1 o).overwriteRecursiv = true := by
          rw [r1.clsOf, clsOf_deep_old ho]; exact hr
        have hS := openSet_deep hs ho hop
        obtain ⟨v', h2⟩ := setUuidFor_total (n0 := w.nuuid) true (hw.deep hL) hS (fun p hp => by
          obtain ⟨q, hq, rfl⟩ := inTree_deep hs ho hp
          have hm := mem_reach_tree hs ho hq
          have := hix q hq
          unfold HasIndex at this ⊢
          unfold clsOf at this ⊢
          rw [deep_moved hm]
          intro h1 h2
          have := this h1 h2
          show (w.objs q).index.map (w.nidx + ·) ≠ none
          cases hx : (w.objs q).index with
          | none => exact absurd hx this
          | some i => nofun) (nodeTree_deep hs ho (.refl o) ht) (w1.nobj + 1) [] w1 r1 (.refl _) List.nodup_nil
          nofun (by rw [r1.nobj]; exact Nat.le_refl _)
        exact ⟨_, v', by simp only [deepPipe, M.bind_apply, h1, M.getW_apply, hcl, h2]; rfl⟩
      · cases b
        case uuidAware => exact absurd rfl hb
        all_goals exact ih
  have hn : Bhv.nodify ∈ bhvsOf E w o := hn
  unfold deepcopy
  rw [if_pos (List.contains_iff_mem.mpr hn)]
  exact key _

/-- The uuids of the original are left alone, whatever the class, and whether `deepcopy` returns or
raises. -/
theorem c58_original {w : World} {o : Oid} (hw : WF w) (hs : Intact w) (ho : o < w.nobj) :
    ∀ p, p < w.nobj → ((deepcopy E o w).2.objs p).uuid = (w.objs p).uuid := by
  intro p hp
  rcases h : deepcopy E o w with ⟨e | c, w'⟩
  · exact congrArg Obj.uuid (c60_raised hw hs ho h p hp).obj
  · exact congrArg Obj.uuid (c60_original_unchanged (ops := []) hw hs ho h trivial p hp).obj

/-- With `overwrite_recursiv_on_copy = False` the root of the copy gets a new uuid, all other nodes of
the copy keep those of the nodes they are copies of. -/
theorem c58_root_only {w w' : World} {o c : Oid} (hw : WF w) (hs : Intact w) (ho : o < w.nobj) (hi : Issued w)
    (hu : Bhv.uuidAware ∈ (clsOf E w o).bhvs) (hr : (clsOf E w o).overwriteRecursiv = false)
    (h : deepcopy E o w = (.ok c, w')) :
    (w'.objs c).uuid ≠ none ∧ (∀ q, q ≠ c → q < w'.nobj → (w'.objs q).uuid ≠ (w'.objs c).uuid) ∧
    ∃ f : Oid → Oid, f o = c ∧ ∀ p, Linked w o p → (w'.objs (f p)).cls = (w.objs p).cls ∧
      w'.loc (f p) = ((w.objs p).name, (w.objs p).parent.map f) ∧
      (w'.omap (f p)).items = itemsBy f (w.omap p).items ∧ (w'.nmap (f p)).items = itemsBy f (w.nmap p).items ∧
      (p ≠ o → (w'.objs (f p)).uuid = (w.objs p).uuid) := by
  have hL := (reached ho).complete hs
  have key : ∀ bs {w' c}, deepPipe E bs o w = (.ok c, w') → c = w.moved (w.reach o) o ∧
      Renew E (· = c) w.nuuid (w.deep (w.reach o)) w' ∧
      (Bhv.uuidAware ∈ bs → ∃ u, (w'.objs c).uuid = some u ∧ w.nuuid ≤ u) := by
    intro bs
    induction bs with
    | nil =>
      intro w' c h
      obtain ⟨rfl, rfl⟩ := deepEnd_ok h
      exact ⟨rfl, .refl (hw.deep hL) (numbered_deep hs ho hi), nofun⟩
    | cons b r ih =>
      intro w' c h
      by_cases hb : b = .uuidAware
      · subst hb
        simp only [deepPipe, M.bind_apply] at h
        rcases hx : deepPipe E r o w with ⟨e | c1, w1⟩
        · rw [hx] at h; cases h
        · rw [hx] at h
          simp only [M.getW_apply] at h
          obtain ⟨rfl, r1, _⟩ := ih hx
          have hcl : (clsOf E w1 o).overwriteRecursiv = false := by
            rw [r1.clsOf, clsOf_deep_old ho]; exact hr
          have hco : Bhv.uuidAware ∈ (clsOf E w1 (w.moved (w.reach o) o)).bhvs := by
            rw [r1.clsOf]; unfold clsOf; rw [deep_moved (reached ho).self]; exact hu
          simp only [hcl, setUuidFor, M.bind_apply, Bool.false_eq_true, if_false] at h
          rcases assignUuid_spec (E := E) r1.wf r1.num (S := (· = w.moved (w.reach o) o)) rfl
            (by rw [r1.nobj]; exact (moved_lt (reached ho).self).2) with ⟨w2, h2, r2, f2, _⟩ | ⟨_, e, w2, h2, _⟩
          · rw [h2] at h
            injection h with h1 h3
            injection h1 with h1
            subst h1 h3
            exact ⟨rfl, r1.trans r2, fun _ => f2 hco⟩
          · rw [h2] at h; cases h
      · have hm : deepPipe E r o w = (.ok c, w') := by
          cases b
          case uuidAware => exact absurd rfl hb
          all_goals exact h
        obtain ⟨a1, a2, a3⟩ := ih hm
        exact ⟨a1, a2, fun hm => a3 ((List.mem_cons.mp hm).resolve_left fun e => hb e.symm)⟩
  unfold deepcopy at h
  split at h
  · obtain ⟨rfl, r, hf⟩ := key _ h
    have hm : ∀ p, Linked w o p → p ∈ w.reach o := fun p hp => hp.mem hL (reached ho).self
    obtain ⟨u, h1, h2⟩ := hf hu
    refine ⟨by rw [h1]; nofun, fun q hq hlt e => hq ?_, w.moved (w.reach o), rfl, fun p hp => ?_⟩
    · exact r.num.inj q _ u hlt (by rw [r.nobj]; exact (moved_lt (reached ho).self).2) h2 (e.trans h1) h1
    · have hc := copyOf_deep hw hL (hm p hp)
      refine ⟨by rw [r.cls]; exact hc.cls, ?_, by rw [r.omap]; exact hc.children, ?_, fun hpo => ?_⟩
      · rw [r.loc]
        unfold World.loc
        rw [hc.name, hc.parent]
      · unfold World.nmap
        rw [r.nsview]
        exact hc.nodespaces
      · rw [r.others _ fun e => hpo (moved_inj (hm p hp) (reached ho).self e), deep_moved (hm p hp)]
        rfl
  · cases h

/-! ### Concrete trees -/

/-- `0`: nodes with uuids, `1`: the same with `overwrite_recursiv_on_copy = False`, `2`: the same with
nodespaces and attributes, which are of class `0`, and any values. -/
def uuidEnv : Env where
  cls
    | 1 => { bhvs := [.adopt, .uuidAware, .defaultInit, .nodify, .odictStorage], overwriteRecursiv := false }
    | 2 => { bhvs := [.nodespaces, .adopt, .attributes, .uuidAware, .defaultInit, .nodify, .odictStorage] }
    | _ => { bhvs := [.adopt, .uuidAware, .defaultInit, .nodify, .odictStorage] }

/-- `0` with the children `1` and `2`, `3` below `2`. -/
def c58Ops (c : ClassId) : List Op :=
  [.new c (.str ['r']) none, .new c .none none, .set 0 ka (.node 1), .new c .none none, .set 0 kb (.node 2),
   .new c .none none, .set 2 kc (.node 3)]

theorem c58Intact (c : Bool) : Intact (after uuidEnv (c58Ops c.toNat)) := by
  cases c <;> exact intact_after (by decide +kernel)

theorem c58Issued : Issued (after uuidEnv (c58Ops 0)) where
  uuid p u hp hu := by
    have h4 : (after uuidEnv (c58Ops 0)).nobj = 4 := by rfl
    rw [h4] at hp
    have : ∀ p, p < 4 → ∀ u ∈ ((after uuidEnv (c58Ops 0)).objs p).uuid, u < (after uuidEnv (c58Ops 0)).nuuid := by
      decide +kernel
    exact this p hp u hu
  idx r i x hx := by
    have : (after uuidEnv (c58Ops 0)).idxs r = [] := by rfl
    rw [this] at hx; cases hx
  pos := by decide +kernel

/-- Every node of the copy has a uuid of its own. -/
example : (deepcopy uuidEnv 0 (after uuidEnv (c58Ops 0))).1.toOption = some 4 ∧
    ((List.range 8).map fun p => ((deepcopy uuidEnv 0 (after uuidEnv (c58Ops 0))).2.objs p).uuid) =
      [some 1, some 2, some 3, some 4, some 5, some 6, some 7, some 8] := by
  decide +kernel

/-- Only the root. -/
example : (deepcopy uuidEnv 0 (after uuidEnv (c58Ops 1))).1.toOption = some 4 ∧
    ((List.range 8).map fun p => ((deepcopy uuidEnv 0 (after uuidEnv (c58Ops 1))).2.objs p).uuid) =
      [some 1, some 2, some 3, some 4, some 5, some 2, some 3, some 4] := by
  decide +kernel

theorem c58Open : ∀ p, InTree (after uuidEnv (c58Ops 0)) 0 p → Open uuidEnv (after uuidEnv (c58Ops 0)) p := by
  intro p hp
  have hlt : p < 4 := InTree.induct (P := (· < 4)) (by decide) (fun p k c _ hc hp =>
    (c58Intact false).next (q := p) hp (mem_reach_child hc)) hp
  have hc : clsOf uuidEnv (after uuidEnv (c58Ops 0)) p = uuidEnv.cls 0 := by
    have : ∀ p, p < 4 → ((after uuidEnv (c58Ops 0)).objs p).cls = 0 := by decide +kernel
    exact congrArg uuidEnv.cls (this p hlt)
  refine ⟨?_, fun k _ => ?_, ?_⟩
  · rw [hc]; exact ⟨⟨.odictStorage, rfl, by decide⟩, by decide, by decide, by decide⟩
  · rw [hc]; exact fun h => absurd h (by decide)
  · rw [hc]; exact fun h => absurd h (by decide)

theorem c58NodeTree : NodeTree (after uuidEnv (c58Ops 0)) 0 := by
  have leaf : ∀ p, (after uuidEnv (c58Ops 0)).children p = [] → NodeTree (after uuidEnv (c58Ops 0)) p := by
    intro p hp
    refine .mk (fun k v hv => ?_) (fun k c hc => ?_)
    · have hv : Od.get? ((after uuidEnv (c58Ops 0)).children p) k = some v := hv
      rw [hp] at hv; cases hv
    · have hc : Od.get? ((after uuidEnv (c58Ops 0)).children p) k = some (.node c) := hc
      rw [hp] at hc; cases hc
  have one : ∀ p l, (after uuidEnv (c58Ops 0)).children p = l → (∀ kv ∈ l, ∃ c, kv.2 = .node c ∧
      NodeTree (after uuidEnv (c58Ops 0)) c) → NodeTree (after uuidEnv (c58Ops 0)) p := by
    rintro p l rfl hl
    refine .mk (fun k v hv => ?_) (fun k c hc => ?_)
    · obtain ⟨c, hc, _⟩ := hl _ (Od.get?_some_mem hv)
      exact ⟨c, hc⟩
    · obtain ⟨a, ha, ht⟩ := hl _ (Od.get?_some_mem hc)
      injection ha with ha
      exact ha ▸ ht
  refine one 0 [(ka, .node 1), (kb, .node 2)] (by decide +kernel) fun kv hkv => ?_
  rcases List.mem_cons.mp hkv with rfl | hkv
  · exact ⟨1, rfl, leaf 1 (by decide +kernel)⟩
  · rw [List.mem_singleton] at hkv
    subst hkv
    refine ⟨2, rfl, one 2 [(kc, .node 3)] (by decide +kernel) fun kv hkv => ?_⟩
    rw [List.mem_singleton] at hkv
    subst hkv
    exact ⟨3, rfl, leaf 3 (by decide +kernel)⟩

example : ∃ c w', deepcopy uuidEnv 0 (after uuidEnv (c58Ops 0)) = (.ok c, w') ∧
    ∀ p, InTree w' c p → Bhv.uuidAware ∈ (clsOf uuidEnv w' p).bhvs → (w'.objs p).uuid ≠ none ∧
      ∀ q, q ≠ p → q < w'.nobj → (w'.objs q).uuid ≠ (w'.objs p).uuid := by
  have hw := (reachable_after uuidEnv (c58Ops 0)).wf
  obtain ⟨c, w', h⟩ := c58_returns_partial hw (c58Intact false) (by decide +kernel) c58Issued c58Open
    (fun p hp _ hr => absurd hr (by
      have : ∀ c, Bhv.reference ∉ (uuidEnv.cls c).bhvs := by
        intro c
        unfold uuidEnv
        dsimp only
        split <;> decide
      exact this _)) c58NodeTree (by decide +kernel) (by decide +kernel) (by decide +kernel)
  exact ⟨c, w', h, (c58_fresh_partial hw (c58Intact false) (by decide +kernel) c58Issued c58Open (by decide +kernel)
    (by decide +kernel) h).1⟩

/-! ### Where it fails -/

/-- A value that is not a node below a `UUIDAware` node: `deepcopy` raises `AttributeError`. -/
theorem c58_refuted_values : (deepcopy uuidEnv 0 (after uuidEnv [.new 0 .none none, .set 0 ka (.data (.int 1))])).1 =
    .error .attr := rfl

/-- The attributes of a node are not reached by `values`: the copied attributes keep the uuid. -/
theorem c58_refuted_attrs : ∃ w', deepcopy uuidEnv 0 (after uuidEnv [.new 2 .none none, .attrs 0]) = (.ok 2, w') ∧
    (attrs uuidEnv 0 w').1 = .ok 1 ∧ (attrs uuidEnv 2 w').1 = .ok 3 ∧
    Bhv.uuidAware ∈ (clsOf uuidEnv w' 1).bhvs ∧ (w'.objs 1).uuid = (w'.objs 3).uuid ∧ (w'.objs 1).uuid ≠ none :=
  ⟨_, by rfl, by rfl, by rfl, by decide, by rfl, by decide +kernel⟩

/-- `deepcopy` of a node below others: the copies of its parents and siblings have the old uuids. -/
theorem c58_refuted_parents : ∃ w', deepcopy uuidEnv 2 (after uuidEnv (c58Ops 0)) = (.ok 6, w') ∧
    (w'.objs 6).parent = some 4 ∧ (w'.objs 4).uuid = (w'.objs 0).uuid ∧ (w'.objs 5).uuid = (w'.objs 1).uuid ∧
    (w'.objs 0).uuid ≠ none :=
  ⟨_, by rfl, by rfl, by rfl, by rfl, by decide +kernel⟩

end Verif
