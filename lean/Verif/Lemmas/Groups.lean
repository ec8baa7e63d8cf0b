import Verif.Spec.Sessions
import Verif.Lemmas.Copy

/-! Groups of nodes that do not lead to each other. -/

namespace Verif

variable {κ : Type}

/-- Everything the attributes of a node lead to is in the group of the node; indexes are not shared with
nodes of other groups. -/
structure Grouped (col : Oid → κ) (w : World) : Prop where
  parent : ∀ {p q}, p < w.nobj → (w.objs p).parent = some q → col q = col p
  fixed : ∀ {p q k}, p < w.nobj → (k, Val.node q) ∈ (w.objs p).fixed → col q = col p
  stores : ∀ {p q k r}, p < w.nobj → (w.objs p).storage = some r → (k, Val.node q) ∈ w.stores r → col q = col p
  caches : ∀ {p q k r}, p < w.nobj → (w.objs p).cache = some r → (k, Val.node q) ∈ w.caches r → col q = col p
  nspaces : ∀ {p q k r}, p < w.nobj → (w.objs p).nodespaces = some r → (k, Val.node q) ∈ w.nspaces r → col q = col p
  idxs : ∀ {p q u r}, p < w.nobj → (w.objs p).index = some r → (u, q) ∈ w.idxs r → col q = col p
  share : ∀ {p q r}, p < w.nobj → q < w.nobj → (w.objs p).index = some r → (w.objs q).index = some r → col p = col q

theorem Grouped.empty (col : Oid → κ) : Grouped col {} where
  parent h := absurd h (Nat.not_lt_zero _)
  fixed h := absurd h (Nat.not_lt_zero _)
  stores h := absurd h (Nat.not_lt_zero _)
  caches h := absurd h (Nat.not_lt_zero _)
  nspaces h := absurd h (Nat.not_lt_zero _)
  idxs h := absurd h (Nat.not_lt_zero _)
  share h := absurd h (Nat.not_lt_zero _)

/-- The nodes of the other groups are protected, with all dictionaries no node of the group has. -/
def protOthers (col : Oid → κ) (k : κ) (w : World) : Prot where
  Q p := p < w.nobj ∧ col p ≠ k
  QS r := r < w.nstore ∧ ∀ p, p < w.nobj → col p = k → (w.objs p).storage ≠ some r
  QC r := r < w.ncache ∧ ∀ p, p < w.nobj → col p = k → (w.objs p).cache ≠ some r
  QN r := r < w.nnspace ∧ ∀ p, p < w.nobj → col p = k → (w.objs p).nodespaces ≠ some r
  QI r := r < w.nidx ∧ ∀ p, p < w.nobj → col p = k → (w.objs p).index ≠ some r
  w0 := w
  q _ h := h.1
  qs _ h := h.1
  qc _ h := h.1
  qn _ h := h.1
  qi _ h := h.1

section
variable {col : Oid → κ} {k : κ} {w w' : World}

/-- A dictionary below the counter that is not protected has an owner in the group. -/
theorem owner {n : Nat} {own : Oid → Option Nat} {r : Nat}
    (h : ¬ (r < n ∧ ∀ p, p < w.nobj → col p = k → own p ≠ some r)) (hr : r < n) :
    ∃ p, p < w.nobj ∧ col p = k ∧ own p = some r := by
  apply Classical.byContradiction
  intro hc
  exact h ⟨hr, fun p hp hk he => hc ⟨p, hp, hk, he⟩⟩

theorem grouped_inv (hi : Intact w) (hg : Grouped col w) : Inv (protOthers col k w) w where
  nobj := Nat.le_refl _
  nstore := Nat.le_refl _
  ncache := Nat.le_refl _
  nnspace := Nat.le_refl _
  nidx := Nat.le_refl _
  obj _ _ := rfl
  stores _ _ := rfl
  caches _ _ := rfl
  nspaces _ _ := rfl
  idxs _ _ := rfl
  refs p hp := by
    have hk : col p = k := Classical.byContradiction fun h => hp.1 ⟨hp.2, h⟩
    exact {
      parent := fun q hq => ⟨fun h => h.2 ((hg.parent hp.2 hq).trans hk), hi.parent p q hp.2 hq⟩
      storage := fun r hr h => h.2 p hp.2 hk hr
      cache := fun r hr h => h.2 p hp.2 hk hr
      nodespaces := fun r hr h => h.2 p hp.2 hk hr
      index := fun r hr h => h.2 p hp.2 hk hr
      fixed := fun kv hkv c hc => by
        have hm : (kv.1, Val.node c) ∈ (w.objs p).fixed := hc ▸ hkv
        exact ⟨fun h => h.2 ((hg.fixed hp.2 hm).trans hk), hi.fixed p _ c hp.2 hm⟩ }
  svals r hr hlt := fun kv hkv c hc => by
    obtain ⟨p, hp, hk, he⟩ := owner (own := fun p => (w.objs p).storage) hr hlt
    have hm : (kv.1, Val.node c) ∈ w.stores r := hc ▸ hkv
    exact ⟨fun h => h.2 ((hg.stores hp he hm).trans hk), hi.stores r _ c hlt hm⟩
  cvals r hr hlt := fun kv hkv c hc => by
    obtain ⟨p, hp, hk, he⟩ := owner (own := fun p => (w.objs p).cache) hr hlt
    have hm : (kv.1, Val.node c) ∈ w.caches r := hc ▸ hkv
    exact ⟨fun h => h.2 ((hg.caches hp he hm).trans hk), hi.caches r _ c hlt hm⟩
  nvals r hr hlt := fun kv hkv c hc => by
    obtain ⟨p, hp, hk, he⟩ := owner (own := fun p => (w.objs p).nodespaces) hr hlt
    have hm : (kv.1, Val.node c) ∈ w.nspaces r := hc ▸ hkv
    exact ⟨fun h => h.2 ((hg.nspaces hp he hm).trans hk), hi.nspaces r _ c hlt hm⟩
  ivals r hr hlt := fun kv hkv => by
    obtain ⟨p, hp, hk, he⟩ := owner (own := fun p => (w.objs p).index) hr hlt
    exact ⟨fun h => h.2 ((hg.idxs hp he hkv).trans hk), hi.idxs r kv.1 kv.2 hlt hkv⟩
  sLt := hi.storage
  cLt := hi.cache
  nLt := hi.nodespaces
  iLt := hi.index

/-- The dictionaries of a protected node are protected. -/
theorem prot_storage (hw : WF w) {p r : Nat} (hp : (protOthers col k w).Q p) (h : (w.objs p).storage = some r) :
    (protOthers col k w).QS r :=
  ⟨hw.sLt h, fun _ _ hk hr => hp.2 (hw.sInj hr h ▸ hk)⟩

theorem prot_cache (hw : WF w) {p r : Nat} (hp : (protOthers col k w).Q p) (h : (w.objs p).cache = some r) :
    (protOthers col k w).QC r :=
  ⟨hw.cLt h, fun _ _ hk hr => hp.2 (hw.cInj hr h ▸ hk)⟩

theorem prot_nodespaces (hw : WF w) {p r : Nat} (hp : (protOthers col k w).Q p)
    (h : (w.objs p).nodespaces = some r) : (protOthers col k w).QN r :=
  ⟨hw.nLt h, fun _ _ hk hr => hp.2 (hw.nInj hr h ▸ hk)⟩

theorem prot_index (hi : Intact w) (hg : Grouped col w) {p r : Nat} (hp : (protOthers col k w).Q p)
    (h : (w.objs p).index = some r) : (protOthers col k w).QI r :=
  ⟨hi.index p r h, fun _ hq hk hr => hp.2 ((hg.share hp.1 hq h hr).trans hk)⟩

theorem Inv.unchanged_others (hw : WF w) (hi : Intact w) (hg : Grouped col w) (hI : Inv (protOthers col k w) w')
    {p : Oid} (hp : p < w.nobj) (hk : col p ≠ k) : Unchanged w w' p := by
  have ho : w'.objs p = w.objs p := hI.obj p ⟨hp, hk⟩
  refine ⟨ho, ?_, ?_, ?_, ?_⟩
  · unfold World.children
    rw [ho]
    split
    · rfl
    · rename_i r hr; exact hI.stores r (prot_storage hw ⟨hp, hk⟩ hr)
  · unfold World.cached
    rw [ho]
    split
    · rfl
    · rename_i r hr; exact hI.caches r (prot_cache hw ⟨hp, hk⟩ hr)
  · unfold World.nsview
    rw [ho]
    split
    · rfl
    · rename_i r hr; exact hI.nspaces r (prot_nodespaces hw ⟨hp, hk⟩ hr)
  · unfold World.indexed
    rw [ho]
    split
    · rfl
    · rename_i r hr; exact hI.idxs r (prot_index hi hg ⟨hp, hk⟩ hr)

/-- New nodes belong to the group `k`. -/
def regroup (col : Oid → κ) (k : κ) (w : World) : Oid → κ := fun p => open Classical in if p < w.nobj then col p else k

theorem regroup_old {p : Oid} (h : p < w.nobj) : regroup col k w p = col p := if_pos h

theorem regroup_good {n : Nat} {p : Oid} (h : Good (protOthers col k w) n p) : regroup col k w p = k := by
  unfold regroup
  split
  · rename_i hp
    exact Classical.byContradiction fun hk => h.1 ⟨hp, hk⟩
  · rfl

theorem Inv.regroup (hw : WF w) (hi : Intact w) (hg : Grouped col w) (hI : Inv (protOthers col k w) w') :
    Grouped (regroup col k w) w' := by
  have hcase : ∀ p, p < w'.nobj → Good (protOthers col k w) w'.nobj p ∨ (protOthers col k w).Q p := fun p hp =>
    Classical.or_iff_not_imp_right.mpr fun h => ⟨h, hp⟩
  have old : ∀ {p q}, (protOthers col k w).Q p → col q = col p → q < w.nobj →
      Verif.regroup col k w q = Verif.regroup col k w p := fun hp h hq => by
    rw [regroup_old hq, regroup_old hp.1, h]
  have good : ∀ {p q}, Good (protOthers col k w) w'.nobj p → Good (protOthers col k w) w'.nobj q →
      Verif.regroup col k w q = Verif.regroup col k w p := fun hp hq => by
    rw [regroup_good hp, regroup_good hq]
  constructor
  · intro p q hp h
    rcases hcase p hp with hG | hQ
    · exact good hG ((hI.refs p hG).parent q h)
    · rw [hI.obj p hQ] at h
      exact old hQ (hg.parent hQ.1 h) (hi.parent p q hQ.1 h)
  · intro p q j hp h
    rcases hcase p hp with hG | hQ
    · exact good hG ((hI.refs p hG).fixed _ h q rfl)
    · rw [hI.obj p hQ] at h
      exact old hQ (hg.fixed hQ.1 h) (hi.fixed p j q hQ.1 h)
  · intro p q j r hp hr h
    rcases hcase p hp with hG | hQ
    · exact good hG (hI.svals r ((hI.refs p hG).storage r hr) (hI.sLt p r hr) _ h q rfl)
    · rw [hI.obj p hQ] at hr
      rw [hI.stores r (prot_storage hw hQ hr)] at h
      exact old hQ (hg.stores hQ.1 hr h) (hi.stores r j q (hw.sLt hr) h)
  · intro p q j r hp hr h
    rcases hcase p hp with hG | hQ
    · exact good hG (hI.cvals r ((hI.refs p hG).cache r hr) (hI.cLt p r hr) _ h q rfl)
    · rw [hI.obj p hQ] at hr
      rw [hI.caches r (prot_cache hw hQ hr)] at h
      exact old hQ (hg.caches hQ.1 hr h) (hi.caches r j q (hw.cLt hr) h)
  · intro p q j r hp hr h
    rcases hcase p hp with hG | hQ
    · exact good hG (hI.nvals r ((hI.refs p hG).nodespaces r hr) (hI.nLt p r hr) _ h q rfl)
    · rw [hI.obj p hQ] at hr
      rw [hI.nspaces r (prot_nodespaces hw hQ hr)] at h
      exact old hQ (hg.nspaces hQ.1 hr h) (hi.nspaces r j q (hw.nLt hr) h)
  · intro p q u r hp hr h
    rcases hcase p hp with hG | hQ
    · exact good hG (hI.ivals r ((hI.refs p hG).index r hr) (hI.iLt p r hr) _ h)
    · rw [hI.obj p hQ] at hr
      rw [hI.idxs r (prot_index hi hg hQ hr)] at h
      exact old hQ (hg.idxs hQ.1 hr h) (hi.idxs r u q (hi.index p r hr) h)
  · intro p q r hp hq hr hr'
    rcases hcase p hp with hG | hQ <;> rcases hcase q hq with hG' | hQ'
    · exact good hG' hG
    · rw [hI.obj q hQ'] at hr'
      exact absurd (prot_index hi hg hQ' hr') ((hI.refs p hG).index r hr)
    · rw [hI.obj p hQ] at hr
      exact absurd (prot_index hi hg hQ hr) ((hI.refs q hG').index r hr')
    · rw [hI.obj p hQ] at hr
      rw [hI.obj q hQ'] at hr'
      exact old hQ' (hg.share hQ.1 hQ'.1 hr hr') hQ.1

/-- Everything that can be got at from a node is in its group. -/
theorem GetsAt.group (hi : Intact w) (hg : Grouped col w) {o p : Oid} (ho : o < w.nobj) (h : GetsAt w o p) :
    p < w.nobj ∧ col p = col o := by
  induction h with
  | self => exact ⟨ho, rfl⟩
  | parent _ e ih => exact ⟨hi.parent _ _ ih.1 e, (hg.parent ih.1 e).trans ih.2⟩
  | fixed _ e ih => exact ⟨hi.fixed _ _ _ ih.1 e, (hg.fixed ih.1 e).trans ih.2⟩
  | child _ e ih =>
    unfold World.children at e
    split at e
    · cases e
    · rename_i r hr
      exact ⟨hi.stores r _ _ (hi.storage _ r hr) e, (hg.stores ih.1 hr e).trans ih.2⟩
  | cached _ e ih =>
    unfold World.cached at e
    split at e
    · cases e
    · rename_i r hr
      exact ⟨hi.caches r _ _ (hi.cache _ r hr) e, (hg.caches ih.1 hr e).trans ih.2⟩
  | space _ e ih =>
    unfold World.nsview at e
    split at e
    · rw [List.mem_singleton] at e
      injection e with _ e
      injection e with e
      rw [e]; exact ih
    · rename_i r hr
      exact ⟨hi.nspaces r _ _ (hi.nodespaces _ r hr) e, (hg.nspaces ih.1 hr e).trans ih.2⟩
  | indexed _ e ih =>
    unfold World.indexed at e
    split at e
    · cases e
    · rename_i r hr
      exact ⟨hi.idxs r _ _ (hi.index _ r hr) e, (hg.idxs ih.1 hr e).trans ih.2⟩

/-- Nodes that have to do with given ones form a group. -/
theorem grouped_connected (S : List Oid) (w : World) : Grouped (fun p => ∃ o ∈ S, Connected w o p) w := by
  have key : ∀ {p q}, Connected w p q → (∃ o ∈ S, Connected w o q) = ∃ o ∈ S, Connected w o p := fun h =>
    propext ⟨fun ⟨o, ho, g⟩ => ⟨o, ho, g.trans h.symm⟩, fun ⟨o, ho, g⟩ => ⟨o, ho, g.trans h⟩⟩
  refine ⟨fun hp h => key (.getsAt hp (.parent .self h)), fun hp h => key (.getsAt hp (.fixed .self h)), fun hp hr h => ?_,
    fun hp hr h => ?_, fun hp hr h => ?_, fun hp hr h => ?_, fun hp hq h h' => (key (.index hp hq h h')).symm⟩
  · exact key (.getsAt hp (.child .self (by unfold World.children; rw [hr]; exact h)))
  · exact key (.getsAt hp (.cached .self (by unfold World.cached; rw [hr]; exact h)))
  · exact key (.getsAt hp (.space .self (by unfold World.nsview; rw [hr]; exact h)))
  · exact key (.getsAt hp (.indexed .self (by unfold World.indexed; rw [hr]; exact h)))

/-- Nodes of different groups have nothing to do with each other. -/
theorem Connected.group (hi : Intact w) (hg : Grouped col w) {o p : Oid} (h : Connected w o p) :
    o < w.nobj ∧ p < w.nobj ∧ col o = col p := by
  induction h with
  | getsAt ho h => exact ⟨ho, (h.group hi hg ho).1, (h.group hi hg ho).2.symm⟩
  | index ho hp h h' => exact ⟨ho, hp, hg.share ho hp h h'⟩
  | symm _ ih => exact ⟨ih.2.1, ih.1, ih.2.2.symm⟩
  | trans _ _ ih ih' => exact ⟨ih.1, ih'.2.1, ih.2.2.trans ih'.2.2⟩

/-- What respects the separation changes only what has to do with the given nodes. -/
theorem sep_frame {α : Type} {m : M α} (S : List Oid) (hw : WF w) (hi : Intact w)
    (h : ∀ Γ : Prot, (∀ o ∈ S, Good Γ w.nobj o) → Sep Γ w.nobj m tt) (hS : ∀ o ∈ S, o < w.nobj) {p : Oid}
    (hp : p < w.nobj) (hn : ∀ o ∈ S, ¬ Connected w o p) : Unchanged w (m w).2 p := by
  have hg := grouped_connected S w
  have := h (protOthers (fun p => ∃ o ∈ S, Connected w o p) True w) (fun o ho =>
    ⟨fun hq => hq.2 (eq_true ⟨o, ho, .getsAt (hS o ho) .self⟩), hS o ho⟩) w (grouped_inv hi hg) (Nat.le_refl _)
  exact this.1.unchanged_others hw hi hg hp fun he => by
    obtain ⟨o, ho, hc⟩ := of_eq_true he
    exact hn o ho hc
end

end Verif
