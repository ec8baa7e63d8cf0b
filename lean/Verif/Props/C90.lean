import Verif.Lemmas.Elsewhere
import Verif.Props.C81
import Verif.Props.C02

/-!
# C90 Locations change by storing only

The name and the parent of a node change only by operations that are given the node to store it; deleting,
detaching, clearing, reordering, reading and making other children, failing or not, leave them alone.
-/

namespace Verif

variable {E : Env} {w : World} {q : Oid}

theorem lodged_execAll {ops : List Op} (ho : ∀ op ∈ ops, Val.node q ∉ op.given) :
    Lodged q w (execAll E ops w).2 :=
  (lodged_api E q).execAll (fun o u w => lodged_hidden _ _ (hidden_setUuidRef o u w))
    (fun _ _ _ _ => trivial) (fun op hm v hv e => ho op hm (e ▸ hv)) w

/-- C90: a history of operations none of which is given the node to store leaves its name and its parent alone;
whether they return or raise, in every program. -/
theorem c90_location (hw : WF w) (hq : q < w.nobj) {ops : List Op} (ho : ∀ op ∈ ops, Val.node q ∉ op.given) :
    (execAll E ops w).2.loc q = w.loc q := (lodged_execAll ho hw hq).2.2

/-- C90: `path`, `root` and `acquire` of a node are what they were, if neither it nor one of the nodes above it is
given to an operation to store. -/
theorem c90_path (hw : WF w) {l : List Oid} (hl : Chain w q l) (hq : ∀ p ∈ q :: l, p < w.nobj) {ops : List Op}
    (ho : ∀ op ∈ ops, ∀ p ∈ q :: l, Val.node p ∉ op.given) :
    pathOf (execAll E ops w).2 q = pathOf w q ∧ rootOf (execAll E ops w).2 q = rootOf w q ∧
    ∀ t, acquire (execAll E ops w).2 t q = acquire w t q := by
  have hloc : ∀ p ∈ q :: l, (execAll E ops w).2.loc p = w.loc p := fun p hp =>
    c90_location hw (hq p hp) fun op hm => ho op hm p hp
  have hn : l.length < w.nobj := by
    have := nodup_length_le hl.nodup hq
    simpa [Nat.lt_iff_add_one_le] using this
  have hl' : Chain (execAll E ops w).2 q l := hl.congr fun p hp => by rw [hloc p hp]
  have hn' : l.length < (execAll E ops w).2.nobj := by
    have := nodup_length_le hl.nodup fun p hp =>
      (lodged_execAll (E := E) (fun op hm => ho op hm p hp) hw (hq p hp)).2.1
    simpa [Nat.lt_iff_add_one_le] using this
  refine ⟨?_, ?_, fun t => ?_⟩
  · rw [hl.pathOf' hn, hl'.pathOf' hn']
    congr 2
    exact List.map_congr_left fun p hp => by rw [hloc p hp]
  · rw [hl.rootOf' hn, hl'.rootOf' hn']
  · rw [hl.acquire' hn, hl'.acquire' hn']

/-- Three nodes above each other, the middle one with child factories. -/
def c90Ops : List Op := [.new 7 .none none, .new 20 .none none, .new 7 .none none, .set 0 ka (.node 1),
  .set 1 kc (.node 2)]

/-- Taken out, and everything around them changed. -/
def c90More : List Op := [.get 1 kb, .del 1 kc, .set 1 kc (.data (.int 3)), .new 7 .none (some 2), .set 2 kb (.node 4), .detach 0 ka,
  .set 0 ka (.node 4), .clear 0]

/-- The hypotheses are met: the path of a node that was removed, and whose parent was, is what it was. -/
example : pathOf (execAll lazyRefEnv c90More (after lazyRefEnv c90Ops)).2 2 =
    some [Key.none, ka, kc] := by
  have h1 : ((after lazyRefEnv c90Ops).loc 2).2 = some 1 := by decide +kernel
  have h2 : ((after lazyRefEnv c90Ops).loc 1).2 = some 0 := by decide +kernel
  have h3 : ((after lazyRefEnv c90Ops).loc 0).2 = none := by decide +kernel
  have h4 : ∀ p ∈ [2, 1, 0], p < (after lazyRefEnv c90Ops).nobj := by decide +kernel
  have h5 : pathOf (after lazyRefEnv c90Ops) 2 = some [Key.none, ka, kc] := by decide +kernel
  have hw := (reachable_after lazyRefEnv c90Ops).wf
  generalize after lazyRefEnv c90Ops = w at h1 h2 h3 h4 h5 hw
  rw [(c90_path hw (.up h1 (.up h2 (.root h3))) h4 (by decide)).1, h5]

/-- All that did change something. -/
example : ((execAll lazyRefEnv c90More (after lazyRefEnv c90Ops)).2.omap 0).keys = [] ∧
    ((after lazyRefEnv c90Ops).omap 0).keys ≠ [] ∧
    ((execAll lazyRefEnv c90More (after lazyRefEnv c90Ops)).2.omap 1).keys ≠ ((after lazyRefEnv c90Ops).omap 1).keys ∧
    ((execAll lazyRefEnv c90More (after lazyRefEnv c90Ops)).2.omap 2).keys ≠ ((after lazyRefEnv c90Ops).omap 2).keys := by
  decide +kernel

end Verif
