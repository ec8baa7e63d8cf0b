import Verif.Props.C02
import Verif.Lemmas.Location

/-!
# C03 Reading never modifies the children

For every program without `ChildFactory`: `node[k]`, `get`, `in`, `keys`, `values`,
`items` and `len` change no children, no nodespaces, no name, no parent, no
reference index and emit no event, whether they return or raise.
-/

namespace Verif

/-- The reading operations of the mapping API. -/
def Op.isRead : Op → Bool
  | .get .. | .getD .. | .contains .. | .keys .. | .values .. | .items .. | .len .. => true
  | _ => false

theorem exec_read_quiet {E : Env} (hE : NoFactory E) {op : Op} (hr : op.isRead = true) :
    Pres Quiet (exec E op) := by
  have lift : ∀ {α : Type} {m : M α} (f : α → Res), Pres Quiet m →
      Pres Quiet (do let x ← m; pure (f x)) := fun f h =>
    pres_bind quiet_pre h fun _ => pres_pure quiet_pre _
  cases op
  case get o k => exact lift _ (getitem_quiet hE o k)
  case getD o k d => exact lift _ (mget_quiet hE o k d)
  case contains o k => exact lift _ (mcontains_quiet hE o k)
  case keys o => exact lift _ (mkeys_quiet E o)
  case values o => exact lift _ (mvalues_quiet hE o)
  case items o => exact lift _ (mitems_quiet hE o)
  case len o => exact lift _ (mlen_quiet E o)
  all_goals exact absurd hr Bool.false_ne_true

/-- C03. -/
theorem c03_reads_change_nothing {E : Env} (hE : NoFactory E) {op : Op} (hr : op.isRead = true)
    {w : World} (hw : WF w) (w' : World) (hx : (exec E op w).2 = w') :
    (∀ p, w'.omap p = w.omap p) ∧ (∀ p, w'.loc p = w.loc p) ∧ (∀ p, w'.nmap p = w.nmap p) ∧
    w'.idxs = w.idxs ∧ w'.log = w.log ∧ w'.nobj = w.nobj := by
  subst hx
  obtain ⟨-, s⟩ := exec_read_quiet hE hr w hw
  exact ⟨fun p => by simp only [World.omap, s.children p], s.loc,
    fun p => by simp only [World.nmap, s.nsview p], s.idxs, s.log, s.nobj⟩

/-- The same for any sequence of reads. -/
theorem c03_histories {E : Env} (hE : NoFactory E) {ops : List Op}
    (hr : ∀ op ∈ ops, op.isRead = true) {w : World} (hw : WF w) :
    let w' := (execAll E ops w).2
    (∀ p, w'.omap p = w.omap p) ∧ (∀ p, w'.loc p = w.loc p) ∧ (∀ p, w'.nmap p = w.nmap p) := by
  have : Quiet w (execAll E ops w).2 := by
    clear hw
    induction ops generalizing w with
    | nil => exact Quiet.refl w
    | cons op r ih =>
      exact (exec_read_quiet hE (hr op List.mem_cons_self) w).trans
        (ih fun op h => hr op (List.mem_cons_of_mem _ h))
  obtain ⟨-, s⟩ := this hw
  exact ⟨fun p => by simp only [World.omap, s.children p], s.loc,
    fun p => by simp only [World.nmap, s.nsview p]⟩

/-- A fallback tree: reading a missing key below `de` searches `en`. -/
def c03W : World := after sampleEnv
  [.new 10 (.str ['r']) none, .new 10 .none none, .new 10 .none none,
   .set 0 (.str ['e', 'n']) (.node 1), .set 0 (.str ['d', 'e']) (.node 2),
   .set 1 ka (.data (.int 7))]

example : NoFactory sampleEnv ∧ WF c03W ∧
    (getitem sampleEnv 2 ka c03W).1 = .ok (.data (.int 7)) ∧
    (getitem sampleEnv 2 kb c03W).1 = .error (.key (.key kb)) ∧
    (mkeys sampleEnv 0 c03W).1 = .ok [.str ['e', 'n'], .str ['d', 'e']] :=
  ⟨sample_noFactory, (reachable_after ..).wf, by decide +kernel, by decide +kernel, by decide +kernel⟩

/-- With `ChildFactory` reading does create children (as intended by that
behavior), so the restriction is necessary. -/
theorem c03_factories_write : ∃ (E : Env) (w w' : World) (v : Val), Reachable E w ∧
    getitem E 0 ka w = (.ok v, w') ∧ (w.omap 0).keys = [] ∧ (w'.omap 0).keys = [ka] :=
  ⟨factoryEnv, after factoryEnv [.new 13 .none none], _, _, reachable_after .., rfl, rfl, rfl⟩

/-- `c03_reads_change_nothing` and `c03_histories` for reads of that tree: a value found by the search, a missing
key and a listing. -/
example : (exec sampleEnv (.get 2 ka) c03W).2.omap 1 = c03W.omap 1 :=
  (c03_reads_change_nothing sample_noFactory (op := .get 2 ka) rfl (reachable_after ..).wf _ rfl).1 1

example : (execAll sampleEnv [.get 2 ka, .get 2 kb, .items 0, .contains 1 ka] c03W).2.omap 0 = c03W.omap 0 :=
  (c03_histories sample_noFactory (by decide) (reachable_after ..).wf).1 0

end Verif
