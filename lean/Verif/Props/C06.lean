import Verif.Props.C02
import Verif.Lemmas.Location

/-!
# C06 Assignment adopts the child

After `node[k] = child` succeeded on a class with `Adopt`, the child's name is the
key and its parent the node; every other location is unchanged.
-/

namespace Verif

theorem locName_isSome_adopt {al : Option Aliaser} {bs : List Bhv} (k : Key)
    (hd : (dest al bs k).isSome) (h : Bhv.adopt ∈ bs) : (locName al bs k).isSome := by
  induction bs generalizing k with
  | nil => exact nomatch h
  | cons b r ih =>
    cases b
    case adopt => simp [locName]
    case alias =>
      have hr : Bhv.adopt ∈ r := by simpa using h
      simp only [locName, dest] at hd ⊢
      cases al with
      | none => exact ih _ hd hr
      | some a =>
        simp only at hd ⊢
        split at hd
        · rename_i ht
          simp only [ht, if_true]
          cases hu : a.unalias k with
          | ok u => rw [hu] at hd; exact ih _ hd hr
          | error e => rw [hu] at hd; exact nomatch hd
        · rename_i ht
          simp only [if_neg ht]
          exact ih _ hd hr
    case nodespaces =>
      have hr : Bhv.adopt ∈ r := by simpa using h
      cases k with
      | str s =>
        simp only [locName, dest] at hd ⊢
        split at hd
        · rename_i hs; simp [hs]
        · rename_i hs; simp only [if_neg hs]; exact ih _ hd hr
      | _ => exact nomatch hd
    all_goals exact ih _ hd (by simpa using h)

theorem dest_isSome_of_ok {E : Env} {o : Oid} {k : Key} {v : Val} {w w' : World} (hw : WF w)
    (h : setitem E o k v w = (.ok (), w')) :
    (dest (clsOf E w o).aliaser (clsOf E w o).bhvs k).isSome := by
  rcases c02_set_ok E o k v hw h with ⟨j, hj, -⟩ | ⟨j, hj, -⟩ <;> simp [hj]

/-- C06: with `Adopt` and without key translation, a successful assignment gives
the child the key as name and the node as parent and changes no other location. -/
theorem c06_adopted (E : Env) (o : Oid) (k : Key) (c : Oid) {w w' : World} (hw : WF w)
    (ha : Bhv.adopt ∈ (clsOf E w o).bhvs) (hn : Bhv.alias ∉ (clsOf E w o).bhvs)
    (h : setitem E o k (.node c) w = (.ok (), w')) :
    w'.loc c = (k, some o) ∧ ∀ p, p ≠ c → w'.loc p = w.loc p := by
  have hl := setitem_loc E o k (.node c) hw
  rw [h] at hl
  have hs : LocSet w w' o _ (locName (clsOf E w o).aliaser (clsOf E w o).bhvs k) := hl.ok rfl
  have h1 := locName_isSome_adopt k (dest_isSome_of_ok hw h) ha
  rcases locName_noAlias (clsOf E w o).aliaser hn k with h2 | h2
  · rw [h2] at h1; exact nomatch h1
  · rw [h2] at hs
    refine ⟨by simpa using hs c, fun p hp => ?_⟩
    have := hs p
    rw [if_neg (fun e => hp (by injection e with e; exact e.symm))] at this
    exact this

/-- The general form for any stack: `locName` says which name is given (the key as
translated by the behaviors left of the last `Adopt`, the key itself for a
nodespace), and only the assigned node is moved. -/
theorem c06_any_stack (E : Env) (o : Oid) (k : Key) (v : Val) {w w' : World} (hw : WF w)
    (h : setitem E o k v w = (.ok (), w')) :
    ∀ p, w'.loc p = match locName (clsOf E w o).aliaser (clsOf E w o).bhvs k with
      | some n => if v = .node p then (n, some o) else w.loc p
      | none => w.loc p := by
  have hl := setitem_loc E o k v hw
  rw [h] at hl
  have hs : LocSet w w' o _ (locName (clsOf E w o).aliaser (clsOf E w o).bhvs k) := hl.ok rfl
  intro p
  cases hn : locName (clsOf E w o).aliaser (clsOf E w o).bhvs k with
  | none => rw [hn] at hs; exact hs p
  | some n => rw [hn] at hs; exact hs p

/-- Assigning something that is no node moves nobody. -/
theorem c06_data (E : Env) (o : Oid) (k : Key) (d : Data) {w w' : World} (hw : WF w)
    (h : setitem E o k (.data d) w = (.ok (), w')) : ∀ p, w'.loc p = w.loc p := by
  intro p
  have := c06_any_stack E o k (.data d) hw h p
  split at this
  · simpa using this
  · exact this

/-! A full `Node` taking a child, and a reserved name. -/

/-- Two full nodes. -/
def c06W : World := after sampleEnv [.new 2 .none none, .new 2 kb none]

example : WF c06W ∧ Bhv.adopt ∈ (clsOf sampleEnv c06W 0).bhvs ∧
    Bhv.alias ∉ (clsOf sampleEnv c06W 0).bhvs ∧
    (setitem sampleEnv 0 ka (.node 1) c06W).1 = .ok () ∧
    (setitem sampleEnv 0 (.str ['_', '_', 'x', '_', '_']) (.node 1) c06W).1 = .ok () :=
  ⟨(reachable_after ..).wf, by decide, by decide, rfl, rfl⟩

/-- `c06_adopted` for a child, `c06_any_stack` for a nodespace, `c06_data` for a plain value. -/
example : (setitem sampleEnv 0 ka (.node 1) c06W).2.loc 1 = (ka, some 0) :=
  (c06_adopted sampleEnv 0 ka 1 (reachable_after ..).wf (by decide) (by decide)
    (show setitem sampleEnv 0 ka (.node 1) c06W = (.ok (), _) from rfl)).1

example : (setitem sampleEnv 0 (.str ['_', '_', 'x', '_', '_']) (.node 1) c06W).2.loc 1 =
    (.str ['_', '_', 'x', '_', '_'], some 0) :=
  (c06_any_stack sampleEnv 0 (.str ['_', '_', 'x', '_', '_']) (.node 1) (reachable_after ..).wf
    (show setitem sampleEnv 0 (.str ['_', '_', 'x', '_', '_']) (.node 1) c06W = (.ok (), _) from rfl) 1).trans (by decide +kernel)

example : (setitem sampleEnv 0 ka (.data (.int 3)) (after sampleEnv [.new 3 kb none])).2.loc 0 = (kb, none) :=
  (c06_data sampleEnv 0 ka (.int 3) (reachable_after sampleEnv [.new 3 kb none]).wf
    (show setitem sampleEnv 0 ka (.data (.int 3)) (after sampleEnv [.new 3 kb none]) = (.ok (), _) from rfl) 0).trans
    (by decide +kernel)

end Verif
