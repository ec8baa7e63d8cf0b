import Verif.Props.C27
import Verif.Props.C02
import Verif.Lemmas.AliasView

/-!
# C28: the aliased view is faithful

On a class with `Alias` and an aliaser whose `unalias` inverts its `alias`, the
operations on `alias(u)` are the operations on the stored key `u`.  The theorems
ask for pass-through behaviors around `Alias`.  For `Lifecycle` to the right of
`Alias` the claim about deletion is false (`c28_refuted`): the inner behavior reads
`self[key]` with the stored key, which `Alias` translates once more.
-/

namespace Verif

/-- What the cache of `o` holds is what the storage holds. -/
def CacheAgrees (E : Env) (w : World) (o : Oid) : Prop := Bhv.cache ∈ (clsOf E w o).bhvs →
  ∀ k v, (w.cached o).get? k = some v → (w.omap o).val k = some v

theorem CacheAgrees.coh {E : Env} {w : World} {o : Oid} (h : CacheAgrees E w o) :
    Coh E (· = o) w := by
  rintro p rfl hc k v hk
  exact h hc k v hk

section
variable {E : Env} {o : Oid} {w : World} {l r : List Bhv} {a : Aliaser}
  (h : AliasClass (clsOf E w o) l r a) (hw : WF w) (hc : CacheAgrees E w o)
  (hinv : ∀ u k, a.alias u = .ok k → a.unalias k = .ok u)
include h hw hc hinv

/-- Reading the alias reads the stored key. -/
theorem c28_get {u k : Key} (hk : a.alias u = .ok k) (hp : Plain r u) :
    (getitem E o k w).1 = (match (w.omap o).val u with
      | some v => .ok v
      | none => .error (.key (.key k))) := by
  obtain ⟨w', h1, -⟩ := getitem_alias h hw hc.coh (hinv u k hk) hp
  rw [h1]
  show _ = (match (w.children o).get? u with | some v => _ | none => _)
  cases (w.children o).get? u <;> rfl

/-- Assigning to the alias assigns to the stored key, unless the class refuses the
value. -/
theorem c28_set {u k : Key} (v : Val) (hk : a.alias u = .ok k) (hp : Plain r u) :
    ((setitem E o k v w).1 = match refuses (clsOf E w o) v with
      | some m => .error (.value m)
      | none => .ok ()) ∧
    ∀ p, (setitem E o k v w).2.omap p =
      if p = o ∧ refuses (clsOf E w o) v = none then (w.omap o).set u v else w.omap p := by
  have h1 := setPipe_alias h hw hc.coh v (hinv u k hk) hp
  rw [setRes_eq] at h1
  refine ⟨h1, fun p => ?_⟩
  have hd := dest_alias h (hinv u k hk) hp
  rcases hx : setitem E o k v w with ⟨e | x, w'⟩
  · rw [hx] at h1
    cases hr : refuses (clsOf E w o) v with
    | none => rw [hr] at h1; cases h1
    | some m =>
      rw [hr] at h1
      simp only [reduceCtorEq, and_false, if_false]
      have hb : Bhv.attributesLifecycle ∉ (clsOf E w o).bhvs := fun hm => by
        rcases h.mem hm with e | e <;> cases e
      exact c02_set_partial E o k v hw hb hx p
  · rw [hx] at h1
    cases hr : refuses (clsOf E w o) v with
    | some m => rw [hr] at h1; cases h1
    | none =>
      have := c02_set_ok E o k v hw hx
      rw [show dest (clsOf E w o).aliaser (clsOf E w o).bhvs k = _ from hd] at this
      rcases this with ⟨j, hj, h2, h3⟩ | ⟨j, hj, -⟩
      · injection hj with hj; injection hj with hj; subst hj
        simp only [and_true]
        split
        · rename_i e; rw [e, h2]
        · rename_i e; exact h3 p e
      · injection hj with hj; cases hj

/-- Deleting the alias deletes the stored key. -/
theorem c28_del {u k : Key} (hk : a.alias u = .ok k) (hp : Plain r u) :
    ((delitem E o k w).1 = if u ∈ (w.omap o).keys then .ok () else .error (.key (.key k))) ∧
    ∀ p, (delitem E o k w).2.omap p =
      if p = o ∧ u ∈ (w.omap o).keys then (w.omap o).del u else w.omap p := by
  obtain ⟨w', h1, h2⟩ := delitem_alias h hw hc.coh (hinv u k hk) hp
  rw [h1]
  refine ⟨rfl, fun p => ?_⟩
  simp only [World.omap, h2.children p]
  show _ = if p = o ∧ u ∈ (w.children o).keys then _ else _
  split
  · rw [toMap_del (hw.children_nodup o)]
  · rfl

end

theorem aliasIter_eq {a : Aliaser} (ht : a.truthy = true) (ks : List Key)
    (hk : a.enumerable = true ∨ ∀ u ∈ ks, ∃ k, a.alias u = .ok k) :
    aliasIter (some a) ks none = (ks.filterMap fun u => (a.alias u).toOption, none) := by
  induction ks with
  | nil => rfl
  | cons u t ih =>
    have ih := ih (hk.imp id fun h x hx => h x (List.mem_cons_of_mem _ hx))
    simp only [aliasIter, ht, if_true, ih]
    cases hu : a.alias u with
    | ok k => simp [hu, Except.toOption]
    | error e =>
      rcases hk with he | hk
      · have : e.isKey = true := by
          cases a with
          | dict tbl s =>
            simp only [Aliaser.alias] at hu
            split at hu
            · cases hu
            · split at hu
              · injection hu with hu; subst hu; rfl
              · cases hu
          | _ => cases he
        simp [this, he, hu, Except.toOption]
      · obtain ⟨k, hk⟩ := hk u List.mem_cons_self
        rw [hu] at hk; cases hk

section
variable {E : Env} {o : Oid} {w : World} {l r : List Bhv} {a : Aliaser}
  (h : AliasClass (clsOf E w o) l r a) (hw : WF w)
include h hw

/-- Iteration yields the aliases of the stored keys in storage order; a dictionary
aliaser leaves out the keys it does not list. -/
theorem c28_keys
    (hk : a.enumerable = true ∨ ∀ u ∈ (w.omap o).keys, ∃ k, a.alias u = .ok k) :
    (mkeys E o w).1 = .ok ((w.omap o).keys.filterMap fun u => (a.alias u).toOption) := by
  obtain ⟨w', h1, -⟩ := iter_alias h hw
  rw [aliasIter_eq h.truthy (w.children o).keys hk] at h1
  simp only [mkeys, M.bind_apply, h1]
  rfl

/-- Each iterated key can be read. -/
theorem c28_readback (hc : CacheAgrees E w o)
    (hinv : ∀ u k, a.alias u = .ok k → a.unalias k = .ok u)
    (hp : ∀ u ∈ (w.omap o).keys, Plain r u)
    {ks : List Key} {w' : World} (hks : mkeys E o w = (.ok ks, w')) {k : Key} (hk : k ∈ ks) :
    ∃ u v, a.alias u = .ok k ∧ (w.omap o).val u = some v ∧ (getitem E o k w).1 = .ok v := by
  obtain ⟨w1, h1, -⟩ := iter_alias h hw
  have hm : k ∈ (aliasIter (some a) (w.children o).keys none).1 := by
    simp only [mkeys, M.bind_apply, h1, endIter] at hks
    cases he : (aliasIter (some a) (w.children o).keys none).2 with
    | none =>
      rw [he] at hks
      injection hks with hks _
      injection hks with hks
      rw [hks]; exact hk
    | some e => rw [he] at hks; injection hks with hks _; cases hks
  have : ∃ u ∈ (w.children o).keys, a.alias u = .ok k := by
    clear hks h1 hp
    generalize (w.children o).keys = us at hm
    induction us with
    | nil => exact nomatch hm
    | cons u t ih =>
      simp only [aliasIter, h.truthy, if_true] at hm
      cases hu : a.alias u with
      | ok k' =>
        rw [hu] at hm
        rcases List.mem_cons.mp hm with e | hm
        · exact ⟨u, List.mem_cons_self, e ▸ hu⟩
        · obtain ⟨x, hx, hx'⟩ := ih hm
          exact ⟨x, List.mem_cons_of_mem _ hx, hx'⟩
      | error e =>
        rw [hu] at hm
        simp only at hm
        split at hm
        · obtain ⟨x, hx, hx'⟩ := ih hm
          exact ⟨x, List.mem_cons_of_mem _ hx, hx'⟩
        · exact nomatch hm
  obtain ⟨u, hu, hau⟩ := this
  cases hv : (w.children o).get? u with
  | none => exact absurd hu ((Od.get?_eq_none_iff _ _).mp hv)
  | some v =>
    refine ⟨u, v, hau, hv, ?_⟩
    rw [c28_get h hw hc hinv hau (hp u hu)]
    show (match (w.children o).get? u with | some v => _ | none => _) = _
    rw [hv]

end

/-- The aliasers of `Lawful` satisfy the hypothesis on the aliaser. -/
theorem c28_lawful {a : Aliaser} (h : Lawful a) :
    ∀ u k, a.alias u = .ok k → a.unalias k = .ok u := fun _ _ => c27_inverse_partial a h

/-! An aliased node with two children, the second deleted through its alias. -/

/-- `p-a`. -/
def kpa : Key := .str ['p', '-', 'a']

/-- Two keys are stored. -/
def c28W : World := after sampleEnv
  [.new 9 .none none, .set 0 kpa (.data (.int 1)), .set 0 (.str ['p', '-', 'b']) (.data (.int 2))]

example : AliasClass (clsOf sampleEnv c28W 0) [] [.nodify, .dictStorage] (.pre "p-".toList) ∧
    WF c28W ∧ CacheAgrees sampleEnv c28W 0 ∧ Lawful (.pre "p-".toList) ∧
    (Aliaser.pre "p-".toList).alias ka = .ok kpa ∧
    (c28W.omap 0).keys = [ka, kb] ∧
    (mkeys sampleEnv 0 c28W).1 = .ok [kpa, .str ['p', '-', 'b']] ∧
    (getitem sampleEnv 0 kpa c28W).1 = .ok (.data (.int 1)) ∧
    ((delitem sampleEnv 0 kpa c28W).2.omap 0).keys = [kb] :=
  ⟨⟨⟨rfl, by decide, rfl, rfl⟩, by decide, .inl (by decide)⟩, (reachable_after ..).wf,
    fun h => absurd h (by decide), trivial, by decide +kernel, by decide +kernel, by decide +kernel,
    by decide +kernel, by decide +kernel⟩

/-- `Alias` to the left of `Lifecycle`. -/
def aliasLifecycle : ClassDef :=
  { bhvs := [.alias, .lifecycle, .nodify, .dictStorage], aliaser := some (.pre "p-".toList) }

/-- A stored child cannot be deleted by its alias. -/
theorem c28_refuted : ∃ (E : Env) (w w' : World), Reachable E w ∧
    (mkeys E 0 w).1 = .ok [kpa] ∧ (getitem E 0 kpa w).1 = .ok (.node 1) ∧
    delitem E 0 kpa w = (.error (.key (.key kpa)), w') ∧ (w'.omap 0).keys = [ka] :=
  ⟨{ cls := fun c => if c = 0 then aliasLifecycle else baseNode },
    after _ [.new 0 .none none, .new 1 .none none, .set 0 kpa (.node 1)], _, reachable_after ..,
    by decide +kernel, by decide +kernel, rfl, by decide +kernel⟩

end Verif
