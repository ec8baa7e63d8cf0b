import Verif.Props.C28

/-!
# C29: a dictionary aliaser whitelists

With a strict `DictAliaser` that lists something, keys it does not list can be
neither read, written, deleted nor seen.  An empty `DictAliaser` is false in
Python, `Alias` then skips it and every key passes (`c29_refuted`).
-/

namespace Verif

section
variable {E : Env} {o : Oid} {w : World} {l r : List Bhv} {tbl : Od Key Key}
  (h : AliasAt (clsOf E w o) l r (.dict tbl true)) {k : Key} (hk : k ∉ tbl.keys)
include h hk

omit h in
theorem unalias_unlisted : (Aliaser.dict tbl true).unalias k = .error (.key (.key k)) := by
  simp [Aliaser.unalias, (Od.get?_eq_none_iff tbl k).mpr hk]

/-- Reading raises `KeyError` and changes nothing at all. -/
theorem c29_get_partial : getitem E o k w = (.error (.key (.key k)), w) := by
  show getPipe E (fbHandler E) (clsOf E w o).bhvs o k w = _
  rw [get_alias h, unalias_unlisted hk]

/-- So does deleting. -/
theorem c29_del_partial : delitem E o k w = (.error (.key (.key k)), w) := by
  show delPipe E (clsOf E w o).bhvs o k w = _
  rw [del_alias h, unalias_unlisted hk]

/-- Assigning fails and changes the children of no node. -/
theorem c29_set_partial (hw : WF w) (v : Val) :
    ∃ e w', setitem E o k v w = (.error e, w') ∧ MapsSame w w' := by
  have hd : dest (clsOf E w o).aliaser (clsOf E w o).bhvs k = none :=
    dest_unalias_error h (unalias_unlisted hk)
  rcases hx : setitem E o k v w with ⟨e | x, w'⟩
  · refine ⟨e, w', rfl, ?_⟩
    rcases c02_set_err E o k v hw hx with hs | ⟨-, -, hs⟩
    · exact hs
    · rw [hd] at hs
      rcases hs with ⟨j, hj, -⟩ | ⟨j, hj, -⟩ <;> cases hj
  · have hs := c02_set_ok E o k v hw hx
    rw [hd] at hs
    rcases hs with ⟨j, hj, -⟩ | ⟨j, hj, -⟩ <;> cases hj

end

theorem aliasIter_listed {tbl : Od Key Key} (hne : tbl ≠ []) (ks : List Key) (e : Option Exc) :
    ∀ k ∈ (aliasIter (some (.dict tbl true)) ks e).1, k ∈ tbl.keys := by
  have ht : (Aliaser.dict tbl true).truthy = true := by
    cases tbl with
    | nil => exact absurd rfl hne
    | cons => rfl
  induction ks with
  | nil => exact fun k hk => nomatch hk
  | cons u t ih =>
    simp only [aliasIter, ht, if_true]
    cases hu : (Aliaser.dict tbl true).alias u with
    | error x =>
      simp only
      split
      · exact ih
      · exact fun k hk => nomatch hk
    | ok k' =>
      intro k hk
      rcases List.mem_cons.mp hk with e | hk
      · subst e
        simp only [Aliaser.alias] at hu
        split at hu
        · rename_i x hx
          injection hu with hu
          subst hu
          exact List.mem_map.mpr ⟨_, revGet_mem hx, rfl⟩
        · simp only [if_true] at hu
          cases hu
      · exact ih k hk

/-- Iteration yields listed keys only, whatever the other behaviors do. -/
theorem c29_keys_partial {E : Env} {o : Oid} {w w' : World} {tbl : Od Key Key} (hw : WF w)
    (hne : tbl ≠ []) (hm : Bhv.alias ∈ (clsOf E w o).bhvs)
    (hal : (clsOf E w o).aliaser = some (.dict tbl true)) {ks : List Key}
    (hks : mkeys E o w = (.ok ks, w')) : ∀ k ∈ ks, k ∈ tbl.keys := by
  have key : ∀ (bs : List Bhv), Bhv.alias ∈ bs → ∀ it w1,
      iterPipe E bs o w = (.ok it, w1) → ∀ k ∈ it.1, k ∈ tbl.keys := by
    intro bs
    induction bs with
    | nil => exact fun h => nomatch h
    | cons b t ih =>
      intro hm it w1 hit
      by_cases hb : b = .alias
      · subst hb
        simp only [iterPipe, M.bind_apply] at hit
        have hcls := iterPipe_quiet E t o w hw
        rcases hy : iterPipe E t o w with ⟨e | y, w2⟩
        · rw [hy] at hit; injection hit with hit _; cases hit
        · rw [hy] at hit hcls
          simp only [M.getW_apply, M.pure_apply] at hit
          injection hit with hit _
          injection hit with hit
          rw [← hit, show (clsOf E w2 o).aliaser = some (.dict tbl true) from
            (congrArg (fun c => (E.cls c).aliaser) (hcls.2.obj o).cls).trans hal]
          exact aliasIter_listed hne _ _
      · have hm : Bhv.alias ∈ t := (List.mem_cons.mp hm).resolve_left fun e => hb e.symm
        have : iterPipe E (b :: t) o = iterPipe E t o := by
          cases b <;> first | rfl | exact absurd rfl hb
        rw [this] at hit
        exact ih hm it w1 hit
  simp only [mkeys, M.bind_apply] at hks
  rcases hy : iter E o w with ⟨e | y, w2⟩
  · rw [hy] at hks; injection hks with hks _; cases hks
  · rw [hy] at hks
    have := key _ hm y w2 hy
    simp only [endIter] at hks
    cases he : y.2 with
    | none =>
      rw [he] at hks
      injection hks with hks _
      injection hks with hks
      rw [← hks]; exact this
    | some e => rw [he] at hks; injection hks with hks _; cases hks

/-- Listing the keys does not fail because of unlisted ones, it leaves them out: a key is shown
exactly if it is the first that stands for a stored key. -/
theorem c29_shown_partial {E : Env} {o : Oid} {w : World} {l r : List Bhv} {tbl : Od Key Key} (hw : WF w)
    (h : AliasClass (clsOf E w o) l r (.dict tbl true)) :
    ∃ ks, (mkeys E o w).1 = .ok ks ∧ ks.length = ((w.omap o).keys.filter (· ∈ tbl.vals)).length ∧
      ∀ k, k ∈ ks ↔ ∃ u ∈ (w.omap o).keys, (tbl.find? fun kv => kv.2 = u).map (·.1) = some k := by
  have e : ∀ u, ((Aliaser.dict tbl true).alias u).toOption = Aliaser.revGet tbl u := fun u => by
    simp only [Aliaser.alias]
    cases Aliaser.revGet tbl u <;> rfl
  refine ⟨_, c28_keys h hw (.inl rfl), ?_, fun k => ?_⟩
  · generalize (w.omap o).keys = us
    induction us with
    | nil => rfl
    | cons u us ih =>
      rw [List.filterMap_cons, List.filter_cons]
      simp only [e] at ih ⊢
      cases hu : Aliaser.revGet tbl u with
      | none => rw [if_neg (by simpa using revGet_none hu)]; exact ih
      | some k =>
        have : u ∈ tbl.vals := List.mem_map.mpr ⟨_, revGet_mem hu, rfl⟩
        rw [if_pos (by simpa using this)]
        simp only [List.length_cons, ih]
  · rw [List.mem_filterMap]
    simp only [e]
    rfl

/-- A class with a dictionary aliaser `t`. -/
def dictAlias (t : Od Key Key) : Env :=
  { cls := fun _ => { bhvs := [.adopt, .alias, .nodify, .dictStorage], aliaser := some (.dict t true) } }

/-- Two keys were stored, then one was taken from the table. -/
example : let E := dictAlias [(kc, ka)]
    let w := after (dictAlias [(kb, kb), (kc, ka)])
      [.new 0 .none none, .set 0 kb (.data (.int 2)), .set 0 kc (.data (.int 1))]
    AliasClass (clsOf E w 0) [.adopt] [.nodify, .dictStorage] (.dict [(kc, ka)] true) ∧ WF w ∧
    (w.omap 0).keys = [kb, ka] ∧ (mkeys E 0 w).1 = .ok [kc] :=
  ⟨⟨⟨rfl, by decide, rfl, rfl⟩, by decide, by decide⟩, (reachable_after ..).wf, by decide +kernel, by decide +kernel⟩

/-! `x` stands for `a`; the storage also holds `b`, which is not listed. -/

example : let E := dictAlias [(kc, ka)]
    let w := after E [.new 0 .none none, .set 0 kc (.data (.int 1))]
    AliasAt (clsOf E w 0) [.adopt] [.nodify, .dictStorage] (.dict [(kc, ka)] true) ∧
    ka ∉ Od.keys [(kc, ka)] ∧ WF w ∧
    (w.omap 0).keys = [ka] ∧ (mkeys E 0 w).1 = .ok [kc] ∧
    (getitem E 0 ka w).1 = .error (.key (.key ka)) :=
  ⟨⟨rfl, by decide, rfl, rfl⟩, by decide, (reachable_after ..).wf, by decide +kernel,
    by decide +kernel, by decide +kernel⟩

/-- With an empty dictionary every key passes. -/
theorem c29_refuted : ∃ (E : Env) (w : World), Reachable E w ∧
    (clsOf E w 0).aliaser = some (.dict [] true) ∧ Bhv.alias ∈ (clsOf E w 0).bhvs ∧
    (w.omap 0).keys = [ka] ∧ (mkeys E 0 w).1 = .ok [ka] ∧
    (getitem E 0 ka w).1 = .ok (.data (.int 1)) :=
  ⟨dictAlias [], after _ [.new 0 .none none, .set 0 ka (.data (.int 1))], reachable_after ..,
    rfl, by decide, by decide +kernel, by decide +kernel, by decide +kernel⟩

end Verif
