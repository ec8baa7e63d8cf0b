import Verif.Props.C28
import Verif.Props.C82
import Verif.Props.C89

/-!
# C28 for any composition

`Alias` anywhere among any other behaviors (`Reference`, `Lifecycle`, `Fallback`, child factories): reading
the alias of a stored key returns the stored value, an assignment or deletion that returns acts on the stored key,
and iteration yields the aliases of the stored keys.  Whether assignments and deletions return depends on the
other behaviors (`c28_refuted`).
-/

namespace Verif

/-- One `Alias` with an aliaser that is not false, above a `DictStorage` or `OdictStorage`; any behaviors left and
right of it. -/
structure Translates (c : ClassDef) (l r : List Bhv) (a : Aliaser) : Prop where
  bhvs : c.bhvs = l ++ .alias :: r
  left : Bhv.alias ∉ l
  right : Bhv.alias ∉ r
  aliaser : c.aliaser = some a
  truthy : a.truthy = true
  stores : Stores c

theorem Plain.of_cons {b : Bhv} {r : List Bhv} {k : Key} (h : Plain (b :: r) k) : Plain r k :=
  fun hm => h (List.mem_cons_of_mem _ hm)

theorem dest_skip (al : Option Aliaser) {l : List Bhv} (hl : Bhv.alias ∉ l) {k : Key} (hp : Plain l k) (t : List Bhv) :
    dest al (l ++ t) k = dest al t k := by
  induction l with
  | nil => rfl
  | cons b r ih =>
    have ih := ih (fun h => hl (List.mem_cons_of_mem _ h)) hp.of_cons
    cases b
    case «alias» => exact absurd List.mem_cons_self hl
    case nodespaces =>
      obtain ⟨s, rfl, hs⟩ := hp List.mem_cons_self
      simp only [List.cons_append, dest, hs, if_false]
      exact ih
    all_goals exact ih

theorem shownBy_skip {E : Env} {w : World} {o : Oid} {l : List Bhv} (hl : Bhv.alias ∉ l) (hc : Bhv.cache ∉ l) {k : Key}
    (hp : Plain l k) (t : List Bhv) : w.shownBy E o (l ++ t) k = w.shownBy E o t k := by
  induction l with
  | nil => rfl
  | cons b r ih =>
    have ih := ih (fun h => hl (List.mem_cons_of_mem _ h)) (fun h => hc (List.mem_cons_of_mem _ h)) hp.of_cons
    cases b
    case «alias» => exact absurd List.mem_cons_self hl
    case cache => exact absurd List.mem_cons_self hc
    case nodespaces =>
      obtain ⟨s, rfl, hs⟩ := hp List.mem_cons_self
      simp only [List.cons_append, World.shownBy, hs, if_false]
      exact ih
    all_goals exact ih

theorem listing_skip {c : ClassDef} {items fixed : Od Key Val} {l : List Bhv} (hl : Bhv.alias ∉ l) (t : List Bhv) :
    listing c items fixed (l ++ t) = listing c items fixed t := by
  induction l with
  | nil => rfl
  | cons b r ih =>
    have ih := ih fun h => hl (List.mem_cons_of_mem _ h)
    cases b
    case «alias» => exact absurd List.mem_cons_self hl
    all_goals exact ih

section
variable {E : Env} {o : Oid} {w : World} {l r : List Bhv} {a : Aliaser} (h : Translates (clsOf E w o) l r a)
include h

/-- An operation on the alias is about the stored key. -/
theorem Translates.dest {u k : Key} (hu : a.unalias k = .ok u) (hl : Plain l k) (hr : Plain r u) :
    Verif.dest (clsOf E w o).aliaser (clsOf E w o).bhvs k = some (.child u) := by
  rw [h.bhvs, h.aliaser, dest_skip _ h.left hl]
  simp only [Verif.dest, h.truthy, if_true, hu]
  have := dest_skip (some a) h.right hr []
  rw [List.append_nil] at this
  rw [this]; rfl

/-- What is shown under the alias is what is stored under the key. -/
theorem Translates.shown (hc : Bhv.cache ∉ (clsOf E w o).bhvs) {u k : Key} (hu : a.unalias k = .ok u) (hl : Plain l k)
    (hr : Plain r u) : w.shown E o k = (w.omap o).val u := by
  unfold World.shown
  have hcl : Bhv.cache ∉ l ∧ Bhv.cache ∉ r := by
    rw [h.bhvs] at hc
    exact ⟨fun m => hc (List.mem_append_left _ m), fun m => hc (List.mem_append_right _ (List.mem_cons_of_mem _ m))⟩
  rw [h.bhvs, shownBy_skip h.left hcl.1 hl]
  simp only [World.shownBy, h.aliaser, h.truthy, if_true, hu]
  have := shownBy_skip (E := E) (w := w) (o := o) h.right hcl.2 hr []
  rw [List.append_nil] at this
  rw [this]
  simp only [World.shownBy, World.stored]
  obtain ⟨b, hb, hs⟩ := h.stores.kind
  rw [if_neg h.stores.noFixed, show (clsOf E w o).bhvs.find? Bhv.isStorage = some b from hb]
  cases b <;> first | exact absurd rfl hs | rfl

/-- C28: reading the alias of a stored key returns what is stored and changes nothing, whatever other behaviors
there are. -/
theorem c28_any_get (hw : WF w) (hc : Bhv.cache ∉ (clsOf E w o).bhvs)
    (hinv : ∀ u k, a.alias u = .ok k → a.unalias k = .ok u) {u k : Key} (hk : a.alias u = .ok k) (hl : Plain l k)
    (hr : Plain r u) {v : Val} (hv : (w.omap o).val u = some v) :
    ∃ w', getitem E o k w = (.ok v, w') ∧ Same w w' :=
  let ⟨w', h1, _, h2, _⟩ := c82_get hw ((h.shown hc (hinv u k hk) hl hr).trans hv)
  ⟨w', h1, h2⟩

/-- C28: an assignment to the alias that returns has assigned to the stored key. -/
theorem c28_any_set (hw : WF w) (hinv : ∀ u k, a.alias u = .ok k → a.unalias k = .ok u) {u k : Key}
    (hk : a.alias u = .ok k) (hl : Plain l k) (hr : Plain r u) {v : Val} {w' : World}
    (hx : setitem E o k v w = (.ok (), w')) :
    w'.omap o = (w.omap o).set u v ∧ ∀ p, p ≠ o → w'.omap p = w.omap p := by
  have hs := c02_set_ok E o k v hw hx
  rw [h.dest (hinv u k hk) hl hr] at hs
  rcases hs with ⟨j, hj, h1, h2⟩ | ⟨j, hj, -⟩
  · cases hj; exact ⟨h1, h2⟩
  · cases hj

/-- C28: a deletion of the alias that returns has deleted the stored key, which was there. -/
theorem c28_any_del (hE : DelReads E (clsOf E w o)) (hw : WF w)
    (hinv : ∀ u k, a.alias u = .ok k → a.unalias k = .ok u) {u k : Key} (hk : a.alias u = .ok k) (hl : Plain l k)
    (hr : Plain r u) {w' : World} (hx : delitem E o k w = (.ok (), w')) :
    u ∈ (w.omap o).keys ∧ w'.omap o = (w.omap o).del u ∧ ∀ p, p ≠ o → w'.omap p = w.omap p := by
  have hs := c02_del_ok o k hE hw hx
  rw [h.dest (hinv u k hk) hl hr] at hs
  rcases hs with ⟨j, hj, h1, h2, h3⟩ | ⟨j, hj, -⟩
  · cases hj; exact ⟨h1, h2, h3⟩
  · cases hj

/-- C28: iteration yields the aliases of the stored keys in storage order; a dictionary aliaser leaves out the keys
it does not list. -/
theorem c28_any_keys (hw : WF w) (hf : Bhv.childFactory ∉ (clsOf E w o).bhvs)
    (hk : a.enumerable = true ∨ ∀ u ∈ (w.omap o).keys, ∃ k, a.alias u = .ok k) :
    (mkeys E o w).1 = .ok ((w.omap o).keys.filterMap fun u => (a.alias u).toOption) := by
  have h1 : (iterPipe E (clsOf E w o).bhvs o w).1 = .ok (aliasIter (some a) (w.children o).keys none) := by
    rw [iterPipe_listing E hw]
    obtain ⟨b, hb, hs⟩ := h.stores.kind
    have hbs : b.isStorage = true := List.find?_some (p := Bhv.isStorage) hb
    have hend : listing (clsOf E w o) (w.children o) (w.objs o).fixed [] = .ok ((w.children o).keys, none) := by
      have hfx : (clsOf E w o).bhvs.contains .fixedChildren = false :=
        Bool.eq_false_iff.mpr fun hm => h.stores.noFixed (List.contains_iff_mem.mp hm)
      have hb' : (clsOf E w o).bhvs.find? Bhv.isStorage = some b := hb
      simp only [listing, hfx, Bool.false_eq_true, if_false, find_storage hf, hb', hb]
      cases b <;> first | exact absurd rfl hs | exact absurd hbs (by decide) | rfl
    have hr := listing_skip (c := clsOf E w o) (items := w.children o) (fixed := (w.objs o).fixed) h.right []
    rw [List.append_nil] at hr
    generalize hcd : clsOf E w o = cd at *
    rw [show cd.bhvs = l ++ .alias :: r from h.bhvs, listing_skip h.left]
    simp only [listing, hr, hend, h.aliaser]
    have hend' : listing cd (w.children o) (w.objs o).fixed [] = .ok ((w.children o).keys, none) := hend
    simp only [listing] at hend'
    rw [hend']
  rw [aliasIter_eq h.truthy (w.children o).keys hk] at h1
  have h2 : (iter E o w).1 = _ := h1
  simp only [mkeys, M.bind_apply]
  generalize iter E o w = x at h2
  rcases x with ⟨e | ⟨ks, e⟩, w1⟩
  · cases h2
  · cases h2; rfl

/-- C28: every iterated key can be read back. -/
theorem c28_any_readback (hw : WF w) (hc : Bhv.cache ∉ (clsOf E w o).bhvs) (hf : Bhv.childFactory ∉ (clsOf E w o).bhvs)
    (hall : a.enumerable = true ∨ ∀ u ∈ (w.omap o).keys, ∃ k, a.alias u = .ok k)
    (hinv : ∀ u k, a.alias u = .ok k → a.unalias k = .ok u) (hr : ∀ u ∈ (w.omap o).keys, Plain r u)
    {ks : List Key} {w' : World} (hks : mkeys E o w = (.ok ks, w')) {k : Key} (hk : k ∈ ks) (hl : Plain l k) :
    ∃ u v, a.alias u = .ok k ∧ (w.omap o).val u = some v ∧ (getitem E o k w).1 = .ok v := by
  have h1 := c28_any_keys h hw hf hall
  rw [hks] at h1
  injection h1 with h1
  rw [h1] at hk
  obtain ⟨u, hu, hau⟩ := List.mem_filterMap.mp hk
  have hau : a.alias u = .ok k := by
    cases he : a.alias u with
    | error e => rw [he] at hau; cases hau
    | ok j => rw [he] at hau; injection hau with hau; rw [hau]
  cases hv : (w.omap o).val u with
  | none => exact absurd hu ((Od.get?_eq_none_iff _ _).mp hv)
  | some v =>
    obtain ⟨w1, h2, -⟩ := c28_any_get h hw hc hinv hau hl (hr u hu) hv
    exact ⟨u, v, hau, hv, congrArg Prod.fst h2⟩

end

/-! ### Instances -/

/-- `Alias` between `Lifecycle` and `Reference`, with nodespaces on the far side. -/
def aliasAmong : ClassDef :=
  { bhvs := [.adopt, .lifecycle, .alias, .nodespaces, .reference, .defaultInit, .nodify, .odictStorage],
    aliaser := some (.pre "p-".toList) }

def aliasAmongEnv : Env where
  cls c := if c = 14 then aliasAmong else sampleEnv.cls c

def aliasAmongOps : List Op := [.new 14 .none none, .new 7 .none none, .new 7 .none none, .set 0 kpa (.node 1),
  .set 0 (.str ['p', '-', 'b']) (.node 2)]

theorem aliasAmong_translates : Translates (clsOf aliasAmongEnv (after aliasAmongEnv aliasAmongOps) 0) [.adopt, .lifecycle]
    [.nodespaces, .reference, .defaultInit, .nodify, .odictStorage] (.pre "p-".toList) := by
  have hc : clsOf aliasAmongEnv (after aliasAmongEnv aliasAmongOps) 0 = aliasAmong := rfl
  rw [hc]
  exact ⟨rfl, by decide, by decide, rfl, rfl, ⟨⟨_, rfl, by decide⟩, by decide⟩⟩

example : (mkeys aliasAmongEnv 0 (after aliasAmongEnv aliasAmongOps)).1 = .ok [kpa, .str ['p', '-', 'b']] ∧
    (∃ w', getitem aliasAmongEnv 0 kpa (after aliasAmongEnv aliasAmongOps) = (.ok (.node 1), w')) := by
  have hw := (reachable_after aliasAmongEnv aliasAmongOps).wf
  have hk : ((after aliasAmongEnv aliasAmongOps).omap 0).keys = [ka, kb] := by decide +kernel
  refine ⟨?_, ?_⟩
  · have hall : ∀ u ∈ [ka, kb], ∃ k, (Aliaser.pre "p-".toList).alias u = .ok k := by
      intro u hu
      rcases List.mem_cons.mp hu with rfl | hu
      · exact ⟨_, rfl⟩
      rcases List.mem_cons.mp hu with rfl | hu
      · exact ⟨_, rfl⟩
      cases hu
    rw [c28_any_keys aliasAmong_translates hw (by decide +kernel) (.inr (hk ▸ hall)), hk]
    rfl
  · exact (c28_any_get aliasAmong_translates hw (by decide +kernel) (c28_lawful trivial) (u := ka) (k := kpa) rfl
      (fun hm => absurd hm (by decide)) (fun _ => ⟨_, rfl, by decide⟩) (by decide +kernel)).imp fun _ h => h.1

end Verif
