import Verif.Props.C43
import Verif.Props.C31

/-!
# C44 with `Cache`

Lookups in a tree whose classes have a `Cache` to the right of `Fallback`, after any history of the API: what
C44 says of the same tree without caches holds of it.
-/

namespace Verif

/-! ### What the specification looks at -/

/-- Two heaps that look alike to searches. -/
structure LooksAlike (E : Env) (w : World) (E' : Env) (w' : World) : Prop where
  item : ∀ p k, itemAt E' w' p k = itemAt E w p k
  loc : ∀ p, w'.loc p = w.loc p
  declares : ∀ p k, Declares E' w' p k ↔ Declares E w p k

theorem looksAlike_uncached (E : Env) (w : World) : LooksAlike E.uncached w.uncache E w where
  item p k := by
    have : (Bhv.nodespaces ∈ (clsOf E.uncached w.uncache p).bhvs ∧ ReservedKey k) ↔
        (Bhv.nodespaces ∈ (clsOf E w p).bhvs ∧ ReservedKey k) :=
      and_congr_left fun _ => mem_uncached (by decide)
    show itemAt E w p k = itemAt E.uncached w.uncache p k
    unfold itemAt
    by_cases h : Bhv.nodespaces ∈ (clsOf E w p).bhvs ∧ ReservedKey k
    · rw [if_pos h, if_pos (this.mpr h)]; rfl
    · rw [if_neg h, if_neg (fun x => h (this.mp x))]; rfl
  loc _ := rfl
  declares _ _ := Iff.rfl

theorem looksAlike_cached (E : Env) (w : World) : LooksAlike E w E.uncached w.uncache :=
  ⟨fun p k => ((looksAlike_uncached E w).item p k).symm, fun _ => rfl, fun _ _ => Iff.rfl⟩

namespace LooksAlike
variable {E E' : Env} {w w' : World} (h : LooksAlike E w E' w')
include h

theorem chain {o : Oid} {l : List Oid} (hc : Chain w o l) : Chain w' o l := by
  induction hc with
  | root e => exact .root (by rw [h.loc]; exact e)
  | up e _ ih => exact .up (by rw [h.loc]; exact e) ih

theorem ancestor {a o : Oid} (ha : Ancestor w a o) : Ancestor w' a o := by
  induction ha with
  | parent e => exact .parent (by rw [h.loc]; exact e)
  | up e _ ih => exact .up (by rw [h.loc]; exact e) ih

theorem leads {v u : Val} {ks : List Key} (hl : Leads E w v ks u) : Leads E' w' v ks u := by
  induction hl with
  | here v => exact .here v
  | step e _ ih => exact .step (by rw [h.item]; exact e) ih

theorem stuck {v : Val} {ks : List Key} {c : Oid} (hs : Stuck E w v ks c) : Stuck E' w' v ks c := by
  induction hs with
  | here e => exact .here (by rw [h.item]; exact e)
  | step e _ ih => exact .step (by rw [h.item]; exact e) ih

theorem fallsTo {full : List Key} {p s : Oid} {ks : List Key} (hf : FallsTo E w full p s ks) :
    FallsTo E' w' full p s ks := by
  obtain ⟨fk, l, h1, h2, h3, h4⟩ := hf
  exact ⟨fk, l, (h.declares p fk).mpr h1, by rw [h.item]; exact h2, h.chain h3, h4⟩

theorem found {full : List Key} {n : Oid} {v : Val} (hf : Found E w full n v) : Found E' w' full n v := by
  induction hf with
  | hit ha e hs hl => exact .hit (ha.imp id h.ancestor) (by rw [h.loc]; exact e) (h.fallsTo hs) (h.leads hl)
  | more ha e hs hl _ ih =>
    exact .more (ha.imp id h.ancestor) (by rw [h.loc]; exact e) (h.fallsTo hs) (h.stuck hl) ih

theorem nearest {o q : Oid} {fk : Key} (hn : NearestFallback E w o q fk) : NearestFallback E' w' o q fk := by
  induction hn with
  | here e hd => exact .here (by rw [h.loc]; exact e) ((h.declares _ _).mpr hd)
  | up e hd _ ih => exact .up (by rw [h.loc]; exact e) (fun j hj => hd j ((h.declares _ _).mp hj)) ih

theorem blocked {ks : List Key} {e : Exc} (hb : Blocked E w ks e) : Blocked E' w' ks e := by
  obtain ⟨h1, p, k, d, h2, h3⟩ := hb
  exact ⟨h1, p, k, d, h2.imp id (h.declares p k).mpr, by rw [h.item]; exact h3⟩

theorem path (o : Oid) (l : List Oid) (k : Key) : fullPath w' o l k = fullPath w o l k := by
  simp only [fullPath, h.loc]

end LooksAlike

theorem falls_uncached {c : ClassDef} {k : Key} (h : Falls c k) : Falls c.uncached k := by
  obtain ⟨l, r, h1, h2, h3, h4⟩ := h
  refine ⟨l.filter (· ≠ .cache), r.filter (· ≠ .cache), ?_, fun x => h2 (List.mem_filter.mp x).1,
    fun x => h3 (List.mem_filter.mp x).1, fun x => h4 (List.mem_filter.mp x).1⟩
  simp only [ClassDef.uncached, h1, List.filter_append]
  rfl

/-! ### The lookups -/

section
variable {E : Env} {ops : List Op} (hE : ∀ c, CacheSafe (E.cls c)) (hh : FitsAll E ops {})
include hE hh

theorem fresh_after : Fresh E (after E ops) := (rel_execAll hE ops (Fresh.empty E) hh).2

theorem reachable_uncached : Reachable E.uncached (after E ops).uncache := by
  have h := reachable_after E.uncached ops
  rw [show after E.uncached ops = (after E ops).uncache from (c31_all_partial E hE ops hh).2] at h
  exact h

theorem getitem_after (o : Oid) (k : Key) :
    getitem E.uncached o k (after E ops).uncache = ((getitem E o k (after E ops)).1, (getitem E o k (after E ops)).2.uncache) :=
  (rel_getitem hE o k _ (fresh_after hE hh)).1

variable (ht : FallTree E.uncached (after E ops).uncache)
include ht

/-- C44 with caches: a lookup of a missing key ends, and ends in one of the three ways. -/
theorem c44_cached_outcome {o : Oid} (ho : o < (after E ops).nobj) {l : List Oid} (hl : Chain (after E ops) o l) {k : Key}
    (hf : Falls (clsOf E (after E ops) o) k) (hm : itemAt E (after E ops) o k = none) :
    match (getitem E o k (after E ops)).1 with
    | .ok v => Found E (after E ops) (fullPath (after E ops) o l k) o v
    | .error e => e = .key (.key k) ∨
        (∃ p fk, e = .key (.key fk) ∧ Declares E (after E ops) p fk ∧ itemAt E (after E ops) p fk = none) ∨
        Blocked E (after E ops) (fullPath (after E ops) o l k) e := by
  have hr := reachable_uncached hE hh
  have hi := looksAlike_uncached E (after E ops)
  have ho' := c44_outcome hr.wf ht (c45_reachable hr) (o := o) ho ((looksAlike_cached E _).chain hl)
    (falls_uncached hf) (((looksAlike_cached E _).item o k).trans hm)
  rw [getitem_after hE hh] at ho'
  dsimp only at ho'
  cases hx : (getitem E o k (after E ops)).1 with
  | ok v => rw [hx] at ho'; exact hi.found ho'
  | error e =>
    rw [hx] at ho'
    rcases ho' with h | ⟨p, fk, h1, h2, h3⟩ | h
    · exact .inl h
    · exact .inr (.inl ⟨p, fk, h1, h2, by rw [hi.item]; exact h3⟩)
    · exact .inr (.inr (hi.blocked h))

/-- C44 with caches: the search never runs forever. -/
theorem c44_cached_terminates {o : Oid} (ho : o < (after E ops).nobj) {k : Key} (hf : Falls (clsOf E (after E ops) o) k) :
    (getitem E o k (after E ops)).1 ≠ .error .diverge := by
  have hr := reachable_uncached hE hh
  have h := c44_terminates hr.wf ht (c45_reachable hr) (o := o) ho (falls_uncached hf)
  rw [getitem_after hE hh] at h
  exact h

/-- C44 with caches: whatever a lookup does, it changes nothing but caches. -/
theorem c44_cached_pure {o : Oid} (ho : o < (after E ops).nobj) {k : Key} (hf : Falls (clsOf E (after E ops) o) k) :
    Same (after E ops).uncache (getitem E o k (after E ops)).2.uncache := by
  have hr := reachable_uncached hE hh
  have h := c44_pure hr.wf ht (c45_reachable hr) (o := o) ho (falls_uncached hf)
  rw [getitem_after hE hh] at h
  exact h

/-- C44 with caches: `KeyError` means nothing was found. -/
theorem c44_cached_complete {o : Oid} (ho : o < (after E ops).nobj) {l : List Oid} (hl : Chain (after E ops) o l) {k : Key}
    (hf : Falls (clsOf E (after E ops) o) k) (hm : itemAt E (after E ops) o k = none)
    (hd : ∀ p fk, Declares E (after E ops) p fk → itemAt E (after E ops) p fk ≠ none)
    (hloc : ∀ p j c, (j ∈ fullPath (after E ops) o l k ∨ Declares E (after E ops) p j) →
      itemAt E (after E ops) p j = some (.node c) → ((after E ops).loc c).2 = some p)
    (he : (getitem E o k (after E ops)).1 = .error (.key (.key k))) :
    ∀ a p fk, a = o ∨ Ancestor (after E ops) a o → ((after E ops).loc a).2 = some p → Declares E (after E ops) p fk →
      ∃ s ks c, FallsTo E (after E ops) (fullPath (after E ops) o l k) p s ks ∧ Stuck E (after E ops) (.node s) ks c := by
  have hr := reachable_uncached hE hh
  have hi := looksAlike_uncached E (after E ops)
  have hj := looksAlike_cached E (after E ops)
  intro a p fk ha hp hd'
  obtain ⟨s, ks, c, h1, h2⟩ := c44_complete hr.wf ht (c45_reachable hr) (o := o) ho (hj.chain hl)
    (falls_uncached hf) ((hj.item o k).trans hm) (fun p fk h => by rw [hj.item]; exact hd p fk h)
    (fun p j c h h' => hloc p j c h (by rw [hi.item]; exact h')) (by rw [getitem_after hE hh]; exact he)
    a p fk (ha.imp id hj.ancestor) hp hd'
  exact ⟨s, ks, c, hi.fallsTo h1, hi.stuck h2⟩

/-- C44 with caches: the nearest ancestor with a declared fallback decides, if that has the path. -/
theorem c44_cached_nearest {o : Oid} (ho : o < (after E ops).nobj) {l : List Oid} (hl : Chain (after E ops) o l) {k : Key}
    (hf : Falls (clsOf E (after E ops) o) k) (hm : itemAt E (after E ops) o k = none) {q s : Oid} {fk : Key}
    (hq : NearestFallback E (after E ops) o q fk) {ks : List Key} {v : Val}
    (hs : FallsTo E (after E ops) (fullPath (after E ops) o l k) q s ks) (hv : Leads E (after E ops) (.node s) ks v) :
    (getitem E o k (after E ops)).1 = .ok v := by
  have hr := reachable_uncached hE hh
  have hj := looksAlike_cached E (after E ops)
  have h := c44_nearest hr.wf ht (c45_reachable hr) (o := o) ho (hj.chain hl)
    (falls_uncached hf) ((hj.item o k).trans hm) (hj.nearest hq) (hj.fallsTo hs) (hj.leads hv)
  rw [getitem_after hE hh] at h
  exact h

end

/-! The tree of C44, with a `Cache` in front of the storages. -/

/-- A class with a `Cache` in front of its storage. -/
def ClassDef.caching (c : ClassDef) : ClassDef := { c with bhvs := c.bhvs.dropLast ++ [.cache] ++ c.bhvs.getLast?.toList }

/-- A program whose classes cache. -/
def cachedFallEnv : Env := { cls := fun c => if c = 14 then fallbackAttributes.caching else fallbackTree.caching }

/-- The same tree after everything has been read. -/
def cachedFallOps : List Op :=
  fallOps ++ [.values 0, .values 1, .values 6, .get 10 kc, .get 10 kd, .get 8 kc, .get 5 kb]

theorem cachedFall_safe (c : ClassId) : CacheSafe (cachedFallEnv.cls c) := by
  unfold cachedFallEnv; dsimp only; split
  · exact ⟨by decide, by decide, by decide⟩
  · exact ⟨by decide, by decide, by decide⟩

theorem cachedFall_declares {p : Oid} {k : Key}
    (h : activeFallback cachedFallEnv (after cachedFallEnv cachedFallOps) p = some k) :
    Declares cachedFallEnv (after cachedFallEnv cachedFallOps) p k := activeFallback_iff.mp h

/-- The caches are in use, and `root['y']['2'].attrs['c']` is found below the fallback of `y`. -/
example : ((after cachedFallEnv cachedFallOps).cached 8).length = 1 ∧
    ((after cachedFallEnv cachedFallOps).cached 0).length = 2 ∧
    (getitem cachedFallEnv 10 kc (after cachedFallEnv cachedFallOps)).1 = .ok (.data (.int 3)) := by
  refine ⟨by decide +kernel, by decide +kernel, ?_⟩
  have hf : Falls (clsOf cachedFallEnv (after cachedFallEnv cachedFallOps) 10) kc :=
    ⟨[.nodespaces], [.adopt, .defaultInit, .nodify, .cache, .odictStorage], by decide +kernel, by decide,
      by decide, fun _ => by decide⟩
  refine c44_cached_nearest (q := 6) (s := 7) (fk := k1) (ks := [attrsKey, kc]) (l := [9, 6, 0])
    cachedFall_safe (fits_of_fitsB (by decide +kernel)) (fallTree_of_check (by decide +kernel)) (by decide +kernel)
    ?_ hf (by decide +kernel) ?_ ?_ ?_
  · exact .up (by decide +kernel) (.up (by decide +kernel) (.up (by decide +kernel) (.root (by decide +kernel))))
  · refine .up (p := 9) (by decide +kernel) (fun j hd => ?_)
      (.here (by decide +kernel) (cachedFall_declares (by decide +kernel)))
    have h := activeFallback_iff.mpr hd
    rw [show activeFallback cachedFallEnv (after cachedFallEnv cachedFallOps) 9 = none by decide +kernel] at h
    cases h
  · exact ⟨k1, [6, 0], cachedFall_declares (by decide +kernel), by decide +kernel,
      .up (by decide +kernel) (.up (by decide +kernel) (.root (by decide +kernel))), by decide +kernel⟩
  · exact .step (v := .node 8) (by decide +kernel) (.step (by decide +kernel) (.here _))

end Verif
