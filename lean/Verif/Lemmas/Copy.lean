import Verif.Model.Copy
import Verif.Lemmas.SepApi
import Verif.Lemmas.Grow
import Verif.Lemmas.OMap

/-! What `copy.deepcopy` does to the heap. -/

namespace Verif

/-! ### What is reached -/

theorem length_le_of_subset {S T : List Nat} (hS : S.Nodup) (h : ∀ p ∈ S, p ∈ T) : S.length ≤ T.length := by
  induction S generalizing T with
  | nil => exact Nat.zero_le _
  | cons a r ih =>
    have ha := h a List.mem_cons_self
    have hr : ∀ p ∈ r, p ∈ T.erase a := fun p hp => by
      have : p ≠ a := fun e => (List.nodup_cons.mp hS).1 (e ▸ hp)
      exact (List.mem_erase_of_ne this).mpr (h p (List.mem_cons_of_mem _ hp))
    have := ih (List.nodup_cons.mp hS).2 hr
    rw [List.length_erase_of_mem ha] at this
    have hp : 0 < T.length := List.length_pos_of_mem ha
    simp only [List.length_cons]
    omega

theorem mem_spread {w : World} {S : List Oid} {p : Oid} :
    p ∈ w.spread S ↔ p < w.nobj ∧ (p ∈ S ∨ ∃ q ∈ S, p ∈ w.next q) := by
  simp [World.spread, List.mem_filter]

/-- Nothing outside `S` is led to. -/
def ClosedIn (w : World) (S : List Oid) : Prop := ∀ q ∈ S, ∀ p ∈ w.next q, p < w.nobj → p ∈ S

theorem ClosedIn.spread {w : World} {S : List Oid} (h : ClosedIn w S) : ClosedIn w (w.spread S) := by
  intro q hq p hp hlt
  obtain ⟨_, hq⟩ := mem_spread.mp hq
  refine mem_spread.mpr ⟨hlt, ?_⟩
  rcases hq with hq | ⟨q', hq', hqq⟩
  · exact .inr ⟨q, hq, hp⟩
  · by_cases hqlt : q < w.nobj
    · exact .inr ⟨q, h q' hq' q hqq hqlt, hp⟩
    · rename_i hx
      exact absurd hx hqlt

theorem ClosedIn.spreads {w : World} {n : Nat} {S : List Oid} (h : ClosedIn w S) : ClosedIn w (w.spreads n S) := by
  induction n generalizing S with
  | zero => exact h
  | succ n ih => exact ih h.spread

theorem nodup_spread (w : World) (S : List Oid) : (w.spread S).Nodup :=
  (List.nodup_range).filter _

theorem spread_sub {w : World} {S : List Oid} (h : ∀ p ∈ S, p < w.nobj) : ∀ p ∈ S, p ∈ w.spread S :=
  fun p hp => mem_spread.mpr ⟨h p hp, .inl hp⟩

theorem spread_lt {w : World} {S : List Oid} : ∀ p ∈ w.spread S, p < w.nobj := fun _ hp => (mem_spread.mp hp).1

theorem spread_grows {w : World} {S : List Oid} (hS : S.Nodup) (h : ∀ p ∈ S, p < w.nobj) (hc : ¬ ClosedIn w S) :
    S.length + 1 ≤ (w.spread S).length := by
  simp only [ClosedIn, Classical.not_forall] at hc
  obtain ⟨q, hq, p, hp, hlt, hn⟩ := hc
  refine length_le_of_subset (S := p :: S) (List.nodup_cons.mpr ⟨hn, hS⟩) fun x hx => ?_
  rcases List.mem_cons.mp hx with e | e
  · subst e; exact mem_spread.mpr ⟨hlt, .inr ⟨q, hq, hp⟩⟩
  · exact spread_sub h x e

theorem spreads_spec {w : World} {n : Nat} {S : List Oid} (hS : S.Nodup) (h : ∀ p ∈ S, p < w.nobj) :
    (w.spreads n S).Nodup ∧ (∀ p ∈ w.spreads n S, p < w.nobj) ∧ (∀ p ∈ S, p ∈ w.spreads n S) ∧
      (ClosedIn w (w.spreads n S) ∨ S.length + n ≤ (w.spreads n S).length) := by
  induction n generalizing S with
  | zero => exact ⟨hS, h, fun _ hp => hp, .inr (Nat.le_refl _)⟩
  | succ n ih =>
    obtain ⟨h1, h2, h3, h4⟩ := ih (nodup_spread w S) spread_lt
    refine ⟨h1, h2, fun p hp => h3 p (spread_sub h p hp), ?_⟩
    by_cases hc : ClosedIn w S
    · exact .inl (ClosedIn.spreads (n := n) hc.spread)
    · rcases h4 with h4 | h4
      · exact .inl h4
      · have := spread_grows hS h hc
        refine .inr ?_
        simp only [World.spreads]
        omega

/-- The list of everything reached: no repetitions, only existing objects, closed. -/
structure Reached (w : World) (o : Oid) (L : List Oid) : Prop where
  nodup : L.Nodup
  lt : ∀ p ∈ L, p < w.nobj
  self : o ∈ L
  closed : ClosedIn w L

theorem reached {w : World} {o : Oid} (ho : o < w.nobj) : Reached w o (w.reach o) := by
  have h : ∀ p ∈ [o], p < w.nobj := fun p hp => by rw [List.mem_singleton] at hp; subst hp; exact ho
  obtain ⟨h1, h2, h3, h4⟩ := spreads_spec (n := w.nobj) (w := w) (S := [o]) (by simp) h
  refine ⟨h1, h2, h3 o List.mem_cons_self, h4.resolve_right fun hl => ?_⟩
  have := length_le_of_subset (T := List.range w.nobj) h1 fun p hp => List.mem_range.mpr (h2 p hp)
  simp only [List.length_range, List.length_singleton] at *
  omega

/-! ### References that lead somewhere -/

/-- Nothing is protected. -/
def Prot.none : Prot where
  Q _ := False
  QS _ := False
  QC _ := False
  QN _ := False
  QI _ := False
  w0 := {}
  q _ h := h.elim
  qs _ h := h.elim
  qc _ h := h.elim
  qn _ h := h.elim
  qi _ h := h.elim

theorem allV_goodV {n : Nat} {d : Od Key Val} :
    AllV (GoodV Prot.none n) d ↔ ∀ k c, (k, Val.node c) ∈ d → c < n :=
  ⟨fun h k c hm => (h _ hm c rfl).2, fun h kv hkv c hc => ⟨fun x => x, h kv.1 c (by rw [← hc]; exact hkv)⟩⟩

theorem intact_iff {w : World} : Intact w ↔ Inv Prot.none w := by
  constructor
  · intro h
    exact {
      nobj := Nat.zero_le _, nstore := Nat.zero_le _, ncache := Nat.zero_le _, nnspace := Nat.zero_le _
      nidx := Nat.zero_le _
      obj := fun _ h => h.elim, stores := fun _ h => h.elim, caches := fun _ h => h.elim
      nspaces := fun _ h => h.elim, idxs := fun _ h => h.elim
      refs := fun p hp => {
        parent := fun q hq => ⟨fun x => x, h.parent p q hp.2 hq⟩
        storage := fun _ _ x => x
        cache := fun _ _ x => x
        nodespaces := fun _ _ x => x
        index := fun _ _ x => x
        fixed := allV_goodV.mpr fun k c hc => h.fixed p k c hp.2 hc }
      svals := fun r _ hr => allV_goodV.mpr fun k c => h.stores r k c hr
      cvals := fun r _ hr => allV_goodV.mpr fun k c => h.caches r k c hr
      nvals := fun r _ hr => allV_goodV.mpr fun k c => h.nspaces r k c hr
      ivals := fun r _ hr kv hkv => ⟨fun x => x, h.idxs r kv.1 kv.2 hr hkv⟩
      sLt := h.storage, cLt := h.cache, nLt := h.nodespaces, iLt := h.index }
  · intro h
    have g : ∀ o, o < w.nobj → Good Prot.none w.nobj o := fun o ho => ⟨fun x => x, ho⟩
    exact {
      parent := fun o p ho hp => ((h.refs o (g o ho)).parent p hp).2
      fixed := fun o k c ho hc => allV_goodV.mp (h.refs o (g o ho)).fixed k c hc
      stores := fun r k c hr => allV_goodV.mp (h.svals r (fun x => x) hr) k c
      caches := fun r k c hr => allV_goodV.mp (h.cvals r (fun x => x) hr) k c
      nspaces := fun r k c hr => allV_goodV.mp (h.nvals r (fun x => x) hr) k c
      idxs := fun r u c hr hc => (h.ivals r (fun x => x) hr (u, c) hc).2
      storage := h.sLt, cache := h.cLt, nodespaces := h.nLt, index := h.iLt }

theorem Intact.empty : Intact {} where
  parent _ _ h := absurd h (Nat.not_lt_zero _)
  fixed _ _ _ h := absurd h (Nat.not_lt_zero _)
  stores _ _ _ h := nomatch h
  caches _ _ _ h := nomatch h
  nspaces _ _ _ h := nomatch h
  idxs _ _ _ h := nomatch h
  storage _ _ h := nomatch h
  cache _ _ h := nomatch h
  nodespaces _ _ h := nomatch h
  index _ _ h := nomatch h

/-- Histories that use existing objects only never produce references to others. -/
theorem Intact.execAll {E : Env} {ops : List Op} {w : World} (h : Intact w) (hu : Uses E (fun _ => True) ops w) :
    Intact (execAll E ops w).2 := by
  refine intact_iff.mpr ((intact_iff.mp h).execAll ?_)
  clear h
  induction ops generalizing w with
  | nil => trivial
  | cons op r ih => exact ⟨fun c hc => ⟨(hu.1 c hc).1, fun x => x⟩, ih hu.2⟩

/-- `Uses` for concrete histories. -/
def usesB (E : Env) (P : Nat → Bool) : List Op → World → Bool
  | [], _ => true
  | op :: r, w => (op.vals.all fun v => match v with
      | .node c => decide (c < w.nobj) && P c
      | .data _ => true) && usesB E P r (exec E op w).2

theorem uses_of_usesB {E : Env} {P : Nat → Bool} {ops : List Op} {w : World} (h : usesB E P ops w = true) :
    Uses E (fun c => P c = true) ops w := by
  induction ops generalizing w with
  | nil => trivial
  | cons op r ih =>
    obtain ⟨h1, h2⟩ := Bool.and_eq_true_iff.mp h
    refine ⟨fun c hc => ?_, ih h2⟩
    have := List.all_eq_true.mp h1 _ hc
    obtain ⟨g1, g2⟩ := Bool.and_eq_true_iff.mp this
    exact ⟨of_decide_eq_true g1, g2⟩

theorem Uses.mono {E : Env} {P Q : Oid → Prop} (hPQ : ∀ c, P c → Q c) {ops : List Op} {w : World}
    (h : Uses E P ops w) : Uses E Q ops w := by
  induction ops generalizing w with
  | nil => trivial
  | cons op r ih => exact ⟨fun c hc => ⟨(h.1 c hc).1, hPQ c (h.1 c hc).2⟩, ih h.2⟩

/-- Concrete heaps. -/
theorem intact_after {E : Env} {ops : List Op} (h : usesB E (fun _ => true) ops {} = true) :
    Intact (execAll E ops {}).2 :=
  Intact.empty.execAll ((uses_of_usesB h).mono fun _ _ => trivial)

theorem mem_nodesIn {d : Od Key Val} {c : Oid} : c ∈ nodesIn d ↔ ∃ k, (k, Val.node c) ∈ d := by
  unfold nodesIn
  rw [List.mem_flatMap]
  constructor
  · rintro ⟨⟨k, v⟩, hm, hc⟩
    cases v with
    | data d => cases hc
    | node x => rw [Val.nodes, List.mem_singleton] at hc; subst hc; exact ⟨k, hm⟩
  · rintro ⟨k, hm⟩
    exact ⟨_, hm, List.mem_cons_self⟩

/-- What the attributes of a node lead to. -/
theorem mem_next {w : World} {q p : Oid} : p ∈ w.next q ↔ (w.objs q).parent = some p ∨
    (∃ k, (k, Val.node p) ∈ contents w.stores (w.objs q).storage) ∨
    (∃ k, (k, Val.node p) ∈ contents w.caches (w.objs q).cache) ∨
    (∃ k, (k, Val.node p) ∈ contents w.nspaces (w.objs q).nodespaces) ∨
    (∃ u, (u, p) ∈ contents w.idxs (w.objs q).index) ∨ (∃ k, (k, Val.node p) ∈ (w.objs q).fixed) := by
  unfold World.next
  simp only [List.mem_append, mem_nodesIn, List.mem_map, Option.mem_toList, Prod.exists, exists_eq_right, or_assoc]

theorem mem_contents {K V : Type} {f : Nat → Od K V} {o : Option Nat} {kv : K × V} (h : kv ∈ contents f o) :
    ∃ r, o = some r ∧ kv ∈ f r := by
  cases o with
  | none => cases h
  | some r => exact ⟨r, rfl, h⟩

theorem Intact.next {w : World} (h : Intact w) {q p : Oid} (hq : q < w.nobj) (hp : p ∈ w.next q) : p < w.nobj := by
  rcases mem_next.mp hp with e | ⟨k, e⟩ | ⟨k, e⟩ | ⟨k, e⟩ | ⟨u, e⟩ | ⟨k, e⟩
  · exact h.parent q p hq e
  · obtain ⟨r, hr, e⟩ := mem_contents e; exact h.stores r k p (h.storage q r hr) e
  · obtain ⟨r, hr, e⟩ := mem_contents e; exact h.caches r k p (h.cache q r hr) e
  · obtain ⟨r, hr, e⟩ := mem_contents e; exact h.nspaces r k p (h.nodespaces q r hr) e
  · obtain ⟨r, hr, e⟩ := mem_contents e; exact h.idxs r u p (h.index q r hr) e
  · exact h.fixed q k p hq e

/-! ### The heap after a deep copy -/

section deep
variable {w : World} {o : Oid} {L : List Oid}

/-- A list of objects to copy that is complete. -/
structure Complete (w : World) (L : List Oid) : Prop where
  nodup : L.Nodup
  lt : ∀ p ∈ L, p < w.nobj
  next : ∀ q ∈ L, ∀ p ∈ w.next q, p ∈ L

theorem Reached.complete (h : Reached w o L) (hs : Intact w) : Complete w L :=
  ⟨h.nodup, h.lt, fun q hq p hp => h.closed q hq p hp (hs.next (h.lt q hq) hp)⟩

theorem moved_of_mem {p : Oid} (h : p ∈ L) : w.moved L p = w.nobj + L.idxOf p := if_pos h

theorem moved_lt {p : Oid} (h : p ∈ L) : w.nobj ≤ w.moved L p ∧ w.moved L p < w.nobj + L.length := by
  rw [moved_of_mem h]
  have := List.idxOf_lt_length_of_mem h
  omega

theorem getElem?_idxOf' {p : Oid} (h : p ∈ L) : L[L.idxOf p]? = some p := by
  rw [List.getElem?_eq_getElem (List.idxOf_lt_length_of_mem h), List.getElem_idxOf]

theorem moved_inj {p q : Oid} (hp : p ∈ L) (hq : q ∈ L) (h : w.moved L p = w.moved L q) : p = q := by
  rw [moved_of_mem hp, moved_of_mem hq] at h
  have e : L.idxOf p = L.idxOf q := by omega
  have := getElem?_idxOf' hp
  rw [e, getElem?_idxOf' hq] at this
  injection this with this
  exact this.symm

theorem deep_old {p : Oid} (h : p < w.nobj) : (w.deep L).objs p = w.objs p := if_pos h

theorem deep_moved {p : Oid} (h : p ∈ L) : (w.deep L).objs (w.moved L p) = w.movedObj L (w.objs p) := by
  have h1 := (moved_lt (w := w) h).1
  show (if w.moved L p < w.nobj then _ else _) = _
  rw [if_neg (by omega), moved_of_mem h, Nat.add_sub_cancel_left, getElem?_idxOf' h]

/-- Every new object is a copy. -/
theorem deep_new {p : Oid} (h1 : w.nobj ≤ p) (h2 : p < w.nobj + L.length) (hL : L.Nodup) :
    ∃ q ∈ L, p = w.moved L q := by
  have hlt : p - w.nobj < L.length := by omega
  refine ⟨L[p - w.nobj], List.getElem_mem hlt, ?_⟩
  rw [moved_of_mem (List.getElem_mem hlt), hL.idxOf_getElem]
  omega

theorem deep_beyond {p : Oid} (h : w.nobj + L.length ≤ p) : (w.deep L).objs p = {} := by
  show (if p < w.nobj then _ else _) = _
  rw [if_neg (by omega), List.getElem?_eq_none (by omega)]

section dicts
variable {D : Type} {own : Oid → Option Nat} {n : Nat} {move : D → D} {empty : D} {f : Nat → D}

theorem moveDicts_old {r : Nat} (h : r < n) : moveDicts L own n move empty f r = f r := if_pos h

theorem moveDicts_moved {q : Oid} (hq : q ∈ L) {r : Nat} (hr : own q = some r) :
    moveDicts L own n move empty f (n + r) = move (f r) := by
  unfold moveDicts
  rw [if_neg (by omega), Nat.add_sub_cancel_left, if_pos]
  exact List.any_eq_true.mpr ⟨q, hq, by rw [hr]; exact beq_self_eq_true _⟩

theorem moveDicts_cases (r : Nat) : (r < n ∧ moveDicts L own n move empty f r = f r) ∨
    (n ≤ r ∧ ((∃ q ∈ L, own q = some (r - n) ∧ moveDicts L own n move empty f r = move (f (r - n))) ∨
      moveDicts L own n move empty f r = empty)) := by
  unfold moveDicts
  by_cases h : r < n
  · exact .inl ⟨h, if_pos h⟩
  · refine .inr ⟨by omega, ?_⟩
    rw [if_neg h]
    by_cases ha : (L.any fun q => own q == some (r - n)) = true
    · obtain ⟨q, hq, hr⟩ := List.any_eq_true.mp ha
      exact .inl ⟨q, hq, eq_of_beq hr, if_pos ha⟩
    · exact .inr (if_neg ha)
end dicts

theorem mem_moveVals {f : Oid → Oid} {d : Od Key Val} {k : Key} {c : Oid} (h : (k, Val.node c) ∈ moveVals f d) :
    ∃ p, (k, Val.node p) ∈ d ∧ c = f p := by
  obtain ⟨⟨k', v⟩, hm, he⟩ := List.mem_map.mp h
  cases v with
  | data d => cases he
  | node p =>
    injection he with h1 h2
    injection h2 with h2
    subst h1
    exact ⟨p, hm, h2.symm⟩

theorem mem_moveIdx {f : Oid → Oid} {d : Od (Option Nat) Oid} {u : Option Nat} {c : Oid} (h : (u, c) ∈ moveIdx f d) :
    ∃ p, (u, p) ∈ d ∧ c = f p := by
  obtain ⟨⟨u', p⟩, hm, he⟩ := List.mem_map.mp h
  injection he with h1 h2
  subst h1
  exact ⟨p, hm, h2.symm⟩

/-- The dictionaries of a copy. -/
theorem children_moved {q : Oid} (hq : q ∈ L) :
    (w.deep L).children (w.moved L q) = moveVals (w.moved L) (w.children q) := by
  unfold World.children
  rw [deep_moved hq]
  show (match (w.objs q).storage.map (w.nstore + ·) with | none => [] | some r => _) = _
  cases h : (w.objs q).storage with
  | none => rfl
  | some r => exact moveDicts_moved hq h

theorem cached_moved {q : Oid} (hq : q ∈ L) :
    (w.deep L).cached (w.moved L q) = moveVals (w.moved L) (w.cached q) := by
  unfold World.cached
  rw [deep_moved hq]
  show (match (w.objs q).cache.map (w.ncache + ·) with | none => [] | some r => _) = _
  cases h : (w.objs q).cache with
  | none => rfl
  | some r => exact moveDicts_moved hq h

theorem nsview_moved {q : Oid} (hq : q ∈ L) :
    (w.deep L).nsview (w.moved L q) = moveVals (w.moved L) (w.nsview q) := by
  unfold World.nsview
  rw [deep_moved hq]
  show (match (w.objs q).nodespaces.map (w.nnspace + ·) with
    | none => [(childrenKey, Val.node (w.moved L q))] | some r => _) = _
  cases h : (w.objs q).nodespaces with
  | none => rfl
  | some r => exact moveDicts_moved hq h

theorem indexed_moved {q : Oid} (hq : q ∈ L) :
    (w.deep L).indexed (w.moved L q) = moveIdx (w.moved L) (w.indexed q) := by
  unfold World.indexed
  rw [deep_moved hq]
  show (match (w.objs q).index.map (w.nidx + ·) with | none => [] | some r => _) = _
  cases h : (w.objs q).index with
  | none => rfl
  | some r => exact moveDicts_moved hq h

/-! ### Well-formedness -/

theorem refs_deep {g : Obj → Option Nat} {n : Nat} (hg : ∀ ob, g (w.movedObj L ob) = (g ob).map (n + ·))
    (h0 : g {} = none) (hL : Complete w L) (h : RefsOK (fun p => g (w.objs p)) n) :
    RefsOK (fun p => g ((w.deep L).objs p)) (n + n) := by
  have key : ∀ {p r}, g ((w.deep L).objs p) = some r → (r < n ∧ p < w.nobj ∧ g (w.objs p) = some r) ∨
      (n ≤ r ∧ ∃ q ∈ L, p = w.moved L q ∧ g (w.objs q) = some (r - n)) := by
    intro p r hp
    by_cases h1 : p < w.nobj
    · rw [deep_old h1] at hp
      exact .inl ⟨h.lt hp, h1, hp⟩
    · by_cases h2 : p < w.nobj + L.length
      · obtain ⟨q, hq, rfl⟩ := deep_new (by omega) h2 hL.nodup
        rw [deep_moved hq, hg] at hp
        cases hr : g (w.objs q) with
        | none => rw [hr] at hp; cases hp
        | some s =>
          rw [hr] at hp
          injection hp with hp
          subst hp
          refine .inr ⟨Nat.le_add_right _ _, q, hq, rfl, ?_⟩
          rw [Nat.add_sub_cancel_left]
          exact hr
      · rw [deep_beyond (by omega), h0] at hp
        cases hp
  constructor
  · intro p r hp
    rcases key hp with ⟨h1, _⟩ | ⟨h1, q, _, _, hr⟩
    · omega
    · have := h.lt hr; omega
  · intro p p' r hp hp'
    rcases key hp with ⟨h1, _, e1⟩ | ⟨h1, q, hq, rfl, e1⟩ <;> rcases key hp' with ⟨h2, _, e2⟩ | ⟨h2, q', hq', rfl, e2⟩
    · exact h.inj e1 e2
    · omega
    · omega
    · rw [h.inj e1 e2]

theorem keys_moveVals (f : Oid → Oid) (d : Od Key Val) : (moveVals f d).keys = d.keys := by
  unfold moveVals Od.keys
  rw [List.map_map]
  rfl

theorem keys_moveIdx (f : Oid → Oid) (d : Od (Option Nat) Oid) : (moveIdx f d).keys = d.keys := by
  unfold moveIdx Od.keys
  rw [List.map_map]
  rfl

theorem nodup_moveDicts {K V : Type} {own : Oid → Option Nat} {n : Nat} {move : Od K V → Od K V} {f : Nat → Od K V}
    (hm : ∀ d, (move d).keys = d.keys) (h : ∀ r, (f r).keys.Nodup) (r : Nat) :
    (moveDicts L own n move [] f r).keys.Nodup := by
  rcases moveDicts_cases (L := L) (own := own) (n := n) (move := move) (empty := []) (f := f) r with
    ⟨_, e⟩ | ⟨_, ⟨q, _, _, e⟩ | e⟩
  · rw [e]; exact h r
  · rw [e, hm]; exact h _
  · rw [e]; exact List.nodup_nil

theorem WF.deep (hw : WF w) (hL : Complete w L) : WF (w.deep L) where
  s := refs_deep (g := Obj.storage) (fun _ => rfl) rfl hL hw.s
  c := refs_deep (g := Obj.cache) (fun _ => rfl) rfl hL hw.c
  n := refs_deep (g := Obj.nodespaces) (fun _ => rfl) rfl hL hw.n
  iLt := by
    intro p r hp
    show r < w.nidx + w.nidx
    by_cases h1 : p < w.nobj
    · rw [deep_old h1] at hp; have := hw.iLt hp; omega
    · by_cases h2 : p < w.nobj + L.length
      · obtain ⟨q, hq, rfl⟩ := deep_new (by omega) h2 hL.nodup
        rw [deep_moved hq] at hp
        have hp : (w.objs q).index.map (w.nidx + ·) = some r := hp
        cases hr : (w.objs q).index with
        | none => rw [hr] at hp; cases hp
        | some s =>
          rw [hr] at hp
          injection hp with hp
          have hp : w.nidx + s = r := hp
          have := hw.iLt hr
          omega
      · rw [deep_beyond (by omega)] at hp
        cases hp
  sNd := nodup_moveDicts (keys_moveVals _) hw.sNd
  cNd := nodup_moveDicts (keys_moveVals _) hw.cNd
  nNd := nodup_moveDicts (keys_moveVals _) hw.nNd
  iNd := nodup_moveDicts (keys_moveIdx _) hw.iNd

/-! ### Separation of the original and the copy -/

/-- The original is protected. -/
def protOld (w : World) (L : List Oid) : Prot where
  Q p := p < w.nobj
  QS r := r < w.nstore
  QC r := r < w.ncache
  QN r := r < w.nnspace
  QI r := r < w.nidx
  w0 := w.deep L
  q _ h := Nat.lt_of_lt_of_le h (Nat.le_add_right _ _)
  qs _ h := Nat.lt_of_lt_of_le h (Nat.le_add_right _ _)
  qc _ h := Nat.lt_of_lt_of_le h (Nat.le_add_right _ _)
  qn _ h := Nat.lt_of_lt_of_le h (Nat.le_add_right _ _)
  qi _ h := Nat.lt_of_lt_of_le h (Nat.le_add_right _ _)

theorem good_moved {p : Oid} (h : p ∈ L) : Good (protOld w L) (w.deep L).nobj (w.moved L p) :=
  ⟨fun hq : w.moved L p < w.nobj => absurd (moved_lt (w := w) h).1 (Nat.not_le.mpr hq), (moved_lt h).2⟩

theorem allV_moveVals {d : Od Key Val} (h : ∀ k c, (k, Val.node c) ∈ d → c ∈ L) :
    AllV (GoodV (protOld w L) (w.deep L).nobj) (moveVals (w.moved L) d) := by
  intro kv hkv c hc
  have : (kv.1, Val.node c) ∈ moveVals (w.moved L) d := by rw [← hc]; exact hkv
  obtain ⟨p, hp, rfl⟩ := mem_moveVals this
  exact good_moved (h _ _ hp)

theorem vals_moved {own : Oid → Option Nat} {n : Nat} {f : Nat → Od Key Val}
    (h : ∀ q ∈ L, ∀ r, own q = some r → ∀ k c, (k, Val.node c) ∈ f r → c ∈ L) (r : Nat) (hr : ¬ r < n) :
    AllV (GoodV (protOld w L) (w.deep L).nobj) (moveDicts L own n (moveVals (w.moved L)) [] f r) := by
  rcases moveDicts_cases (L := L) (own := own) (n := n) (move := moveVals (w.moved L)) (empty := []) (f := f) r with
    ⟨h1, _⟩ | ⟨_, ⟨q, hq, ho, e⟩ | e⟩
  · exact absurd h1 hr
  · rw [e]; exact allV_moveVals (h q hq _ ho)
  · rw [e]; exact AllV.nil

theorem inv_old (hw : WF w) (hL : Complete w L) : Inv (protOld w L) (w.deep L) where
  sLt _ _ h := (hw.deep hL).sLt h
  cLt _ _ h := (hw.deep hL).cLt h
  nLt _ _ h := (hw.deep hL).nLt h
  iLt _ _ h := (hw.deep hL).iLt h
  nobj := Nat.le_refl _
  nstore := Nat.le_refl _
  ncache := Nat.le_refl _
  nnspace := Nat.le_refl _
  nidx := Nat.le_refl _
  obj _ _ := rfl
  stores _ _ := rfl
  caches _ _ := rfl
  nspaces _ _ := rfl
  idxs _ _ := rfl
  refs p hp := by
    obtain ⟨q, hq, rfl⟩ := deep_new (Nat.not_lt.mp hp.1) hp.2 hL.nodup
    rw [deep_moved hq]
    have sh : ∀ {x : Option Nat} {n r : Nat}, x.map (n + ·) = some r → ¬ r < n := by
      intro x n r hx
      cases x with
      | none => cases hx
      | some s => injection hx with hx; have hx : n + s = r := hx; omega
    exact {
      parent := fun p hp => by
        have hp : (w.objs q).parent.map (w.moved L) = some p := hp
        cases h : (w.objs q).parent with
        | none => rw [h] at hp; cases hp
        | some a =>
          rw [h] at hp
          injection hp with hp
          subst hp
          exact good_moved (hL.next q hq a (mem_next.mpr (.inl h)))
      storage := fun _ h => sh h
      cache := fun _ h => sh h
      nodespaces := fun _ h => sh h
      index := fun _ h => sh h
      fixed := allV_moveVals fun k c hc =>
        hL.next q hq c (mem_next.mpr (.inr (.inr (.inr (.inr (.inr ⟨k, hc⟩)))))) }
  svals r hr _ := vals_moved (own := fun q => (w.objs q).storage)
    (fun q hq r ho k c hc => hL.next q hq c (mem_next.mpr (.inr (.inl ⟨k, by rw [ho]; exact hc⟩)))) r hr
  cvals r hr _ := vals_moved (own := fun q => (w.objs q).cache)
    (fun q hq r ho k c hc => hL.next q hq c (mem_next.mpr (.inr (.inr (.inl ⟨k, by rw [ho]; exact hc⟩))))) r hr
  nvals r hr _ := vals_moved (own := fun q => (w.objs q).nodespaces)
    (fun q hq r ho k c hc => hL.next q hq c (mem_next.mpr (.inr (.inr (.inr (.inl ⟨k, by rw [ho]; exact hc⟩)))))) r hr
  ivals r hr _ := by
    intro kv hkv
    have hkv : kv ∈ moveDicts L (fun q => (w.objs q).index) w.nidx (moveIdx (w.moved L)) [] w.idxs r := hkv
    rcases moveDicts_cases (L := L) (own := fun q => (w.objs q).index) (n := w.nidx) (move := moveIdx (w.moved L))
      (empty := []) (f := w.idxs) r with ⟨h1, _⟩ | ⟨_, ⟨q, hq, ho, e⟩ | e⟩
    · exact absurd h1 hr
    · rw [e] at hkv
      obtain ⟨p, hp, hc⟩ := mem_moveIdx (u := kv.1) (c := kv.2) hkv
      rw [hc]
      exact good_moved (hL.next q hq p
        (mem_next.mpr (.inr (.inr (.inr (.inr (.inl ⟨kv.1, by rw [ho]; exact hp⟩)))))))
    · rw [e] at hkv; cases hkv

end deep

end Verif
