import Verif.Lemmas.SetSteps

/-! What calling a class does to the heap. -/

namespace Verif

/-- Objects from `n0` on are empty, and their parent is none, `pa` or an older
one of them. -/
def NewObjs (n0 : Nat) (pa : Option Oid) (w : World) : Prop := ∀ p, n0 ≤ p → p < w.nobj →
  w.children p = [] ∧ ((w.loc p).2 = none ∨ (w.loc p).2 = pa ∨
    ∃ q, n0 ≤ q ∧ q < p ∧ (w.loc p).2 = some q)

/-- Objects below `n0` are as they were. -/
structure OldSame (n0 : Nat) (w w' : World) : Prop where
  nobj : w.nobj ≤ w'.nobj
  children : ∀ p, p < n0 → w'.children p = w.children p
  nsview : ∀ p, p < n0 → w'.nsview p = w.nsview p
  cached : ∀ p, p < n0 → w'.cached p = w.cached p
  loc : ∀ p, p < n0 → w'.loc p = w.loc p
  cls : ∀ p, p < n0 → (w'.objs p).cls = (w.objs p).cls
  fixed : ∀ p, p < n0 → (w'.objs p).fixed = (w.objs p).fixed
  beyond : ∀ p, w'.children p = w.children p ∨ w'.children p = []
  fb : w'.fb = w.fb
  spaces : ∀ p, p < n0 → (w'.objs p).nodespaces = (w.objs p).nodespaces

/-- Building objects from `n0` on. -/
def Builds (n0 : Nat) (pa : Option Oid) (w w' : World) : Prop :=
  WF w → n0 ≤ w.nobj → NewObjs n0 pa w → WF w' ∧ NewObjs n0 pa w' ∧ OldSame n0 w w'

theorem OldSame.refl (n0 : Nat) (w : World) : OldSame n0 w w :=
  ⟨Nat.le_refl _, fun _ _ => rfl, fun _ _ => rfl, fun _ _ => rfl, fun _ _ => rfl, fun _ _ => rfl,
    fun _ _ => rfl, fun _ => .inl rfl, rfl, fun _ _ => rfl⟩

theorem OldSame.trans {n0 : Nat} {a b c : World} (h : OldSame n0 a b) (h' : OldSame n0 b c) :
    OldSame n0 a c :=
  ⟨Nat.le_trans h.nobj h'.nobj, fun p hp => (h'.children p hp).trans (h.children p hp),
   fun p hp => (h'.nsview p hp).trans (h.nsview p hp),
   fun p hp => (h'.cached p hp).trans (h.cached p hp), fun p hp => (h'.loc p hp).trans (h.loc p hp),
   fun p hp => (h'.cls p hp).trans (h.cls p hp), fun p hp => (h'.fixed p hp).trans (h.fixed p hp),
   fun p => by
     rcases h'.beyond p with e | e
     · rw [e]; exact h.beyond p
     · exact .inr e, h'.fb.trans h.fb, fun p hp => (h'.spaces p hp).trans (h.spaces p hp)⟩

theorem builds_pre (n0 : Nat) (pa : Option Oid) : PreR (Builds n0 pa) where
  refl w hw _ hN := ⟨hw, hN, OldSame.refl n0 w⟩
  trans h h' hw hn hN := by
    obtain ⟨a, b, c⟩ := h hw hn hN
    obtain ⟨a', b', c'⟩ := h' a (Nat.le_trans hn c.nobj) b
    exact ⟨a', b', c.trans c'⟩

theorem builds_hidden {n0 : Nat} {pa : Option Oid} {w w' : World} (h : Hidden w w') :
    Builds n0 pa w w' := fun hw _ hN =>
  ⟨h.wf hw, fun p h1 h2 => by
    rw [h.nobj] at h2; rw [h.children, h.loc]; exact hN p h1 h2,
   Nat.le_of_eq h.nobj.symm, fun p _ => h.children p, fun p _ => h.nsview p, fun p _ => h.cached p,
   fun p _ => h.loc p, fun p _ => h.cls p, fun p _ => h.fixed p, fun p => .inl (h.children p), h.fb,
   fun p _ => h.spaces p⟩

/-- Writes to attributes of a new object. -/
theorem builds_modO {n0 : Nat} {pa : Option Oid} {o : Oid} (ho : n0 ≤ o) (f : Obj → Obj)
    (h1 : ∀ b, (f b).cls = b.cls)
    (hs : ∀ b, (f b).storage = b.storage) (hc : ∀ b, (f b).cache = b.cache)
    (hn : ∀ b, (f b).nodespaces = b.nodespaces) (hi : ∀ b, (f b).index = b.index)
    (hp : ∀ b, (f b).parent = b.parent ∨ (f b).parent = none ∨ (f b).parent = pa ∨
      ∃ q, n0 ≤ q ∧ q < o ∧ (f b).parent = some q) :
    Pres (Builds n0 pa) (modO o f) := fun w hw hle hN => by
  have hne : ∀ p, p < n0 → p ≠ o := fun p hp e => by subst e; omega
  refine ⟨hw.modO o f (hs _) (hc _) (hn _) fun _ hr => hw.iLt ((hi _).symm.trans hr),
    fun p hp1 hp2 => ?_, Nat.le_refl _, fun p _ => children_modO o f (hs _) p,
    fun p _ => nsview_modO o f (hn _) p, fun p _ => cached_modO o f (hc _) p,
    fun p h => ?_, fun p _ => proj_upd Obj.cls w.objs o _ (h1 _) p,
    fun p h => ?_, fun p => .inl (children_modO o f (hs _) p), rfl,
    fun p _ => proj_upd Obj.nodespaces w.objs o _ (hn _) p⟩
  · refine ⟨(children_modO o f (hs _) p).trans (hN p hp1 hp2).1, ?_⟩
    by_cases e : p = o
    · subst e
      have : (World.loc (modO p f w).2 p).2 = (f (w.objs p)).parent := by
        simp [World.loc]
      rw [this]
      rcases hp (w.objs p) with e | e
      · rw [e]; exact (hN p hp1 hp2).2
      · exact e
    · have : World.loc (modO o f w).2 p = w.loc p := by
        simp [World.loc, upd, e]
      rw [this]; exact (hN p hp1 hp2).2
  · simp [World.loc, upd, hne p h]
  · simp [upd, hne p h]

theorem builds_alloc {n0 : Nat} {pa : Option Oid} (c : ClassId) :
    Pres (Builds n0 pa) (alloc c) := fun w hw hle hN => by
  have hwf := (grow_alloc c w).wf hw
  have hne : ∀ p, p < n0 → p ≠ w.nobj := fun p hp e => by omega
  have hch : ∀ p, World.children (alloc c w).2 p = if p = w.nobj then [] else w.children p := by
    intro p
    simp only [World.children, alloc, upd]
    by_cases e : p = w.nobj
    · simp [e]
    · simp [e]
  refine ⟨hwf, fun p hp1 hp2 => ?_, Nat.le_succ _, fun p h => by rw [hch, if_neg (hne p h)],
    fun p h => by simp [World.nsview, alloc, upd, hne p h],
    fun p h => by simp [World.cached, alloc, upd, hne p h],
    fun p h => by simp [World.loc, alloc, upd, hne p h],
    fun p h => by simp [alloc, upd, hne p h], fun p h => by simp [alloc, upd, hne p h],
    fun p => ?_, rfl, fun p h => by simp [alloc, upd, hne p h]⟩
  · rw [hch]
    by_cases e : p = w.nobj
    · refine ⟨if_pos e, .inl ?_⟩
      simp [World.loc, alloc, e]
    · rw [if_neg e]
      have hlt : p < w.nobj := by
        have : p < w.nobj + 1 := hp2
        omega
      have hl : World.loc (alloc c w).2 p = w.loc p := by simp [World.loc, alloc, upd, e]
      rw [hl]; exact hN p hp1 hlt
  · rw [hch]
    split
    · exact .inr rfl
    · exact .inl rfl

/-- A constructor returns an object it allocated. -/
def Makes (n0 : Nat) (pa : Option Oid) (m : M Oid) : Prop := ∀ w, WF w → n0 ≤ w.nobj →
  NewObjs n0 pa w → (∀ o, (m w).1 = .ok o → o = w.nobj ∧ o < (m w).2.nobj)

theorem builds_fixedLoop {n0 : Nat} {pa : Option Oid} {mk : ClassId → M Oid}
    (hmk : ∀ c, Pres (Builds n0 pa) (mk c)) (hmk' : ∀ c, Makes n0 pa (mk c)) {o : Oid} (ho : n0 ≤ o)
    (l : List (Key × ClassId)) (w : World) (hlt : o < w.nobj) :
    Builds n0 pa w (initPipe.loop mk o l w).2 := by
  induction l generalizing w with
  | nil => exact (builds_pre n0 pa).refl w
  | cons a t ih =>
    obtain ⟨k, c⟩ := a
    intro hw hn hN
    have h1 := hmk c w
    have h2 := hmk' c w hw hn hN
    simp only [initPipe.loop, M.bind_apply]
    rcases hx : mk c w with ⟨e | child, w1⟩
    · rw [hx] at h1; exact h1 hw hn hN
    · rw [hx] at h1 h2
      simp only
      obtain ⟨hc1, hc2⟩ := h2 child rfl
      simp only at hc2
      have hR := builds_pre n0 pa
      have hnc : n0 ≤ child := by omega
      have hoc : o < child := by omega
      have s1 := builds_modO (pa := pa) hnc (fun ob => { ob with name := k }) (fun _ => rfl)
        (fun _ => rfl) (fun _ => rfl) (fun _ => rfl) (fun _ => rfl) (fun _ => .inl rfl)
      have s2 := builds_modO (pa := pa) hnc (fun ob => { ob with parent := some o }) (fun _ => rfl)
        (fun _ => rfl) (fun _ => rfl) (fun _ => rfl) (fun _ => rfl)
        (fun _ => .inr (.inr (.inr ⟨o, ho, hoc, rfl⟩)))
      have s3 := builds_modO (pa := pa) ho
        (fun ob => { ob with fixed := ob.fixed.set k (.node child) }) (fun _ => rfl)
        (fun _ => rfl) (fun _ => rfl) (fun _ => rfl) (fun _ => rfl) (fun _ => .inl rfl)
      refine hR.trans h1 (hR.trans (s1 w1) (hR.trans (s2 _) (hR.trans (s3 _) (ih _ ?_)))) hw hn hN
      simp only [modO_apply]; omega

theorem builds_initPipe {n0 : Nat} {pa : Option Oid} {E : Env} {mk : ClassId → M Oid}
    (hmk : ∀ c, Pres (Builds n0 pa) (mk c)) (hmk' : ∀ c, Makes n0 pa (mk c)) {o : Oid}
    (ho : n0 ≤ o) {parent : Option Oid} (hpa : parent = none ∨ parent = pa)
    (all bs : List Bhv) (name : Key) (w : World) (hlt : o < w.nobj) :
    Builds n0 pa w (initPipe E mk all bs o name parent w).2 := by
  have hR := builds_pre n0 pa
  induction bs generalizing w with
  | nil =>
    unfold initPipe
    refine pres_ite hR ?_ (pres_pure hR _) w
    refine pres_bind hR (builds_modO ho _ (fun _ => rfl) (fun _ => rfl) (fun _ => rfl) (fun _ => rfl)
      (fun _ => rfl) (fun _ => .inl rfl)) fun _ => ?_
    refine builds_modO ho _ (fun _ => rfl) (fun _ => rfl) (fun _ => rfl) (fun _ => rfl)
      (fun _ => rfl) (fun _ => ?_)
    rcases hpa with e | e
    · exact .inr (.inl e)
    · exact .inr (.inr (.inl e))
  | cons b r ih =>
    have post : ∀ {m : M Unit}, (∀ w, o < w.nobj → Builds n0 pa w (m w).2) →
        Builds n0 pa w ((do initPipe E mk all r o name parent; m) w).2 := by
      intro m hm hw hn hN
      simp only [M.bind_apply]
      have h1 := ih w hlt hw hn hN
      revert h1
      generalize initPipe E mk all r o name parent w = x
      intro h1
      rcases x with ⟨e | u, w1⟩
      · exact h1
      · exact hR.trans (fun _ _ _ => h1) (hm w1 (Nat.lt_of_lt_of_le hlt h1.2.2.nobj)) hw hn hN
    cases b
    case reference =>
      show Builds n0 pa w ((do referenceInit o; initPipe E mk all r o name parent) w).2
      simp only [M.bind_apply]
      have h1 := hidden_referenceInit o w
      revert h1
      generalize referenceInit o w = x
      intro h1
      rcases x with ⟨e | u, w1⟩
      · exact builds_hidden h1
      · exact hR.trans (builds_hidden h1) (ih w1 (by rw [h1.nobj]; exact hlt))
    case lifecycle => exact post fun w _ => builds_hidden (hidden_notify _ w)
    case uuidAware =>
      refine post fun w _ => ?_
      exact pres_bind hR (fun w => builds_hidden (hidden_freshUuid w)) (fun u =>
        pres_ite hR (fun w => builds_hidden (hidden_setUuidRef o (some u) w))
          (builds_modO ho (fun ob => { ob with uuid := some u }) (fun _ => rfl) (fun _ => rfl)
            (fun _ => rfl) (fun _ => rfl) (fun _ => rfl) (fun _ => .inl rfl))) w
    case fixedChildren =>
      refine post fun w hlt => ?_
      exact hR.trans (builds_modO ho (fun ob => { ob with fixed := [] }) (fun _ => rfl)
        (fun _ => rfl) (fun _ => rfl) (fun _ => rfl) (fun _ => rfl) (fun _ => .inl rfl) w)
        (builds_fixedLoop hmk hmk' ho _ _ hlt)
    all_goals exact ih w hlt

theorem newNodeN_builds (E : Env) (n0 : Nat) (pa : Option Oid) (n : Nat) :
    ∀ (c : ClassId) (name : Key) (parent : Option Oid), (parent = none ∨ parent = pa) →
      Pres (Builds n0 pa) (newNodeN E n c name parent) ∧
      Makes n0 pa (newNodeN E n c name parent) := by
  induction n with
  | zero => exact fun c name parent _ => ⟨pres_raise (builds_pre n0 pa) _, fun _ _ _ _ _ h => nomatch h⟩
  | succ n ih =>
    intro c name parent hpa
    have hi : ∀ w, WF w → n0 ≤ w.nobj → NewObjs n0 pa w →
        Builds n0 pa (alloc c w).2 (initPipe E (fun c' => newNodeN E n c' .none none) (E.cls c).bhvs
          (E.cls c).bhvs w.nobj name parent (alloc c w).2).2 := fun w _ hn _ =>
      builds_initPipe (fun c' => (ih c' .none none (.inl rfl)).1)
        (fun c' => (ih c' .none none (.inl rfl)).2) hn hpa _ _ name _ (Nat.lt_succ_self _)
    have ha : ∀ w, (alloc c w).1 = .ok w.nobj := fun _ => rfl
    have hal := fun w hw hn hN => (builds_pre n0 pa).trans (builds_alloc (n0 := n0) (pa := pa) c w)
      (hi w hw hn hN) hw hn hN
    have he : ∀ w, newNodeN E (n + 1) c name parent w = match initPipe E
        (fun c' => newNodeN E n c' .none none) (E.cls c).bhvs (E.cls c).bhvs w.nobj name parent
        (alloc c w).2 with
      | (.ok _, w') => (.ok w.nobj, w')
      | (.error e, w') => (.error e, w') := fun w => by
        simp only [newNodeN, M.bind_apply, alloc, M.pure_apply]
        generalize initPipe E _ _ _ _ _ _ _ = x
        rcases x with ⟨_ | _, _⟩ <;> rfl
    constructor
    · intro w hw hn hN
      have h1 := hal w hw hn hN
      rw [he]
      revert h1
      generalize initPipe E _ _ _ _ _ _ _ = x
      intro h1
      rcases x with ⟨e | u, w1⟩ <;> exact h1
    · intro w hw hn hN o ho
      have h1 := hi w hw hn hN
      have h0 := builds_alloc (n0 := n0) (pa := pa) c w hw hn hN
      have h2 := (h1 h0.1 (Nat.le_trans hn h0.2.2.nobj) h0.2.1).2.2.nobj
      rw [he] at ho ⊢
      revert ho h2
      generalize initPipe E _ _ _ _ _ _ _ = x
      intro ho h2
      rcases x with ⟨e | u, w1⟩
      · cases ho
      · simp only [Except.ok.injEq] at ho
        subst ho
        exact ⟨rfl, h2⟩

/-- Calling a class: everything that existed is as it was, what is new is empty, and
the result is the next object. -/
theorem newNode_builds (E : Env) (c : ClassId) (name : Key) (parent : Option Oid) {w : World}
    (hw : WF w) : WF (newNode E c name parent w).2 ∧
      NewObjs w.nobj parent (newNode E c name parent w).2 ∧
      OldSame w.nobj w (newNode E c name parent w).2 ∧
      ∀ o, (newNode E c name parent w).1 = .ok o →
        o = w.nobj ∧ o < (newNode E c name parent w).2.nobj := by
  have h := newNodeN_builds E w.nobj parent E.depth c name parent (.inr rfl)
  have hN : NewObjs w.nobj parent w := fun p h1 h2 => by omega
  rcases newNode_cases E c name parent with e | e
  rotate_left
  · rw [e]; exact ⟨hw, hN, .refl _ _, fun _ h => nomatch h⟩
  rw [e]
  have h1 := h.1 w hw (Nat.le_refl _) hN
  exact ⟨h1.1, h1.2.1, h1.2.2, h.2 w hw (Nat.le_refl _) hN⟩

/-- `attrs`: the same, and the nodespaces of the node gain one entry. -/
theorem attrs_builds (E : Env) (o : Oid) {w : World} (hw : WF w) :
    WF (attrs E o w).2 ∧ NewObjs w.nobj (some o) (attrs E o w).2 ∧
      w.nobj ≤ (attrs E o w).2.nobj ∧
      (∀ p, p < w.nobj → (attrs E o w).2.children p = w.children p) ∧
      (∀ p, p < w.nobj → (attrs E o w).2.loc p = w.loc p) ∧
      (∀ p, p < w.nobj → ((attrs E o w).2.objs p).cls = (w.objs p).cls) ∧
      (∀ p, (attrs E o w).2.children p = w.children p ∨ (attrs E o w).2.children p = []) := by
  have triv : ∀ {w' : World}, Quiet w w' → WF w' ∧ NewObjs w.nobj (some o) w' ∧
      w.nobj ≤ w'.nobj ∧ (∀ p, p < w.nobj → w'.children p = w.children p) ∧
      (∀ p, p < w.nobj → w'.loc p = w.loc p) ∧
      (∀ p, p < w.nobj → (w'.objs p).cls = (w.objs p).cls) ∧
      (∀ p, w'.children p = w.children p ∨ w'.children p = []) := fun hq => by
    obtain ⟨hw', hs⟩ := hq hw
    exact ⟨hw', fun p h1 h2 => by rw [hs.nobj] at h2; omega, Nat.le_of_eq hs.nobj.symm,
      fun p _ => hs.children p, fun p _ => hs.loc p, fun p _ => (hs.obj p).cls,
      fun p => .inl (hs.children p)⟩
  unfold attrs
  simp only [M.bind_apply, M.getW_apply]
  split
  · have hq := nodespacesRef_quiet o w
    simp only [M.bind_apply, M.getW_apply]
    revert hq
    generalize nodespacesRef o w = x
    intro hq
    rcases x with ⟨e | r, w1⟩
    · exact triv hq
    · simp only
      rcases (w1.nspaces r).get? attrsKey with _ | (a | d)
      rotate_left
      · exact triv hq
      · exact triv hq
      · obtain ⟨hw1, hs⟩ := hq hw
        simp only at hw1 hs
        obtain ⟨b1, b2, b3, b4⟩ := newNode_builds E (clsOf E w1 o).attrsFactory attrsKey (some o) hw1
        have hn : w1.nobj = w.nobj := hs.nobj
        simp only [M.bind_apply]
        revert b1 b2 b3 b4
        generalize newNode E _ _ _ w1 = y
        intro b1 b2 b3 b4
        have key : WF y.2 ∧ NewObjs w.nobj (some o) y.2 ∧
            w.nobj ≤ y.2.nobj ∧ (∀ p, p < w.nobj → y.2.children p = w.children p) ∧
            (∀ p, p < w.nobj → y.2.loc p = w.loc p) ∧
            (∀ p, p < w.nobj → (y.2.objs p).cls = (w.objs p).cls) ∧
            (∀ p, y.2.children p = w.children p ∨ y.2.children p = []) := by
          rw [hn] at b2 b3
          exact ⟨b1, b2, hn ▸ b3.nobj, fun p hp => (b3.children p hp).trans (hs.children p),
            fun p hp => (b3.loc p hp).trans (hs.loc p),
            fun p hp => (b3.cls p hp).trans (hs.obj p).cls, fun p => by
              rw [← hs.children p]; exact b3.beyond p⟩
        rcases y with ⟨e | a, w2⟩
        · exact key
        · exact ⟨key.1.setNspace r (Od.nodup_keys_set (key.1.nNd r) _ _), key.2⟩
  · exact triv (Quiet.refl w)

end Verif
