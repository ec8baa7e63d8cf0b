import Verif.Lemmas.NewNode

/-! What a constructed node looks like. -/

namespace Verif

/-- A dictionary with exactly one child per table entry, in order, each of the given
class and located at its key below `o`. -/
inductive FixedAs (w : World) (o : Oid) : List (Key × ClassId) → Od Key Val → Prop
  | nil : FixedAs w o [] []
  | cons {k : Key} {c : ClassId} {x : Oid} {l : List (Key × ClassId)} {d : Od Key Val} :
      w.loc x = (k, some o) → (w.objs x).cls = c → FixedAs w o l d →
      FixedAs w o ((k, c) :: l) ((k, .node x) :: d)

/-- Objects below `n` keep location and class, and those but `o` their fixed children. -/
structure Stay (n : Nat) (o : Oid) (w w' : World) : Prop where
  wf : WF w'
  nobj : w.nobj ≤ w'.nobj
  loc : ∀ p, p < n → w'.loc p = w.loc p
  cls : ∀ p, p < n → (w'.objs p).cls = (w.objs p).cls
  fixed : ∀ p, p < n → p ≠ o → (w'.objs p).fixed = (w.objs p).fixed
  spaces : ∀ p, p < n → (w'.objs p).nodespaces = (w.objs p).nodespaces

theorem Stay.trans {n m : Nat} {o : Oid} {a b c : World} (h : Stay n o a b) (h' : Stay m o b c)
    (hm : n ≤ m) : Stay n o a c :=
  ⟨h'.wf, Nat.le_trans h.nobj h'.nobj,
    fun p hp => (h'.loc p (Nat.lt_of_lt_of_le hp hm)).trans (h.loc p hp),
    fun p hp => (h'.cls p (Nat.lt_of_lt_of_le hp hm)).trans (h.cls p hp),
    fun p hp hne => (h'.fixed p (Nat.lt_of_lt_of_le hp hm) hne).trans (h.fixed p hp hne),
    fun p hp => (h'.spaces p (Nat.lt_of_lt_of_le hp hm)).trans (h.spaces p hp)⟩

theorem Hidden.stay {w w' : World} (h : Hidden w w') (hw : WF w) (n : Nat) (o : Oid) :
    Stay n o w w' :=
  ⟨h.wf hw, Nat.le_of_eq h.nobj.symm, fun p _ => h.loc p, fun p _ => h.cls p, fun p _ _ => h.fixed p,
    fun p _ => h.spaces p⟩

theorem OldSame.stay {n : Nat} {w w' : World} (h : OldSame n w w') (hw : WF w') (o : Oid) :
    Stay n o w w' :=
  ⟨hw, h.nobj, h.loc, h.cls, fun p hp _ => h.fixed p hp, h.spaces⟩

theorem FixedAs.stay {w w' : World} {o : Oid} {l : List (Key × ClassId)} {d : Od Key Val} {n : Nat}
    {q : Oid} (h : FixedAs w o l d) (hs : Stay n q w w') (hb : ∀ k x, (k, Val.node x) ∈ d → x < n) :
    FixedAs w' o l d := by
  induction h with
  | nil => exact .nil
  | cons h1 h2 _ ih =>
    have hx := hb _ _ List.mem_cons_self
    exact .cons ((hs.loc _ hx).trans h1) ((hs.cls _ hx).trans h2)
      (ih fun k x hm => hb k x (List.mem_cons_of_mem _ hm))

/-- What is assumed of the constructor of a child. -/
def MkOk (mk : ClassId → M Oid) : Prop := ∀ c w child w', WF w → mk c w = (.ok child, w') →
  WF w' ∧ child = w.nobj ∧ child < w'.nobj ∧ OldSame w.nobj w w' ∧ (w'.objs child).cls = c

theorem stay_modO {n : Nat} {o x : Oid} (f : Obj → Obj) {w : World} (hw : WF w)
    (h1 : ∀ b, (f b).cls = b.cls) (hs : ∀ b, (f b).storage = b.storage)
    (hc : ∀ b, (f b).cache = b.cache) (hn : ∀ b, (f b).nodespaces = b.nodespaces)
    (hi : ∀ b, (f b).index = b.index)
    (hl : x < n → ∀ b, (f b).name = b.name ∧ (f b).parent = b.parent)
    (hf : x < n → x ≠ o → ∀ b, (f b).fixed = b.fixed) : Stay n o w (modO x f w).2 where
  wf := hw.modO x f (hs _) (hc _) (hn _) fun r hr => hw.iLt ((hi _).symm.trans hr)
  nobj := Nat.le_refl _
  loc p hp := by
    simp only [modO_apply, World.loc, upd]
    split
    · rename_i e; subst e; rw [(hl hp _).1, (hl hp _).2]
    · rfl
  cls p _ := proj_upd Obj.cls w.objs x _ (h1 _) p
  fixed p hp hne := by
    simp only [modO_apply, upd]
    split
    · rename_i e; subst e; rw [hf hp hne]
    · rfl
  spaces p _ := proj_upd Obj.nodespaces w.objs x _ (hn _) p

theorem Od.set_append_new {d : Od Key Val} {k : Key} (h : k ∉ d.keys) (v : Val) :
    d.set k v = d ++ [(k, v)] := by
  induction d with
  | nil => rfl
  | cons a r ih =>
    obtain ⟨j, x⟩ := a
    simp only [Od.keys, List.map_cons, List.mem_cons, not_or] at h
    have : ¬ j = k := fun e => h.1 e.symm
    simp only [Od.set, this, if_false, List.cons_append]
    rw [ih h.2]

theorem fixedLoop_ok {mk : ClassId → M Oid} (hmk : MkOk mk) {o : Oid} (l : List (Key × ClassId))
    {w w' : World} (hw : WF w) (ho : o < w.nobj) (h : initPipe.loop mk o l w = (.ok (), w'))
    (hnd : ((w.objs o).fixed.keys ++ l.map Prod.fst).Nodup) :
    Stay w.nobj o w w' ∧ ∃ d, (w'.objs o).fixed = (w.objs o).fixed ++ d ∧ FixedAs w' o l d ∧
      ∀ k x, (k, Val.node x) ∈ d → w.nobj ≤ x ∧ x < w'.nobj := by
  induction l generalizing w with
  | nil =>
    cases h
    exact ⟨⟨hw, Nat.le_refl _, fun _ _ => rfl, fun _ _ => rfl, fun _ _ _ => rfl,
      fun _ _ => rfl⟩, [],
      (List.append_nil _).symm, .nil, fun _ _ h => nomatch h⟩
  | cons a t ih =>
    obtain ⟨k, c⟩ := a
    simp only [initPipe.loop, M.bind_apply] at h
    rcases hx : mk c w with ⟨e | child, w1⟩
    · rw [hx] at h; cases h
    · rw [hx] at h
      simp only at h
      obtain ⟨m1, m2, m3, m4, m5⟩ := hmk c w child w1 hw hx
      have hoc : o ≠ child := by omega
      have s0 := m4.stay m1 o
      have s1 : Stay w.nobj o w1 (modO child (fun ob => { ob with name := k }) w1).2 :=
        stay_modO _ m1 (fun _ => rfl) (fun _ => rfl) (fun _ => rfl) (fun _ => rfl) (fun _ => rfl)
          (fun h => by omega) (fun h => by omega)
      have s2 : Stay w.nobj o _ (modO child (fun ob => { ob with parent := some o })
          (modO child (fun ob => { ob with name := k }) w1).2).2 :=
        stay_modO _ s1.wf (fun _ => rfl) (fun _ => rfl) (fun _ => rfl) (fun _ => rfl) (fun _ => rfl)
          (fun h => by omega) (fun h => by omega)
      have s3 : Stay w.nobj o _ (modO o (fun ob => { ob with fixed := ob.fixed.set k (.node child) })
          (modO child (fun ob => { ob with parent := some o })
          (modO child (fun ob => { ob with name := k }) w1).2).2).2 :=
        stay_modO _ s2.wf (fun _ => rfl) (fun _ => rfl) (fun _ => rfl) (fun _ => rfl) (fun _ => rfl)
          (fun _ _ => ⟨rfl, rfl⟩) (fun _ h => absurd rfl h)
      have hs := ((s0.trans s1 (Nat.le_refl _)).trans s2 (Nat.le_refl _)).trans s3 (Nat.le_refl _)
      simp only [modO_apply] at h hs
      revert h hs
      generalize hW : ({ w1 with objs := _ } : World) = W
      intro h hs
      have hfo : (w1.objs o).fixed = (w.objs o).fixed := m4.fixed o ho
      have hk : k ∉ (w.objs o).fixed.keys := fun hm =>
        (List.nodup_append.mp hnd).2.2 k hm k List.mem_cons_self rfl
      have hWf : (W.objs o).fixed = (w.objs o).fixed ++ [(k, .node child)] := by
        subst hW
        simp only [upd, if_true, hoc, if_false, hfo]
        exact Od.set_append_new hk _
      have hWc : W.loc child = (k, some o) ∧ (W.objs child).cls = c ∧ W.nobj = w1.nobj := by
        subst hW
        simp only [World.loc, upd, if_true, show ¬ child = o from fun e => hoc e.symm, if_false]
        exact ⟨trivial, m5, trivial⟩
      obtain ⟨r1, d, r2, r3, r4⟩ := ih hs.wf (Nat.lt_of_lt_of_le ho hs.nobj) h (by
        rw [hWf]
        simp only [Od.keys, List.map_append, List.map_cons, List.map_nil, List.append_assoc,
          List.cons_append, List.nil_append]
        simpa [Od.keys] using hnd)
      refine ⟨hs.trans r1 hs.nobj, (k, .node child) :: d, ?_, ?_, ?_⟩
      · rw [r2, hWf, List.append_assoc]; rfl
      · have hlt : child < W.nobj := by rw [hWc.2.2]; exact m3
        exact .cons ((r1.loc _ hlt).trans hWc.1) ((r1.cls _ hlt).trans hWc.2.1) r3
      · intro j x hm
        rcases List.mem_cons.mp hm with e | hm
        · cases e
          exact ⟨by omega, Nat.lt_of_lt_of_le (hWc.2.2 ▸ m3) r1.nobj⟩
        · exact ⟨Nat.le_trans hs.nobj (r4 j x hm).1, (r4 j x hm).2⟩

/-- The constructor of `o`: what is new about `o`. -/
structure Constructed (E : Env) (all bs : List Bhv) (o : Oid) (name : Key) (parent : Option Oid)
    (w w' : World) : Prop where
  wf : WF w'
  nobj : w.nobj ≤ w'.nobj
  old : ∀ p, p < w.nobj → p ≠ o → w'.loc p = w.loc p
  cls : ∀ p, p < w.nobj → (w'.objs p).cls = (w.objs p).cls
  spaces : ∀ p, p < w.nobj → (w'.objs p).nodespaces = (w.objs p).nodespaces
  loc : Bhv.defaultInit ∈ all → w'.loc o = (name, parent)
  fixed : Bhv.fixedChildren ∈ bs → ((E.cls (w.objs o).cls).fixed.map Prod.fst).Nodup →
    FixedAs w' o (E.cls (w.objs o).cls).fixed (w'.objs o).fixed ∧
    ∀ k x, (k, Val.node x) ∈ (w'.objs o).fixed → w.nobj ≤ x ∧ x < w'.nobj

theorem Constructed.post {E : Env} {all bs bs' : List Bhv} {o : Oid} {name : Key}
    {parent : Option Oid} {w w1 w2 : World} (h : Constructed E all bs o name parent w w1)
    (ho : o < w.nobj) (hs : Stay w1.nobj o w1 w2)
    (hb : Bhv.fixedChildren ∈ bs' → Bhv.fixedChildren ∈ bs)
    (hf : (w2.objs o).fixed = (w1.objs o).fixed) : Constructed E all bs' o name parent w w2 where
  wf := hs.wf
  nobj := Nat.le_trans h.nobj hs.nobj
  old p hp hne := (hs.loc p (Nat.lt_of_lt_of_le hp h.nobj)).trans (h.old p hp hne)
  cls p hp := (hs.cls p (Nat.lt_of_lt_of_le hp h.nobj)).trans (h.cls p hp)
  spaces p hp := (hs.spaces p (Nat.lt_of_lt_of_le hp h.nobj)).trans (h.spaces p hp)
  loc hd := (hs.loc o (Nat.lt_of_lt_of_le ho h.nobj)).trans (h.loc hd)
  fixed hx hnd := by
    obtain ⟨h1, h2⟩ := h.fixed (hb hx) hnd
    rw [hf]
    exact ⟨h1.stay hs fun k x hm => (h2 k x hm).2, fun k x hm =>
      ⟨(h2 k x hm).1, Nat.lt_of_lt_of_le (h2 k x hm).2 hs.nobj⟩⟩

theorem initPipe_constructed {E : Env} {mk : ClassId → M Oid} (hmk : MkOk mk) (all bs : List Bhv)
    {o : Oid} (name : Key) (parent : Option Oid) {w w' : World} (hw : WF w) (ho : o < w.nobj)
    (hnd : Bhv.fixedChildren ∈ bs → ((E.cls (w.objs o).cls).fixed.map Prod.fst).Nodup)
    (h : initPipe E mk all bs o name parent w = (.ok (), w')) :
    Constructed E all bs o name parent w w' := by
  induction bs generalizing w w' with
  | nil =>
    unfold initPipe at h
    split at h
    · rename_i hd
      simp only [M.bind_apply, modO_apply, Prod.mk.injEq, true_and] at h
      have k1 := keep_setName o name w
      have k2 := keep_setParent o parent (modO o (fun ob => { ob with name := name }) w).2
      have hl := loc_set w o name parent
      simp only [modO_apply] at k1 k2 hl
      subst h
      refine ⟨k2.wf (k1.wf hw), Nat.le_refl _, fun p _ hne => by rw [hl p, if_neg hne],
        fun p _ => (k2.cls p).trans (k1.cls p), fun p _ => ?_, fun _ => by rw [hl o, if_pos rfl],
        fun hx => nomatch hx⟩
      show (upd (upd w.objs o _) o _ p).nodespaces = _
      rw [proj_upd Obj.nodespaces _ o _ (by rfl), proj_upd Obj.nodespaces w.objs o _ (by rfl)]
    · rename_i hd
      cases h
      exact ⟨hw, Nat.le_refl _, fun _ _ _ => rfl, fun _ _ => rfl,
        fun _ _ => rfl, fun hx => absurd (List.contains_iff_mem.mpr hx) hd, fun hx => nomatch hx⟩
  | cons b r ih =>
    have hnd' : Bhv.fixedChildren ∈ r → _ := fun hx => hnd (List.mem_cons_of_mem _ hx)
    have post : ∀ {m : M Unit}, (do initPipe E mk all r o name parent; m) w = (.ok (), w') →
        ∃ w1, Constructed E all r o name parent w w1 ∧ m w1 = (.ok (), w') := by
      intro m hm
      simp only [M.bind_apply] at hm
      rcases hx : initPipe E mk all r o name parent w with ⟨e | u, w1⟩
      · rw [hx] at hm; cases hm
      · rw [hx] at hm
        exact ⟨w1, ih hw ho hnd' hx, hm⟩
    have other : ∀ {w''}, b ≠ .fixedChildren → Constructed E all r o name parent w w'' →
        Constructed E all (b :: r) o name parent w w'' := fun hb hc =>
      ⟨hc.wf, hc.nobj, hc.old, hc.cls, hc.spaces, hc.loc, fun hx =>
        hc.fixed ((List.mem_cons.mp hx).resolve_left fun e => hb e.symm)⟩
    have tail : ∀ {x : Bhv}, x ≠ .fixedChildren → Bhv.fixedChildren ∈ x :: r → Bhv.fixedChildren ∈ r :=
      fun hb hx => (List.mem_cons.mp hx).resolve_left fun e => hb e.symm
    cases b
    case reference =>
      simp only [initPipe, M.bind_apply] at h
      have h1 := hidden_referenceInit o w
      revert h1 h
      generalize referenceInit o w = x
      intro h h1
      rcases x with ⟨e | u, w1⟩
      · cases h
      · simp only at h h1
        have hc : Constructed E all r o name parent w1 w' :=
          ih (h1.wf hw) (by rw [h1.nobj]; exact ho) (by rw [h1.cls o]; exact hnd') h
        refine ⟨hc.wf, by have := hc.nobj; rw [h1.nobj] at this; exact this, fun p hp hne => ?_,
          fun p hp => ?_, fun p hp => ?_, hc.loc, fun hx hn => ?_⟩
        · exact (hc.old p (by rw [h1.nobj]; exact hp) hne).trans (h1.loc p)
        · exact (hc.cls p (by rw [h1.nobj]; exact hp)).trans (h1.cls p)
        · exact (hc.spaces p (by rw [h1.nobj]; exact hp)).trans (h1.spaces p)
        · have := hc.fixed (tail (by decide) hx) (by rw [h1.cls o]; exact hn)
          rw [h1.cls o, h1.nobj] at this
          exact this
    case lifecycle =>
      obtain ⟨w1, h1, h2⟩ := post h
      have hh := hidden_notify (.created o) w1
      rw [h2] at hh
      exact h1.post ho (hh.stay h1.wf _ _) (tail (by decide)) (hh.fixed o)
    case uuidAware =>
      obtain ⟨w1, h1, h2⟩ := post h
      have hh : Hidden w1 w' := by
        have := pres_bind hidden_pre hidden_freshUuid (fun u => pres_ite (c := all.contains .reference = true)
          hidden_pre (hidden_setUuidRef o (some u)) (hidden_modO o
          (fun ob => { ob with uuid := some u }) (fun _ => rfl) (fun _ => rfl) (fun _ => rfl)
          (fun _ => rfl) (fun _ => rfl) (fun _ => rfl) (fun _ => rfl) (fun _ => rfl))) w1
        rw [h2] at this
        exact this
      exact h1.post ho (hh.stay h1.wf _ _) (tail (by decide)) (hh.fixed o)
    case fixedChildren =>
      obtain ⟨w1, h1, h2⟩ := post h
      simp only [M.bind_apply, modO_apply, M.getW_apply] at h2
      have ho1 := Nat.lt_of_lt_of_le ho h1.nobj
      have s1 : Stay w1.nobj o w1 (modO o (fun ob => { ob with fixed := [] }) w1).2 :=
        stay_modO _ h1.wf (fun _ => rfl) (fun _ => rfl) (fun _ => rfl) (fun _ => rfl) (fun _ => rfl)
          (fun _ _ => ⟨rfl, rfl⟩) (fun _ h => absurd rfl h)
      simp only [modO_apply] at s1
      have hcl : (clsOf E { w1 with objs := upd w1.objs o { w1.objs o with fixed := [] } } o) =
          E.cls (w.objs o).cls := congrArg E.cls ((s1.cls o ho1).trans (h1.cls o ho))
      rw [hcl] at h2
      obtain ⟨r1, d, r2, r3, r4⟩ := fixedLoop_ok hmk _ s1.wf ho1 h2 (by
        simp only [upd, if_true]
        exact hnd List.mem_cons_self)
      simp only [upd, if_true, List.nil_append] at r2
      have hs := s1.trans r1 (Nat.le_refl _)
      refine ⟨hs.wf, Nat.le_trans h1.nobj hs.nobj, fun p hp hne => ?_, fun p hp => ?_, fun p hp => ?_,
        fun hd => ?_, fun _ _ => ?_⟩
      · exact (hs.loc p (Nat.lt_of_lt_of_le hp h1.nobj)).trans (h1.old p hp hne)
      · exact (hs.cls p (Nat.lt_of_lt_of_le hp h1.nobj)).trans (h1.cls p hp)
      · exact (hs.spaces p (Nat.lt_of_lt_of_le hp h1.nobj)).trans (h1.spaces p hp)
      · exact (hs.loc o ho1).trans (h1.loc hd)
      · rw [r2]
        exact ⟨r3, fun k x hm => ⟨Nat.le_trans h1.nobj (r4 k x hm).1, (r4 k x hm).2⟩⟩
    all_goals exact other (by decide) (ih hw ho hnd' h)

theorem newNodeN_split (E : Env) (n : Nat) (c : ClassId) (name : Key) (parent : Option Oid)
    {w w' : World} {o : Oid} (h : newNodeN E (n + 1) c name parent w = (.ok o, w')) :
    o = w.nobj ∧ initPipe E (fun c' => newNodeN E n c' .none none) (E.cls c).bhvs (E.cls c).bhvs o
      name parent (alloc c w).2 = (.ok (), w') := by
  simp only [newNodeN, M.bind_apply, M.pure_apply] at h
  have ha : alloc c w = (.ok w.nobj, (alloc c w).2) := rfl
  rw [ha] at h
  simp only at h
  rcases hx : initPipe E (fun c' => newNodeN E n c' .none none) (E.cls c).bhvs (E.cls c).bhvs w.nobj
      name parent (alloc c w).2 with ⟨e | u, w1⟩
  · rw [hx] at h; cases h
  · rw [hx] at h; cases h; exact ⟨rfl, hx⟩

theorem mkOk_newNodeN (E : Env) (n : Nat) : MkOk fun c => newNodeN E n c .none none := by
  intro c w child w' hw h
  replace h : newNodeN E n c .none none w = (.ok child, w') := h
  have hN : NewObjs w.nobj none w := fun p h1 h2 => by omega
  have hb := newNodeN_builds E w.nobj none n c .none none (.inl rfl)
  have h1 := hb.1 w hw (Nat.le_refl _) hN
  have h2 := hb.2 w hw (Nat.le_refl _) hN child
  rw [h] at h1 h2
  obtain ⟨h3, h4⟩ := h2 rfl
  refine ⟨h1.1, h3, h4, h1.2.2, ?_⟩
  cases n with
  | zero => cases h
  | succ n =>
    obtain ⟨-, hi⟩ := newNodeN_split E n c .none none h
    have hg := grow_initPipe E (fun c' => grow_newNodeN E n c' .none none) (E.cls c).bhvs
      (E.cls c).bhvs child .none none (alloc c w).2
    rw [hi] at hg
    rw [hg.cls child (by rw [h3]; exact Nat.lt_succ_self _), h3]
    simp [alloc]

/-- A successful call of a class. -/
theorem newNode_constructed {E : Env} {c : ClassId} {name : Key} {parent : Option Oid} {w w' : World}
    {o : Oid} (hw : WF w) (h : newNode E c name parent w = (.ok o, w'))
    (hnd : Bhv.fixedChildren ∈ (E.cls c).bhvs → ((E.cls c).fixed.map Prod.fst).Nodup) :
    o = w.nobj ∧ (w'.objs o).cls = c ∧
    Constructed E (E.cls c).bhvs (E.cls c).bhvs o name parent (alloc c w).2 w' := by
  have h := newNode_ok h
  cases hd : E.depth with
  | zero => rw [hd] at h; cases h
  | succ n =>
    rw [hd] at h
    obtain ⟨h1, h2⟩ := newNodeN_split E n c name parent h
    have hc : ((alloc c w).2.objs o).cls = c := by rw [h1]; simp [alloc]
    have hlt : o < (alloc c w).2.nobj := by rw [h1]; exact Nat.lt_succ_self _
    have := initPipe_constructed (mkOk_newNodeN E n) (E.cls c).bhvs (E.cls c).bhvs name parent
      ((grow_alloc c w).wf hw) hlt (by rw [hc]; exact hnd) h2
    exact ⟨h1, (this.cls o hlt).trans hc, this⟩

/-- The nodespaces of a new node. -/
theorem newNode_nsview {E : Env} {c : ClassId} {name : Key} {parent : Option Oid} {w w' : World}
    {o : Oid} (hnd : Bhv.fixedChildren ∈ (E.cls c).bhvs → ((E.cls c).fixed.map Prod.fst).Nodup)
    (hw : WF w) (h : newNode E c name parent w = (.ok o, w')) :
    w'.nsview o = [(childrenKey, .node o)] := by
  obtain ⟨h1, -, h3⟩ := newNode_constructed hw h hnd
  have : (w'.objs o).nodespaces = none := by
    rw [h3.spaces o (by rw [h1]; exact Nat.lt_succ_self _), h1]
    simp [alloc]
  simp only [World.nsview, this]

end Verif
