import Verif.Lemmas.Location

/-! What `del node[k]` does to the stored children, for every class whose
deletions read nothing that makes children. -/

namespace Verif

/-- Children and class of all nodes unchanged, on well-formed heaps. -/
def ChC (w w' : World) : Prop :=
  WF w → WF w' ∧ ChSame w w' ∧ (∀ p, (w'.objs p).cls = (w.objs p).cls) ∧ LocSame w w'

theorem chc_pre : PreR ChC :=
  ⟨fun w hw => ⟨hw, ChSame.refl w, fun _ => rfl, LocSame.refl w⟩, fun h h' hw => by
    obtain ⟨a1, a2, a3, a4⟩ := h hw
    obtain ⟨b1, b2, b3, b4⟩ := h' a1
    exact ⟨b1, a2.trans b2, fun p => (b3 p).trans (a3 p), a4.trans b4⟩⟩

theorem chc_of_quiet {α : Type} {m : M α} (h : Pres Quiet m) : Pres ChC m := fun w hw =>
  ⟨(h w hw).1, (h w hw).2.children, fun p => ((h w hw).2.obj p).cls, (h w hw).2.loc⟩

theorem chc_notify (e : Event) : Pres ChC (notify e) := fun _ hw =>
  ⟨hw.setLog _, fun _ => rfl, fun _ => rfl, fun _ => rfl⟩

theorem chc_indexDelete (o : Oid) (us : List Nat) : Pres ChC (indexDelete o us) := by
  induction us with
  | nil => exact pres_pure chc_pre _
  | cons u r ih =>
    refine pres_bind chc_pre (pres_of_id chc_pre (indexRef_id _)) fun i => ?_
    refine pres_bind chc_pre (pres_getW chc_pre) fun w => ?_
    refine pres_ite chc_pre ?_ (pres_raise chc_pre _)
    refine pres_bind chc_pre (fun w hw => ?_) fun _ => ih
    exact ⟨hw.setIdx i (Od.nodup_keys_del (hw.iNd i) _), fun _ => rfl, fun _ => rfl, fun _ => rfl⟩

/-- The steps of a deletion that do not touch children. -/
theorem chc_unindex {E : Env} (hE : NoFactory E) (o : Oid) (v : Val) :
    Pres ChC (referenceUnindex E o v) := by
  unfold referenceUnindex
  split
  · exact pres_pure chc_pre _
  · refine pres_bind chc_pre (pres_getW chc_pre) fun w => ?_
    refine pres_ite chc_pre ?_ (pres_pure chc_pre _)
    exact pres_bind chc_pre (pres_toDelete chc_pre (fun p k => chc_of_quiet (getitem_quiet hE p k))
      (fun p => chc_of_quiet (iter_quiet E p)) _ _) fun us => chc_indexDelete o us

/-- The children after a successful deletion; the key was there. -/
def ChildDel (w w' : World) (o : Oid) : Option Dest → Prop
  | some (.child k) => k ∈ (w.children o).keys ∧
      ∀ p, w'.children p = if p = o then (w.children o).del k else w.children p
  | some (.nodespace _) => ChSame w w'
  | none => False

theorem ChildDel.pre {a b c : World} {o : Oid} {d : Option Dest} (h : ChSame a b)
    (h' : ChildDel b c o d) : ChildDel a c o d := by
  cases d with
  | none => exact h'
  | some d =>
    cases d with
    | child k => exact ⟨h o ▸ h'.1, fun p => by rw [h'.2 p, h o, h p]⟩
    | nodespace k => exact h.trans h'

theorem ChildDel.post {a b c : World} {o : Oid} {d : Option Dest}
    (h : ChildDel a b o d) (h' : ChSame b c) : ChildDel a c o d := by
  cases d with
  | none => exact h
  | some d =>
    cases d with
    | child k => exact ⟨h.1, fun p => by rw [h' p, h.2 p]⟩
    | nodespace k => exact ChSame.trans h h'

/-- The outcome of a deletion. -/
structure DelOut (al : Option Aliaser) (bs : List Bhv) (o : Oid) (k : Key) (w : World)
    (x : Except Exc Unit × World) : Prop where
  wf : WF x.2
  cls : ∀ p, (x.2.objs p).cls = (w.objs p).cls
  loc : LocSame w x.2
  ok : x.1 = .ok () → ChildDel w x.2 o (dest al bs k)
  err : ∀ e, x.1 = .error e → ChSame w x.2 ∨
    (Bhv.attributesLifecycle ∈ bs ∧ e.isAttr = true ∧ ChildDel w x.2 o (dest al bs k))

theorem DelOut.of_pre {al : Option Aliaser} {bs bs' : List Bhv} {o : Oid} {k k' : Key}
    {w w1 : World} {x : Except Exc Unit × World} (h : DelOut al bs' o k' w1 x)
    (hc : ∀ p, (w1.objs p).cls = (w.objs p).cls) (hl : LocSame w w1) (hs : ChSame w w1)
    (hd : dest al bs k = dest al bs' k')
    (hm : Bhv.attributesLifecycle ∈ bs' → Bhv.attributesLifecycle ∈ bs) :
    DelOut al bs o k w x where
  wf := h.wf
  cls p := (h.cls p).trans (hc p)
  loc := hl.trans h.loc
  ok e := hd ▸ (h.ok e).pre hs
  err e he := by
    rcases h.err e he with h1 | ⟨h1, h2, h3⟩
    · exact .inl (hs.trans h1)
    · exact .inr ⟨hm h1, h2, hd ▸ h3.pre hs⟩

theorem DelOut.fail {al : Option Aliaser} {bs : List Bhv} {o : Oid} {k : Key}
    {w w1 : World} (e : Exc) (hw : WF w1)
    (hc : ∀ p, (w1.objs p).cls = (w.objs p).cls) (hl : LocSame w w1) (hs : ChSame w w1) :
    DelOut al bs o k w (.error e, w1) where
  wf := hw
  cls := hc
  loc := hl
  ok h := by cases h
  err _ _ := .inl hs

theorem DelOut.of_post {al : Option Aliaser} {bs : List Bhv} {o : Oid} {k : Key}
    {w w1 w2 : World} (h : DelOut al bs o k w (.ok (), w1)) (hw : WF w2)
    (hc : ∀ p, (w2.objs p).cls = (w1.objs p).cls) (hl : LocSame w1 w2) (hs : ChSame w1 w2) :
    DelOut al bs o k w (.ok (), w2) where
  wf := hw
  cls p := (hc p).trans (h.cls p)
  loc := h.loc.trans hl
  ok _ := (h.ok rfl).post hs
  err e he := by cases he

theorem delEnd_out (E : Env) (o : Oid) (k : Key) {w : World} (hw : WF w)
    (al : Option Aliaser) : DelOut al [] o k w (delEnd E o k w) := by
  unfold delEnd
  simp only [M.bind_apply, M.getW_apply]
  split
  · exact DelOut.fail _ hw (fun _ => rfl) (LocSame.refl w) (ChSame.refl w)
  · split
    · have hq := storageRef_quiet E o w hw
      simp only [M.bind_apply]
      rcases h : storageRef E o w with ⟨e | r, w1⟩
      · rw [h] at hq
        exact DelOut.fail _ hq.1 (fun p => (hq.2.obj p).cls) hq.2.loc hq.2.children
      · rw [h] at hq
        have hr := storageRef_ok h
        simp only [M.getW_apply]
        split
        · rename_i hhas
          refine ⟨hq.1.setStore r (Od.nodup_keys_del (hq.1.sNd r) k), fun p => (hq.2.obj p).cls,
            hq.2.loc, fun _ => ⟨?_, ?_⟩, fun e he => by cases he⟩
          · rw [← hq.2.children o, children_eq hr]; exact (Od.has_iff _ _).mp hhas
          · intro p
            simp only [M.modifyW_apply]
            rw [children_setStore hq.1 hr, ← hq.2.children o, children_eq hr, hq.2.children p]
        · exact DelOut.fail _ hq.1 (fun p => (hq.2.obj p).cls) hq.2.loc hq.2.children
    · exact DelOut.fail _ hw (fun _ => rfl) (LocSame.refl w) (ChSame.refl w)

theorem unalias_dest {E : Env} {o : Oid} {w : World} {k u : Key} (r : List Bhv)
    (hu : (unaliasKey E o k w).1 = .ok u) :
    dest (clsOf E w o).aliaser (.alias :: r) k = dest (clsOf E w o).aliaser r u := by
  unfold unaliasKey at hu
  cases hal : (clsOf E w o).aliaser with
  | none => rw [hal] at hu; simp at hu; subst hu; rfl
  | some a =>
    rw [hal] at hu
    simp only at hu
    simp only [dest]
    split at hu
    · rename_i ht
      simp only at hu
      simp [ht, hu]
    · rename_i ht
      injection hu with hu
      subst hu
      simp [ht]

/-- The only exception of `notifyModified` is `AttributeError`. -/
theorem notifyModified_res (E : Env) (o : Oid) (w : World) :
    (notifyModified E o w).1 = .error .attr ∨ (notifyModified E o w).1 = .ok () := by
  unfold notifyModified
  simp only [M.bind_apply, M.getW_apply]
  cases (w.objs o).parent with
  | none => exact .inl rfl
  | some p =>
    simp only
    by_cases hl : (bhvsOf E w p).contains .lifecycle = true
    · simp only [hl, if_true]
      by_cases hs : (w.objs p).suppress = true
      · simp only [hs, if_true]; exact .inr rfl
      · simp only [hs, if_false, Bool.false_eq_true]; exact .inr rfl
    · simp only [hl, if_false, Bool.false_eq_true]; exact .inl rfl

/-- Without `Fallback` and `ChildFactory` in the class, reading an item is quiet in every program. -/
theorem getitem_quiet_at {E : Env} {o : Oid} {k : Key} {w : World}
    (h : NoFactory E ∨ Bhv.childFactory ∉ (clsOf E w o).bhvs ∧ Bhv.fallback ∉ (clsOf E w o).bhvs) :
    Quiet w (getitem E o k w).2 := by
  rcases h with h | ⟨h1, h2⟩
  · exact getitem_quiet h o k w
  · exact getPipe_quiet_of E (clsOf E w o).bhvs (fun h => absurd h h2) h1 o k w

/-- Deleting from nodes of the class reads only what is there: behaviors that read the item before it is
deleted come without factories and, if there are factories in the program, without fallbacks. -/
structure DelReads (E : Env) (c : ClassDef) : Prop where
  reference : Bhv.reference ∈ c.bhvs → NoFactory E
  lifecycle : Bhv.lifecycle ∈ c.bhvs → NoFactory E ∨ Bhv.childFactory ∉ c.bhvs ∧ Bhv.fallback ∉ c.bhvs

theorem NoFactory.delReads {E : Env} (h : NoFactory E) (c : ClassDef) : DelReads E c :=
  ⟨fun _ => h, fun _ => .inl h⟩

theorem delPipe_out {E : Env} (bs : List Bhv) (o : Oid) (k : Key) {w : World}
    (hR : Bhv.reference ∈ bs → NoFactory E)
    (hL : Bhv.lifecycle ∈ bs → NoFactory E ∨
      Bhv.childFactory ∉ (clsOf E w o).bhvs ∧ Bhv.fallback ∉ (clsOf E w o).bhvs)
    (hw : WF w) (al : Option Aliaser) (hal : al = (clsOf E w o).aliaser) :
    DelOut al bs o k w (delPipe E bs o k w) := by
  induction bs generalizing k w with
  | nil => exact delEnd_out E o k hw al
  | cons b r ih =>
    have hal' : ∀ {w1 : World}, (∀ p, (w1.objs p).cls = (w.objs p).cls) →
        al = (clsOf E w1 o).aliaser := by
      intro w1 h; unfold clsOf; rw [h o]; exact hal
    have hmem : Bhv.attributesLifecycle ∈ r → Bhv.attributesLifecycle ∈ b :: r :=
      List.mem_cons_of_mem _
    replace ih := fun (k : Key) {w1 : World} (hw1 : WF w1) (hc : ∀ p, (w1.objs p).cls = (w.objs p).cls) =>
      ih k (w := w1) (fun h => hR (List.mem_cons_of_mem _ h))
        (fun h => by
          rw [show clsOf E w1 o = clsOf E w o from congrArg E.cls (hc o)]
          exact hL (List.mem_cons_of_mem _ h)) hw1 (hal' hc)
    cases b
    case nodespaces =>
      simp only [delPipe, nodespacesDel]
      split
      · rename_i s
        by_cases hres : reserved s = true
        · have hR := (reserved_iff s).mp hres
          simp only [hres, if_true]
          have hq := nodespacesRef_quiet o w hw
          simp only [M.bind_apply]
          rcases h : nodespacesRef o w with ⟨e | rr, w1⟩
          · rw [h] at hq
            exact DelOut.fail _ hq.1 (fun p => (hq.2.obj p).cls) hq.2.loc hq.2.children
          · rw [h] at hq
            simp only [M.getW_apply]
            split
            · refine ⟨hq.1.setNspace rr (Od.nodup_keys_del (hq.1.nNd rr) _),
                fun p => (hq.2.obj p).cls, hq.2.loc, fun _ => ?_, fun e he => by cases he⟩
              simp only [dest, hR, if_true]
              exact hq.2.children
            · exact DelOut.fail _ hq.1 (fun p => (hq.2.obj p).cls) hq.2.loc hq.2.children
        · have hR : ¬ Reserved s := fun h => hres ((reserved_iff s).mpr h)
          simp only [hres, if_false, Bool.false_eq_true]
          exact (ih _ hw fun _ => rfl).of_pre (fun _ => rfl) (LocSame.refl w) (ChSame.refl w)
            (by simp [dest, hR]) hmem
      · exact DelOut.fail _ hw (fun _ => rfl) (LocSame.refl w) (ChSame.refl w)
    case reference =>
      simp only [delPipe, referenceDel, M.bind_apply]
      have hE := hR List.mem_cons_self
      have hq := getitem_quiet hE o k w hw
      revert hq
      generalize getitem E o k w = x
      intro hq
      rcases x with ⟨e | v, w1⟩
      · exact DelOut.fail _ hq.1 (fun p => (hq.2.obj p).cls) hq.2.loc hq.2.children
      · simp only
        have hu := chc_unindex hE o v w1 hq.1
        revert hu
        generalize referenceUnindex E o v w1 = y
        intro hu
        have hcls : ∀ p, (y.2.objs p).cls = (w.objs p).cls :=
          fun p => (hu.2.2.1 p).trans (hq.2.obj p).cls
        have hloc := hq.2.loc.trans hu.2.2.2
        have hch : ChSame w y.2 := ChSame.trans hq.2.children hu.2.1
        rcases y with ⟨e | u, w2⟩
        · exact DelOut.fail _ hu.1 hcls hloc hch
        · exact (ih k hu.1 hcls).of_pre hcls hloc hch rfl hmem
    case lifecycle =>
      simp only [delPipe, lifecycleDel, M.bind_apply]
      have hq := getitem_quiet_at (k := k) (hL List.mem_cons_self) hw
      revert hq
      generalize getitem E o k w = x
      intro hq
      rcases x with ⟨e | v, w1⟩
      · exact DelOut.fail _ hq.1 (fun p => (hq.2.obj p).cls) hq.2.loc hq.2.children
      · simp only
        have hcls : ∀ p, (w1.objs p).cls = (w.objs p).cls := fun p => (hq.2.obj p).cls
        have h1 := (ih k hq.1 hcls).of_pre (bs := .lifecycle :: r) (k := k) hcls hq.2.loc
          hq.2.children rfl hmem
        revert h1
        generalize delPipe E r o k w1 = x
        intro h1
        rcases x with ⟨e | u, w3⟩
        · exact h1
        · simp only [getO_apply]
          split
          · exact h1
          · exact h1.of_post (h1.wf.setLog _) (fun _ => rfl) (fun _ => rfl) (fun _ => rfl)
    case attributesLifecycle =>
      simp only [delPipe, M.bind_apply]
      have h1 := (ih k hw fun _ => rfl).of_pre (bs := .attributesLifecycle :: r) (k := k) (fun _ => rfl)
        (LocSame.refl w) (ChSame.refl w) rfl hmem
      revert h1
      generalize delPipe E r o k w = x
      intro h1
      rcases x with ⟨e | u, w3⟩
      · exact h1
      · simp only
        have cn := pres_notifyModified (E := E) chc_pre (fun _ => chc_notify _) o w3 h1.wf
        have hex := notifyModified_res E o w3
        revert cn hex
        generalize notifyModified E o w3 = y
        intro cn hex
        rcases y with ⟨e | u', w4⟩
        · refine ⟨cn.1, fun p => (cn.2.2.1 p).trans (h1.cls p), h1.loc.trans cn.2.2.2,
            (fun h => nomatch h), fun e' he' => ?_⟩
          injection he' with he'
          subst he'
          rcases hex with h2 | h2
          · injection h2 with h2
            subst h2
            exact .inr ⟨List.mem_cons_self, rfl, (h1.ok rfl).post cn.2.1⟩
          · cases h2
        · exact h1.of_post cn.1 cn.2.2.1 cn.2.2.2 cn.2.1
    case cache =>
      simp only [delPipe, M.bind_apply]
      have hq := cacheDrop_quiet o k w hw
      revert hq
      generalize cacheDrop o k w = x
      intro hq
      have hcls : ∀ p, (x.2.objs p).cls = (w.objs p).cls := fun p => (hq.2.obj p).cls
      rcases x with ⟨e | u, w1⟩
      · exact DelOut.fail _ hq.1 hcls hq.2.loc hq.2.children
      · exact (ih k hq.1 hcls).of_pre hcls hq.2.loc hq.2.children rfl hmem
    case alias =>
      simp only [delPipe, M.bind_apply]
      have hid := unaliasKey_id E o k w
      have hd := fun u => unalias_dest (E := E) (o := o) (w := w) (k := k) (u := u) r
      rw [← hal] at hd
      revert hid hd
      generalize unaliasKey E o k w = x
      intro hid hd
      rcases x with ⟨e | u, w1⟩
      · simp only at hid; subst hid
        exact DelOut.fail _ hw (fun _ => rfl) (LocSame.refl _) (ChSame.refl _)
      · simp only at hid; subst hid
        have h1 := (ih u hw fun _ => rfl).of_pre (bs := .alias :: r) (k := k) (fun _ => rfl)
          (LocSame.refl w1) (ChSame.refl w1) (hd u rfl) hmem
        simp only [rekey, M.catchIf_apply]
        revert h1
        generalize delPipe E r o u w1 = x
        intro h1
        rcases x with ⟨e | u', w3⟩
        · simp only
          split
          · rename_i hek
            rcases h1.err e rfl with h2 | ⟨h2, h3, h4⟩
            · exact ⟨h1.wf, h1.cls, h1.loc, fun h => by simp at h, fun e' he' => .inl h2⟩
            · cases e <;> simp [Exc.isAttr, Exc.isKey] at h3 hek
          · exact h1
        · exact h1
    all_goals exact (ih k hw fun _ => rfl).of_pre (fun _ => rfl) (LocSame.refl w) (ChSame.refl w) rfl hmem

theorem delitem_out_of {E : Env} {o : Oid} (k : Key) {w : World} (h : DelReads E (clsOf E w o)) (hw : WF w) :
    DelOut (clsOf E w o).aliaser (bhvsOf E w o) o k w (delitem E o k w) :=
  delPipe_out _ o k h.reference h.lifecycle hw _ rfl

theorem delitem_out {E : Env} (hE : NoFactory E) (o : Oid) (k : Key) {w : World} (hw : WF w) :
    DelOut (clsOf E w o).aliaser (bhvsOf E w o) o k w (delitem E o k w) :=
  delitem_out_of k (hE.delReads _) hw

end Verif
