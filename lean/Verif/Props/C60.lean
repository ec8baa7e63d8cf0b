import Verif.Lemmas.Copy
import Verif.Lemmas.Groups
import Verif.Lemmas.Encode
import Verif.Lemmas.Shape
import Verif.Sample

/-!
# C60: deep copies are isomorphic and disjoint

`deepcopy` yields a tree of the same shape and names made of new objects only; no later operation on
the copy changes the original and vice versa.
-/

namespace Verif

variable {E : Env}

/-- Everything a node is connected with: its parent, its children, its attributes and other
nodespaces, and what these are connected with. -/
inductive Linked (w : World) (o : Oid) : Oid → Prop
  | self : Linked w o o
  | parent {p q : Oid} : Linked w o p → (w.objs p).parent = some q → Linked w o q
  | child {p q : Oid} {k : Key} : Linked w o p → Contains w p k q → Linked w o q
  | space {p q : Oid} {k : Key} : Linked w o p → (w.nmap p).val k = some (.node q) → Linked w o q

theorem contents_children (w : World) (o : Oid) : contents w.stores (w.objs o).storage = w.children o := by
  unfold contents World.children
  split <;> rename_i h <;> rw [h]

theorem mem_reach_child {w : World} {p q : Oid} {k : Key} (h : Contains w p k q) : q ∈ w.next p := by
  refine mem_next.mpr (.inr (.inl ⟨k, ?_⟩))
  rw [contents_children]
  exact Od.get?_some_mem h

theorem mem_reach_space {w : World} {p q : Oid} {k : Key} (h : (w.nmap p).val k = some (.node q)) :
    q ∈ w.next p ∨ q = p := by
  have h : (w.nsview p).get? k = some (.node q) := h
  unfold World.nsview at h
  cases hn : (w.objs p).nodespaces with
  | none =>
    rw [hn] at h
    have := Od.get?_some_mem h
    rw [List.mem_singleton] at this
    injection this with _ this
    injection this with this
    exact .inr this
  | some r =>
    rw [hn] at h
    exact .inl (mem_next.mpr (.inr (.inr (.inr (.inl ⟨k, by rw [hn]; exact Od.get?_some_mem h⟩)))))

theorem Linked.mem {w : World} {o p : Oid} {L : List Oid} (hL : Complete w L) (ho : o ∈ L) (h : Linked w o p) :
    p ∈ L := by
  induction h with
  | self => exact ho
  | parent _ hp ih => exact hL.next _ ih _ (mem_next.mpr (.inl hp))
  | child _ hc ih => exact hL.next _ ih _ (mem_reach_child hc)
  | space _ hc ih =>
    rcases mem_reach_space hc with h | h
    · exact hL.next _ ih _ h
    · exact h ▸ ih

theorem moveVals_itemsBy (f : Oid → Oid) (d : Od Key Val) : moveVals f d = itemsBy f d := by
  unfold moveVals itemsBy
  refine List.map_congr_left fun kv _ => ?_
  cases kv.2 <;> rfl

/-- A `deepcopy` that is only a `copy.deepcopy`. -/
theorem deepcopy_plain {w w' : World} {o c : Oid} (hu : Bhv.uuidAware ∉ (clsOf E w o).bhvs)
    (h : deepcopy E o w = (.ok c, w')) : deepEnd E o w = (.ok c, w') := by
  unfold deepcopy at h
  split at h
  · have : ∀ bs, Bhv.uuidAware ∉ bs → deepPipe E bs o = deepEnd E o := by
      intro bs hb
      induction bs with
      | nil => rfl
      | cons b r ih =>
        have := ih fun hr => hb (List.mem_cons_of_mem _ hr)
        cases b
        case uuidAware => exact absurd List.mem_cons_self hb
        all_goals exact this
    have h : deepPipe E (clsOf E w o).bhvs o w = (.ok c, w') := h
    rw [this _ hu] at h
    exact h
  · cases h

theorem deepEnd_ok {w w' : World} {o c : Oid} (h : deepEnd E o w = (.ok c, w')) :
    c = w.moved (w.reach o) o ∧ w' = w.deep (w.reach o) := by
  unfold deepEnd at h
  split at h
  · cases h
  · injection h with h1 h2
    injection h1 with h1
    exact ⟨h1.symm, h2.symm⟩

theorem unchanged_deep {w : World} (hw : WF w) {v : World}
    (ho : ∀ p, p < w.nobj → v.objs p = w.objs p) (hs : ∀ r, r < w.nstore → v.stores r = w.stores r)
    (hc : ∀ r, r < w.ncache → v.caches r = w.caches r) (hn : ∀ r, r < w.nnspace → v.nspaces r = w.nspaces r)
    (hi : ∀ r, r < w.nidx → v.idxs r = w.idxs r) {p : Oid} (hp : p < w.nobj) : Unchanged w v p where
  obj := ho p hp
  children := by
    unfold World.children
    rw [ho p hp]
    split
    · rfl
    · rename_i r hr; exact hs r (hw.sLt hr)
  cached := by
    unfold World.cached
    rw [ho p hp]
    split
    · rfl
    · rename_i r hr; exact hc r (hw.cLt hr)
  nsview := by
    unfold World.nsview
    rw [ho p hp]
    split
    · rfl
    · rename_i r hr; exact hn r (hw.nLt hr)
  indexed := by
    unfold World.indexed
    rw [ho p hp]
    split
    · rfl
    · rename_i r hr; exact hi r (hw.iLt hr)

theorem Inv.unchanged_old {w v : World} {L : List Oid} (hw : WF w) (hI : Inv (protOld w L) v) {p : Oid}
    (hp : p < w.nobj) : Unchanged w v p :=
  unchanged_deep hw (fun p hp => (hI.obj p hp).trans (deep_old hp))
    (fun r hr => (hI.stores r hr).trans (moveDicts_old hr)) (fun r hr => (hI.caches r hr).trans (moveDicts_old hr))
    (fun r hr => (hI.nspaces r hr).trans (moveDicts_old hr)) (fun r hr => (hI.idxs r hr).trans (moveDicts_old hr)) hp

theorem copyOf_deep {w : World} (hw : WF w) {L : List Oid} (hL : Complete w L) {p : Oid} (hp : p ∈ L) :
    CopyOf (w.moved L) w (w.deep L) p where
  cls := by rw [deep_moved hp]; rfl
  name := by rw [deep_moved hp]; rfl
  parent := by rw [deep_moved hp]; rfl
  children := by
    rw [show ((w.deep L).omap _).items = _ from toMap_items ((hw.deep hL).children_nodup _),
      show (w.omap p).items = _ from toMap_items (hw.children_nodup p), children_moved hp, moveVals_itemsBy]
  nodespaces := by
    rw [show ((w.deep L).nmap _).items = _ from toMap_items ((hw.deep hL).nsview_nodup _),
      show (w.nmap p).items = _ from toMap_items (hw.nsview_nodup p), nsview_moved hp, moveVals_itemsBy]
  cached := by rw [cached_moved hp, moveVals_itemsBy]
  indexed := by rw [indexed_moved hp]; rfl
  fallbackKey := by rw [deep_moved hp]; rfl

/-- The copy is like the original, in new objects, one for every object of the original. -/
theorem c60_isomorphic_partial {w w' : World} {o c : Oid} (hw : WF w) (hs : Intact w) (ho : o < w.nobj)
    (hu : Bhv.uuidAware ∉ (clsOf E w o).bhvs) (h : deepcopy E o w = (.ok c, w')) :
    ∃ f : Oid → Oid, f o = c ∧ (∀ p, Linked w o p → CopyOf f w w' p ∧ w.nobj ≤ f p ∧ f p < w'.nobj ∧
        (w'.objs (f p)).uuid = (w.objs p).uuid) ∧
      (∀ p q, Linked w o p → Linked w o q → f p = f q → p = q) ∧
      (∀ p, p < w.nobj → Unchanged w w' p) ∧ w'.log = w.log := by
  obtain ⟨rfl, rfl⟩ := deepEnd_ok (deepcopy_plain hu h)
  have hL := (reached ho).complete hs
  have hm : ∀ p, Linked w o p → p ∈ w.reach o := fun p hp => hp.mem hL (reached ho).self
  exact ⟨w.moved (w.reach o), rfl, fun p hp => ⟨copyOf_deep hw hL (hm p hp), (moved_lt (hm p hp)).1,
    (moved_lt (hm p hp)).2, by rw [deep_moved (hm p hp)]; rfl⟩,
    fun p q hp hq e => moved_inj (hm p hp) (hm q hq) e, fun p hp => (inv_old hw hL).unchanged_old hw hp, rfl⟩

/-! ### Trees -/

theorem Linked.attrs {w : World} {o p a : Oid} (h : Linked w o p) (ha : (w.nmap p).val attrsKey = some (.node a)) :
    Linked w o a := h.space ha

theorem get?_itemsBy (f : Oid → Oid) (d : Od Key Val) (k : Key) :
    Od.get? (itemsBy f d) k = (Od.get? d k).map (Val.by f) := by
  induction d with
  | nil => rfl
  | cons a r ih =>
    show (if a.1 = k then _ else _) = (if a.1 = k then _ else _ : Option Val).map _
    split
    · rfl
    · exact ih

section shapes
variable {w w' : World} {o : Oid} {f : Oid → Oid}

theorem HasAttrs.copied (hw : WF w) (hw' : WF w') (hf : ∀ p, Linked w o p → CopyOf f w w' p ∧ w.nobj ≤ f p ∧ f p < w'.nobj)
    {P : Oid → Prop} {p : Oid} {at' : List (Str × Data)} (hp : Linked w o p) (h : HasAttrs E P w p at') :
    HasAttrs E (fun q => w.nobj ≤ q ∧ q < w'.nobj) w' (f p) at' := by
  have hn : (w'.nmap (f p)).val attrsKey = ((w.nmap p).val attrsKey).map (Val.by f) := by
    have h1 := (hf p hp).1.nodespaces
    rw [show (w'.nmap (f p)).items = _ from toMap_items (hw'.nsview_nodup _),
      show (w.nmap p).items = _ from toMap_items (hw.nsview_nodup p)] at h1
    show (w'.nsview (f p)).get? attrsKey = ((w.nsview p).get? attrsKey).map _
    rw [h1, get?_itemsBy]
  unfold HasAttrs at h ⊢
  rw [hn]
  cases ha : (w.nmap p).val attrsKey with
  | none => rw [ha] at h; exact h
  | some v =>
    rw [ha] at h
    cases v with
    | data d => exact h
    | node a =>
      obtain ⟨_, hc, hi⟩ := h
      have hla := hp.attrs ha
      refine ⟨(hf a hla).2, ?_, ?_⟩
      · rw [(hf a hla).1.cls, hc]
        show (E.cls (w.objs p).cls).attrsFactory = (E.cls (w'.objs (f p)).cls).attrsFactory
        rw [(hf p hp).1.cls]
      · rw [(hf a hla).1.children, hi]
        unfold itemsBy
        rw [List.map_map]
        rfl

mutual
theorem Shape.copied (hw : WF w) (hw' : WF w') (hf : ∀ p, Linked w o p → CopyOf f w w' p ∧ w.nobj ≤ f p ∧ f p < w'.nobj)
    {P : Oid → Prop} : ∀ {t : NTree} {p : Oid}, Linked w o p → Shape E P w t p →
      Shape E (fun q => w.nobj ≤ q ∧ q < w'.nobj) w' t (f p)
  | .mk c name at' kids, p, hp, h => by
    obtain ⟨_, hc, hn, ha, hk⟩ := h
    refine ⟨(hf p hp).2, (hf p hp).1.cls.trans hc, (hf p hp).1.name.trans hn, ?_, ?_⟩
    · split
      · rename_i hb
        rw [if_pos hb] at ha
        exact ha.copied hw hw' hf hp
      · rename_i hb
        rw [if_neg hb] at ha
        exact ha
    · rw [(hf p hp).1.children]
      exact Shapes.copied hw hw' hf hp (fun kv hkv => by
        rw [show (w.omap p).items = _ from toMap_items (hw.children_nodup p)] at hkv
        exact Od.get?_of_mem (hw.children_nodup p) hkv) hk
theorem Shapes.copied (hw : WF w) (hw' : WF w') (hf : ∀ p, Linked w o p → CopyOf f w w' p ∧ w.nobj ≤ f p ∧ f p < w'.nobj)
    {P : Oid → Prop} : ∀ {ts : List NTree} {l : List (Key × Val)} {p : Oid}, Linked w o p →
      (∀ kv ∈ l, (w.omap p).val kv.1 = some kv.2) → Shapes E P w p ts l →
      Shapes E (fun q => w.nobj ≤ q ∧ q < w'.nobj) w' (f p) ts (itemsBy f l)
  | [], l, p, hp, _, h => by
    have h : l = [] := h
    subst h
    rfl
  | t :: ts, l, p, hp, hl, h => by
    obtain ⟨c, r, rfl, hpar, hs, hr⟩ := h
    have hc : Linked w o c := hp.child (hl _ List.mem_cons_self)
    refine ⟨f c, itemsBy f r, rfl, ?_, Shape.copied hw hw' hf hc hs,
      Shapes.copied hw hw' hf hp (fun kv hkv => hl kv (List.mem_cons_of_mem _ hkv)) hr⟩
    rw [(hf c hc).1.parent, hpar]
    rfl
end
end shapes

theorem deepcopy_wf {w w' : World} {o c : Oid} (hw : WF w) (hs : Intact w) (ho : o < w.nobj)
    (hu : Bhv.uuidAware ∉ (clsOf E w o).bhvs) (h : deepcopy E o w = (.ok c, w')) : WF w' := by
  obtain ⟨rfl, rfl⟩ := deepEnd_ok (deepcopy_plain hu h)
  exact hw.deep ((reached ho).complete hs)

/-- The copy of a tree is a tree of the same classes, names, attributes and children in the same
order, made of new objects only. -/
theorem c60_shape_partial {w w' : World} {o c : Oid} {P : Oid → Prop} {t : NTree} (hw : WF w) (hs : Intact w)
    (ho : o < w.nobj) (hu : Bhv.uuidAware ∉ (clsOf E w o).bhvs) (hsh : Shape E P w t o)
    (h : deepcopy E o w = (.ok c, w')) : Shape E (fun q => w.nobj ≤ q ∧ q < w'.nobj) w' t c := by
  obtain ⟨f, rfl, hf, _⟩ := c60_isomorphic_partial hw hs ho hu h
  exact hsh.copied hw (deepcopy_wf hw hs ho hu h) (fun p hp => ⟨(hf p hp).1, (hf p hp).2.1, (hf p hp).2.2.1⟩) .self

/-! ### Independence -/

section sep
variable {Γ : Prot} {n : Nat}

theorem sep_assignUuid {ov : Bool} {c : Oid} (hc : Good Γ n c) : Sep Γ n (assignUuid E ov c) tt := by
  refine sep_getW fun w hw hn => sep_ite (sep_ite ?_ (sep_pure fun _ _ => trivial)) (sep_pure fun _ _ => trivial)
  refine sep_bind sep_freshUuid fun u n1 h1 _ => sep_ite (sep_setUuidRef (by good)) ?_
  exact sep_modO (by good) fun _ _ _ h => { h with }

theorem sep_setUuidFor {ov rc : Bool} (d : Nat) {v : Val} (hv : GoodV Γ n v) :
    Sep Γ n (setUuidFor E ov rc d v) tt := by
  induction d generalizing n v with
  | zero => exact sep_raise
  | succ d ih =>
    cases v with
    | node c =>
      have hc := hv.node
      refine sep_bind (sep_assignUuid hc) fun _ n1 h1 _ => sep_ite ?_ (sep_pure fun _ _ => trivial)
      exact sep_bind (sep_mvalues (by good)) fun vs n2 h2 hvs => sep_forU _ fun v hv n' hn' =>
        ih ((hvs v hv).mono hn')
    | data x =>
      cases x
      case dict kvs =>
        exact sep_ite (sep_forU _ fun kv _ n' _ => ih (goodV_data n' kv.2)) (sep_pure fun _ _ => trivial)
      all_goals exact sep_ite sep_raise (sep_pure fun _ _ => trivial)
end sep

/-- `deepcopy` respects the original, whatever it raises or returns. -/
theorem deepPipe_inv {w : World} {o : Oid} (hw : WF w) (hL : Complete w (w.reach o)) (ho : o ∈ w.reach o) (bs : List Bhv) :
    (∃ e, deepPipe E bs o w = (.error e, w)) ∨
    (Inv (protOld w (w.reach o)) (deepPipe E bs o w).2 ∧ (w.deep (w.reach o)).nobj ≤ (deepPipe E bs o w).2.nobj ∧
      ∀ c, (deepPipe E bs o w).1 = .ok c → c = w.moved (w.reach o) o) := by
  induction bs with
  | nil =>
    simp only [deepPipe, deepEnd]
    split
    · exact .inl ⟨_, rfl⟩
    · exact .inr ⟨inv_old hw hL, Nat.le_refl _, fun c hc => by injection hc with hc; exact hc.symm⟩
  | cons b r ih =>
    cases b
    case uuidAware =>
      rcases ih with ⟨e, he⟩ | ⟨hI, hn, hc⟩
      · exact .inl ⟨e, by simp only [deepPipe, M.bind_apply, he]⟩
      · refine .inr ?_
        simp only [deepPipe, M.bind_apply]
        rcases hx : deepPipe E r o w with ⟨e | c, w1⟩
        · rw [hx] at hI hn hc
          exact ⟨hI, hn, nofun⟩
        · rw [hx] at hI hn hc
          have hc := hc c rfl
          subst hc
          have hs := sep_setUuidFor (E := E) (ov := true) (rc := (clsOf E w1 o).overwriteRecursiv) (w1.nobj + 1)
            (n := (w.deep (w.reach o)).nobj) (good_moved (w := w) ho).val w1 hI hn
          simp only [M.getW_apply]
          rcases hy : setUuidFor E true (clsOf E w1 o).overwriteRecursiv (w1.nobj + 1)
            (.node (w.moved (w.reach o) o)) w1 with ⟨e | u, w2⟩
          · rw [hy] at hs
            exact ⟨hs.1, Nat.le_trans hn hs.2.1, nofun⟩
          · rw [hy] at hs
            exact ⟨hs.1, Nat.le_trans hn hs.2.1, fun c hc => by injection hc with hc; exact hc.symm⟩
    all_goals exact ih

theorem deepcopy_inv {w w' : World} {o : Oid} {x : Except Exc Oid} (hw : WF w) (hs : Intact w) (ho : o < w.nobj)
    (h : deepcopy E o w = (x, w')) :
    ((∃ e, x = .error e) ∧ w' = w) ∨ (Inv (protOld w (w.reach o)) w' ∧ (w.deep (w.reach o)).nobj ≤ w'.nobj ∧
      ∀ c, x = .ok c → c = w.moved (w.reach o) o) := by
  unfold deepcopy at h
  split at h
  · rcases deepPipe_inv (E := E) hw ((reached ho).complete hs) (reached ho).self (bhvsOf E w o) with ⟨e, he⟩ | hI
    · rw [he] at h
      injection h with h1 h2
      exact .inl ⟨⟨e, h1.symm⟩, h2.symm⟩
    · rw [h] at hI
      exact .inr hI
  · injection h with h1 h2
    exact .inl ⟨⟨_, h1.symm⟩, h2.symm⟩

/-- Where `deepcopy` raises, nothing of what was there has changed. -/
theorem c60_raised {w w' : World} {o : Oid} {e : Exc} (hw : WF w) (hs : Intact w) (ho : o < w.nobj)
    (h : deepcopy E o w = (.error e, w')) : ∀ p, p < w.nobj → Unchanged w w' p := by
  rcases deepcopy_inv hw hs ho h with ⟨_, rfl⟩ | ⟨hI, _⟩
  · exact fun p _ => ⟨rfl, rfl, rfl, rfl, rfl⟩
  · exact fun p hp => hI.unchanged_old hw hp

/-- `deepcopy` of any class changes nothing of what was there, and afterwards no history that is given
only other nodes — those of the copy and new ones — does, whatever it does and whether its operations
return or raise. -/
theorem c60_original_unchanged {w w' : World} {o c : Oid} {ops : List Op} (hw : WF w)
    (hs : Intact w) (ho : o < w.nobj) (h : deepcopy E o w = (.ok c, w'))
    (hu : Uses E (fun p => w.nobj ≤ p) ops w') :
    ∀ p, p < w.nobj → Unchanged w (execAll E ops w').2 p := by
  rcases deepcopy_inv hw hs ho h with ⟨⟨e, he⟩, _⟩ | ⟨hI, _⟩
  · cases he
  · exact fun p hp => (hI.execAll (hu.mono fun c hc => Nat.not_lt.mpr hc)).unchanged_old hw hp

/-- Whoever has only the copy cannot change the original. -/
theorem c60_copy_in_hand {w w' : World} {o c : Oid} {ops : List Op} (hw : WF w) (hs : Intact w) (ho : o < w.nobj)
    (h : deepcopy E o w = (.ok c, w')) (hh : Handles E [c] ops w') :
    ∀ p, p < w.nobj → Unchanged w (execAll E ops w').2 p := by
  rcases deepcopy_inv hw hs ho h with ⟨⟨e, he⟩, _⟩ | ⟨hI, hn, hc⟩
  · cases he
  · have hc := hc c rfl
    subst hc
    have hu := hI.handles (E := E) (ops := ops) (K := [w.moved (w.reach o) o]) (fun p hp => by
      rw [List.mem_singleton] at hp
      subst hp
      exact (good_moved (reached ho).self).mono hn) hh
    exact fun p hp => (hI.execAll hu).unchanged_old hw hp

theorem grow_setUuidFor {ov rc : Bool} (d : Nat) (v : Val) : Pres Grow (setUuidFor E ov rc d v) := by
  induction d generalizing v with
  | zero => exact pres_raise grow_pre _
  | succ d ih =>
    cases v with
    | node c =>
      refine pres_bind grow_pre ?_ fun _ => ?_
      · refine pres_bind grow_pre (fun w => grow_pre.refl w) fun w => ?_
        split
        · split
          · refine pres_bind grow_pre grow_freshUuid fun u => ?_
            split
            · exact grow_setUuidRef c _
            · exact grow_modO c _ (fun _ => rfl) (fun _ => rfl) (fun _ => rfl) (fun _ => rfl) (fun _ => rfl)
          · exact pres_pure grow_pre _
        · exact pres_pure grow_pre _
      · split
        · exact pres_bind grow_pre (grow_mvalues E c) fun vs => pres_forU grow_pre ih vs
        · exact pres_pure grow_pre _
    | data x =>
      cases x
      case dict kvs =>
        simp only [setUuidFor]
        split
        · exact pres_forU grow_pre (fun kv => ih _) kvs
        · exact pres_pure grow_pre _
      all_goals
        simp only [setUuidFor]
        split
        · exact pres_raise grow_pre _
        · exact pres_pure grow_pre _

/-- The heap after a deep copy, of any class, is as it should be. -/
theorem deepPipe_wf {w : World} {o : Oid} (hw : WF w) (hL : Complete w (w.reach o)) (bs : List Bhv) :
    WF (deepPipe E bs o w).2 := by
  induction bs with
  | nil =>
    simp only [deepPipe, deepEnd]
    split
    · exact hw
    · exact hw.deep hL
  | cons b r ih =>
    cases b
    case uuidAware =>
      simp only [deepPipe, M.bind_apply]
      rcases hx : deepPipe E r o w with ⟨e | c, w1⟩
      · rw [hx] at ih; exact ih
      · rw [hx] at ih
        have := (grow_setUuidFor (E := E) (ov := true) (rc := (clsOf E w1 o).overwriteRecursiv) (w1.nobj + 1)
          (.node c) w1).wf ih
        simp only [M.getW_apply]
        rcases hy : setUuidFor E true (clsOf E w1 o).overwriteRecursiv (w1.nobj + 1) (.node c) w1 with ⟨e | u, w2⟩
        · rw [hy] at this; exact this
        · rw [hy] at this; exact this
    all_goals exact ih

theorem deepcopy_wf_any {w : World} {o : Oid} (hw : WF w) (hs : Intact w) (ho : o < w.nobj) :
    WF (deepcopy E o w).2 := by
  unfold deepcopy
  split
  · exact deepPipe_wf hw ((reached ho).complete hs) _
  · exact hw

section fresh
variable {w v : World} {L : List Oid} (hw : WF w) (hs : Intact w) (hI : Inv (protOld w L) v)
include hw hs hI

/-- What is new neither leads to what was there nor is led to from there. -/
theorem grouped_fresh : Grouped (fun p => decide (p < w.nobj)) v := by
  have hn : w.nobj ≤ v.nobj := Nat.le_trans (Nat.le_add_right _ _) hI.nobj
  have hcase : ∀ p, p < v.nobj → p < w.nobj ∨ Good (protOld w L) v.nobj p := fun p hp =>
    Classical.or_iff_not_imp_left.mpr fun h => ⟨h, hp⟩
  have hob : ∀ p, p < w.nobj → v.objs p = w.objs p := fun p hp => (hI.obj p hp).trans (deep_old hp)
  have old : ∀ {p q}, p < w.nobj → q < w.nobj → decide (q < w.nobj) = decide (p < w.nobj) := fun hp hq => by
    rw [decide_eq_true hp, decide_eq_true hq]
  have new : ∀ {p q}, Good (protOld w L) v.nobj p → Good (protOld w L) v.nobj q →
      decide (q < w.nobj) = decide (p < w.nobj) := fun hp hq => by
    rw [decide_eq_false (show ¬ _ < w.nobj from hp.1), decide_eq_false (show ¬ _ < w.nobj from hq.1)]
  constructor
  · intro p q hp h
    rcases hcase p hp with hO | hG
    · rw [hob p hO] at h; exact old hO (hs.parent p q hO h)
    · exact new hG ((hI.refs p hG).parent q h)
  · intro p q k hp h
    rcases hcase p hp with hO | hG
    · rw [hob p hO] at h; exact old hO (hs.fixed p k q hO h)
    · exact new hG ((hI.refs p hG).fixed _ h q rfl)
  · intro p q k r hp hr h
    rcases hcase p hp with hO | hG
    · rw [hob p hO] at hr
      rw [(hI.stores r (hw.sLt hr)).trans (moveDicts_old (hw.sLt hr))] at h
      exact old hO (hs.stores r k q (hw.sLt hr) h)
    · exact new hG (hI.svals r ((hI.refs p hG).storage r hr) (hI.sLt p r hr) _ h q rfl)
  · intro p q k r hp hr h
    rcases hcase p hp with hO | hG
    · rw [hob p hO] at hr
      rw [(hI.caches r (hw.cLt hr)).trans (moveDicts_old (hw.cLt hr))] at h
      exact old hO (hs.caches r k q (hw.cLt hr) h)
    · exact new hG (hI.cvals r ((hI.refs p hG).cache r hr) (hI.cLt p r hr) _ h q rfl)
  · intro p q k r hp hr h
    rcases hcase p hp with hO | hG
    · rw [hob p hO] at hr
      rw [(hI.nspaces r (hw.nLt hr)).trans (moveDicts_old (hw.nLt hr))] at h
      exact old hO (hs.nspaces r k q (hw.nLt hr) h)
    · exact new hG (hI.nvals r ((hI.refs p hG).nodespaces r hr) (hI.nLt p r hr) _ h q rfl)
  · intro p q u r hp hr h
    rcases hcase p hp with hO | hG
    · rw [hob p hO] at hr
      rw [(hI.idxs r (hw.iLt hr)).trans (moveDicts_old (hw.iLt hr))] at h
      exact old hO (hs.idxs r u q (hw.iLt hr) h)
    · exact new hG (hI.ivals r ((hI.refs p hG).index r hr) (hI.iLt p r hr) _ h)
  · intro p q r hp hq hr hr'
    rcases hcase p hp with hO | hG <;> rcases hcase q hq with hO' | hG'
    · exact old hO' hO
    · rw [hob p hO] at hr
      exact absurd (hw.iLt hr) ((hI.refs q hG').index r hr')
    · rw [hob q hO'] at hr'
      exact absurd (hw.iLt hr') ((hI.refs p hG).index r hr)
    · exact new hG' hG

omit hw in
theorem intact_fresh : Intact v := by
  have hn : w.nobj ≤ v.nobj := Nat.le_trans (Nat.le_add_right _ _) hI.nobj
  have hob : ∀ p, p < w.nobj → v.objs p = w.objs p := fun p hp => (hI.obj p hp).trans (deep_old hp)
  exact {
    parent := fun p q hp h => by
      by_cases hO : p < w.nobj
      · rw [hob p hO] at h; exact Nat.lt_of_lt_of_le (hs.parent p q hO h) hn
      · exact ((hI.refs p ⟨hO, hp⟩).parent q h).2
    fixed := fun p k q hp h => by
      by_cases hO : p < w.nobj
      · rw [hob p hO] at h; exact Nat.lt_of_lt_of_le (hs.fixed p k q hO h) hn
      · exact ((hI.refs p ⟨hO, hp⟩).fixed _ h q rfl).2
    stores := fun r k q hr h => by
      by_cases hO : r < w.nstore
      · rw [(hI.stores r hO).trans (moveDicts_old hO)] at h; exact Nat.lt_of_lt_of_le (hs.stores r k q hO h) hn
      · exact (hI.svals r hO hr _ h q rfl).2
    caches := fun r k q hr h => by
      by_cases hO : r < w.ncache
      · rw [(hI.caches r hO).trans (moveDicts_old hO)] at h; exact Nat.lt_of_lt_of_le (hs.caches r k q hO h) hn
      · exact (hI.cvals r hO hr _ h q rfl).2
    nspaces := fun r k q hr h => by
      by_cases hO : r < w.nnspace
      · rw [(hI.nspaces r hO).trans (moveDicts_old hO)] at h; exact Nat.lt_of_lt_of_le (hs.nspaces r k q hO h) hn
      · exact (hI.nvals r hO hr _ h q rfl).2
    idxs := fun r u q hr h => by
      by_cases hO : r < w.nidx
      · rw [(hI.idxs r hO).trans (moveDicts_old hO)] at h; exact Nat.lt_of_lt_of_le (hs.idxs r u q hO h) hn
      · exact (hI.ivals r hO hr _ h).2
    storage := hI.sLt, cache := hI.cLt, nodespaces := hI.nLt, index := hI.iLt }
end fresh

/-- No history that is given only nodes of the original and nodes made later changes the copy, of
whatever classes. -/
theorem c60_copy_unchanged {w w' : World} {o c : Oid} {ops : List Op} (hw : WF w) (hs : Intact w)
    (ho : o < w.nobj) (h : deepcopy E o w = (.ok c, w'))
    (hu : Uses E (fun p => p < w.nobj ∨ w'.nobj ≤ p) ops w') :
    ∀ p, w.nobj ≤ p → p < w'.nobj → Unchanged w' (execAll E ops w').2 p := by
  have hw' := deepcopy_wf_any (E := E) hw hs ho
  rw [h] at hw'
  rcases deepcopy_inv hw hs ho h with ⟨⟨e, he⟩, _⟩ | ⟨hI, _⟩
  · cases he
  · have hg := grouped_fresh hw hs hI
    have hi := intact_fresh hs hI
    have hE := (grouped_inv (k := true) hi hg).execAll (E := E) (ops := ops) (hu.mono fun c hc hq => by
      rcases hc with h | h
      · exact hq.2 (decide_eq_true h)
      · exact absurd hq.1 (Nat.not_lt.mpr h))
    exact fun p h1 h2 => hE.unchanged_others hw' hi hg h2 (by rw [decide_eq_false (Nat.not_lt.mpr h1)]; nofun)

/-! ### A concrete tree -/

/-- A tree with attributes: `0` with children `1` and `3`, attributes `2` of `1`, `4` below `3`. -/
def c60Ops : List Op :=
  [.new 2 (.str ['r']) none, .new 2 .none none, .set 0 ka (.node 1), .attrs 1, .set 2 kc (.data (.int 7)),
   .new 2 .none none, .set 0 kb (.node 3), .new 2 .none none, .set 3 kc (.node 4)]

/-- Its shape. -/
def c60Tree : NTree :=
  .mk 2 (.str ['r']) [] [.mk 2 ka [(['c'], .int 7)] [], .mk 2 kb [] [.mk 2 kc [] []]]

theorem c60Intact : Intact (after sampleEnv c60Ops) := intact_after (by decide +kernel)

theorem c60Shape : Shape sampleEnv (fun _ => True) (after sampleEnv c60Ops) c60Tree 0 :=
  ⟨trivial, rfl, rfl, rfl, 1, _, rfl, rfl, ⟨trivial, rfl, rfl, ⟨trivial, rfl, rfl⟩, rfl⟩, 3, _, rfl, rfl,
    ⟨trivial, rfl, rfl, rfl, 4, _, rfl, rfl, ⟨trivial, rfl, rfl, rfl, rfl⟩, rfl⟩, rfl⟩

/-- Its copy: five new objects. -/
theorem c60Copy : ∃ w', deepcopy sampleEnv 0 (after sampleEnv c60Ops) = (.ok 5, w') ∧ w'.nobj = 10 :=
  ⟨_, by rfl, by rfl⟩

example : ∃ w', deepcopy sampleEnv 0 (after sampleEnv c60Ops) = (.ok 5, w') ∧
    Shape sampleEnv (fun q => 5 ≤ q ∧ q < 10) w' c60Tree 5 := by
  obtain ⟨w', h, hn⟩ := c60Copy
  have := c60_shape_partial (E := sampleEnv) (reachable_after _ _).wf c60Intact (by decide +kernel)
    (by decide +kernel) c60Shape h
  rw [hn] at this
  exact ⟨w', h, this⟩

/-- Emptying the copy and moving a node of it leaves the original as it was. -/
example : ∃ w', deepcopy sampleEnv 0 (after sampleEnv c60Ops) = (.ok 5, w') ∧
    ∀ p, p < 5 → Unchanged (after sampleEnv c60Ops)
      (execAll sampleEnv [.detach 5 kb, .set 5 kc (.node 8), .clear 5] w').2 p := by
  refine ⟨_, by rfl, c60_original_unchanged (E := sampleEnv) (o := 0) (c := 5) (reachable_after _ _).wf c60Intact
    (by decide +kernel) rfl ?_⟩
  exact (uses_of_usesB (P := fun p => decide (5 ≤ p)) (by decide +kernel)).mono fun c hc => of_decide_eq_true hc

/-- A class with `GetattrChildren`. -/
def getattrEnv : Env where
  cls _ := { bhvs := [.adopt, .getattrChildren, .defaultInit, .nodify, .odictStorage] }

/-- With `GetattrChildren`, `deepcopy` yields no tree: it raises `KeyError('__deepcopy__')`. -/
theorem c60_refuted_getattr :
    (deepcopy getattrEnv 0 (after getattrEnv [.new 0 .none none, .new 0 .none none, .set 0 ka (.node 1)])).1 =
      .error (.key (.key (.str "__deepcopy__".toList))) := rfl

/-- `deepcopy` of a node below others copies those above and beside it as well: here the copy of `3` has
a parent with two children, all of them new. -/
theorem c60_parents_copied : ∃ w', deepcopy sampleEnv 3 (after sampleEnv c60Ops) = (.ok 8, w') ∧
    (w'.objs 8).parent = some 5 ∧ (w'.omap 5).items = [(ka, .node 6), (kb, .node 8)] ∧ w'.nobj = 10 :=
  ⟨_, by rfl, by rfl, by rfl, by rfl⟩

/-- A class without `Nodify` has no `deepcopy`: `AttributeError`, and nothing happens. -/
theorem c60_no_nodify {w : World} {o : Oid} (h : Bhv.nodify ∉ (clsOf E w o).bhvs) :
    deepcopy E o w = (.error .attr, w) := by
  have h : Bhv.nodify ∉ bhvsOf E w o := h
  unfold deepcopy
  rw [if_neg fun hc => h (List.contains_iff_mem.mp hc)]

end Verif
