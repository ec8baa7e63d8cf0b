import Verif.Lemmas.FullMapping
import Verif.Lemmas.RefInv
import Verif.Spec.Copy

/-!
# The operations the tests are made of

For classes of pass-through behaviors (`holds_prims`) and for trees of `Reference` nodes
(`refHolds_prims`).
-/

namespace Verif.FullMapping

variable {E : Env} {c : ClassId} {nc : Bool} {w0 : World} {o : Oid} {L : Od Key Oid} {F : List Oid}

theorem Holds.start {w : World} (hw : WF w) (he : w.children o = []) : Holds E c nc w o [] [] w :=
  ⟨hw, fun _ _ => rfl, Nat.le_refl _, fun _ _ => rfl, fun _ _ _ => rfl, he, fun _ h => (nomatch h), fun _ h => (nomatch h),
    fun _ _ h => (nomatch h), fun _ h => (nomatch h), List.nodup_nil⟩

theorem holds_prims (hE : NoFactory E) (hd : 0 < E.depth) (hm : MapClass (E.cls c))
    (hc : TestClass (Verif.clsOf E w0 o) nc) (hmc : MapClass (Verif.clsOf E w0 o)) (ho : o < w0.nobj) :
    Prims E c nc o (Holds E c nc w0 o) where
  get := run_get hc ho id Holds.same
  miss := run_getMiss hc ho id Holds.same
  keys := run_keys hc ho id Holds.same
  values := run_values hc ho id Holds.same
  items := run_items hc ho id Holds.same
  itemsFree := run_itemsFree id Holds.same hm.concrete
  set {L F k x} hk _ hx w h := by
    obtain ⟨w', h1, h2⟩ := setitem_pt (E := E) (S := (· = o)) (w := w) (by rw [h.theCls ho]; exact hmc) h.wf (h.coh hc ho) rfl
      (k := k) (.node x) fun _ => hk
    exact ⟨w', h1, h.set hc ho hk hx h1 h2.wf (fun p => by rw [h2.children p]; simp [refuses]) h2.keep.cls h2.keep.nobj⟩
  del {L F k} hk hx w h := by
    obtain ⟨w', h1, h2⟩ := delitem_pt (E := E) (S := (· = o)) (w := w) (by rw [h.theCls ho]; exact hmc) h.wf (h.coh hc ho) rfl
      (k := k) fun _ => hk
    have hx' : k ∈ (w.children o).keys := by rw [h.children, kids_keys]; exact hx
    rw [if_pos hx'] at h1
    exact ⟨w', h1, h.del hE ho h1 h2.wf (fun p => by rw [h2.children p]; simp [hx']) h2.cls h2.nobj⟩
  new {L F} name ha w h := by
    obtain ⟨n, hn⟩ : ∃ n, E.depth = n + 1 := ⟨E.depth - 1, by omega⟩
    have hga := (grow_alloc c w).wf h.wf
    obtain ⟨w', h1, hv⟩ := initPipe_pt (E := E) (fun c' => newNodeN E n c' .none none) (E.cls c).bhvs
      (E.cls c).bhvs (fun h => nomatch hm.passes _ h) hm.passes w.nobj name none hga
    obtain ⟨wa, hwa, hal⟩ : ∃ wa, wa = (alloc c w).2 ∧ alloc c w = (.ok w.nobj, wa) := ⟨_, rfl, rfl⟩
    have heq : (alloc c w).2.objs w.nobj = { cls := c } := by simp [alloc, upd]
    have hN : newNode E c name none w = (.ok w.nobj, w') := by
      rw [← hwa] at h1
      simp only [newNode_accepts ha, hn, newNodeN, M.bind_apply, hal, h1, M.pure_apply]
    refine ⟨w.nobj, w', hN, h.new ho hN hv.nobj ?_ ?_⟩
    · rw [hv.children, World.children, heq]
    · rw [hv.cls, heq]
  named h hn hx := h.named hn _ hx
  nodup h := h.nodup
  apart h hx hy := (h.free _ hy).2.2.1 _ hx
  copy w h := ⟨_, testCopy_runs h hc ho, h.released ho⟩

/-! ### Reference -/

/-- Giving a temporary object back keeps the forest. -/
theorem forest_released {w : World} {Rs : List Oid} (hf : Forest E w Rs)
    (hw : WF { w with objs := upd w.objs w.nobj {} }) : Forest E { w with objs := upd w.objs w.nobj {} } Rs := by
  generalize hw' : ({ w with objs := upd w.objs w.nobj {} } : World) = w' at hw ⊢
  have ob : ∀ {p}, p ≠ w.nobj → w'.objs p = w.objs p := fun hp => by rw [← hw']; exact upd_other _ _ hp
  have ix : w'.idxs = w.idxs := by rw [← hw']
  have no : w'.nobj = w.nobj := by rw [← hw']
  have ch : ∀ {p}, p ≠ w.nobj → w'.children p = w.children p := fun hp => by
    simp only [World.children, ob hp]
    rw [← hw']
  have hcon : ∀ p j c, Contains w' p j c ↔ p ≠ w.nobj ∧ Contains w p j c := fun p j c => by
    show (w'.children p).get? j = _ ↔ _ ∧ (w.children p).get? j = _
    by_cases hp : p = w.nobj
    · have : w'.children p = [] := by
        rw [hp, ← hw']
        simp [World.children]
      rw [this]
      exact ⟨fun h => (nomatch h), fun h => absurd hp h.1⟩
    · rw [ch hp]
      exact ⟨fun h => ⟨hp, h⟩, fun h => h.2⟩
  have hlt : ∀ {A x}, A < w.nobj → InTree w A x → x < w.nobj := fun {A x} hA hx =>
    hx.induct (P := (· < w.nobj)) hA fun p j c _ hc _ => hf.bounds p j c hc
  have hin : ∀ {A x}, A < w.nobj → (InTree w' A x ↔ InTree w A x) := fun {A x} hA =>
    ⟨fun hx => hx.induct (P := InTree w A) (.refl A) fun p j c _ h ih => ih.child ((hcon p j c).mp h).2,
      fun hx => hx.induct (P := InTree w' A) (.refl A) fun p j c hp h ih =>
        ih.child ((hcon p j c).mpr ⟨Nat.ne_of_lt (hlt hA hp), h⟩)⟩
  have hsole : Sole w' := fun p j p' j' c h1 h2 =>
    hf.sole p j p' j' c ((hcon _ _ _).mp h1).2 ((hcon _ _ _).mp h2).2
  have hbd : ∀ p j c, Contains w' p j c → c < w'.nobj := fun p j c h => by
    rw [no]; exact hf.bounds p j c ((hcon _ _ _).mp h).2
  have hAlt : ∀ A ∈ Rs, A < w.nobj := fun A hA => by
    obtain ⟨a, ha⟩ := hf.live A hA
    exact ha.tree.bound
  have back : ∀ {A x}, A ∈ Rs → InTree w' A x → InTree w A x ∧ w'.objs x = w.objs x ∧ w'.children x = w.children x :=
    fun {A x} hA hx => by
      have h := (hin (hAlt A hA)).mp hx
      have := Nat.ne_of_lt (hlt (hAlt A hA) h)
      exact ⟨h, ob this, ch this⟩
  have hu : ∀ {A x u}, A ∈ Rs → InTree w A x → (HasUuid w' x u ↔ HasUuid w x u) := fun {A x u} hA hx => by
    simp only [HasUuid, ob (Nat.ne_of_lt (hlt (hAlt A hA) hx))]
  refine ⟨hw, by rw [← hw']; exact hf.pos, hsole, hbd, hf.nodup, fun A hA => ?_, fun A hA B hB e => ?_,
    fun A hA B hB x y u hx hy h1 h2 => ?_⟩
  · obtain ⟨a, ha⟩ := hf.live A hA
    refine ⟨a, ⟨hsole, fun p j h => ha.tree.top p j ((hcon _ _ _).mp h).2, by rw [no]; exact hAlt A hA, hbd,
      fun x hx => ?_, fun x hx j hj => ?_, fun x hx => ?_, fun x y u hx hy h1 h2 => ?_⟩, fun x hx => ?_, fun v x => ?_,
      fun x u hx h => ?_⟩
    · obtain ⟨b1, b2, -⟩ := back hA hx
      show RefClass (E.cls (w'.objs x).cls)
      rw [b2]; exact ha.tree.cls x b1
    · obtain ⟨b1, b2, b3⟩ := back hA hx
      rw [b3] at hj
      show KeyFor (E.cls (w'.objs x).cls) j
      rw [b2]; exact ha.tree.keys x b1 j hj
    · obtain ⟨b1, -, -⟩ := back hA hx
      obtain ⟨u, h⟩ := ha.tree.uuid x b1
      exact ⟨u, (hu hA b1).mpr h⟩
    · have hx := (back hA hx).1
      have hy := (back hA hy).1
      exact ha.tree.inj x y u hx hy ((hu hA hx).mp h1) ((hu hA hy).mp h2)
    · obtain ⟨b1, b2, -⟩ := back hA hx
      rw [b2]; exact ha.shared x b1
    · rw [ix, ha.exact v x]
      constructor
      · rintro ⟨u, rfl, hx, h⟩
        exact ⟨u, rfl, (hin (hAlt A hA)).mpr hx, (hu hA hx).mpr h⟩
      · rintro ⟨u, rfl, hx, h⟩
        have hx := (back hA hx).1
        exact ⟨u, rfl, hx, (hu hA hx).mp h⟩
    · have hx := (back hA hx).1
      exact ha.real x u hx ((hu hA hx).mp h)
  · rw [ob (Nat.ne_of_lt (hAlt A hA)), ob (Nat.ne_of_lt (hAlt B hB))] at e
    exact hf.apart A hA B hB e
  · have hx := (back hA hx).1
    have hy := (back hB hy).1
    exact hf.inj A hA B hB x y u hx hy ((hu hA hx).mp h1) ((hu hB hy).mp h2)

/-- As `Holds`, for a context in a forest of `Reference` nodes: the trees that were there are still
indexed exactly, the free nodes are trees of their own, no uuid is in use that was not drawn. -/
structure RefHolds (E : Env) (c : ClassId) (nc : Bool) (w0 : World) (o : Oid) (Rs0 : List Oid) (L : Od Key Oid)
    (F : List Oid) (w : World) : Prop where
  base : Holds E c nc w0 o L F w
  forest : ∃ Rs, Forest E w Rs ∧ (∀ A ∈ Rs0, A ∈ Rs) ∧ ∀ x ∈ F, x ∈ Rs
  uuid : ∀ p, p < w0.nobj → (w.objs p).uuid = (w0.objs p).uuid
  drawn : ∀ p u, p < w.nobj → HasUuid w p u → u < w.nuuid

variable {Rs0 : List Oid}

theorem RefHolds.same {w w' : World} (h : RefHolds E c nc w0 o Rs0 L F w) (hw : WF w') (hs : Same w w') :
    RefHolds E c nc w0 o Rs0 L F w' where
  base := h.base.same hw hs
  forest := by
    obtain ⟨Rs, h1, h2⟩ := h.forest
    exact ⟨Rs, h1.calm (Rd.mk hw hs).calm, h2⟩
  uuid p hp := (hs.obj p).uuid.trans (h.uuid p hp)
  drawn p u hp hu := by rw [hs.nuuid]; exact h.drawn p u (hs.nobj ▸ hp) ((hs.obj p).uuid.symm.trans hu)

/-- The context is where it was. -/
theorem RefHolds.place {w : World} (h : RefHolds E c nc w0 o Rs0 L F w) (hf0 : Forest E w0 Rs0) {R : Oid} (hR : R ∈ Rs0)
    (hRo : InTree w0 R o) (he : w0.children o = []) : InTree w R o := by
  obtain ⟨r, hr⟩ := hf0.live R hR
  have hlt : ∀ {x}, InTree w0 R x → x < w0.nobj := fun {x} hx =>
    hx.induct (P := (· < w0.nobj)) hr.tree.bound fun p j c _ hc _ => hf0.bounds p j c hc
  refine hRo.induct (P := InTree w R) (.refl R) fun p k d hp hc ih => ih.child (k := k) ?_
  have hpo : p ≠ o := fun e => by
    subst e
    have : (w0.children p).get? k = some (.node d) := hc
    rw [he] at this
    cases this
  show (w.children p).get? k = _
  rw [h.base.others p (hlt hp) hpo]
  exact hc

theorem refHolds_prims (hE : NoFactory E) (hd : 0 < E.depth) (hm : RefClass (E.cls c))
    (hc : TestClass (Verif.clsOf E w0 o) nc) (hf0 : Forest E w0 Rs0) {R : Oid} (hR : R ∈ Rs0) (hRo : InTree w0 R o)
    (he : w0.children o = []) (ho : o < w0.nobj) : Prims E c nc o (RefHolds E c nc w0 o Rs0) where
  get := run_get hc ho RefHolds.base RefHolds.same
  miss := run_getMiss hc ho RefHolds.base RefHolds.same
  keys := run_keys hc ho RefHolds.base RefHolds.same
  values := run_values hc ho RefHolds.base RefHolds.same
  items := run_items hc ho RefHolds.base RefHolds.same
  itemsFree := run_itemsFree RefHolds.base RefHolds.same hm.concrete
  set {L F k x} hk hn hx w h := by
    obtain ⟨Rs, h1, h2, h3⟩ := h.forest
    have hfree := h.base.free x hx
    have hold : ∀ A ∈ Rs0, A ≠ x := fun A hA e => by
      obtain ⟨a, ha⟩ := hf0.live A hA
      have := ha.tree.bound
      omega
    obtain ⟨w', e1, e2, e3, e4, e5, e6, e7⟩ := h1.setLeaf (k := k) (h2 R hR) (h.place hf0 hR hRo he) (h3 x hx)
      (fun e => hold R hR e.symm) (fun j d hj => by
        have : (w.children x).get? j = some (.node d) := hj
        rw [hfree.2.2.2.1] at this
        cases this) (by rw [h.base.children, kids_keys]; exact hn) fun _ => hk
    refine ⟨w', e1, h.base.set hc ho hk hx e1 e2.wf e3 e5 e6, ⟨_, e2, fun A hA => ?_, fun y hy => ?_⟩,
      fun p hp => (e4 p).trans (h.uuid p hp), fun p u hp hu => by rw [e7]; exact h.drawn p u (e6 ▸ hp) ((e4 p).symm.trans hu)⟩
    · simpa using ⟨h2 A hA, hold A hA⟩
    · have := (List.Nodup.mem_erase_iff h.base.nodup).mp hy
      simpa using ⟨h3 y this.2, this.1⟩
  del {L F k} hk hx w h := by
    obtain ⟨Rs, h1, h2, h3⟩ := h.forest
    have hx' : k ∈ (w.children o).keys := by rw [h.base.children, kids_keys]; exact hx
    obtain ⟨v, hv⟩ := Od.get?_of_mem_keys hx'
    obtain ⟨w', e1, e2, e3, e4, e5, e6, e7⟩ := h1.delitem (k := k) (h2 R hR) (h.place hf0 hR hRo he) hv
    exact ⟨w', e1, h.base.del hE ho e1 e2.wf e3 e5 e6, ⟨_, e2, h2, h3⟩,
      fun p hp => (e4 p).trans (h.uuid p hp), fun p u hp hu => by rw [e7]; exact h.drawn p u (e6 ▸ hp) ((e4 p).symm.trans hu)⟩
  new {L F} name ha w h := by
    obtain ⟨Rs, h1, h2, h3⟩ := h.forest
    obtain ⟨w', u0, e1, e2, e3⟩ := h1.new name none hd ha hm
    have hlt := h.base.nobj
    refine ⟨w.nobj, w', e1, h.base.new ho e1 e2.nobj e2.empty (by rw [e2.cls, if_pos rfl]), ⟨_, e3 fun A hA x hx hu => ?_,
      fun A hA => List.mem_cons_of_mem _ (h2 A hA), fun y hy => ?_⟩, fun p hp => ?_, fun p u hp hu => ?_⟩
    · obtain ⟨a, ha⟩ := h1.live A hA
      have hxn : x < w.nobj := hx.induct (P := (· < w.nobj)) ha.tree.bound fun p j c _ hc _ => h1.bounds p j c hc
      have := h.drawn x u0 hxn hu
      have := e2.le
      omega
    · rcases List.mem_cons.mp hy with rfl | hy
      · exact List.mem_cons_self
      · exact List.mem_cons_of_mem _ (h3 y hy)
    · rw [e2.uuid, if_neg (by omega)]; exact h.uuid p hp
    · have h4 : (w'.objs p).uuid = some u := hu
      rw [e2.uuid] at h4
      have := e2.le
      have := e2.lt
      split at h4
      · cases h4; omega
      · have hp' := e2.nobj ▸ hp
        have := h.drawn p u (by omega) h4
        omega
  named h hn hx := h.base.named hn _ hx
  nodup h := h.base.nodup
  apart h hx hy := (h.base.free _ hy).2.2.1 _ hx
  copy {F x z} w h := by
    obtain ⟨Rs, h1, h2⟩ := h.forest
    have hr := h.base.released ho
    have hlt := h.base.nobj
    refine ⟨_, testCopy_runs h.base hc ho, hr, ⟨Rs, forest_released h1 hr.wf, h2⟩, fun p hp => ?_, fun p u hp hu => ?_⟩
    · show (upd w.objs w.nobj {} p).uuid = _
      rw [upd_other _ _ (by omega)]; exact h.uuid p hp
    · have hu : (upd w.objs w.nobj {} p).uuid = some u := hu
      by_cases e : p = w.nobj
      · rw [e, upd_same] at hu; cases hu
      · rw [upd_other _ _ e] at hu; exact h.drawn p u hp hu

end Verif.FullMapping
