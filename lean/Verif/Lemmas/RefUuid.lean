import Verif.Lemmas.RefMore
import Verif.Lemmas.Uuid

/-! `set_uuid_for` in forests of `Reference` trees. -/

namespace Verif

variable {E : Env}

theorem Forest.openSet {w : World} {Rs : List Oid} (hf : Forest E w Rs) :
    OpenSet E (fun p => ∃ R ∈ Rs, InTree w R p) w where
  op p hp := by
    obtain ⟨R, hR, hp⟩ := hp
    obtain ⟨r, hr⟩ := hf.live R hR
    exact ⟨(hr.tree.cls p hp).concrete, fun k hk => hr.tree.keys p hp k hk,
      fun hb => absurd hb ((hr.tree.cls p hp).not (by decide))⟩
  lt p hp := by
    obtain ⟨R, hR, hp⟩ := hp
    obtain ⟨r, hr⟩ := hf.live R hR
    exact InTree.induct (P := (· < w.nobj)) hr.tree.bound (fun p k c _ hc _ => hf.bounds p k c hc) hp
  next p k c hp hc := by
    obtain ⟨R, hR, hp⟩ := hp
    exact ⟨R, hR, hp.child hc⟩

theorem Forest.same {w w' : World} {Rs : List Oid} (hf : Forest E w Rs) (hw : WF w') (h : Same w w') :
    Forest E w' Rs :=
  hf.calm ⟨hw, h.children, h.idxs, fun p => (h.obj p).index, fun p => (h.obj p).cls,
    fun p => (h.obj p).uuid, h.nidx, h.nobj, h.nuuid⟩

/-- Drawing a uuid. -/
theorem Forest.drawn {w : World} {Rs : List Oid} (hf : Forest E w Rs) : Forest E { w with nuuid := w.nuuid + 1 } Rs := by
  have hin : ∀ {A x}, InTree { w with nuuid := w.nuuid + 1 } A x ↔ InTree w A x :=
    InTree.congr (w := w) (w' := { w with nuuid := w.nuuid + 1 }) fun _ _ _ => Iff.rfl
  refine ⟨⟨hf.wf.s, hf.wf.c, hf.wf.n, hf.wf.iLt, hf.wf.sNd, hf.wf.cNd, hf.wf.nNd, hf.wf.iNd⟩, Nat.succ_pos _, hf.sole,
    hf.bounds, hf.nodup, fun R hR => ?_, hf.apart, fun R hR R' hR' x y u hx hy =>
      hf.inj R hR R' hR' x y u (hin.mp hx) (hin.mp hy)⟩
  obtain ⟨r, hr⟩ := hf.live R hR
  exact ⟨r, ⟨hr.tree.sole, hr.tree.top, hr.tree.bound, hr.tree.bounds, fun x hx => hr.tree.cls x (hin.mp hx),
    fun x hx => hr.tree.keys x (hin.mp hx), fun x hx => hr.tree.uuid x (hin.mp hx),
    fun x y u hx hy => hr.tree.inj x y u (hin.mp hx) (hin.mp hy)⟩, fun x hx => hr.shared x (hin.mp hx),
    fun v x => (hr.exact v x).trans ⟨fun ⟨u, e, hx, hu⟩ => ⟨u, e, hin.mpr hx, hu⟩,
      fun ⟨u, e, hx, hu⟩ => ⟨u, e, hin.mp hx, hu⟩⟩, fun x u hx => hr.real x u (hin.mp hx)⟩

/-- One node. -/
theorem Forest.assignUuid {w : World} {Rs : List Oid} (hf : Forest E w Rs) (hi : Issued w) (ov : Bool) {R c : Oid}
    (hR : R ∈ Rs) (hc : InTree w R c) : Forest E (assignUuid E ov c w).2 Rs := by
  obtain ⟨r, hr⟩ := hf.live R hR
  have hin : ∀ {A x}, InTree { w with nuuid := w.nuuid + 1 } A x ↔ InTree w A x :=
    InTree.congr (w := w) (w' := { w with nuuid := w.nuuid + 1 }) fun _ _ _ => Iff.rfl
  simp only [Verif.assignUuid, M.bind_apply, M.getW_apply]
  split
  · split
    · have hm : (bhvsOf E w c).contains .reference = true := by
        obtain ⟨l, q, e, _⟩ := (hr.tree.cls c hc).once
        exact List.contains_iff_mem.mpr (show _ ∈ (clsOf E w c).bhvs by rw [e]; simp)
      simp only [M.bind_apply, freshUuid, hm, if_true]
      obtain ⟨w', e1, e2, _⟩ := hf.drawn.setUuid (u := w.nuuid) hR (hin.mpr hc) hf.pos (.inl fun A hA x hx hu =>
        absurd (hi.uuid x w.nuuid (hf.openSet.lt x ⟨A, hA, hin.mp hx⟩) hu) (Nat.lt_irrefl _))
      rw [e1]
      exact e2
    · exact hf
  · exact hf

/-- All nodes below. -/
theorem Forest.setUuidFor {Rs : List Oid} (ov : Bool) (d : Nat) {x : Val} {w w' : World} {res : Except Exc Unit}
    (hf : Forest E w Rs) (hi : Issued w) (hx : ∀ c, x = .node c → ∃ R ∈ Rs, InTree w R c)
    (h : setUuidFor E ov true d x w = (res, w')) : Forest E w' Rs := by
  induction d generalizing x w w' res with
  | zero =>
    injection h with _ h2
    exact h2 ▸ hf
  | succ d ih =>
    cases x with
    | node c =>
      obtain ⟨R, hR, hc⟩ := hx c rfl
      have hS := hf.openSet
      have hf1 := hf.assignUuid hi ov hR hc
      obtain ⟨r1, _⟩ := assignUuid_any (E := E) (S := fun p => ∃ R ∈ Rs, InTree w R p) ov hf.wf hi.numbered (hx c rfl) (hS.lt c (hx c rfl))
      simp only [Verif.setUuidFor, M.bind_apply, if_true] at h
      rcases h1 : Verif.assignUuid E ov c w with ⟨e | ⟨⟩, w1⟩
      · rw [h1] at h hf1
        injection h with _ h2
        exact h2 ▸ hf1
      · rw [h1] at h hf1 r1
        have r1 : Renew E (fun p => ∃ R ∈ Rs, InTree w R p) w.nuuid w w1 := r1
        have hf1 : Forest E w1 Rs := hf1
        have hS1 := hS.renew r1
        obtain ⟨w2, h2, ro⟩ := mvalues_open (hS1.op c (hx c rfl)) r1.wf hS1.coh (hx c rfl)
        simp only [h2] at h
        have r2 := r1.trans (Renew.read r1.num ro)
        have loop : ∀ (vs : List Val) (v : World) (res : Except Exc Unit), Forest E v Rs →
            Renew E (fun p => ∃ R ∈ Rs, InTree w R p) w.nuuid w v →
            (∀ x ∈ vs, x ∈ (w.omap c).values) → forU (Verif.setUuidFor E ov true d) vs v = (res, w') →
            Forest E w' Rs := by
          intro vs
          induction vs with
          | nil =>
            intro v res hv _ _ h
            injection h with _ h
            exact h ▸ hv
          | cons x t iht =>
            intro v res hv rv hmem h
            simp only [forU, M.bind_apply] at h
            have hxs : ∀ a, x = .node a → ∃ R ∈ Rs, InTree v R a := fun a ha => by
              obtain ⟨k, hk⟩ := omap_value hf.wf (hmem x List.mem_cons_self)
              exact ⟨R, hR, rv.inTree.mpr (hc.child (show (w.omap c).val k = some (.node a) from ha ▸ hk))⟩
            rcases hy : Verif.setUuidFor E ov true d x v with ⟨e | ⟨⟩, v1⟩
            · rw [hy] at h
              injection h with _ h
              exact h ▸ ih hv rv.num.toIssued hxs hy
            · rw [hy] at h
              have rn := (setUuidFor_any ov d rv.wf rv.num (hS.renew rv) (fun a ha => by
                obtain ⟨A, hA, ha⟩ := hxs a ha
                exact ⟨A, hA, rv.inTree.mp ha⟩) hy).1
              exact iht v1 res (ih hv rv.num.toIssued hxs hy) (rv.trans rn)
                (fun y hy => hmem y (List.mem_cons_of_mem _ hy)) h
        exact loop _ w2 res (hf1.same ro.wf ro.same) r2 (fun x hx => by rwa [r1.omap] at hx) h
    | data x =>
      cases x
      case dict kvs =>
        simp only [Verif.setUuidFor, if_true] at h
        have loop : ∀ (kvs : List (Str × Data)) (v : World) (res : Except Exc Unit), Forest E v Rs → Issued v →
            forU (fun kv : Str × Data => Verif.setUuidFor E ov true d (.data kv.2)) kvs v = (res, w') →
            Forest E w' Rs := by
          intro kvs
          induction kvs with
          | nil =>
            intro v res hv _ h
            injection h with _ h
            exact h ▸ hv
          | cons x r ihr =>
            intro v res hv hn h
            simp only [forU, M.bind_apply] at h
            rcases hy : Verif.setUuidFor E ov true d (.data x.2) v with ⟨e | ⟨⟩, v1⟩
            all_goals
              have a1 := ih hv hn (fun _ h => by cases h) hy
              have a2 := (setUuidFor_any ov d hv.wf hn.numbered hv.openSet (fun _ h => by cases h) hy).1
              rw [hy] at h
            · injection h with _ h
              exact h ▸ a1
            · exact ihr v1 res a1 a2.num.toIssued h
        exact loop kvs w res hf hi h
      all_goals
        injection h with _ h2
        exact h2 ▸ hf

/-- `set_uuid_for` on one node. -/
theorem Forest.setUuids {Rs : List Oid} {ov rec : Bool} {R o : Oid} {w w' : World} {res : Except Exc Unit}
    (hf : Forest E w Rs) (hi : Issued w) (hR : R ∈ Rs) (ho : InTree w R o)
    (h : setUuidForNode E ov rec o w = (res, w')) : Forest E w' Rs := by
  cases rec with
  | true => exact hf.setUuidFor ov _ hi (fun c hc => by injection hc with hc; subst hc; exact ⟨_, hR, ho⟩) h
  | false =>
    have hf1 := hf.assignUuid hi ov hR ho
    simp only [setUuidForNode, Verif.setUuidFor, M.bind_apply, Bool.false_eq_true, if_false] at h
    rcases h1 : Verif.assignUuid E ov o w with ⟨e | ⟨⟩, w1⟩
    all_goals
      rw [h1] at h hf1
      injection h with _ h2
      exact h2 ▸ hf1

end Verif
