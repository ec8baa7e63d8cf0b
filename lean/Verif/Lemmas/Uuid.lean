import Verif.Lemmas.Copy
import Verif.Lemmas.Encode
import Verif.Lemmas.Tree

/-!
# Giving every node of a tree a new uuid

What `set_uuid_for` does to a tree of nodes that can be read item by item.
-/

namespace Verif

variable {E : Env} {n0 : Nat} {S : Oid → Prop}

/-- The nodes of the heap have issued uuids, and no two of them one of those issued from `n0` on. -/
structure Numbered (n0 : Nat) (w : World) : Prop extends Issued w where
  le : n0 ≤ w.nuuid
  inj : ∀ p q u, p < w.nobj → q < w.nobj → n0 ≤ u → (w.objs p).uuid = some u → (w.objs q).uuid = some u → p = q

/-- Only uuids and caches change, and what is assigned is a new uuid. -/
structure Renew (E : Env) (S : Oid → Prop) (n0 : Nat) (w w' : World) : Prop where
  wf : WF w'
  num : Numbered n0 w'
  coh : Coh E S w → Coh E S w'
  children : ∀ p, w'.children p = w.children p
  nsview : ∀ p, w'.nsview p = w.nsview p
  cls : ∀ p, (w'.objs p).cls = (w.objs p).cls
  loc : ∀ p, w'.loc p = w.loc p
  index : ∀ p, (w'.objs p).index = (w.objs p).index
  fallbackKey : ∀ p, (w'.objs p).fallbackKey = (w.objs p).fallbackKey
  nobj : w'.nobj = w.nobj
  log : w'.log = w.log
  step : ∀ p, (w'.objs p).uuid = (w.objs p).uuid ∨ ∃ u, (w'.objs p).uuid = some u ∧ n0 ≤ u
  others : ∀ p, ¬ S p → (w'.objs p).uuid = (w.objs p).uuid
  plain : ∀ p, Bhv.uuidAware ∉ (clsOf E w p).bhvs → (w'.objs p).uuid = (w.objs p).uuid

theorem Renew.refl {w : World} (hw : WF w) (hn : Numbered n0 w) : Renew E S n0 w w :=
  ⟨hw, hn, fun h => h, fun _ => rfl, fun _ => rfl, fun _ => rfl, fun _ => rfl, fun _ => rfl, fun _ => rfl, rfl, rfl,
    fun _ => .inl rfl, fun _ _ => rfl, fun _ _ => rfl⟩

/-- Once a node has one of the new uuids it keeps having one. -/
theorem Renew.fresh {w w' : World} (h : Renew E S n0 w w') (p : Oid) (hp : ∃ u, (w.objs p).uuid = some u ∧ n0 ≤ u) :
    ∃ u, (w'.objs p).uuid = some u ∧ n0 ≤ u :=
  (h.step p).elim (fun e => by rw [e]; exact hp) id

theorem Renew.trans {a b c : World} (h : Renew E S n0 a b) (h' : Renew E S n0 b c) : Renew E S n0 a c :=
  ⟨h'.wf, h'.num, fun hc => h'.coh (h.coh hc), fun p => (h'.children p).trans (h.children p), fun p => (h'.nsview p).trans (h.nsview p),
    fun p => (h'.cls p).trans (h.cls p), fun p => (h'.loc p).trans (h.loc p), fun p => (h'.index p).trans (h.index p),
    fun p => (h'.fallbackKey p).trans (h.fallbackKey p), h'.nobj.trans h.nobj, h'.log.trans h.log,
    fun p => (h'.step p).elim (fun e => by rw [e]; exact h.step p) .inr, fun p hp => (h'.others p hp).trans (h.others p hp),
    fun p hp => (h'.plain p (by rw [show clsOf E b p = clsOf E a p from congrArg E.cls (h.cls p)]; exact hp)).trans
      (h.plain p hp)⟩

theorem Renew.omap {w w' : World} (h : Renew E S n0 w w') (p : Oid) : w'.omap p = w.omap p := by
  unfold World.omap; rw [h.children]

theorem Renew.clsOf {w w' : World} (h : Renew E S n0 w w') (p : Oid) : Verif.clsOf E w' p = Verif.clsOf E w p :=
  congrArg E.cls (h.cls p)

theorem Renew.contains {w w' : World} (h : Renew E S n0 w w') (p : Oid) (k : Key) (c : Oid) :
    Contains w' p k c ↔ Contains w p k c := by
  unfold Contains; rw [h.omap]

theorem Renew.inTree {w w' : World} (h : Renew E S n0 w w') {a x : Oid} : InTree w' a x ↔ InTree w a x :=
  InTree.congr (h.contains · · ·)

theorem Renew.open {w w' : World} (h : Renew E S n0 w w') {p : Oid} (hc : Coh E S w) (hp : S p) (ho : Open E w p) :
    Open E w' p where
  concrete := by rw [h.clsOf]; exact ho.concrete
  keys := by rw [h.clsOf, h.omap]; exact ho.keys
  cache hb j v hv := h.coh hc p hp hb j v hv

/-- Reading. -/
theorem Renew.read {w w' : World} (hn : Numbered n0 w) (h : ReadOut E S w w') : Renew E S n0 w w' where
  wf := h.wf
  num := {
    uuid := fun p u hp hu => by
      rw [h.same.nuuid]; rw [h.same.nobj] at hp; rw [(h.same.obj p).uuid] at hu; exact hn.uuid p u hp hu
    idx := fun r i x hx => by rw [h.same.nuuid]; rw [h.same.idxs] at hx; exact hn.idx r i x hx
    pos := by rw [h.same.nuuid]; exact hn.pos
    le := by rw [h.same.nuuid]; exact hn.le
    inj := fun p q u hp hq hu h1 h2 => by
      rw [h.same.nobj] at hp hq
      rw [(h.same.obj _).uuid] at h1 h2
      exact hn.inj p q u hp hq hu h1 h2 }
  coh _ := h.coh
  children := h.same.children
  nsview := h.same.nsview
  cls p := (h.same.obj p).cls
  loc p := by unfold World.loc; rw [(h.same.obj p).name, (h.same.obj p).parent]
  index p := (h.same.obj p).index
  fallbackKey p := (h.same.obj p).fallbackKey
  nobj := h.same.nobj
  log := h.same.log
  step p := .inl (h.same.obj p).uuid
  others p _ := (h.same.obj p).uuid
  plain p _ := (h.same.obj p).uuid

theorem iuuid_some {u : Nat} (h : 0 < u) : iuuid (some u) = some u := by
  cases u with
  | zero => cases h
  | succ n => rfl

/-- A new uuid for one node. -/
theorem renew_put {w : World} {c : Oid} (hw : WF w) (hn : Numbered n0 w) (hS : S c)
    (haw : Bhv.uuidAware ∈ (clsOf E w c).bhvs) (idxs : Nat → Od (Option Nat) Oid) (hid : ∀ r, (idxs r).keys.Nodup)
    (hix : ∀ r i x, (idxs r).get? (some i) = some x → i < w.nuuid + 1) :
    Renew E S n0 w { w with
      objs := upd w.objs c { w.objs c with uuid := some w.nuuid }
      nuuid := w.nuuid + 1
      idxs := idxs } := by
  have pr : ∀ {α : Type} (g : Obj → α), (∀ ob u, g { ob with uuid := u } = g ob) → ∀ p,
      g (upd w.objs c { w.objs c with uuid := some w.nuuid } p) = g (w.objs p) := fun g hg p =>
    proj_upd g w.objs c _ (hg _ _) p
  have hu : ∀ p, (upd w.objs c { w.objs c with uuid := some w.nuuid } p).uuid =
      if p = c then some w.nuuid else (w.objs p).uuid := fun p => by
    by_cases h : p = c
    · subst h; simp
    · simp [upd, h]
  refine {
    wf := {
      s := hw.s.congr (pr Obj.storage fun _ _ => rfl), c := hw.c.congr (pr Obj.cache fun _ _ => rfl)
      n := hw.n.congr (pr Obj.nodespaces fun _ _ => rfl)
      iLt := fun {p r} hr => hw.iLt (o := p) ((pr Obj.index (fun _ _ => rfl) p).symm.trans hr)
      sNd := hw.sNd, cNd := hw.cNd, nNd := hw.nNd, iNd := hid }
    num := { uuid := ?_, idx := hix, pos := Nat.succ_pos _, le := Nat.le_succ_of_le hn.le, inj := ?_ }
    coh := ?_
    children := fun p => ?_
    nsview := fun p => ?_
    cls := pr Obj.cls fun _ _ => rfl
    loc := fun p => ?_
    index := pr Obj.index fun _ _ => rfl
    fallbackKey := pr Obj.fallbackKey fun _ _ => rfl
    nobj := rfl
    log := rfl
    step := fun p => ?_
    others := fun p hp => ?_
    plain := fun p hp => ?_ }
  · intro p u hp h
    have h : (if p = c then some w.nuuid else (w.objs p).uuid) = some u := (hu p).symm.trans h
    show u < w.nuuid + 1
    split at h
    · injection h with h; omega
    · have := hn.uuid p u hp h; omega
  · intro p q u hp hq hle h1 h2
    have h1 : (if p = c then some w.nuuid else (w.objs p).uuid) = some u := (hu p).symm.trans h1
    have h2 : (if q = c then some w.nuuid else (w.objs q).uuid) = some u := (hu q).symm.trans h2
    split at h1 <;> split at h2
    · rename_i e1 e2; rw [e1, e2]
    · injection h1 with h1; have := hn.uuid q u hq h2; omega
    · injection h2 with h2; have := hn.uuid p u hp h1; omega
    · exact hn.inj p q u hp hq hle h1 h2
  · intro hc p hp hb k v hv
    have e1 := pr Obj.cache (fun _ _ => rfl) p
    have e2 := pr Obj.storage (fun _ _ => rfl) p
    have e3 := pr Obj.cls (fun _ _ => rfl) p
    unfold World.cached at hv
    unfold World.children
    simp only [e1] at hv
    simp only [e2]
    refine hc p hp ?_ k v hv
    unfold Verif.clsOf at hb ⊢
    rw [e3] at hb
    exact hb
  · unfold World.children
    simp only [pr Obj.storage (fun _ _ => rfl) p]
  · unfold World.nsview
    simp only [pr Obj.nodespaces (fun _ _ => rfl) p]
  · unfold World.loc
    simp only [pr Obj.name (fun _ _ => rfl) p, pr Obj.parent (fun _ _ => rfl) p]
  · show (upd w.objs c { w.objs c with uuid := some w.nuuid } p).uuid = _ ∨
      ∃ u, (upd w.objs c { w.objs c with uuid := some w.nuuid } p).uuid = some u ∧ n0 ≤ u
    rw [hu]
    split
    · exact .inr ⟨_, rfl, hn.le⟩
    · exact .inl rfl
  · show (upd w.objs c { w.objs c with uuid := some w.nuuid } p).uuid = _
    rw [hu, if_neg fun (e : p = c) => hp (e ▸ hS)]
  · show (upd w.objs c { w.objs c with uuid := some w.nuuid } p).uuid = _
    rw [hu, if_neg fun (e : p = c) => hp (e ▸ haw)]

/-- What `node.uuid = self.uuid_factory()` needs in order not to raise. -/
def HasIndex (E : Env) (w : World) (c : Oid) : Prop :=
  Bhv.uuidAware ∈ (clsOf E w c).bhvs → Bhv.reference ∈ (clsOf E w c).bhvs → (w.objs c).index ≠ none

theorem assignUuid_spec {w : World} {c : Oid} (hw : WF w) (hn : Numbered n0 w) (hS : S c)
    (hlt : c < w.nobj) : (∃ w', assignUuid E true c w = (.ok (), w') ∧ Renew E S n0 w w' ∧
      (Bhv.uuidAware ∈ (clsOf E w c).bhvs → ∃ u, (w'.objs c).uuid = some u ∧ n0 ≤ u) ∧
      ∀ p, p ≠ c → (w'.objs p).uuid = (w.objs p).uuid) ∨
    (¬ HasIndex E w c ∧ ∃ e w', assignUuid E true c w = (.error e, w') ∧ Renew E S n0 w w' ∧
      ∀ p, (w'.objs p).uuid = (w.objs p).uuid) := by
  by_cases hu : Bhv.uuidAware ∈ (clsOf E w c).bhvs
  · have hu' : (bhvsOf E w c).contains .uuidAware = true := by
      rw [List.contains_iff_mem]; exact hu
    by_cases hr : Bhv.reference ∈ (clsOf E w c).bhvs
    · have hr' : (bhvsOf E w c).contains .reference = true := by
        rw [List.contains_iff_mem]; exact hr
      cases hi : (w.objs c).index with
      | none =>
        refine .inr ⟨fun h => h hu hr hi, .attr, { w with nuuid := w.nuuid + 1 }, ?_, ?_, fun _ => rfl⟩
        rotate_left
        · exact ⟨⟨hw.s, hw.c, hw.n, hw.iLt, hw.sNd, hw.cNd, hw.nNd, hw.iNd⟩,
            ⟨⟨fun p u hp hu => Nat.lt_succ_of_lt (hn.uuid p u hp hu), fun r i x hx => Nat.lt_succ_of_lt (hn.idx r i x hx),
              Nat.succ_pos _⟩, Nat.le_succ_of_le hn.le, hn.inj⟩, fun h => h, fun _ => rfl, fun _ => rfl, fun _ => rfl,
            fun _ => rfl, fun _ => rfl, fun _ => rfl, rfl, rfl, fun _ => .inl rfl, fun _ _ => rfl, fun _ _ => rfl⟩
        simp only [assignUuid, M.bind_apply, M.getW_apply, hu', hr', if_true, Bool.true_or, freshUuid, setUuidRef,
          indexRef, hi]
      | some r =>
        left
        have hnot : (((w.idxs r).get? (some w.nuuid)).any fun x => decide (x ≠ c)) = false := by
          cases hg : (w.idxs r).get? (some w.nuuid) with
          | none => rfl
          | some x => exact absurd (hn.idx _ _ _ hg) (Nat.lt_irrefl _)
        have hd := Od.nodup_keys_del (hw.iNd r) (iuuid (w.objs c).uuid)
        refine ⟨_, ?_, renew_put hw hn hS hu
          (upd w.idxs r (((w.idxs r).del (iuuid (w.objs c).uuid)).set (some w.nuuid) c))
          (nodup_upd hw.iNd _ (Od.nodup_keys_set hd _ _)) ?_, fun _ => ⟨w.nuuid, by simp, hn.le⟩, fun p hp => by simp [upd, hp]⟩
        · simp only [assignUuid, M.bind_apply, M.getW_apply, hu', hr', if_true, Bool.true_or, freshUuid, setUuidRef,
            indexRef, hi, iuuid_some hn.pos, hnot, Bool.false_eq_true, if_false, M.modifyW_apply, modO_apply]
        · intro s i x hx
          unfold upd at hx
          split at hx
          · rw [Od.get?_set, Od.get?_del (hw.iNd r)] at hx
            split at hx
            · rename_i e; injection e with e; omega
            · split at hx
              · cases hx
              · have := hn.idx r i x hx; omega
          · have := hn.idx s i x hx; omega
    · have hr' : (bhvsOf E w c).contains .reference = false := by
        rw [Bool.eq_false_iff]; intro h; exact hr (List.contains_iff_mem.mp h)
      refine .inl ⟨_, ?_, renew_put hw hn hS hu w.idxs hw.iNd fun r i x hx => Nat.lt_succ_of_lt (hn.idx r i x hx),
        fun _ => ⟨w.nuuid, by simp, hn.le⟩, fun p hp => by simp [upd, hp]⟩
      simp only [assignUuid, M.bind_apply, M.getW_apply, hu', hr', if_true, Bool.true_or, freshUuid, modO_apply]
      rfl
  · have hu' : (bhvsOf E w c).contains .uuidAware = false := by
      rw [Bool.eq_false_iff]; intro h; exact hu (List.contains_iff_mem.mp h)
    refine .inl ⟨w, ?_, .refl hw hn, fun h => absurd h hu, fun _ _ => rfl⟩
    simp only [assignUuid, M.bind_apply, M.getW_apply, hu']
    rfl

/-- The nodes of `S` can be read item by item, and their children are in `S`. -/
structure OpenSet (E : Env) (S : Oid → Prop) (w : World) : Prop where
  op : ∀ p, S p → Open E w p
  lt : ∀ p, S p → p < w.nobj
  next : ∀ p k c, S p → Contains w p k c → S c

theorem OpenSet.coh {w : World} (h : OpenSet E S w) : Coh E S w := fun p hp hc j v hv => (h.op p hp).cache hc j v hv

theorem OpenSet.renew {w w' : World} (h : OpenSet E S w) (hr : Renew E S n0 w w') : OpenSet E S w' where
  op p hp := hr.open h.coh hp (h.op p hp)
  lt p hp := by rw [hr.nobj]; exact h.lt p hp
  next p k c hp hc := h.next p k c hp ((hr.contains p k c).mp hc)

theorem omap_value {w : World} (hw : WF w) {o : Oid} {v : Val} (h : v ∈ (w.omap o).values) :
    ∃ k, (w.omap o).val k = some v := by
  rw [Ser.values_eq hw, Ser.items_eq hw, List.mem_map] at h
  obtain ⟨⟨k, x⟩, hm, rfl⟩ := h
  exact ⟨k, Od.get?_of_mem (hw.children_nodup o) hm⟩

theorem mem_values {w : World} (hw : WF w) {o : Oid} {k : Key} {v : Val} (h : (w.omap o).val k = some v) :
    v ∈ (w.omap o).values := by
  rw [Ser.values_eq hw, Ser.items_eq hw, List.mem_map]
  exact ⟨(k, v), Od.get?_some_mem h, rfl⟩

/-- What has become of the uuids where `override` is `ov`: with `override=False` those there are stay. -/
def Fills (ov : Bool) (w w' : World) : Prop :=
  ov = false → ∀ p u, (w.objs p).uuid = some u → (w'.objs p).uuid = some u

theorem Fills.refl {ov : Bool} (w : World) : Fills ov w w := fun _ _ _ h => h

theorem Fills.trans {ov : Bool} {a b c : World} (h : Fills ov a b) (h' : Fills ov b c) : Fills ov a c :=
  fun hov p u hu => h' hov p u (h hov p u hu)

theorem Fills.read {ov : Bool} {w w' : World} (h : ReadOut E S w w') : Fills ov w w' :=
  fun _ p u hu => by rw [(h.same.obj p).uuid]; exact hu

/-- A node has a uuid, a new one if `override` is `True`. -/
def Given (ov : Bool) (n0 : Nat) (w : World) (p : Oid) : Prop :=
  ∃ u, (w.objs p).uuid = some u ∧ (ov = true → n0 ≤ u)

theorem Given.renew {ov : Bool} {w w' : World} {p : Oid} (h : Given ov n0 w p) (hr : Renew E S n0 w w') :
    Given ov n0 w' p := by
  rcases hr.step p with e | ⟨u, h1, h2⟩
  · unfold Given; rw [e]; exact h
  · exact ⟨u, h1, fun _ => h2⟩

/-- Without `override` a node that has a uuid is left alone. -/
theorem assignUuid_false {w : World} {c : Oid} :
    assignUuid E false c w = if (w.objs c).uuid.isNone then assignUuid E true c w else (.ok (), w) := by
  cases h : (w.objs c).uuid with
  | none =>
    simp only [assignUuid, M.bind_apply, M.getW_apply, h, Option.isNone_none, Bool.or_true, if_true]
  | some u =>
    simp only [assignUuid, M.bind_apply, M.getW_apply, h, Option.isNone_some, Bool.or_false, Bool.false_eq_true, if_false]
    split <;> rfl

/-- One node. -/
theorem assignUuid_any (ov : Bool) {w : World} {c : Oid} (hw : WF w) (hn : Numbered n0 w) (hS : S c)
    (hlt : c < w.nobj) : Renew E S n0 w (assignUuid E ov c w).2 ∧ Fills ov w (assignUuid E ov c w).2 ∧
    ((assignUuid E ov c w).1 = .ok () → Bhv.uuidAware ∈ (clsOf E w c).bhvs → Given ov n0 (assignUuid E ov c w).2 c) ∧
    (HasIndex E w c → (assignUuid E ov c w).1 = .ok ()) := by
  have key : Renew E S n0 w (assignUuid E true c w).2 ∧
      (∀ p, p ≠ c → ((assignUuid E true c w).2.objs p).uuid = (w.objs p).uuid) ∧
      ((assignUuid E true c w).1 = .ok () → Bhv.uuidAware ∈ (clsOf E w c).bhvs →
        ∃ u, ((assignUuid E true c w).2.objs c).uuid = some u ∧ n0 ≤ u) ∧
      (HasIndex E w c → (assignUuid E true c w).1 = .ok ()) := by
    rcases assignUuid_spec (E := E) hw hn hS hlt with ⟨w1, h1, r1, f1, o1⟩ | ⟨hno, e, w1, h1, r1, o1⟩
    · rw [h1]; exact ⟨r1, o1, fun _ => f1, fun _ => rfl⟩
    · rw [h1]; exact ⟨r1, fun p _ => o1 p, nofun, fun h => absurd h hno⟩
  cases ov with
  | true => exact ⟨key.1, nofun, fun h1 h2 => (key.2.2.1 h1 h2).imp fun u h => ⟨h.1, fun _ => h.2⟩, key.2.2.2⟩
  | false =>
    rw [assignUuid_false]
    cases h : (w.objs c).uuid with
    | none =>
      simp only [Option.isNone_none, if_true]
      refine ⟨key.1, fun _ p u hu => ?_, fun h1 h2 => (key.2.2.1 h1 h2).imp fun u h => ⟨h.1, nofun⟩, key.2.2.2⟩
      by_cases hp : p = c
      · subst hp; rw [h] at hu; cases hu
      · rw [key.2.1 p hp]; exact hu
    | some u =>
      simp only [Option.isNone_some, Bool.false_eq_true, if_false]
      exact ⟨.refl hw hn, .refl w, fun _ _ => ⟨u, h, nofun⟩, fun _ => trivial⟩

/-- `set_uuid_for` changes only uuids, whether it returns or raises; where it returns, all nodes below
have one. -/
theorem setUuidFor_any (ov : Bool) (d : Nat) {x : Val} {w w' : World} {res : Except Exc Unit} (hw : WF w)
    (hn : Numbered n0 w) (hS : OpenSet E S w) (hx : ∀ c, x = .node c → S c)
    (h : setUuidFor E ov true d x w = (res, w')) :
    Renew E S n0 w w' ∧ Fills ov w w' ∧ (res = .ok () → ∀ c, x = .node c → ∀ p, InTree w c p →
      Bhv.uuidAware ∈ (clsOf E w p).bhvs → Given ov n0 w' p) := by
  induction d generalizing x w w' res with
  | zero =>
    injection h with h1 h2
    subst h1 h2
    exact ⟨.refl hw hn, .refl w, nofun⟩
  | succ d ih =>
    cases x with
    | node c =>
      have hc : S c := hx c rfl
      simp only [setUuidFor, M.bind_apply, if_true] at h
      obtain ⟨r1, i1, f1, _⟩ := assignUuid_any (E := E) ov hw hn hc (hS.lt c hc)
      rcases h1 : assignUuid E ov c w with ⟨e | ⟨⟩, w1⟩
      · rw [h1] at h r1 i1
        injection h with h1 h2
        subst h1 h2
        exact ⟨r1, i1, nofun⟩
      · rw [h1] at h r1 i1 f1
        have r1 : Renew E S n0 w w1 := r1
        have f1 := f1 rfl
        have hS1 := hS.renew r1
        obtain ⟨w2, h2, ro⟩ := mvalues_open (S := S) (hS1.op c hc) r1.wf hS1.coh hc
        have r2 := Renew.read r1.num ro
        have i2 := Fills.read (ov := ov) ro
        simp only [h2] at h
        have loop : ∀ (vs : List Val) (v : World) (res : Except Exc Unit), Renew E S n0 w2 v →
            (∀ x ∈ vs, x ∈ (w.omap c).values) →
            forU (setUuidFor E ov true d) vs v = (res, w') → Renew E S n0 v w' ∧ Fills ov v w' ∧ (res = .ok () →
              ∀ x ∈ vs, ∀ a, x = .node a → ∀ p, InTree w a p → Bhv.uuidAware ∈ (clsOf E w p).bhvs →
                Given ov n0 w' p) := by
          intro vs
          induction vs with
          | nil =>
            intro v res hv _ h
            injection h with _ h
            subst h
            exact ⟨.refl hv.wf hv.num, .refl v, fun _ => nofun⟩
          | cons x r ihr =>
            intro v res hv hmem h
            have hv0 : Renew E S n0 w v := r1.trans (r2.trans hv)
            simp only [forU, M.bind_apply] at h
            rcases hy : setUuidFor E ov true d x v with ⟨e | ⟨⟩, v1⟩
            all_goals
              obtain ⟨a1, a2, a3⟩ := ih (x := x) hv0.wf hv0.num (hS.renew hv0) (fun a ha => by
                obtain ⟨k, hk⟩ := omap_value hw (hmem x List.mem_cons_self)
                exact hS.next c k a hc (show (w.omap c).val k = some (.node a) from ha ▸ hk)) hy
            · rw [hy] at h
              injection h with h1 h2
              subst h1 h2
              exact ⟨a1, a2, nofun⟩
            · rw [hy] at h
              obtain ⟨b1, b2, b3⟩ := ihr v1 res (hv.trans a1) (fun y hy => hmem y (List.mem_cons_of_mem _ hy)) h
              refine ⟨a1.trans b1, a2.trans b2, fun hres y hy a ha p hp hu => ?_⟩
              rcases List.mem_cons.mp hy with rfl | hy
              · exact (a3 rfl a ha p (hv0.inTree.mpr hp) (by rw [hv0.clsOf]; exact hu)).renew b1
              · exact b3 hres y hy a ha p hp hu
        obtain ⟨l1, l2, l3⟩ := loop _ w2 res (.refl r2.wf r2.num) (fun x hx => by rwa [r1.omap] at hx) h
        refine ⟨r1.trans (r2.trans l1), i1.trans (i2.trans l2), fun hres c' hc' p hp hu => ?_⟩
        injection hc' with hc'
        subst hc'
        rcases hp.down with rfl | ⟨k, a, hk, ha⟩
        · exact (f1 hu).renew (r2.trans l1)
        · exact l3 hres (.node a) (by rw [r1.omap]; exact mem_values hw hk) a rfl p ha hu
    | data x =>
      refine (fun (h : Renew E S n0 w w' ∧ Fills ov w w') => ⟨h.1, h.2, fun _ _ h => nomatch h⟩) ?_
      cases x
      case dict kvs =>
        simp only [setUuidFor, if_true] at h
        have loop : ∀ (kvs : List (Str × Data)) (v : World) (res : Except Exc Unit), WF v → Numbered n0 v →
            OpenSet E S v →
            forU (fun kv : Str × Data => setUuidFor E ov true d (.data kv.2)) kvs v = (res, w') →
            Renew E S n0 v w' ∧ Fills ov v w' := by
          intro kvs
          induction kvs with
          | nil =>
            intro v res hv hn hS h
            injection h with _ h
            subst h
            exact ⟨.refl hv hn, .refl v⟩
          | cons x r ihr =>
            intro v res hv hn hS h
            simp only [forU, M.bind_apply] at h
            rcases hy : setUuidFor E ov true d (.data x.2) v with ⟨e | ⟨⟩, v1⟩
            all_goals
              obtain ⟨a1, a2, _⟩ := ih hv hn hS (fun _ h => by cases h) hy
              rw [hy] at h
            · injection h with h1 h2
              subst h1 h2
              exact ⟨a1, a2⟩
            · obtain ⟨b1, b2⟩ := ihr v1 res a1.wf a1.num (hS.renew a1) h
              exact ⟨a1.trans b1, a2.trans b2⟩
        exact loop kvs w res hw hn hS h
      all_goals
        injection h with h1 h2
        subst h1 h2
        exact ⟨.refl hw hn, .refl w⟩

/-- Where `set_uuid_for` returns, all nodes below have new uuids and nothing else has changed. -/
theorem setUuidFor_ok (d : Nat) {x : Val} {w w' : World} (hw : WF w) (hn : Numbered n0 w) (hS : OpenSet E S w)
    (hx : ∀ c, x = .node c → S c) (h : setUuidFor E true true d x w = (.ok (), w')) :
    Renew E S n0 w w' ∧ ∀ c, x = .node c → ∀ p, InTree w c p → Bhv.uuidAware ∈ (clsOf E w p).bhvs →
      ∃ u, (w'.objs p).uuid = some u ∧ n0 ≤ u := by
  obtain ⟨h1, _, h3⟩ := setUuidFor_any true d hw hn hS hx h
  exact ⟨h1, fun c hc p hp hu => (h3 rfl c hc p hp hu).imp fun u h => ⟨h.1, h.2 rfl⟩⟩

/-! ### Finite trees -/

theorem NodeTree.irrefl {w : World} {o : Oid} (h : NodeTree w o) {k : Key} {c : Oid} (hc : Contains w o k c) :
    ¬ InTree w c o := by
  induction h generalizing k c with
  | @mk o items below ih =>
    intro hin
    -- the last step down to `o`, as a step out of `c`
    rcases hin.down with rfl | ⟨j, a, ha, hin'⟩
    · exact ih k _ hc hc (.refl _)
    · exact ih k _ hc ha (hin'.child hc)

/-- In a finite tree of nodes `set_uuid_for` returns. -/
theorem setUuidFor_total (ov : Bool) {w : World} (hw : WF w) (hS : OpenSet E S w) (hi : ∀ p, S p → HasIndex E w p) {c : Oid}
    (ht : NodeTree w c) : ∀ (d : Nat) (A : List Oid) (v : World), Renew E S n0 w v → S c → A.Nodup →
      (∀ a ∈ A, a < w.nobj ∧ ∃ k b, Contains w a k b ∧ InTree w b c) → w.nobj + 1 ≤ d + A.length →
      ∃ v', setUuidFor E ov true d (.node c) v = (.ok (), v') := by
  induction ht with
  | @mk c items below ih =>
    intro d A v hv hc hA hab hd
    have ht : NodeTree w c := .mk items below
    have hcA : c ∉ A := fun hm => by
      obtain ⟨_, k, b, hb, hin⟩ := hab c hm
      exact ht.irrefl hb hin
    have hlen : (c :: A).length ≤ w.nobj := by
      have := length_le_of_subset (S := c :: A) (T := List.range w.nobj) (List.nodup_cons.mpr ⟨hcA, hA⟩)
        (fun p hp => by
          rw [List.mem_range]
          rcases List.mem_cons.mp hp with rfl | hp
          · exact hS.lt _ hc
          · exact (hab p hp).1)
      rwa [List.length_range] at this
    rw [List.length_cons] at hlen
    obtain ⟨d, rfl⟩ : ∃ e, d = e + 1 := ⟨d - 1, by omega⟩
    have hSv := hS.renew hv
    obtain ⟨r1, _, _, k1⟩ := assignUuid_any (E := E) ov hv.wf hv.num hc (hSv.lt c hc)
    have k1 := k1 (by unfold HasIndex; rw [hv.clsOf, hv.index]; exact hi c hc)
    rcases h1 : assignUuid E ov c v with ⟨e | ⟨⟩, w1⟩
    · rw [h1] at k1; cases k1
    · rw [h1] at r1
      have r1 : Renew E S n0 v w1 := r1
      have hS1 := hSv.renew r1
      obtain ⟨w2, h2, ro⟩ := mvalues_open (S := S) (hS1.op c hc) r1.wf hS1.coh hc
      have r2 := hv.trans (r1.trans (Renew.read r1.num ro))
      have loop : ∀ (vs : List Val) (u : World), Renew E S n0 w u → (∀ x ∈ vs, x ∈ (w.omap c).values) →
          ∃ u', forU (setUuidFor E ov true d) vs u = (.ok (), u') := by
        intro vs
        induction vs with
        | nil => exact fun u _ _ => ⟨u, rfl⟩
        | cons x r ihr =>
          intro u hu hmem
          obtain ⟨k, hk⟩ := omap_value hw (hmem x List.mem_cons_self)
          obtain ⟨a, rfl⟩ := items k x hk
          have ha : S a := hS.next c k a hc hk
          obtain ⟨u1, e1⟩ := ih k a hk d (c :: A) u hu ha (List.nodup_cons.mpr ⟨hcA, hA⟩) (fun p hp => by
            rcases List.mem_cons.mp hp with rfl | hp
            · exact ⟨hS.lt _ hc, k, a, hk, .refl _⟩
            · obtain ⟨h1, j, b, hb, hin⟩ := hab p hp
              exact ⟨h1, j, b, hb, hin.child hk⟩) (by rw [List.length_cons]; omega)
          have q1 := (setUuidFor_any ov d hu.wf hu.num (hS.renew hu) (fun c' hc' => by
            injection hc' with hc'; exact hc' ▸ ha) e1).1
          obtain ⟨u2, e2⟩ := ihr u1 (hu.trans q1) (fun y hy => hmem y (List.mem_cons_of_mem _ hy))
          exact ⟨u2, by simp only [forU, M.bind_apply, e1, e2]⟩
      obtain ⟨w3, h3⟩ := loop (w1.omap c).values w2 r2 (fun x hx => by rwa [r1.omap, hv.omap] at hx)
      exact ⟨w3, by simp only [setUuidFor, M.bind_apply, h1, if_true, h2, h3]⟩

theorem Issued.numbered {w : World} (h : Issued w) : Numbered w.nuuid w :=
  ⟨h, Nat.le_refl _, fun p _ u hp _ hu h1 _ => absurd (h.uuid p u hp h1) (Nat.not_lt.mpr hu)⟩

end Verif
