import Verif.Spec.Reference
import Verif.Lemmas.Tree
import Verif.Lemmas.Lookup
import Verif.Lemmas.Detach
import Verif.Lemmas.Construct

/-! The `Reference` behavior on trees of `Reference` nodes. -/

namespace Verif

variable {E : Env}

theorem RefClass.not {c : ClassDef} (h : RefClass c) {b : Bhv} (hb : b ∈ [Bhv.alias, .cache, .fallback,
    .childFactory, .fixedChildren, .attributesLifecycle]) : b ∉ c.bhvs := fun hm =>
  h.plain b hm hb

theorem RefClass.concrete {c : ClassDef} (h : RefClass c) : Concrete c :=
  ⟨h.kind, h.not (by decide), h.not (by decide), h.not (by decide)⟩

theorem RefClass.reference {c : ClassDef} (h : RefClass c) : Bhv.reference ∈ c.bhvs := by
  obtain ⟨l, r, e, -⟩ := h.once
  rw [e]; simp

theorem RefClass.contains {c : ClassDef} (h : RefClass c) : c.bhvs.contains .reference = true :=
  List.contains_iff_mem.mpr h.reference

theorem RefClass.looks {c : ClassDef} (h : RefClass c) {k : Key} (hk : KeyFor c k) : Looks c k :=
  ⟨h.concrete.stores, h.not (by decide), hk⟩

theorem RefClass.coh {w : World} {o : Oid} (h : RefClass (clsOf E w o)) : Coh E (· = o) w := by
  intro p hp hc
  subst hp
  exact absurd hc (h.not (by decide))

/-- Heaps that cannot be told apart. -/
structure Rd (w w' : World) : Prop where
  wf : WF w'
  same : Same w w'

theorem Rd.refl {w : World} (h : WF w) : Rd w w := ⟨h, Same.refl w⟩
theorem Rd.trans {a b c : World} (h : Rd a b) (h' : Rd b c) : Rd a c := ⟨h'.wf, h.same.trans h'.same⟩

theorem Rd.contains {w w' : World} (h : Rd w w') (p : Oid) (k : Key) (c : Oid) :
    Contains w' p k c ↔ Contains w p k c := by
  show (w'.children p).get? k = _ ↔ (w.children p).get? k = _
  rw [h.same.children]

theorem getitem_ref {o : Oid} {k : Key} {w : World} (hw : WF w) (hc : RefClass (clsOf E w o))
    (hk : KeyFor (clsOf E w o) k) :
    ∃ w', getitem E o k w = (lookup (w.children o) k, w') ∧ Rd w w' := by
  obtain ⟨w', h1, h2⟩ := getitem_look (hc.looks hk) hw hc.coh rfl (hc.not (by decide))
    (hc.not (by decide))
  exact ⟨w', h1, h2.wf, h2.same⟩

theorem iter_ref {o : Oid} {w : World} (hw : WF w) (hc : RefClass (clsOf E w o)) :
    ∃ w', iter E o w = (.ok ((w.children o).keys, none), w') ∧ Rd w w' := by
  obtain ⟨w', h1, h2⟩ := iter_open hc.concrete hw hc.coh
  exact ⟨w', h1, h2.wf, h2.same⟩

theorem mvalues_ref {o : Oid} {w : World} (hw : WF w) (hc : RefClass (clsOf E w o))
    (hk : ∀ k ∈ (w.children o).keys, KeyFor (clsOf E w o) k) :
    ∃ w', mvalues E o w = (.ok (w.omap o).values, w') ∧ Rd w w' := by
  obtain ⟨w', h1, h2⟩ := mvalues_open (E := E) (S := (· = o)) (o := o)
    ⟨hc.concrete, hk, fun h => absurd h (hc.not (by decide))⟩ hw hc.coh rfl
  exact ⟨w', h1, h2.wf, h2.same⟩

theorem upd_self {β : Type} (f : Nat → β) (i : Nat) : upd f i (f i) = f := by
  funext j
  simp only [upd]
  split
  · rename_i h; rw [h]
  · rfl

theorem upd_upd {β : Type} (f : Nat → β) (i : Nat) (x y : β) : upd (upd f i x) i y = upd f i y := by
  funext j
  simp only [upd]
  split <;> rfl

/-! ### The part of the heap the index depends on -/

/-- The tree below `root` consists of `Reference` nodes at single places with
ordinary keys. -/
structure RefTree (E : Env) (w : World) (root : Oid) : Prop where
  sole : Sole w
  top : ∀ p k, ¬ Contains w p k root
  bound : root < w.nobj
  bounds : ∀ p k c, Contains w p k c → c < w.nobj
  cls : ∀ x, InTree w root x → RefClass (clsOf E w x)
  keys : ∀ x, InTree w root x → ∀ k ∈ (w.children x).keys, KeyFor (clsOf E w x) k
  uuid : ∀ x, InTree w root x → ∃ u, HasUuid w x u
  inj : ∀ x y u, InTree w root x → InTree w root y → HasUuid w x u → HasUuid w y u → x = y

/-- The uuids below a node. -/
def SubUuid (w : World) (c : Oid) (u : Nat) : Prop := ∃ x, InTree w c x ∧ HasUuid w x u

theorem RefTree.lookup {w : World} {R p d : Oid} {j : Key} (ht : RefTree E w R) (hp : InTree w R p)
    (hc : Contains w p j d) : KeyFor (clsOf E w p) j :=
  ht.keys p hp j (Od.mem_keys_of_get? hc)

/-- The loop of `_to_delete`. -/
theorem toDeleteLoop_spec {w : World} {R c : Oid} (ht : RefTree E w R) (hc : InTree w R c)
    {rec : Oid → M (List Nat)}
    (hrec : ∀ d k w1, Contains w c k d → Rd w w1 → ∃ us w2, rec d w1 = (.ok us, w2) ∧ Rd w w2 ∧
      us.Nodup ∧ ∀ u, u ∈ us ↔ SubUuid w d u)
    (ks : List Key) (hnd : ks.Nodup) (hks : ∀ k ∈ ks, k ∈ (w.children c).keys) {w1 : World}
    (h1 : Rd w w1) :
    ∃ us w2, toDeleteLoop E rec c ks w1 = (.ok us, w2) ∧ Rd w w2 ∧ us.Nodup ∧
      ∀ u, u ∈ us ↔ ∃ k ∈ ks, ∃ d, Contains w c k d ∧ SubUuid w d u := by
  induction ks generalizing w1 with
  | nil => exact ⟨[], w1, rfl, h1, List.nodup_nil, fun u => by simp⟩
  | cons k r ih =>
    have hcls : clsOf E w1 c = clsOf E w c := congrArg E.cls (h1.same.obj c).cls
    have hkf : KeyFor (clsOf E w1 c) k := by rw [hcls]; exact ht.keys c hc k (hks k List.mem_cons_self)
    obtain ⟨w2, g1, g2⟩ := getitem_ref (E := E) (k := k) h1.wf (by rw [hcls]; exact ht.cls c hc) hkf
    have h2 := h1.trans g2
    obtain ⟨v, hv⟩ := Od.get?_of_mem_keys (hks k List.mem_cons_self)
    rw [h1.same.children, Verif.lookup, hv] at g1
    have hnd' := List.nodup_cons.mp hnd
    simp only [toDeleteLoop, M.bind_apply, M.catchIf, g1]
    cases v with
    | data d =>
      obtain ⟨us, w3, e1, e2, e3, e4⟩ := ih hnd'.2 (fun j hj => hks j (List.mem_cons_of_mem _ hj)) h2
      simp only [M.raise_apply, Exc.isAttr, if_true, M.pure_apply, e1, List.nil_append]
      refine ⟨us, w3, rfl, e2, e3, fun u => ?_⟩
      rw [e4 u]
      constructor
      · rintro ⟨j, hj, h⟩; exact ⟨j, List.mem_cons_of_mem _ hj, h⟩
      · rintro ⟨j, hj, d', hd, h⟩
        rcases List.mem_cons.mp hj with rfl | hj
        · have : (w.children c).get? j = some (.node d') := hd
          rw [hv] at this; cases this
        · exact ⟨j, hj, d', hd, h⟩
    | node d =>
      have hd : Contains w c k d := hv
      have hdt := hc.child hd
      obtain ⟨us1, w3, f1, f2, f3, f4⟩ := hrec d k w2 hd h2
      obtain ⟨us, w4, e1, e2, e3, e4⟩ := ih hnd'.2 (fun j hj => hks j (List.mem_cons_of_mem _ hj)) f2
      have hb : (bhvsOf E w2 d).contains .reference = true := by
        have : clsOf E w2 d = clsOf E w d := congrArg E.cls (h2.same.obj d).cls
        show (clsOf E w2 d).bhvs.contains _ = _
        rw [this]; exact (ht.cls d hdt).contains
      simp only [M.bind_apply, M.getW_apply, hb, if_true, f1, e1, M.pure_apply]
      refine ⟨us1 ++ us, w4, rfl, e2, ?_, fun u => ?_⟩
      · refine List.nodup_append.mpr ⟨f3, e3, fun u hu u' hu' e => ?_⟩
        subst e
        obtain ⟨x, hx, hxu⟩ := (f4 u).mp hu
        obtain ⟨j, hj, d', hd', y, hy, hyu⟩ := (e4 u).mp hu'
        have := ht.inj x y u (hdt.trans hx) ((hc.child hd').trans hy) hxu hyu
        subst this
        have := InTree.siblings ht.sole ht.top hc hd hd' hx hy
        subst this
        obtain ⟨-, rfl⟩ := ht.sole _ _ _ _ _ hd hd'
        exact hnd'.1 hj
      · rw [List.mem_append, f4 u, e4 u]
        constructor
        · rintro (h | ⟨j, hj, h⟩)
          · exact ⟨k, List.mem_cons_self, d, hd, h⟩
          · exact ⟨j, List.mem_cons_of_mem _ hj, h⟩
        · rintro ⟨j, hj, d', hd', h⟩
          rcases List.mem_cons.mp hj with rfl | hj
          · have : (w.children c).get? j = some (.node d') := hd'
            rw [hv] at this; cases this; exact .inl h
          · exact .inr ⟨j, hj, d', hd', h⟩

/-- `_to_delete` collects the uuids of the subtree, each once. -/
theorem toDelete_spec {w : World} {R : Oid} (ht : RefTree E w R) (n : Nat) {c : Oid} {ks : List Key}
    (hb : Below w R ks c) (hn : w.nobj < n + ks.length + 1) (hw : WF w) {w1 : World} (h1 : Rd w w1) :
    ∃ us w2, toDelete E n c w1 = (.ok us, w2) ∧ Rd w w2 ∧ us.Nodup ∧ ∀ u, u ∈ us ↔ SubUuid w c u := by
  induction n generalizing c ks w1 with
  | zero =>
    have := hb.length ht.sole ht.top ht.bound ht.bounds
    omega
  | succ n ih =>
    have hc : InTree w R c := ⟨ks, hb⟩
    have hcls : clsOf E w1 c = clsOf E w c := congrArg E.cls (h1.same.obj c).cls
    obtain ⟨u0, hu0⟩ := ht.uuid c hc
    have hu1 : (w1.objs c).uuid = some u0 := (h1.same.obj c).uuid.trans hu0
    obtain ⟨w2, g1, g2⟩ := iter_ref (E := E) h1.wf (by rw [hcls]; exact ht.cls c hc)
    have h2 := h1.trans g2
    rw [h1.same.children] at g1
    obtain ⟨us, w3, e1, e2, e3, e4⟩ := toDeleteLoop_spec ht hc (rec := toDelete E n)
      (fun d k w1 hd hr => ih (hb.child hd) (by simp; omega) hr) (w.children c).keys
      (hw.children_nodup c) (fun _ h => h) h2
    simp only [toDelete, M.bind_apply, getO_apply, hu1, g1, e1, M.pure_apply]
    refine ⟨u0 :: us, w3, rfl, e2, List.nodup_cons.mpr ⟨fun hm => ?_, e3⟩, fun u => ?_⟩
    · obtain ⟨k, -, d, hd, x, hx, hxu⟩ := (e4 u0).mp hm
      have := ht.inj x c u0 ((hc.child hd).trans hx) hc hxu hu0
      subst this
      exact hc.acyclic ht.sole ht.top hd hx
    · rw [List.mem_cons, e4 u]
      constructor
      · rintro (rfl | ⟨k, -, d, hd, x, hx, hxu⟩)
        · exact ⟨c, .refl c, hu0⟩
        · exact ⟨x, ((InTree.refl c).child hd).trans hx, hxu⟩
      · rintro ⟨x, hx, hxu⟩
        rcases hx.down with rfl | ⟨k, d, hd, hx⟩
        · have : some u = some u0 := hxu.symm.trans hu0
          exact .inl (Option.some.inj this)
        · exact .inr ⟨k, Od.mem_keys_of_get? hd, d, hd, x, hx, hxu⟩

/-- Deleting index entries that are there. -/
theorem indexDelete_spec {o : Oid} {i : Ref} (us : List Nat) {w : World} (hi : (w.objs o).index = some i)
    (hw : WF w) (hnd : us.Nodup) (hh : ∀ u ∈ us, some u ∈ (w.idxs i).keys) :
    ∃ d, indexDelete o us w = (.ok (), { w with idxs := upd w.idxs i d }) ∧ d.keys.Nodup ∧
      ∀ v, d.get? v = if ∃ u ∈ us, v = some u then none else (w.idxs i).get? v := by
  induction us generalizing w with
  | nil => exact ⟨w.idxs i, by simp only [indexDelete, M.pure_apply, upd_self], hw.iNd i, fun v => by simp⟩
  | cons u r ih =>
    have hnd' := List.nodup_cons.mp hnd
    have hhas : (w.idxs i).has (some u) = true := by
      rw [Od.has_iff]; exact hh u List.mem_cons_self
    let w1 : World := { w with idxs := upd w.idxs i ((w.idxs i).del (some u)) }
    have hw1 : WF w1 := hw.setIdx i (Od.nodup_keys_del (hw.iNd i) _)
    obtain ⟨d, e1, e2, e3⟩ := ih (w := w1) hi hw1 hnd'.2 (fun x hx => by
      show some x ∈ ((upd w.idxs i _) i).keys
      rw [upd_same, ← Od.get?_isSome_iff, Od.get?_del (hw.iNd i)]
      have : ¬ some x = some u := fun e => hnd'.1 (Option.some.inj e ▸ hx)
      simp only [this, if_false, Od.get?_isSome_iff]
      exact hh x (List.mem_cons_of_mem _ hx))
    refine ⟨d, ?_, e2, fun v => ?_⟩
    · simp only [indexDelete, M.bind_apply, indexRef, hi, M.getW, hhas, if_true, M.modifyW]
      rw [show ({ w with idxs := upd w.idxs i ((w.idxs i).del (some u)) } : World) = w1 from rfl, e1]
      simp only [w1, upd_upd]
    · rw [e3 v]
      show (if _ then _ else ((upd w.idxs i _) i).get? v) = _
      rw [upd_same, Od.get?_del (hw.iNd i)]
      by_cases h1 : ∃ x ∈ r, v = some x
      · rw [if_pos h1, if_pos]
        obtain ⟨x, hx, e⟩ := h1
        exact ⟨x, List.mem_cons_of_mem _ hx, e⟩
      · rw [if_neg h1]
        by_cases h2 : v = some u
        · rw [if_pos h2, if_pos ⟨u, List.mem_cons_self, h2⟩]
        · rw [if_neg h2, if_neg]
          rintro ⟨x, hx, e⟩
          rcases List.mem_cons.mp hx with rfl | hx
          · exact h2 e
          · exact h1 ⟨x, hx, e⟩

/-! ### Deleting and setting -/

/-- What an operation does to the part of the heap the index depends on: children,
indexes and index references become the given ones, the rest stays. -/
structure Shift (ch : Oid → Od Key Val) (ix : Ref → Od (Option Nat) Oid) (gi : Oid → Option Ref)
    (w w' : World) : Prop where
  wf : WF w'
  children : ∀ p, w'.children p = ch p
  idxs : w'.idxs = ix
  index : ∀ p, (w'.objs p).index = gi p
  cls : ∀ p, (w'.objs p).cls = (w.objs p).cls
  uuid : ∀ p, (w'.objs p).uuid = (w.objs p).uuid
  nidx : w'.nidx = w.nidx
  nobj : w'.nobj = w.nobj
  nuuid : w'.nuuid = w.nuuid

/-- Nothing of it changes. -/
abbrev Calm (w w' : World) : Prop := Shift w.children w.idxs (fun p => (w.objs p).index) w w'

variable {ch : Oid → Od Key Val} {ix : Ref → Od (Option Nat) Oid} {gi : Oid → Option Ref}

theorem Shift.after {a b c : World} (h : Calm a b) (h' : Shift ch ix gi b c) : Shift ch ix gi a c :=
  ⟨h'.wf, h'.children, h'.idxs, h'.index, fun p => (h'.cls p).trans (h.cls p),
    fun p => (h'.uuid p).trans (h.uuid p), h'.nidx.trans h.nidx, h'.nobj.trans h.nobj,
    h'.nuuid.trans h.nuuid⟩

theorem Shift.then {a b c : World} (h : Shift ch ix gi a b) (h' : Calm b c) : Shift ch ix gi a c :=
  ⟨h'.wf, fun p => (h'.children p).trans (h.children p), h'.idxs.trans h.idxs,
    fun p => (h'.index p).trans (h.index p), fun p => (h'.cls p).trans (h.cls p),
    fun p => (h'.uuid p).trans (h.uuid p), h'.nidx.trans h.nidx, h'.nobj.trans h.nobj,
    h'.nuuid.trans h.nuuid⟩

theorem Rd.calm {w w' : World} (h : Rd w w') : Calm w w' :=
  ⟨h.wf, h.same.children, h.same.idxs, fun p => (h.same.obj p).index, fun p => (h.same.obj p).cls,
    fun p => (h.same.obj p).uuid, h.same.nidx, h.same.nobj, h.same.nuuid⟩

theorem Calm.refl {w : World} (h : WF w) : Calm w w := (Rd.refl h).calm

theorem calm_notify (e : Event) {w : World} (hw : WF w) : Calm w (notify e w).2 :=
  ⟨hw.setLog _, fun _ => rfl, rfl, fun _ => rfl, fun _ => rfl, fun _ => rfl, rfl, rfl, rfl⟩

theorem calm_modO {o : Oid} (f : Obj → Obj) {w : World} (hw : WF w) (hs : ∀ b, (f b).storage = b.storage)
    (hc : ∀ b, (f b).cache = b.cache) (hn : ∀ b, (f b).nodespaces = b.nodespaces)
    (hi : ∀ b, (f b).index = b.index) (hcl : ∀ b, (f b).cls = b.cls)
    (hu : ∀ b, (f b).uuid = b.uuid) : Calm w (modO o f w).2 where
  wf := hw.modO o f (hs _) (hc _) (hn _) fun r hr => hw.iLt ((hi _).symm.trans hr)
  children := children_modO o f (hs _)
  idxs := rfl
  index := proj_upd Obj.index w.objs o _ (hi _)
  cls := proj_upd Obj.cls w.objs o _ (hcl _)
  uuid := proj_upd Obj.uuid w.objs o _ (hu _)
  nidx := rfl
  nobj := rfl
  nuuid := rfl

theorem Shift.clsOf {w w' : World} (h : Shift ch ix gi w w') (p : Oid) :
    Verif.clsOf E w' p = Verif.clsOf E w p := congrArg E.cls (h.cls p)

/-- The children after deleting. -/
abbrev chDel (w : World) (o : Oid) (k : Key) (p : Oid) : Od Key Val :=
  if p = o then (w.children o).del k else w.children p

/-- The children after setting. -/
abbrev chSet (w : World) (o : Oid) (k : Key) (v : Val) (p : Oid) : Od Key Val :=
  if p = o then (w.children o).set k v else w.children p

theorem delEnd_ref {o : Oid} {k : Key} {w : World} (hw : WF w) (hc : RefClass (clsOf E w o))
    (hm : k ∈ (w.children o).keys) : ∃ w', delEnd E o k w = (.ok (), w') ∧
      Shift (chDel w o k) w.idxs (fun p => (w.objs p).index) w w' := by
  obtain ⟨r, w1, hr⟩ := hc.concrete.stores.storageRef
  have hq := storageRef_quiet E o w hw
  have hro := storageRef_ok hr
  rw [hr] at hq
  refine ⟨{ w1 with stores := upd w1.stores r ((w1.stores r).del k) }, ?_, ?_⟩
  · simp only [delEnd, M.bind_apply, M.getW_apply]
    have hh : (w1.stores r).has k = true := by
      rw [Od.has_iff, ← children_eq hro, hq.2.children]; exact hm
    rw [show (bhvsOf E w o).contains .fixedChildren = false from hc.concrete.fixed,
      show (bhvsOf E w o).any Bhv.isStorage = true from hc.concrete.stores.any]
    simp only [Bool.false_eq_true, if_false, if_true, M.bind_apply, hr, M.getW_apply, hh,
      M.modifyW_apply]
  · have hd := Rd.calm ⟨hq.1, hq.2⟩
    exact ⟨hq.1.setStore r (Od.nodup_keys_del (hq.1.sNd r) k), fun p => by
      rw [children_setStore hq.1 hro, ← children_eq hro, hq.2.children o, hq.2.children p], hd.idxs,
      hd.index, hd.cls, hd.uuid, hd.nidx, hd.nobj, hd.nuuid⟩

theorem setEnd_ref {o : Oid} {k : Key} {v : Val} {w : World} (hw : WF w)
    (hc : RefClass (clsOf E w o)) : ∃ w', setEnd E o k v w = (.ok (), w') ∧
      Shift (chSet w o k v) w.idxs (fun p => (w.objs p).index) w w' := by
  obtain ⟨r, w1, hr⟩ := hc.concrete.stores.storageRef
  have hq := storageRef_quiet E o w hw
  have hro := storageRef_ok hr
  rw [hr] at hq
  refine ⟨{ w1 with stores := upd w1.stores r ((w1.stores r).set k v) }, ?_, ?_⟩
  · simp only [setEnd, M.bind_apply, M.getW_apply]
    rw [show (bhvsOf E w o).contains .fixedChildren = false from hc.concrete.fixed,
      show (bhvsOf E w o).any Bhv.isStorage = true from hc.concrete.stores.any]
    simp only [Bool.false_eq_true, if_false, if_true, M.bind_apply, hr, M.getW_apply,
      M.modifyW_apply]
  · have hd := Rd.calm ⟨hq.1, hq.2⟩
    exact ⟨hq.1.setStore r (Od.nodup_keys_set (hq.1.sNd r) k v), fun p => by
      rw [children_setStore hq.1 hro, ← children_eq hro, hq.2.children o, hq.2.children p], hd.idxs,
      hd.index, hd.cls, hd.uuid, hd.nidx, hd.nobj, hd.nuuid⟩

theorem chDel_calm {a b : World} (h : Calm a b) (o : Oid) (k : Key) : chDel b o k = chDel a o k := by
  funext p; simp only [chDel, h.children]

theorem chSet_calm {a b : World} (h : Calm a b) (o : Oid) (k : Key) (v : Val) :
    chSet b o k v = chSet a o k v := by
  funext p; simp only [chSet, h.children]

theorem index_calm {a b : World} (h : Calm a b) :
    (fun p => (b.objs p).index) = fun p => (a.objs p).index := funext h.index

/-- Deleting below `Reference`. -/
theorem delPipe_below {bs : List Bhv} {o : Oid} {k : Key} {w : World} (hw : WF w)
    (hc : RefClass (clsOf E w o)) (hk : KeyFor (clsOf E w o) k) (hsub : ∀ b ∈ bs, b ∈ (clsOf E w o).bhvs)
    (hr : Bhv.reference ∉ bs) (hm : k ∈ (w.children o).keys) :
    ∃ w', delPipe E bs o k w = (.ok (), w') ∧
      Shift (chDel w o k) w.idxs (fun p => (w.objs p).index) w w' := by
  induction bs generalizing w with
  | nil => exact delEnd_ref hw hc hm
  | cons b r ih =>
    have hsub' : ∀ b ∈ r, b ∈ (clsOf E w o).bhvs := fun b hb => hsub b (List.mem_cons_of_mem _ hb)
    have hb := hsub b List.mem_cons_self
    have hr' : Bhv.reference ∉ r := fun h => hr (List.mem_cons_of_mem _ h)
    have base := ih hw hc hk hsub' hr' hm
    cases b
    case nodespaces =>
      obtain ⟨s, rfl, hs⟩ := hk hb
      simp only [delPipe, nodespacesDel, not_reserved hs, Bool.false_eq_true, if_false]
      exact base
    case lifecycle =>
      obtain ⟨w1, g1, g2⟩ := getitem_ref hw hc hk
      obtain ⟨v, hv⟩ := Od.get?_of_mem_keys hm
      rw [lookup, hv] at g1
      have hcl : clsOf E w1 o = clsOf E w o := g2.calm.clsOf o
      obtain ⟨w2, e1, e2⟩ := ih g2.wf (by rw [hcl]; exact hc) (by rw [hcl]; exact hk)
        (by rw [hcl]; exact hsub') hr' (by rw [g2.same.children]; exact hm)
      rw [chDel_calm g2.calm, g2.same.idxs, index_calm g2.calm] at e2
      have e3 := Shift.after g2.calm e2
      simp only [delPipe, lifecycleDel, M.bind_apply, g1, e1, getO_apply]
      split
      · exact ⟨w2, rfl, e3⟩
      · exact ⟨_, rfl, e3.then (calm_notify _ e3.wf)⟩
    all_goals first
      | exact absurd List.mem_cons_self hr
      | exact absurd hb (hc.not (by decide))
      | exact base

/-- Deleting with `Reference`, given what un-indexing does. -/
theorem delPipe_ref {l r : List Bhv} {o : Oid} {k : Key} {w : World} (hw : WF w)
    (hc : RefClass (clsOf E w o)) (hk : KeyFor (clsOf E w o) k)
    (hsub : ∀ b ∈ l ++ .reference :: r, b ∈ (clsOf E w o).bhvs)
    (hl : Bhv.reference ∉ l) (hr : Bhv.reference ∉ r) {v : Val} (hv : (w.children o).get? k = some v)
    {Q : (Ref → Od (Option Nat) Oid) → Prop}
    (hu : ∀ w1, Rd w w1 → ∃ ix w2, referenceUnindex E o v w1 = (.ok (), w2) ∧
      Shift w.children ix (fun p => (w.objs p).index) w w2 ∧ Q ix) :
    ∃ ix w', delPipe E (l ++ .reference :: r) o k w = (.ok (), w') ∧
      Shift (chDel w o k) ix (fun p => (w.objs p).index) w w' ∧ Q ix := by
  have hm := Od.mem_keys_of_get? hv
  induction l generalizing w with
  | nil =>
    obtain ⟨w1, g1, g2⟩ := getitem_ref hw hc hk
    rw [lookup, hv] at g1
    obtain ⟨ix, w2, e1, e2, hq⟩ := hu w1 g2
    have hcl : clsOf E w2 o = clsOf E w o := e2.clsOf o
    obtain ⟨w3, f1, f2⟩ := delPipe_below (E := E) (bs := r) (k := k) e2.wf (by rw [hcl]; exact hc)
      (by rw [hcl]; exact hk) (by rw [hcl]; exact fun b hb => hsub b (by simp [hb])) hr
      (by rw [e2.children]; exact hm)
    simp only [List.nil_append, delPipe, referenceDel, M.bind_apply, g1, e1]
    refine ⟨ix, w3, f1, ⟨f2.wf, fun p => (f2.children p).trans ?_, f2.idxs.trans e2.idxs,
      fun p => (f2.index p).trans (e2.index p), fun p => (f2.cls p).trans (e2.cls p),
      fun p => (f2.uuid p).trans (e2.uuid p), f2.nidx.trans e2.nidx, f2.nobj.trans e2.nobj,
      f2.nuuid.trans e2.nuuid⟩, hq⟩
    simp only [chDel, e2.children]
  | cons b l ih =>
    have hsub' : ∀ b ∈ l ++ .reference :: r, b ∈ (clsOf E w o).bhvs := fun b hb =>
      hsub b (List.mem_cons_of_mem _ hb)
    have hb := hsub b List.mem_cons_self
    have hl' : Bhv.reference ∉ l := fun h => hl (List.mem_cons_of_mem _ h)
    have base := ih hw hc hk hsub' hl' hv hu hm
    rw [List.cons_append]
    cases b
    case nodespaces =>
      obtain ⟨s, rfl, hs⟩ := hk hb
      simp only [delPipe, nodespacesDel, not_reserved hs, Bool.false_eq_true, if_false]
      exact base
    case lifecycle =>
      obtain ⟨w1, g1, g2⟩ := getitem_ref hw hc hk
      rw [lookup, hv] at g1
      have hcl : clsOf E w1 o = clsOf E w o := g2.calm.clsOf o
      obtain ⟨ix, w2, e1, e2, hq⟩ := ih (w := w1) g2.wf (by rw [hcl]; exact hc) (by rw [hcl]; exact hk)
        (by rw [hcl]; exact hsub') hl' (by rw [g2.same.children]; exact hv) (fun w2 h2 => by
          obtain ⟨ix, w3, h3, h4, hq⟩ := hu w2 (g2.trans h2)
          refine ⟨ix, w3, h3, ⟨h4.wf, fun p => (h4.children p).trans (g2.same.children p).symm, h4.idxs,
            fun p => (h4.index p).trans (g2.same.obj p).index.symm,
            fun p => (h4.cls p).trans (g2.same.obj p).cls.symm,
            fun p => (h4.uuid p).trans (g2.same.obj p).uuid.symm, h4.nidx.trans g2.same.nidx.symm,
            h4.nobj.trans g2.same.nobj.symm, h4.nuuid.trans g2.same.nuuid.symm⟩, hq⟩)
        (by rw [g2.same.children]; exact hm)
      rw [chDel_calm g2.calm, index_calm g2.calm] at e2
      have e3 := Shift.after g2.calm e2
      simp only [delPipe, lifecycleDel, M.bind_apply, g1, e1, getO_apply]
      split
      · exact ⟨ix, w2, rfl, e3, hq⟩
      · exact ⟨ix, _, rfl, e3.then (calm_notify _ e3.wf), hq⟩
    all_goals first
      | exact absurd List.mem_cons_self hl
      | exact absurd hb (hc.not (by decide))
      | exact base

theorem calm_name (c : Oid) (k : Key) {w : World} (hw : WF w) :
    Calm w (modO c (fun ob => { ob with name := k }) w).2 :=
  calm_modO _ hw (fun _ => rfl) (fun _ => rfl) (fun _ => rfl) (fun _ => rfl) (fun _ => rfl)
    (fun _ => rfl)

theorem calm_parent (c : Oid) (p : Option Oid) {w : World} (hw : WF w) :
    Calm w (modO c (fun ob => { ob with parent := p }) w).2 :=
  calm_modO _ hw (fun _ => rfl) (fun _ => rfl) (fun _ => rfl) (fun _ => rfl) (fun _ => rfl)
    (fun _ => rfl)

/-- `Adopt` sets name and parent before. -/
theorem adoptSet_ref {next : Key → Val → M Unit} {o : Oid} {k : Key} {v : Val} {w : World} (hw : WF w)
    (h : ∀ w1, Calm w w1 → ∃ w2, next k v w1 = (.ok (), w2) ∧ Shift ch ix gi w w2) :
    ∃ w2, adoptSet next o k v w = (.ok (), w2) ∧ Shift ch ix gi w w2 := by
  cases v with
  | data d => exact h w (.refl hw)
  | node c =>
    have h1 := calm_name c k hw
    have h3 : Calm w _ := h1.then (calm_parent c (some o) h1.wf)
    obtain ⟨w2, e1, e2⟩ := h _ h3
    refine ⟨w2, ?_, e2⟩
    simp only [adoptSet, M.bind_apply, getO_apply, M.catchIf_apply]
    simp only [modO_apply] at e1 ⊢
    rw [e1]

theorem validateSet_ok {next : Key → Val → M Unit} {o : Oid} {k : Key} {v : Val} {w : World}
    (hb : Bhv.nodeChildValidate ∈ (clsOf E w o).bhvs) (hv : refuses (clsOf E w o) v = none) :
    validateSet E next o k v w = next k v w := by
  simp only [validateSet, M.bind_apply, M.getW_apply]
  cases v with
  | node c => simp [Val.isNode, Val.isClass]
  | data d =>
    simp only [refuses, hb, true_and] at hv
    split at hv
    · cases hv
    · rename_i hn
      simp only [Bool.not_eq_false] at hn
      simp [hn]

theorem Shift.congr {w1 w2 w3 : World} (h : Calm w1 w2) (h' : Shift ch ix gi w1 w3) :
    Shift ch ix gi w2 w3 :=
  ⟨h'.wf, h'.children, h'.idxs, h'.index, fun p => (h'.cls p).trans (h.cls p).symm,
    fun p => (h'.uuid p).trans (h.uuid p).symm, h'.nidx.trans h.nidx.symm, h'.nobj.trans h.nobj.symm,
    h'.nuuid.trans h.nuuid.symm⟩

theorem Calm.trans {a b c : World} (h : Calm a b) (h' : Calm b c) : Calm a c := Shift.then h h'

/-- Setting below `Reference`, or a value `Reference` does not care about. -/
theorem setPipe_below {bs : List Bhv} {o : Oid} {k : Key} {v : Val} {w0 w : World} (h0 : Calm w0 w)
    (hc : RefClass (clsOf E w0 o)) (hk : KeyFor (clsOf E w0 o) k)
    (hsub : ∀ b ∈ bs, b ∈ (clsOf E w0 o).bhvs) (hv : refuses (clsOf E w0 o) v = none)
    (hr : Bhv.reference ∈ bs → ∃ d, v = .data d) :
    ∃ w', setPipe E bs o k v w = (.ok (), w') ∧
      Shift (chSet w0 o k v) w0.idxs (fun p => (w0.objs p).index) w0 w' := by
  have hcl : clsOf E w o = clsOf E w0 o := h0.clsOf o
  induction bs generalizing w with
  | nil =>
    obtain ⟨w', h1, h2⟩ := setEnd_ref (E := E) (o := o) (k := k) (v := v) h0.wf (by rw [hcl]; exact hc)
    refine ⟨w', h1, ?_⟩
    rw [chSet_calm h0, h0.idxs, index_calm h0] at h2
    exact Shift.after h0 h2
  | cons b r ih =>
    have ih' : ∀ {w1}, Calm w0 w1 → _ := fun {w1} h1 => ih h1
      (fun b hb => hsub b (List.mem_cons_of_mem _ hb)) (fun h => hr (List.mem_cons_of_mem _ h))
      (h1.clsOf o)
    have hb := hsub b List.mem_cons_self
    have base := ih' h0
    cases b
    case nodeChildValidate =>
      simp only [setPipe]
      rw [validateSet_ok (by rw [hcl]; exact hb) (by rw [hcl]; exact hv)]
      exact base
    case nodespaces =>
      obtain ⟨s, rfl, hs⟩ := hk hb
      simp only [setPipe, nodespacesSet, not_reserved hs, Bool.false_eq_true, if_false]
      exact base
    case adopt =>
      obtain ⟨w2, e1, e2⟩ := adoptSet_ref (o := o) (k := k) (v := v)
        (next := setPipe E r o) h0.wf (fun w1 h1 => by
          obtain ⟨w2, e1, e2⟩ := ih' (h0.trans h1)
          exact ⟨w2, e1, Shift.congr h0 e2⟩)
      exact ⟨w2, e1, Shift.after h0 e2⟩
    case reference =>
      obtain ⟨d, rfl⟩ := hr List.mem_cons_self
      exact base
    case lifecycle =>
      obtain ⟨w2, e1, e2⟩ := base
      simp only [setPipe, lifecycleSet, M.bind_apply, e1, getO_apply]
      split
      · exact ⟨w2, rfl, e2⟩
      · exact ⟨_, rfl, e2.then (calm_notify _ e2.wf)⟩
    all_goals first
      | exact absurd hb (hc.not (by decide))
      | exact base

/-- Setting a node with `Reference`, given what checking and merging do. -/
theorem setPipe_ref {l r : List Bhv} {o : Oid} {k : Key} {c : Oid} {w0 w : World} (h0 : Calm w0 w)
    (hc : RefClass (clsOf E w0 o)) (hk : KeyFor (clsOf E w0 o) k)
    (hsub : ∀ b ∈ l ++ .reference :: r, b ∈ (clsOf E w0 o).bhvs)
    (hl : Bhv.reference ∉ l) (hr : Bhv.reference ∉ r)
    (hu : ∀ w1, Calm w0 w1 → ∃ w2 w3, referenceCheck E o c w1 = (.ok (), w2) ∧
      referenceMerge o c w2 = (.ok (), w3) ∧ Shift w0.children ix gi w0 w3) :
    ∃ w', setPipe E (l ++ .reference :: r) o k (.node c) w = (.ok (), w') ∧
      Shift (chSet w0 o k (.node c)) ix gi w0 w' := by
  have hcl : clsOf E w o = clsOf E w0 o := h0.clsOf o
  induction l generalizing w with
  | nil =>
    obtain ⟨w2, w3, e1, e2, e3⟩ := hu w h0
    have hcl : clsOf E w3 o = clsOf E w0 o := e3.clsOf o
    obtain ⟨w4, f1, f2⟩ := setPipe_below (E := E) (bs := r) (o := o) (k := k) (v := .node c)
      (.refl e3.wf) (by rw [hcl]; exact hc)
      (by rw [hcl]; exact hk) (by rw [hcl]; exact fun b hb => hsub b (by simp [hb])) rfl
      (fun h => absurd h hr)
    simp only [List.nil_append, setPipe, referenceSet, M.bind_apply, e1, e2]
    refine ⟨w4, f1, f2.wf, fun p => (f2.children p).trans ?_, f2.idxs.trans e3.idxs,
      fun p => (f2.index p).trans (e3.index p), fun p => (f2.cls p).trans (e3.cls p),
      fun p => (f2.uuid p).trans (e3.uuid p), f2.nidx.trans e3.nidx, f2.nobj.trans e3.nobj,
      f2.nuuid.trans e3.nuuid⟩
    simp only [chSet, e3.children]
  | cons b l ih =>
    have ih' : ∀ {w1}, Calm w0 w1 → _ := fun {w1} h1 => ih h1
      (fun b hb => hsub b (List.mem_cons_of_mem _ hb)) (fun h => hl (List.mem_cons_of_mem _ h))
      (h1.clsOf o)
    have hb := hsub b List.mem_cons_self
    have base := ih' h0
    rw [List.cons_append]
    cases b
    case nodeChildValidate =>
      simp only [setPipe]
      rw [validateSet_ok (by rw [hcl]; exact hb) (by rw [hcl]; rfl)]
      exact base
    case nodespaces =>
      obtain ⟨s, rfl, hs⟩ := hk hb
      simp only [setPipe, nodespacesSet, not_reserved hs, Bool.false_eq_true, if_false]
      exact base
    case adopt =>
      obtain ⟨w2, e1, e2⟩ := adoptSet_ref (o := o) (k := k) (v := .node c)
        (next := setPipe E (l ++ .reference :: r) o) h0.wf (fun w1 h1 => by
          obtain ⟨w2, e1, e2⟩ := ih' (h0.trans h1)
          exact ⟨w2, e1, Shift.congr h0 e2⟩)
      exact ⟨w2, e1, Shift.after h0 e2⟩
    case lifecycle =>
      obtain ⟨w2, e1, e2⟩ := base
      simp only [setPipe, lifecycleSet, M.bind_apply, e1, getO_apply]
      split
      · exact ⟨w2, rfl, e2⟩
      · exact ⟨_, rfl, e2.then (calm_notify _ e2.wf)⟩
    all_goals first
      | exact absurd List.mem_cons_self hl
      | exact absurd hb (hc.not (by decide))
      | exact base

end Verif
