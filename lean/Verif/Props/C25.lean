import Verif.Lemmas.Route
import Verif.Lemmas.Construct
import Verif.Lemmas.Lookup
import Verif.Lemmas.MapPrims
import Verif.Lemmas.NewNode
import Verif.Lemmas.Elsewhere
import Verif.Props.C02

/-!
# C25 Nodespaces and children are disjoint, C26 `attrs` is one stable object

C25: `dest` says where a key goes; without `Alias` the reserved names go to the
nodespaces and all other keys to the children.  `node['__children__']` is the node
itself as long as nobody assigns or deletes this very name.
C26: as C25, for the name `'__attrs__'`.
Programs with a `ChildFactory` are excluded, as their reads create children.
-/

namespace Verif

variable {E : Env}

theorem dest_reserved {c : ClassDef} (hn : Bhv.nodespaces ∈ c.bhvs) (ha : Bhv.alias ∉ c.bhvs)
    {s : Str} (hs : Reserved s) : dest c.aliaser c.bhvs (.str s) = some (.nodespace (.str s)) := by
  revert hn ha
  generalize c.bhvs = bs
  intro hn ha
  induction bs with
  | nil => cases hn
  | cons b r ih =>
    have ih := fun h => ih h fun h => ha (List.mem_cons_of_mem _ h)
    cases b
    case nodespaces => simp only [dest, if_pos hs]
    case alias => exact absurd List.mem_cons_self ha
    all_goals exact ih ((List.mem_cons.mp hn).resolve_left (by decide))

/-- Keys that are not reserved names, for classes without `Alias`. -/
theorem dest_other {c : ClassDef} (ha : Bhv.alias ∉ c.bhvs) {k : Key}
    (hk : ∀ s, k = .str s → ¬ Reserved s) (j : Key) :
    dest c.aliaser c.bhvs k ≠ some (.nodespace j) := by
  revert ha
  generalize c.bhvs = bs
  intro ha
  induction bs with
  | nil => simp [dest]
  | cons b r ih =>
    have ih := ih fun h => ha (List.mem_cons_of_mem _ h)
    cases b
    case nodespaces =>
      cases k with
      | str s => simp only [dest, if_neg (hk s rfl)]; exact ih
      | _ => simp [dest]
    case alias => exact absurd List.mem_cons_self ha
    all_goals exact ih

section
variable {o : Oid} {w : World} {k : Key}

/-- What goes to a nodespace. -/
def ToNodespace (E : Env) (w : World) (o : Oid) (k j : Key) : Prop :=
  dest (clsOf E w o).aliaser (clsOf E w o).bhvs k = some (.nodespace j)

theorem set_nodespace (hw : WF w) {j : Key} (hd : ToNodespace E w o k j) (v : Val) :
    ChSame w (setitem E o k v w).2 :=
  ((chSame_rel.set (E := E) (o := o) (c := clsOf E w o) v (fun d => ∃ j, d = .nodespace j)
    (fun _ h => nomatch h)).setPipe _ k (fun d e => ⟨j, Option.some.inj (e.symm.trans hd)⟩) w hw rfl).2.2

theorem del_nodespace (hE : DelReads E (clsOf E w o)) (hw : WF w) {j : Key} (hd : ToNodespace E w o k j) :
    ChSame w (delitem E o k w).2 :=
  ((chSame_rel.del (E := E) (o := o) (c := clsOf E w o) hE (fun d => ∃ j, d = .nodespace j)
    (fun _ h => nomatch h)).delPipe _ (fun _ h => h) k (fun d e => ⟨j, Option.some.inj (e.symm.trans hd)⟩) w hw rfl).2.2

theorem set_children (hw : WF w) (hd : ∀ j, ¬ ToNodespace E w o k j) (v : Val) :
    NsSame w (setitem E o k v w).2 :=
  ((nsSame_rel.set (E := E) (o := o) (c := clsOf E w o) v (fun d => ∀ j, d ≠ .nodespace j)
    (fun _ h => absurd rfl (h _))).setPipe _ k (fun d e j h => hd j (e.trans (congrArg some h))) w hw rfl).2.2

theorem del_children (hE : DelReads E (clsOf E w o)) (hw : WF w) (hd : ∀ j, ¬ ToNodespace E w o k j) :
    NsSame w (delitem E o k w).2 :=
  ((nsSame_rel.del (E := E) (o := o) (c := clsOf E w o) hE (fun d => ∀ j, d ≠ .nodespace j)
    (fun _ h => absurd rfl (h _))).delPipe _ (fun _ h => h) k (fun d e j h => hd j (e.trans (congrArg some h))) w hw rfl).2.2

theorem set_entry (hw : WF w) {j : Key} (hd : ¬ ToNodespace E w o k j) (v : Val) :
    NsEntry j w (setitem E o k v w).2 :=
  (((nsEntry_rel j).set (E := E) (o := o) (c := clsOf E w o) v (fun d => d ≠ .nodespace j)
    (fun i h => nsEntry_nsPut (fun e => h (by rw [e])) v)).setPipe _ k
    (fun d e h => hd (e.trans (congrArg some h))) w hw rfl).2.2

theorem del_entry (hE : DelReads E (clsOf E w o)) (hw : WF w) {j : Key} (hd : ¬ ToNodespace E w o k j) :
    NsEntry j w (delitem E o k w).2 :=
  (((nsEntry_rel j).del (E := E) (o := o) (c := clsOf E w o) hE (fun d => d ≠ .nodespace j)
    (fun i h => nsEntry_nsDrop (fun e => h (by rw [e])))).delPipe _ (fun _ h => h) k
    (fun d e h => hd (e.trans (congrArg some h))) w hw rfl).2.2

/-- The nodespaces of every node are what they were. -/
def SpacesSame (w w' : World) : Prop := ∀ p, w'.nmap p = w.nmap p

theorem SpacesSame.of {w w' : World} (h : NsSame w w') : SpacesSame w w' := fun p => by
  simp only [World.nmap, h p]

/-- C25: reading, writing and deleting a reserved name, with whatever outcome, leaves
the children of every node alone. -/
theorem c25_reserved (hE : DetachReads E (clsOf E w o)) (hw : WF w) (hn : Bhv.nodespaces ∈ (clsOf E w o).bhvs)
    (ha : Bhv.alias ∉ (clsOf E w o).bhvs) {s : Str} (hs : Reserved s) (v : Val) :
    MapsSame w (getitem E o (.str s) w).2 ∧ MapsSame w (setitem E o (.str s) v w).2 ∧
    MapsSame w (delitem E o (.str s) w).2 :=
  ⟨.of (getitem_quiet_at hE.item hw).2.children, .of (set_nodespace hw (dest_reserved hn ha hs) v),
    .of (del_nodespace hE.del hw (dest_reserved hn ha hs))⟩

/-- C25: reading, writing and deleting any other key, with whatever outcome, leaves
the nodespaces of every node alone. -/
theorem c25_other (hE : DetachReads E (clsOf E w o)) (hw : WF w) (ha : Bhv.alias ∉ (clsOf E w o).bhvs)
    (hk : ∀ s, k = .str s → ¬ Reserved s) (v : Val) :
    SpacesSame w (getitem E o k w).2 ∧ SpacesSame w (setitem E o k v w).2 ∧
    SpacesSame w (delitem E o k w).2 :=
  ⟨.of (getitem_quiet_at hE.item hw).2.nsview, .of (set_children hw (dest_other ha hk) v),
    .of (del_children hE.del hw (dest_other ha hk))⟩

/-- C25 with `Alias`: what counts is the key `Nodespaces` is handed. -/
theorem c25_alias (hE : DelReads E (clsOf E w o)) (hw : WF w) (v : Val) :
    ((∃ j, ToNodespace E w o k j) → MapsSame w (setitem E o k v w).2 ∧
      MapsSame w (delitem E o k w).2) ∧
    ((¬ ∃ j, ToNodespace E w o k j) → SpacesSame w (setitem E o k v w).2 ∧
      SpacesSame w (delitem E o k w).2) :=
  ⟨fun ⟨_, h⟩ => ⟨.of (set_nodespace hw h v), .of (del_nodespace hE hw h)⟩,
   fun h => ⟨.of (set_children hw (fun j e => h ⟨j, e⟩) v),
    .of (del_children hE hw fun j e => h ⟨j, e⟩)⟩⟩

end

/-! ### Single entries over histories -/

/-- The operations covered: all on other nodes, and those on `o` that do not write or delete the name `j` in its
nodespaces. -/
def Spares (E : Env) (o : Oid) (j : Key) (w : World) : Op → Prop
  | .set p k _ | .del p k | .pop p k _ | .setdefault p k _ | .detach p k => p = o → ¬ ToNodespace E w o k j
  | .update p kvs => p = o → ∀ kv ∈ kvs, ¬ ToNodespace E w o kv.1 j
  | .clear p | .popitem p | .invalidate p _ | .insertBefore p _ _ | .insertAfter p _ _ | .insertFirst p _
  | .insertLast p _ => p ≠ o
  | .new .. | .get .. | .getD .. | .contains .. | .keys .. | .values .. | .items .. | .len .. | .swap ..
  | .attrs .. | .setUuid .. | .setFallbackKey .. => True

/-- Such a history. -/
def SparesAll (E : Env) (o : Oid) (j : Key) : List Op → World → Prop
  | [], _ => True
  | op :: r, w => Spares E o j w op ∧ SparesAll E o j r (exec E op w).2

/-- An entry of an existing node stays. -/
structure Stays (j : Key) (w w' : World) : Prop where
  wf : WF w'
  nobj : w.nobj ≤ w'.nobj
  cls : ∀ p, p < w.nobj → (w'.objs p).cls = (w.objs p).cls
  keep : ∀ p v, p < w.nobj → (w.nsview p).get? j = some v → (w'.nsview p).get? j = some v

theorem Stays.trans {j : Key} {a b c : World} (h : Stays j a b) (h' : Stays j b c) : Stays j a c :=
  ⟨h'.wf, Nat.le_trans h.nobj h'.nobj,
    fun p hp => (h'.cls p (Nat.lt_of_lt_of_le hp h.nobj)).trans (h.cls p hp),
    fun p v hp hv => h'.keep p v (Nat.lt_of_lt_of_le hp h.nobj) (h.keep p v hp hv)⟩

theorem Stays.refl {j : Key} {w : World} (hw : WF w) : Stays j w w :=
  ⟨hw, Nat.le_refl _, fun _ _ => rfl, fun _ _ _ h => h⟩

theorem stays_grow {j : Key} {w w' : World} (hw : WF w) (h : Grow w w') (hn : NsEntry j w w') :
    Stays j w w' :=
  ⟨h.wf hw, h.nobj, h.cls, fun p v _ hv => by rw [hn p]; exact hv⟩

theorem stays_quiet {j : Key} {w w' : World} (hw : WF w) (h : Quiet w w') : Stays j w w' :=
  ⟨(h hw).1, Nat.le_of_eq (h hw).2.nobj.symm, fun p _ => ((h hw).2.obj p).cls,
    fun p v _ hv => by rw [(h hw).2.nsview p]; exact hv⟩

theorem stays_attrs {j : Key} {o : Oid} {w : World} (hw : WF w) : Stays j w (attrs E o w).2 := by
  unfold attrs
  simp only [M.bind_apply, M.getW_apply]
  split
  · simp only [M.bind_apply, M.getW_apply]
    have hq := nodespacesRef_quiet o w
    have hok := fun r w' => nodespacesRef_ok (o := o) (w := w) (r := r) (w' := w')
    generalize nodespacesRef o w = x at hq hok
    rcases x with ⟨e | r, w1⟩
    · exact stays_quiet hw hq
    · have h0 : Stays j w w1 := stays_quiet hw hq
      simp only
      rcases hg : (w1.nspaces r).get? attrsKey with _ | (a | d)
      rotate_left
      · exact h0
      · exact h0
      · obtain ⟨b1, b2, b3, b4⟩ := newNode_builds E (clsOf E w1 o).attrsFactory attrsKey (some o) h0.wf
        have hr := hok r w1 rfl
        simp only [M.bind_apply]
        revert b1 b2 b3 b4
        have hnr := (grow_newNode E (clsOf E w1 o).attrsFactory attrsKey (some o) w1)
        revert hnr
        generalize newNode E _ _ _ w1 = y
        intro hnr b1 b2 b3 b4
        have h1 : Stays j w1 y.2 := ⟨b1, b3.nobj, b3.cls, fun p v hp hv => by rw [b3.nsview p hp]; exact hv⟩
        rcases y with ⟨e | a, w2⟩
        · exact h0.trans h1
        · refine h0.trans ⟨h1.wf.setNspace r (Od.nodup_keys_set (h1.wf.nNd r) _ _), h1.nobj, h1.cls,
            fun p v hp hv => ?_⟩
          show (World.nsview { w2 with nspaces := upd w2.nspaces r _ } p).get? j = some v
          have h2 := h1.keep p v hp hv
          have hj : (w1.nspaces r).get? j = some v → j ≠ attrsKey := fun h e => by
            rw [e, hg] at h; cases h
          have hpr : (w2.objs p).nodespaces = (w1.objs p).nodespaces := b3.spaces p hp
          simp only [World.nsview] at h2 hv ⊢
          rw [hpr] at h2 ⊢
          cases hps : (w1.objs p).nodespaces with
          | none => rw [hps] at h2; exact h2
          | some q =>
            rw [hps] at h2 hv
            simp only [upd] at h2 hv ⊢
            split
            · rename_i e
              subst e
              rw [Od.get?_set, if_neg (hj hv)]
              exact h2
            · exact h2
  · exact Stays.refl hw

/-- The entry `j` of `o`, of class `c`, stays. -/
def EntryOf (E : Env) (o : Oid) (c : ClassDef) (j : Key) (w w' : World) : Prop :=
  WF w → o < w.nobj → clsOf E w o = c → WF w' ∧ o < w'.nobj ∧ (w'.objs o).cls = (w.objs o).cls ∧
    ∀ v, (w.nsview o).get? j = some v → (w'.nsview o).get? j = some v

section
variable {o : Oid} {j : Key} {c : ClassDef}

theorem entryOf_pre : PreR (EntryOf E o c j) :=
  ⟨fun _ hw ho _ => ⟨hw, ho, rfl, fun _ h => h⟩, fun h h' hw ho hc => by
    obtain ⟨a1, a2, a3, a4⟩ := h hw ho hc
    obtain ⟨b1, b2, b3, b4⟩ := h' a1 a2 ((congrArg E.cls a3).trans hc)
    exact ⟨b1, b2, b3.trans a3, fun v hv => b4 v (a4 v hv)⟩⟩

theorem entryOf_on {α : Type} {m : M α} (h : Pres (On E o c (NsEntry j)) m) (hg : Pres Grow m) :
    Pres (EntryOf E o c j) m := fun w hw ho hc =>
  have ⟨h1, h2, h3⟩ := h w hw hc
  ⟨h1, Nat.lt_of_lt_of_le ho (hg w).nobj, h2, fun v hv => by rw [h3 o]; exact hv⟩

theorem entryOf_else (hf : Bhv.childFactory ∉ c.bhvs) {w w' : World} (h : Elsewhere E o w w') :
    EntryOf E o c j w w' := fun hw ho hc =>
  have ⟨h1, h2, h3, _, h5⟩ := h hw ho (by rw [hc]; exact hf)
  ⟨h1, h2, h3, fun v hv => by rw [h5]; exact hv⟩

theorem entryOf_getitem (hf : Bhv.childFactory ∉ c.bhvs) (p : Oid) (k : Key) : Pres (EntryOf E o c j) (getitem E p k) :=
  fun w => entryOf_else hf ((else_api E o).getitem p k w)

theorem entryOf_set {k : Key} (hd : dest c.aliaser c.bhvs k ≠ some (.nodespace j)) (v : Val) :
    Pres (EntryOf E o c j) (setitem E o k v) :=
  entryOf_on (fun w hw hc => by
    have := set_entry (E := E) (o := o) (k := k) (j := j) hw (by unfold ToNodespace; rw [hc]; exact hd) v
    exact ⟨(keep_setitem E o k v w).wf hw, (keep_setitem E o k v w).cls _, this⟩) (grow_setitem E o k v)

theorem entryOf_del (hf : Bhv.childFactory ∉ c.bhvs) {k : Key} (hd : dest c.aliaser c.bhvs k ≠ some (.nodespace j)) :
    Pres (EntryOf E o c j) (delitem E o k) := fun w hw ho hc => by
  have hR : DelRoute E (EntryOf E o c j) o c (· ≠ .nodespace j) := {
    pre := entryOf_pre
    cls := fun _ _ h hw ho hc => h hc hw ho hc
    getitem := fun _ => entryOf_getitem hf o
    unindexed := fun _ => pres_referenceUnindex entryOf_pre (entryOf_getitem hf)
      (fun p w => entryOf_else hf (else_quiet _ _ (iter_quiet E p w)))
      fun us w => entryOf_else hf (else_hidden _ _ (hidden_indexDelete o us w))
    delEnd := fun k _ => entryOf_on (on_delEnd_ns (nsEntry_rel j) k) ((grow_delPrims E o).delEnd k)
    nsDrop := fun k h => entryOf_on (nsEntry_nsDrop fun e => h (by rw [e])) ((grow_delPrims E o).nsDrop k)
    cacheDrop := fun k w => entryOf_else hf (else_quiet _ _ (cacheDrop_quiet o k w))
    notify := fun e w => entryOf_else hf (else_hidden _ _ (hidden_notify e w)) }
  have := hR.delPipe c.bhvs (fun _ h => h) k (fun d e h => hd (e.trans (congrArg some h))) w hw ho hc
  rw [← hc] at this
  exact this

theorem entryOf_detach (hf : Bhv.childFactory ∉ c.bhvs) {k : Key} (hd : dest c.aliaser c.bhvs k ≠ some (.nodespace j)) :
    Pres (EntryOf E o c j) (detach E o k) := by
  have hR := entryOf_pre (E := E) (o := o) (j := j) (c := c)
  have hA := else_api E o
  have : ∀ bs, Pres (EntryOf E o c j) (detachPipe E bs o k) := fun bs => by
    induction bs with
    | nil =>
      exact pres_bind hR (entryOf_getitem hf o k) fun _ =>
        pres_bind hR (entryOf_del hf hd) fun _ => pres_pure hR _
    | cons b r ih =>
      cases b
      case reference =>
        exact pres_bind hR ih fun v =>
          pres_bind hR (fun w => entryOf_else hf (hA.referenceDetach v w)) fun _ => pres_pure hR _
      case lifecycle =>
        refine pres_bind hR (fun w => entryOf_else hf (hA.suppress o _ w)) fun _ => ?_
        refine pres_bind hR ih fun v => ?_
        refine pres_bind hR (fun w => entryOf_else hf (hA.suppress o _ w)) fun _ => ?_
        exact pres_bind hR (fun w => entryOf_else hf (hA.notify _ w)) fun _ => pres_pure hR _
      all_goals exact ih
  exact fun w => this _ w

/-- Every covered operation. -/
theorem entryOf_exec (hf : Bhv.childFactory ∉ c.bhvs) {op : Op} {w : World} (hc : clsOf E w o = c)
    (h : Spares E o j w op) : EntryOf E o c j w (exec E op w).2 := by
  have hR := entryOf_pre (E := E) (o := o) (j := j) (c := c)
  by_cases hw : op.writes = some o
  · have hd : ∀ {k}, ¬ ToNodespace E w o k j → dest c.aliaser c.bhvs k ≠ some (.nodespace j) := fun h => by
      rw [← hc]; exact h
    have hr : ∀ {α : Type} {m : M α} (f : α → Res), Pres (EntryOf E o c j) m →
        Pres (EntryOf E o c j) (do let x ← m; pure (f x)) := fun f h =>
      pres_bind hR h fun _ => pres_pure hR _
    cases op <;> simp only [Op.writes, Option.some.injEq, reduceCtorEq] at hw <;> replace hw := hw.symm <;> subst hw
    case set k v => exact hr (fun _ => .unit) (entryOf_set (hd (h rfl)) v) w
    case del k => exact hr (fun _ => .unit) (entryOf_del hf (hd (h rfl))) w
    case setdefault k v =>
      exact hr _ (pres_catchIf hR (entryOf_getitem hf _ k) fun _ =>
        pres_bind hR (entryOf_set (hd (h rfl)) v) fun _ => pres_pure hR _) w
    case pop k d =>
      refine hr _ (pres_catchIf hR (pres_bind hR (entryOf_getitem hf _ k) fun _ =>
        pres_bind hR (entryOf_del hf (hd (h rfl))) fun _ => pres_pure hR _) fun e => ?_) w
      split
      · exact pres_raise hR _
      · exact pres_pure hR _
    case update kvs =>
      refine hr (fun _ => .unit) ?_ w
      show Pres _ (mupdate E _ kvs)
      unfold mupdate
      have hs : ∀ kv ∈ kvs, Pres (EntryOf E o c j) (setitem E o kv.1 kv.2) := fun kv hm =>
        entryOf_set (hd (h rfl kv hm)) kv.2
      clear h
      induction kvs with
      | nil => exact pres_pure hR _
      | cons kv r ih =>
        exact pres_bind hR (hs kv List.mem_cons_self) fun _ => ih fun x hx => hs x (List.mem_cons_of_mem _ hx)
    case detach k => exact hr _ (entryOf_detach hf (hd (h rfl))) w
    case swap a b =>
      refine hr (fun _ => .unit) (fun w hw ho hc => ?_) w
      have hq := storageRef_quiet E o w hw
      have hk : ∀ w', Quiet w w' → WF w' ∧ o < w'.nobj ∧ (w'.objs o).cls = (w.objs o).cls ∧
          ∀ v, (w.nsview o).get? j = some v → (w'.nsview o).get? j = some v := fun w' h =>
        entryOf_else hf (else_quiet _ _ h) hw ho hc
      simp only [swapNodes, M.bind_apply, M.getW_apply]
      generalize storageRef E o w = x at hq
      rcases x with ⟨e | r, w1⟩
      · exact hk w1 fun _ => hq
      · obtain ⟨k1, k2, k3, k4⟩ := hk w1 fun _ => hq
        have hst := k1.setStore r (Od.nodup_swap (k1.sNd r) (w1.objs a).name (w1.objs b).name)
        simp only
        repeat' split
        all_goals first | exact ⟨k1, k2, k3, k4⟩ | exact ⟨hst, k2, k3, k4⟩
    case attrs =>
      refine hr (fun a => .val (.node a)) (fun w hw ho hc => ?_) w
      have hs := stays_attrs (E := E) (j := j) (o := o) hw
      exact ⟨hs.wf, Nat.lt_of_lt_of_le ho hs.nobj, hs.cls o ho, fun v => hs.keep o v ho⟩
    all_goals exact absurd rfl h
  · exact entryOf_else hf ((else_api E o).exec op (fun p h e => hw (h.trans (congrArg some e)))
      (fun _ _ => trivial) (fun p u _ w => else_hidden _ _ (hidden_setUuidRef p u w)) w)

theorem entryOf_execAll (hf : Bhv.childFactory ∉ c.bhvs) {ops : List Op} {w : World} (hw : WF w) (ho : o < w.nobj)
    (hc : clsOf E w o = c) (h : SparesAll E o j ops w) : EntryOf E o c j w (execAll E ops w).2 := by
  induction ops generalizing w with
  | nil => exact entryOf_pre.refl w
  | cons op r ih =>
    have h1 := entryOf_exec (j := j) hf hc h.1
    obtain ⟨a1, a2, a3, -⟩ := h1 hw ho hc
    exact entryOf_pre.trans h1 (ih a1 a2 ((congrArg E.cls a3).trans hc) h.2)

end

/-- C25: `'__children__'` of a node just made is the node itself, and stays so in
every history that does not assign or delete this name. -/
theorem c25_children {w w' : World} (hw : WF w) {c : ClassId} (hcf : Bhv.childFactory ∉ (E.cls c).bhvs) {name : Key}
    {parent : Option Oid} {o : Oid} (h : newNode E c name parent w = (.ok o, w'))
    (hf : ((E.cls c).fixed.map Prod.fst).Nodup) {ops : List Op} (hs : SparesAll E o childrenKey ops w') :
    ((execAll E ops w').2.nmap o).val childrenKey = some (.node o) := by
  obtain ⟨b1, b2, b3, b4⟩ := newNode_builds E c name parent hw
  have hcl : clsOf E w' o = E.cls c := congrArg E.cls (newNode_constructed hw h fun _ => hf).2.1
  rw [h] at b1 b4
  obtain ⟨-, hlt⟩ := b4 o rfl
  refine (entryOf_execAll hcf b1 hlt hcl hs b1 hlt hcl).2.2.2 _ ?_
  rw [newNode_nsview (fun _ => hf) hw h]; rfl

/-- Reading a reserved name gives the entry of the nodespaces. -/
theorem c25_read {o : Oid} {w : World} (hn : Bhv.nodespaces ∈ (clsOf E w o).bhvs)
    (ha : Bhv.alias ∉ (clsOf E w o).bhvs) (hc : Bhv.cache ∉ (clsOf E w o).bhvs) {s : Str}
    (hs : Reserved s) {v : Val} (hv : (w.nmap o).val (.str s) = some v) :
    (getitem E o (.str s) w).1 = .ok v := by
  show (getPipe E (fbHandler E) (clsOf E w o).bhvs o (.str s) w).1 = .ok v
  revert hn ha hc
  generalize (clsOf E w o).bhvs = bs
  intro hn ha hc
  induction bs with
  | nil => cases hn
  | cons b r ih =>
    by_cases hb : b = .nodespaces
    · subst hb
      have hres : reserved s = true := (reserved_iff s).mpr hs
      simp only [getPipe, nodespacesGet, hres, if_true, M.bind_apply]
      have hv : (w.nsview o).get? (.str s) = some v := hv
      unfold nodespacesRef
      cases hr : (w.objs o).nodespaces with
      | some q =>
        simp only [M.getW_apply]
        rw [nsview_eq hr] at hv
        simp [M.ofExcept, lookup, hv]
      | none =>
        simp only [M.getW_apply]
        simp only [World.nsview, hr] at hv
        simp [M.ofExcept, lookup, upd, hv]
    · have ih := ih ((List.mem_cons.mp hn).resolve_left fun e => hb e.symm)
        (fun h => ha (List.mem_cons_of_mem _ h)) (fun h => hc (List.mem_cons_of_mem _ h))
      cases b
      case nodespaces => exact absurd rfl hb
      case alias => exact absurd List.mem_cons_self ha
      case cache => exact absurd List.mem_cons_self hc
      case fallback =>
        simp only [getPipe, M.catchIf_apply]
        revert ih
        generalize getPipe E (fbHandler E) r o (.str s) w = x
        intro ih
        rcases x with ⟨e | u, w'⟩
        · cases ih
        · exact ih
      case childFactory =>
        simp only [getPipe, childFactoryGet, M.catchIf_apply]
        revert ih
        generalize getPipe E (fbHandler E) r o (.str s) w = x
        intro ih
        rcases x with ⟨e | u, w'⟩
        · cases ih
        · exact ih
      all_goals exact ih

/-! ### `attrs` -/

/-- The rest of `attrs` once the nodespaces are there. -/
def attrsBody (E : Env) (o : Oid) (r : Ref) (w : World) : M Oid :=
  match (w.nspaces r).get? attrsKey with
  | some (.node a) => pure a
  | some (.data _) => M.raise .unmodelled
  | none => do
    let a ← newNode E (clsOf E w o).attrsFactory attrsKey (some o)
    M.modifyW fun w => { w with nspaces := upd w.nspaces r ((w.nspaces r).set attrsKey (.node a)) }
    pure a

theorem attrs_unfold {o : Oid} {w : World} (ha : Bhv.attributes ∈ (clsOf E w o).bhvs)
    (hn : Bhv.nodespaces ∈ (clsOf E w o).bhvs) :
    attrs E o w = (do let r ← nodespacesRef o; let w ← M.getW; attrsBody E o r w : M Oid) w := by
  have h1 : (bhvsOf E w o).contains .nodespaces = true := List.contains_iff_mem.mpr hn
  have h2 : (bhvsOf E w o).contains .attributes = true := List.contains_iff_mem.mpr ha
  unfold attrs attrsBody
  simp only [M.bind_apply, M.getW_apply, h1, h2, Bool.and_self, if_true]
  rfl

/-- C26: a node whose class has no `Attributes` or no `Nodespaces` has no `attrs`: the access
raises `AttributeError` and changes nothing. -/
theorem c26_without {o : Oid} {w : World}
    (h : Bhv.attributes ∉ (clsOf E w o).bhvs ∨ Bhv.nodespaces ∉ (clsOf E w o).bhvs) :
    attrs E o w = (.error .attr, w) := by
  have h : ((bhvsOf E w o).contains .attributes && (bhvsOf E w o).contains .nodespaces) = false := by
    rcases h with h | h
    · rw [show (bhvsOf E w o).contains .attributes = false from
        Bool.eq_false_iff.mpr fun h' => h (List.contains_iff_mem.mp h'), Bool.false_and]
    · rw [show (bhvsOf E w o).contains .nodespaces = false from
        Bool.eq_false_iff.mpr fun h' => h (List.contains_iff_mem.mp h'), Bool.and_false]
  unfold attrs
  simp only [M.bind_apply, M.getW_apply, h]
  rfl

/-- C26: if there is none yet, `attrs` makes one new node, located at `'__attrs__'` of
the node and kept under this name; nothing else changes. -/
theorem c26_create {o a : Oid} {w w' : World} (hw : WF w) (ho : o < w.nobj)
    (ha : Bhv.attributes ∈ (clsOf E w o).bhvs) (hn : Bhv.nodespaces ∈ (clsOf E w o).bhvs)
    (hd : Bhv.defaultInit ∈ (E.cls (clsOf E w o).attrsFactory).bhvs)
    (hf : ((E.cls (clsOf E w o).attrsFactory).fixed.map Prod.fst).Nodup)
    (he : (w.nmap o).val attrsKey = none) (h : attrs E o w = (.ok a, w')) :
    a = w.nobj ∧ a < w'.nobj ∧ w'.loc a = (attrsKey, some o) ∧
    (w'.nmap o).val attrsKey = some (.node a) ∧
    (∀ j, j ≠ attrsKey → (w'.nmap o).val j = (w.nmap o).val j) ∧
    ∀ p, p < w.nobj → w'.omap p = w.omap p ∧ w'.loc p = w.loc p ∧ (p ≠ o → w'.nmap p = w.nmap p) := by
  rw [attrs_unfold ha hn] at h
  simp only [M.bind_apply] at h
  have hq := nodespacesRef_quiet o w hw
  have hok := fun r w' => nodespacesRef_ok (o := o) (w := w) (r := r) (w' := w')
  generalize nodespacesRef o w = x at h hq hok
  rcases x with ⟨e | r, w1⟩
  · cases h
  · simp only [M.getW_apply] at h
    obtain ⟨hw1, hs⟩ := hq
    simp only at hw1 hs
    have hr := hok r w1 rfl
    have he1 : (w1.nspaces r).get? attrsKey = none := by
      rw [← nsview_eq hr, hs.nsview o]; exact he
    unfold attrsBody at h
    rw [he1] at h
    have hcl : clsOf E w1 o = clsOf E w o := congrArg E.cls (hs.obj o).cls
    rw [hcl] at h
    simp only [M.bind_apply] at h
    rcases hx : newNode E (clsOf E w o).attrsFactory attrsKey (some o) w1 with ⟨e | a', w2⟩
    · rw [hx] at h; cases h
    · rw [hx] at h
      simp only [M.modifyW_apply, M.pure_apply, Prod.mk.injEq, Except.ok.injEq] at h
      obtain ⟨rfl, rfl⟩ := h
      obtain ⟨n1, n2, n3⟩ := newNode_constructed hw1 hx (fun _ => hf)
      obtain ⟨b1, b2, b3, b4⟩ := newNode_builds E (clsOf E w o).attrsFactory attrsKey (some o) hw1
      rw [hx] at b1 b2 b3 b4
      simp only at b1 b2 b3 b4
      have ho1 : o < w1.nobj := by rw [hs.nobj]; exact ho
      have hr2 : (w2.objs o).nodespaces = some r := (b3.spaces o ho1).trans hr
      have hv : ∀ p, World.nsview { w2 with nspaces := upd w2.nspaces r ((w2.nspaces r).set attrsKey (.node a')) } p =
          if p = o then (w.nsview o).set attrsKey (.node a') else w2.nsview p := fun p => by
        rw [nsview_setNspace b1 hr2]
        split
        · rw [← nsview_eq hr2, b3.nsview o ho1, hs.nsview o]
        · rfl
      refine ⟨n1.trans hs.nobj, (b4 a' rfl).2, n3.loc hd, ?_, fun j hj => ?_, fun p hp => ?_⟩
      · show (World.nsview _ o).get? attrsKey = _
        rw [hv, if_pos rfl, Od.get?_set, if_pos rfl]
      · show (World.nsview _ o).get? j = _
        rw [hv, if_pos rfl, Od.get?_set, if_neg hj]
        rfl
      · have hp1 : p < w1.nobj := by rw [hs.nobj]; exact hp
        refine ⟨congrArg Od.toMap ((b3.children p hp1).trans (hs.children p)),
          (b3.loc p hp1).trans (hs.loc p), fun hne => ?_⟩
        show (World.nsview _ p).toMap = _
        rw [hv, if_neg hne, b3.nsview p hp1, hs.nsview p]
        rfl

/-- C26: every later access returns the object kept, and changes nothing. -/
theorem c26_again {o a : Oid} {w : World} (hw : WF w)
    (ha : Bhv.attributes ∈ (clsOf E w o).bhvs) (hn : Bhv.nodespaces ∈ (clsOf E w o).bhvs)
    (h : (w.nmap o).val attrsKey = some (.node a)) :
    ∃ w', attrs E o w = (.ok a, w') ∧ MapsSame w w' ∧ SpacesSame w w' ∧ w'.nobj = w.nobj := by
  rw [attrs_unfold ha hn]
  simp only [M.bind_apply]
  have hq := nodespacesRef_quiet o w hw
  have hok := fun r w' => nodespacesRef_ok (o := o) (w := w) (r := r) (w' := w')
  have hi : ∃ r w1, nodespacesRef o w = (.ok r, w1) := by
    unfold nodespacesRef
    split <;> exact ⟨_, _, rfl⟩
  obtain ⟨r, w1, hx⟩ := hi
  rw [hx] at hq hok ⊢
  have hr := hok r w1 rfl
  have he1 : (w1.nspaces r).get? attrsKey = some (.node a) := by
    rw [← nsview_eq hr, hq.2.nsview o]; exact h
  simp only [M.getW_apply, attrsBody]
  rw [he1]
  exact ⟨w1, rfl, .of hq.2.children, .of hq.2.nsview, hq.2.nobj⟩

/-- C26: over every history that does not assign or delete `'__attrs__'` of the node itself (and
does what `Spares` lists with it, anything with other nodes), `attrs` is the same object; in every program, if the
class of the node has no child factories. -/
theorem c26_stable {o a : Oid} {w : World} (hw : WF w) (ho : o < w.nobj)
    (hf : Bhv.childFactory ∉ (clsOf E w o).bhvs)
    (ha : Bhv.attributes ∈ (clsOf E w o).bhvs) (hn : Bhv.nodespaces ∈ (clsOf E w o).bhvs)
    (h : (w.nmap o).val attrsKey = some (.node a)) {ops : List Op} (hs : SparesAll E o attrsKey ops w) :
    (attrs E o (execAll E ops w).2).1 = .ok a := by
  obtain ⟨b1, -, b3, b4⟩ := entryOf_execAll hf hw ho rfl hs hw ho rfl
  have hcl : clsOf E (execAll E ops w).2 o = clsOf E w o := congrArg E.cls b3
  obtain ⟨w', h1, -⟩ := c26_again (E := E) (o := o) b1 (by rw [hcl]; exact ha) (by rw [hcl]; exact hn) (b4 _ h)
  rw [h1]

/-- C26: no assignment brings a reserved name into `keys()`. -/
theorem c26_keys {o : Oid} {w : World} (hw : WF w) (hn : Bhv.nodespaces ∈ (clsOf E w o).bhvs)
    (ha : Bhv.alias ∉ (clsOf E w o).bhvs) {s : Str} (hs : Reserved s) (k : Key) (v : Val)
    (h : Key.str s ∈ ((setitem E o k v w).2.omap o).keys) : Key.str s ∈ (w.omap o).keys := by
  by_cases hk : k = .str s
  · subst hk
    rw [MapsSame.of (set_nodespace hw (dest_reserved hn ha hs) v) o] at h
    exact h
  · have hnd : dest (clsOf E w o).aliaser (clsOf E w o).bhvs k ≠ some (.child (.str s)) := by
      revert ha hn
      generalize (clsOf E w o).bhvs = bs
      intro hn ha
      induction bs with
      | nil => cases hn
      | cons b r ih =>
        have ih := fun h => ih h fun h => ha (List.mem_cons_of_mem _ h)
        cases b
        case nodespaces =>
          have hr : Bhv.alias ∉ r := fun h => ha (List.mem_cons_of_mem _ h)
          have hd : ∀ {bs : List Bhv}, Bhv.alias ∉ bs → ∀ al, dest al bs k ≠ some (.child (.str s)) := by
            intro bs hb al
            induction bs with
            | nil => simp only [dest, ne_eq, Option.some.injEq, Dest.child.injEq]; exact hk
            | cons b t ih =>
              have ih := ih fun h => hb (List.mem_cons_of_mem _ h)
              cases b
              case alias => exact absurd List.mem_cons_self hb
              case nodespaces =>
                cases k with
                | str t =>
                  simp only [dest]
                  split
                  · simp
                  · exact ih
                | _ => simp [dest]
              all_goals exact ih
          cases k with
          | str t =>
            simp only [dest]
            split
            · simp
            · exact hd hr _
          | _ => simp [dest]
        case alias => exact absurd List.mem_cons_self ha
        all_goals exact ih ((List.mem_cons.mp hn).resolve_left (by decide))
    have hout := setitem_out E o k v hw
    have hset : ∀ w', ChildSet w w' o v (dest (clsOf E w o).aliaser (clsOf E w o).bhvs k) →
        Key.str s ∈ (w'.children o).keys → Key.str s ∈ (w.children o).keys := fun w' hc hm => by
      revert hc hnd
      generalize dest (clsOf E w o).aliaser (clsOf E w o).bhvs k = d
      intro hnd hc
      rcases d with _ | (j | j)
      · exact hc.elim
      · rw [hc o, if_pos rfl, Od.keys_set] at hm
        split at hm
        · exact hm
        · rcases List.mem_append.mp hm with h | h
          · exact h
          · exact absurd (by rw [List.mem_singleton.mp h]) hnd
      · rw [hc o] at hm; exact hm
    have h : Key.str s ∈ ((setitem E o k v w).2.children o).keys := h
    cases hx : (setitem E o k v w).1 with
    | ok u => exact hset _ (hout.ok hx) h
    | error e =>
      rcases hout.err e hx with h1 | ⟨-, -, h3⟩
      · rw [h1 o] at h; exact h
      · exact hset _ h3 h

/-- C26: writing and deleting attributes never changes the children of the node. -/
theorem c26_write {o a : Oid} {w : World} (hE : DelReads E (clsOf E w a)) (hw : WF w) (hne : a ≠ o) (k : Key)
    (v : Val) : (setitem E a k v w).2.omap o = w.omap o ∧ (delitem E a k w).2.omap o = w.omap o := by
  have hset : ∀ w' d, ChildSet w w' a v d → w'.children o = w.children o := fun w' d hc => by
    rcases d with _ | (j | j)
    · exact hc.elim
    · rw [hc o, if_neg hne.symm]
    · exact hc o
  have hdel : ∀ w' d, ChildDel w w' a d → w'.children o = w.children o := fun w' d hc => by
    rcases d with _ | (j | j)
    · exact hc.elim
    · rw [hc.2 o, if_neg hne.symm]
    · exact hc o
  have h1 := setitem_out E a k v hw
  have h2 := delitem_out_of k hE hw
  refine ⟨congrArg Od.toMap (?_ : (setitem E a k v w).2.children o = w.children o),
    congrArg Od.toMap (?_ : (delitem E a k w).2.children o = w.children o)⟩
  · cases hx : (setitem E a k v w).1 with
    | ok u => exact hset _ _ (h1.ok hx)
    | error e =>
      rcases h1.err e hx with h | ⟨-, -, h⟩
      · exact h o
      · exact hset _ _ h
  · cases hx : (delitem E a k w).1 with
    | ok u => exact hdel _ _ (h2.ok hx)
    | error e =>
      rcases h2.err e hx with h | ⟨-, -, h⟩
      · exact h o
      · exact hdel _ _ h

/-- The names of `o` in `w'` that begin and end with `__` are among its names in `w`. -/
def KeepsNames (E : Env) (o : Oid) (s : Str) (w w' : World) : Prop :=
  WF w → o < w.nobj → Bhv.nodespaces ∈ (clsOf E w o).bhvs → Bhv.alias ∉ (clsOf E w o).bhvs →
    WF w' ∧ o < w'.nobj ∧ clsOf E w' o = clsOf E w o ∧
      (Key.str s ∈ (w'.omap o).keys → Key.str s ∈ (w.omap o).keys)

theorem keepsNames_pre (E : Env) (o : Oid) (s : Str) : PreR (KeepsNames E o s) where
  refl _ := fun hw ho _ _ => ⟨hw, ho, rfl, id⟩
  trans h1 h2 := fun hw ho hn ha => by
    obtain ⟨a1, a2, a3, a4⟩ := h1 hw ho hn ha
    obtain ⟨b1, b2, b3, b4⟩ := h2 a1 a2 (a3 ▸ hn) (a3 ▸ ha)
    exact ⟨b1, b2, b3.trans a3, fun h => a4 (b4 h)⟩

theorem keepsNames_quiet {o : Oid} {s : Str} {w w' : World} (h : Quiet w w') :
    KeepsNames E o s w w' := fun hw ho _ _ =>
  ⟨(h hw).1, (h hw).2.nobj ▸ ho, congrArg E.cls ((h hw).2.obj o).cls, fun hm => by
    have hm : Key.str s ∈ (w'.children o).keys := hm
    rw [(h hw).2.children o] at hm; exact hm⟩

theorem keepsNames_hidden {o : Oid} {s : Str} {w w' : World} (h : Hidden w w') : KeepsNames E o s w w' :=
  fun hw ho _ _ => ⟨h.wf hw, h.nobj ▸ ho, congrArg E.cls (h.cls o), fun hm => by
    have hm : Key.str s ∈ (w'.children o).keys := hm
    rw [h.children o] at hm; exact hm⟩

theorem keepsNames_set (o : Oid) {s : Str} (hs : Reserved s) (p : Oid) (k : Key) (v : Val) :
    Pres (KeepsNames E o s) (setitem E p k v) := fun w hw ho hn ha => by
  have hout := setitem_out E p k v hw
  refine ⟨hout.wf, Nat.lt_of_lt_of_le ho (grow_setitem E p k v w).nobj, congrArg E.cls (hout.cls o), ?_⟩
  by_cases hp : p = o
  · subst hp; exact c26_keys hw hn ha hs k v
  · have hset : ∀ w' d, ChildSet w w' p v d → w'.children o = w.children o := fun w' d hc => by
      rcases d with _ | (j | j)
      · exact hc.elim
      · rw [hc o, if_neg (Ne.symm hp)]
      · exact hc o
    intro hm
    have hm : Key.str s ∈ ((setitem E p k v w).2.children o).keys := hm
    cases hx : (setitem E p k v w).1 with
    | ok u => rw [hset _ _ (hout.ok hx)] at hm; exact hm
    | error e =>
      rcases hout.err e hx with h | ⟨-, -, h⟩
      · rw [h o] at hm; exact hm
      · rw [hset _ _ h] at hm; exact hm

theorem keepsNames_new (o : Oid) (s : Str) (c : ClassId) (n : Key) (p : Option Oid) :
    Pres (KeepsNames E o s) (newNode E c n p) := fun w hw ho hn ha => by
  obtain ⟨h1, -, h3, -⟩ := newNode_builds E c n p hw
  exact ⟨h1, Nat.lt_of_lt_of_le ho h3.nobj, congrArg E.cls (h3.cls o ho), fun hm => by
    have hm : Key.str s ∈ ((newNode E c n p w).2.children o).keys := hm
    rw [h3.children o ho] at hm; exact hm⟩

theorem keepsNames_read (o : Oid) {s : Str} (hs : Reserved s) : ReadPrims E (KeepsNames E o s) where
  pre := keepsNames_pre E o s
  steps := readSteps_of_quiet fun _ _ h => keepsNames_quiet h.1
  fbGuard := fbGuard_of_quiet (keepsNames_pre E o s) fun _ _ h => keepsNames_quiet h
  make p _ _ := .inl (pres_makeAt (keepsNames_pre E o s) (keepsNames_new o s) (keepsNames_set o hs p))

theorem keepsNames_del (o p : Oid) {s : Str} (hs : Reserved s) : DelPrims E (KeepsNames E o s) p where
  pre := keepsNames_pre E o s
  getitem := (keepsNames_read o hs).getitem
  iter q := (keepsNames_read o hs).steps.iter q
  delEnd k w hw ho _ _ := by
    have hout := delEnd_out E p k hw none
    refine ⟨hout.wf, Nat.lt_of_lt_of_le ho ((grow_delPrims E p).delEnd k w).nobj, congrArg E.cls (hout.cls o),
      fun hm => ?_⟩
    have hm : Key.str s ∈ ((delEnd E p k w).2.children o).keys := hm
    show Key.str s ∈ (w.children o).keys
    cases hx : (delEnd E p k w).1 with
    | ok u =>
      rw [(hout.ok hx).2 o] at hm
      split at hm
      · rename_i e
        subst e
        rw [Od.keys_del (hw.children_nodup _)] at hm
        exact (List.mem_filter.mp hm).1
      · exact hm
    | error e =>
      rcases hout.err e hx with h | ⟨h, -⟩
      · rw [h o] at hm; exact hm
      · cases h
  nsDrop k w hw ho _ _ := by
    obtain ⟨h1, -, h3⟩ := on_nsDrop_ch (E := E) (o := p) chSame_rel k w hw rfl
    have hg := (grow_delPrims E p).nsDrop k w
    exact ⟨h1, Nat.lt_of_lt_of_le ho hg.nobj, congrArg E.cls (hg.cls o ho), fun hm => by
      have hm : Key.str s ∈ ((nsDrop p k w).2.children o).keys := hm
      rw [h3 o] at hm; exact hm⟩
  cacheDrop k w := keepsNames_quiet (cacheDrop_quiet p k w)
  unindex us w := keepsNames_hidden (hidden_indexDelete p us w)
  notify e w := keepsNames_hidden (hidden_notify e w)

theorem keepsNames_prims (o : Oid) {s : Str} (hs : Reserved s) : MapPrims E (KeepsNames E o s) where
  pre := keepsNames_pre E o s
  getitem := (keepsNames_read o hs).getitem
  iter p := (keepsNames_read o hs).steps.iter p
  setitem := keepsNames_set o hs
  delitem p := (keepsNames_del o p hs).delitem
  newNode := keepsNames_new o s

/-- Item access, the mapping API, construction of nodes and access to `attrs`. -/
def Op.mappingOrAttrs : Op → Bool
  | .attrs _ => true
  | op => op.mapping

/-- C26 (partial): no history of mapping operations, calls of classes and accesses to
`attrs`, on whatever nodes of whatever classes, brings a reserved name into `keys()` of a new node.
Missing: histories with `insertbefore`, `insertafter`, `insertfirst` and `insertlast`, which
do so (`c26_refuted`). -/
theorem c26_keys_partial {c : ClassId} {n : Key} {pa : Option Oid} {w w1 : World}
    {o : Oid} (hw : WF w) (hnew : newNode E c n pa w = (.ok o, w1))
    (hn : Bhv.nodespaces ∈ (clsOf E w1 o).bhvs) (ha : Bhv.alias ∉ (clsOf E w1 o).bhvs)
    {ops : List Op} (hops : ∀ op ∈ ops, op.mappingOrAttrs = true) {s : Str} (hs : Reserved s) :
    Key.str s ∉ ((execAll E ops w1).2.omap o).keys := by
  have hR : ∀ w, KeepsNames E o s w (execAll E ops w).2 := by
    induction ops with
    | nil => exact fun w => (keepsNames_pre E o s).refl w
    | cons op r ih =>
      refine fun w => (keepsNames_pre E o s).trans ?_ (ih (fun x h => hops x (List.mem_cons_of_mem _ h)) _)
      have hop := hops op List.mem_cons_self
      have hm : op.mapping = true → KeepsNames E o s w (exec E op w).2 := fun h =>
        (keepsNames_prims o hs).exec op h w
      cases op
      case attrs p =>
        refine pres_bind (keepsNames_pre E o s) (fun w hw ho hn ha => ?_)
          (fun _ => pres_pure (keepsNames_pre E o s) _) w
        obtain ⟨h1, -, h3, h4, -, h6, -⟩ := attrs_builds E p hw
        exact ⟨h1, Nat.lt_of_lt_of_le ho h3, congrArg E.cls (h6 o ho), fun hm => by
          have hm : Key.str s ∈ ((attrs E p w).2.children o).keys := hm
          rw [h4 o ho] at hm; exact hm⟩
      all_goals exact hm hop
  obtain ⟨h1, h2, -, h4⟩ := newNode_builds E c n pa hw
  rw [hnew] at h1 h2 h4
  obtain ⟨rfl, h5⟩ := h4 o rfl
  intro hm
  have := (hR w1 h1 h5 hn ha).2.2.2 hm
  have hc := (h2 _ (Nat.le_refl _) h5).1
  have h0 : Key.str s ∈ (w1.children w.nobj).keys := this
  rw [hc] at h0
  exact absurd h0 (by simp [Od.keys])

/-- C26 is false: `insertbefore` of a node named `'__attrs__'` writes the storage first and
assigns the item afterwards, which goes to the nodespaces.  The name is then a child and
the attributes at once. -/
theorem c26_refuted : ∃ ops : List Op,
    (mkeys sampleEnv 0 (after sampleEnv ops)).1 = .ok [attrsKey, ka] ∧
    (attrs sampleEnv 0 (after sampleEnv ops)).1 = .ok 2 :=
  ⟨[.new 2 .none none, .new 2 .none none, .new 2 attrsKey none, .set 0 ka (.node 1),
    .insertBefore 0 2 1], by decide +kernel⟩

/-! ### Instances -/

/-- A `Node` with a child and attributes. -/
def c26Ops : List Op := [.new 2 .none none, .new 2 .none none, .set 0 ka (.node 1), .attrs 0,
  .set 2 kb (.data (.int 7))]

theorem c26_class : Bhv.nodespaces ∈ (clsOf sampleEnv (after sampleEnv c26Ops) 0).bhvs ∧
    Bhv.alias ∉ (clsOf sampleEnv (after sampleEnv c26Ops) 0).bhvs := by decide +kernel

/-- `OrderedNode` has no attributes. -/
example : (exec sampleEnv (.attrs 0) (after sampleEnv [.new 1 .none none])).1 = .error .attr := by
  simp only [exec, M.bind_apply, c26_without (E := sampleEnv) (o := 0)
    (w := after sampleEnv [.new 1 .none none]) (.inl (by decide +kernel))]

example : MapsSame (after sampleEnv c26Ops)
      (delitem sampleEnv 0 attrsKey (after sampleEnv c26Ops)).2 ∧
    (delitem sampleEnv 0 attrsKey (after sampleEnv c26Ops)).1 = .ok () :=
  ⟨(c25_reserved (sample_noFactory.detachReads _) (reachable_after sampleEnv c26Ops).wf c26_class.1 c26_class.2
    (s := ['_', '_', 'a', 't', 't', 'r', 's', '_', '_']) (by decide) (.node 0)).2.2, by decide +kernel⟩

example : SpacesSame (after sampleEnv c26Ops) (delitem sampleEnv 0 ka (after sampleEnv c26Ops)).2 ∧
    (delitem sampleEnv 0 ka (after sampleEnv c26Ops)).1 = .ok () :=
  ⟨(c25_other (sample_noFactory.detachReads _) (reachable_after sampleEnv c26Ops).wf c26_class.2
    (fun s e => by cases e; decide) (.node 0)).2.2, by decide +kernel⟩

/-- Operations on the node and on others, among them one that assigns its own `'__attrs__'`. -/
def c26More : List Op := [.del 0 ka, .attrs 0, .set 1 attrsKey (.node 0), .clear 2, .insertFirst 1 0, .detach 0 ka]

theorem c26_sparing : ¬ ToNodespace sampleEnv (after sampleEnv c26Ops) 0 ka attrsKey := by
  unfold ToNodespace
  decide +kernel

example : (attrs sampleEnv 0 (execAll sampleEnv c26More (after sampleEnv c26Ops)).2).1 = .ok 2 := by
  have h1 := (reachable_after sampleEnv c26Ops).wf
  have h2 : 0 < (after sampleEnv c26Ops).nobj := by decide +kernel
  have h3 : clsOf sampleEnv (after sampleEnv c26Ops) 0 = fullNode := rfl
  have h4 : ((after sampleEnv c26Ops).nmap 0).val attrsKey = some (.node 2) := by decide +kernel
  have h5 : ¬ ToNodespace sampleEnv (execAll sampleEnv (c26More.take 5) (after sampleEnv c26Ops)).2 0 ka attrsKey := by
    unfold ToNodespace; decide +kernel
  exact c26_stable h1 h2 (by rw [h3]; decide) (by rw [h3]; decide) (by rw [h3]; decide) h4
    ⟨fun _ => c26_sparing, trivial, fun e => absurd e (by decide), (by decide : (2 : Oid) ≠ 0), (by decide : (1 : Oid) ≠ 0),
      fun _ => h5, trivial⟩

example : attrsKey ∉ ((execAll sampleEnv [.attrs 0, .set 1 attrsKey (.data (.int 7)), .set 0 ka
      (.node 0), .set 0 attrsKey (.node 0), .clear 0] (newNode sampleEnv 2 ka none {}).2).2.omap 0).keys :=
  c26_keys_partial (reachable_after sampleEnv []).wf (o := 0)
    (show newNode sampleEnv 2 ka none {} = (.ok 0, _) from Prod.ext (by decide +kernel) rfl)
    (by decide +kernel) (by decide +kernel) (by decide)
    (s := ['_', '_', 'a', 't', 't', 'r', 's', '_', '_']) (by decide)

/-- A new node in a program with child factories, others being changed around it. -/
example : ((execAll factoryEnv [.new 13 .none none, .get 1 ka, .attrs 0, .set 1 ka (.node 0), .clear 1]
    (newNode factoryEnv 2 ka none {}).2).2.nmap 0).val childrenKey = some (.node 0) :=
  c25_children (reachable_after factoryEnv []).wf (c := 2) (by decide) (o := 0)
    (show newNode factoryEnv 2 ka none {} = (.ok 0, _) from Prod.ext (by decide +kernel) rfl) (by decide)
    ⟨trivial, trivial, trivial, fun e => absurd e (by decide), (by decide : (1 : Oid) ≠ 0), trivial⟩

/-- `'__children__'` can be overwritten like any other name. -/
theorem c25_children_overwritten : ∃ ops, (getitem sampleEnv 0 childrenKey (after sampleEnv ops)).1 =
    .ok (.node 1) :=
  ⟨[.new 2 .none none, .new 2 .none none, .set 0 childrenKey (.node 1)], by decide +kernel⟩

end Verif
