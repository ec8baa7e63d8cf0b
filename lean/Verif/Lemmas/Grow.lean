import Verif.Lemmas.DelOutcome
import Verif.Model.Api

/-! Every operation keeps the heap well-formed and the class of every object, for
every stack. -/

namespace Verif

/-- The heap stays well-formed, objects stay allocated and keep their class. -/
structure Grow (w w' : World) : Prop where
  wf : WF w → WF w'
  nobj : w.nobj ≤ w'.nobj
  cls : ∀ p, p < w.nobj → (w'.objs p).cls = (w.objs p).cls
  nidx : w.nidx ≤ w'.nidx

theorem grow_pre : PreR Grow :=
  ⟨fun _ => ⟨fun h => h, Nat.le_refl _, fun _ _ => rfl, Nat.le_refl _⟩, fun h h' =>
    ⟨fun x => h'.wf (h.wf x), Nat.le_trans h.nobj h'.nobj,
     fun p hp => (h'.cls p (Nat.lt_of_lt_of_le hp h.nobj)).trans (h.cls p hp),
     Nat.le_trans h.nidx h'.nidx⟩⟩

theorem Keep.grow {w w' : World} (h : Keep w w') : Grow w w' :=
  ⟨h.wf, Nat.le_of_eq h.nobj.symm, fun p _ => h.cls p, Nat.le_of_eq h.nidx.symm⟩

theorem grow_of_keep {α : Type} {m : M α} (h : Pres Keep m) : Pres Grow m := fun w => (h w).grow

theorem grow_setName (o : Oid) (k : Key) : Pres Grow (modO o fun ob => { ob with name := k }) :=
  grow_of_keep (keep_setName o k)

theorem grow_setParent (o : Oid) (p : Option Oid) :
    Pres Grow (modO o fun ob => { ob with parent := p }) := grow_of_keep (keep_setParent o p)

theorem grow_modO (o : Oid) (f : Obj → Obj) (h1 : ∀ b, (f b).cls = b.cls)
    (hs : ∀ b, (f b).storage = b.storage)
    (hc : ∀ b, (f b).cache = b.cache) (hn : ∀ b, (f b).nodespaces = b.nodespaces)
    (hi : ∀ b, (f b).index = b.index) : Pres Grow (modO o f) := fun w =>
  ⟨fun hw => hw.modO o f (hs _) (hc _) (hn _) fun r hr => hw.iLt ((hi _).symm.trans hr),
   Nat.le_refl _, fun p _ => proj_upd Obj.cls w.objs o _ (h1 _) p, Nat.le_refl _⟩

theorem grow_alloc (c : ClassId) : Pres Grow (alloc c) := by
  intro w
  refine ⟨fun hw => ?_, Nat.le_succ _, fun p hp => ?_, Nat.le_refl _⟩
  · refine ⟨hw.s.drop (g := Obj.storage) w.nobj _ rfl, hw.c.drop (g := Obj.cache) w.nobj _ rfl,
      hw.n.drop (g := Obj.nodespaces) w.nobj _ rfl, ?_, hw.sNd, hw.cNd, hw.nNd, hw.iNd⟩
    intro p r hr
    simp only [alloc, upd] at hr
    split at hr
    · cases hr
    · exact hw.iLt hr
  · have : p ≠ w.nobj := by omega
    simp [alloc, upd, this]

theorem grow_freshUuid : Pres Grow freshUuid := fun _ =>
  ⟨fun hw => ⟨hw.s, hw.c, hw.n, hw.iLt, hw.sNd, hw.cNd, hw.nNd, hw.iNd⟩, Nat.le_refl _,
   fun _ _ => rfl, Nat.le_refl _⟩

theorem grow_notify (e : Event) : Pres Grow (notify e) := grow_of_keep (keep_notify e)

theorem grow_setIdxs (r : Ref) (f : World → Od (Option Nat) Oid)
    (hf : ∀ w, WF w → (f w).keys.Nodup) :
    Pres Grow (M.modifyW fun w => { w with idxs := upd w.idxs r (f w) }) :=
  grow_of_keep (keep_setIdxs r f hf)

theorem grow_setUuidRef (o : Oid) (u : Option Nat) : Pres Grow (setUuidRef o u) := by
  refine pres_bind grow_pre (pres_of_id grow_pre (indexRef_id o)) fun r => ?_
  refine pres_bind grow_pre (pres_getW grow_pre) fun w => ?_
  refine pres_ite grow_pre (pres_raise grow_pre _) ?_
  refine pres_bind grow_pre (grow_setIdxs r
    (fun w => ((w.idxs r).del (iuuid (w.objs o).uuid)).set (iuuid u) o) fun w hw => ?_) fun _ => ?_
  · exact Od.nodup_keys_set (Od.nodup_keys_del (hw.iNd r) _) _ _
  · exact grow_modO o _ (fun _ => rfl) (fun _ => rfl) (fun _ => rfl) (fun _ => rfl) (fun _ => rfl)

/-- Giving a node a new index. -/
theorem grow_newIdx (o : Oid) (d : World → Od (Option Nat) Oid) (hd : ∀ w, (d w).keys.Nodup) :
    Pres Grow (M.modifyW fun w =>
      { w with
        objs := upd w.objs o { w.objs o with index := some w.nidx }
        idxs := upd w.idxs w.nidx (d w)
        nidx := w.nidx + 1 }) := by
  intro w
  refine ⟨fun hw => ?_, Nat.le_refl _, fun p _ => proj_upd Obj.cls w.objs o _ (by rfl) p,
    Nat.le_succ _⟩
  refine ⟨hw.s.congr (proj_upd Obj.storage w.objs o _ rfl),
    hw.c.congr (proj_upd Obj.cache w.objs o _ rfl),
    hw.n.congr (proj_upd Obj.nodespaces w.objs o _ rfl), ?_, hw.sNd, hw.cNd, hw.nNd,
    nodup_upd hw.iNd _ (hd w)⟩
  intro p r hr
  simp only [M.modifyW_apply, upd] at hr
  show r < w.nidx + 1
  split at hr
  · injection hr with hr; omega
  · have := hw.iLt hr; omega

theorem grow_referenceInit (o : Oid) : Pres Grow (referenceInit o) :=
  pres_bind grow_pre (grow_newIdx o (fun _ => []) fun _ => by simp [Od.keys]) fun _ =>
    pres_bind grow_pre grow_freshUuid fun u => grow_setUuidRef o (some u)

theorem grow_fixedLoop {mk : ClassId → M Oid} (hmk : ∀ c, Pres Grow (mk c)) (o : Oid)
    (l : List (Key × ClassId)) : Pres Grow (initPipe.loop mk o l) := by
  induction l with
  | nil => exact pres_pure grow_pre _
  | cons a t ih =>
    obtain ⟨k, c⟩ := a
    refine pres_bind grow_pre (hmk c) fun child => ?_
    refine pres_bind grow_pre (grow_setName _ _) fun _ => ?_
    refine pres_bind grow_pre (grow_setParent _ _) fun _ => ?_
    exact pres_bind grow_pre (grow_modO o _ (fun _ => rfl) (fun _ => rfl) (fun _ => rfl)
      (fun _ => rfl) (fun _ => rfl)) fun _ => ih

theorem grow_initPipe (E : Env) {mk : ClassId → M Oid} (hmk : ∀ c, Pres Grow (mk c))
    (all bs : List Bhv) (o : Oid) (name : Key) (parent : Option Oid) :
    Pres Grow (initPipe E mk all bs o name parent) := by
  induction bs with
  | nil =>
    unfold initPipe
    refine pres_ite grow_pre ?_ (pres_pure grow_pre _)
    exact pres_bind grow_pre (grow_setName _ _) fun _ => grow_setParent _ _
  | cons b r ih =>
    cases b
    case reference => exact pres_bind grow_pre (grow_referenceInit o) fun _ => ih
    case lifecycle => exact pres_bind grow_pre ih fun _ => grow_notify _
    case uuidAware =>
      exact pres_bind grow_pre ih fun _ => pres_bind grow_pre grow_freshUuid fun u =>
        pres_ite grow_pre (grow_setUuidRef o (some u))
          (grow_modO o _ (fun _ => rfl) (fun _ => rfl) (fun _ => rfl) (fun _ => rfl) (fun _ => rfl))
    case fixedChildren =>
      refine pres_bind grow_pre ih fun _ => ?_
      refine pres_bind grow_pre (grow_modO o _ (fun _ => rfl) (fun _ => rfl) (fun _ => rfl)
        (fun _ => rfl) (fun _ => rfl)) fun _ => ?_
      exact pres_bind grow_pre (pres_getW grow_pre) fun w => grow_fixedLoop hmk o _
    all_goals exact ih

theorem grow_newNodeN (E : Env) (n : Nat) (c : ClassId) (name : Key) (parent : Option Oid) :
    Pres Grow (newNodeN E n c name parent) := by
  induction n generalizing c name parent with
  | zero => exact pres_raise grow_pre _
  | succ n ih =>
    refine pres_bind grow_pre (grow_alloc c) fun o => ?_
    exact pres_bind grow_pre (grow_initPipe E (fun c' => ih c' .none none) _ _ o name parent)
      fun _ => pres_pure grow_pre _

theorem grow_newNode (E : Env) (c : ClassId) (name : Key) (parent : Option Oid) :
    Pres Grow (newNode E c name parent) := by
  rcases newNode_cases E c name parent with e | e
  · rw [e]; exact grow_newNodeN E _ c name parent
  · rw [e]; exact pres_raise grow_pre _

theorem grow_setitem (E : Env) (o : Oid) (k : Key) (v : Val) : Pres Grow (setitem E o k v) :=
  grow_of_keep (keep_setitem E o k v)

theorem grow_setFb (w : World) (f : Option Int) : Grow w { w with fb := f } :=
  ⟨fun hw => hw.setFb f, Nat.le_refl _, fun _ _ => rfl, Nat.le_refl _⟩

theorem grow_fbGuard {α : Type} {body : Int → M α} (h : ∀ n, Pres Grow (body n)) :
    Pres Grow (fbGuard body) := by
  intro w
  unfold fbGuard
  split
  · exact grow_pre.refl w
  · rename_i n _
    dsimp only
    exact grow_pre.trans (grow_pre.trans (grow_setFb w _) (h _ _)) (grow_setFb _ _)

theorem grow_getEnd (E : Env) (o : Oid) (k : Key) : Pres Grow (getEnd E o k) := by
  refine pres_bind grow_pre (pres_getW grow_pre) fun w => ?_
  refine pres_ite grow_pre (pres_ofExcept grow_pre _) ?_
  refine pres_ite grow_pre ?_ (pres_raise grow_pre _)
  exact pres_bind grow_pre (grow_of_keep (keep_storageRef E o)) fun _ =>
    pres_bind grow_pre (pres_getW grow_pre) fun _ => pres_ofExcept grow_pre _

theorem grow_getPipe (E : Env) {fb : Oid → Key → Exc → M Val}
    (hfb : ∀ o k e, Pres Grow (fb o k e)) (bs : List Bhv)
    (o : Oid) (k : Key) : Pres Grow (getPipe E fb bs o k) := by
  induction bs generalizing k with
  | nil => exact grow_getEnd E o k
  | cons b r ih =>
    cases b
    case nodespaces =>
      show Pres Grow (nodespacesGet _ o k)
      unfold nodespacesGet
      split
      · split
        · exact pres_bind grow_pre (grow_of_keep (keep_nodespacesRef o)) fun _ =>
            pres_bind grow_pre (pres_getW grow_pre) fun _ => pres_ofExcept grow_pre _
        · exact ih _
      · exact ih _
    case fallback => exact pres_catchIf grow_pre (ih k) fun e => hfb o k e
    case cache =>
      refine pres_bind grow_pre (grow_of_keep (keep_cacheRef o)) fun r => ?_
      refine pres_bind grow_pre (pres_getW grow_pre) fun w => ?_
      split
      · exact pres_pure grow_pre _
      · refine pres_bind grow_pre (ih k) fun v => ?_
        refine pres_bind grow_pre (grow_of_keep (keep_setCaches r
          (fun w => (w.caches r).set k v) fun w hw => Od.nodup_keys_set (hw.cNd _) _ _)) fun _ => ?_
        exact pres_bind grow_pre (pres_getW grow_pre) fun _ => pres_ofExcept grow_pre _
    case alias =>
      exact pres_bind grow_pre (pres_of_id grow_pre (unaliasKey_id E o k)) fun u =>
        pres_catchIf grow_pre (ih u) fun _ => pres_raise grow_pre _
    case childFactory =>
      refine pres_catchIf grow_pre (ih k) fun _ => ?_
      refine pres_bind grow_pre (pres_getW grow_pre) fun w => ?_
      split
      · exact pres_raise grow_pre _
      · refine pres_bind grow_pre (grow_newNode E _ _ _) fun child => ?_
        exact pres_bind grow_pre (grow_setitem E o k _) fun _ => pres_pure grow_pre _
    all_goals exact ih k

theorem grow_getitem0 (E : Env) (o : Oid) (k : Key) : Pres Grow (getitem0 E o k) := fun w =>
  grow_getPipe E (fun _ _ _ => grow_fbGuard fun _ =>
    pres_ite grow_pre (pres_raise grow_pre _) (pres_raise grow_pre _)) _ o k w

theorem grow_fbChild (E : Env) (v : Val) (k : Key) : Pres Grow (fbChild E v k) := by
  unfold fbChild
  split
  · exact pres_catchIf grow_pre (pres_bind grow_pre (grow_getitem0 E _ _) fun _ =>
      pres_pure grow_pre _) fun _ => pres_pure grow_pre _
  · exact pres_raise grow_pre _
  · exact pres_raise grow_pre _

theorem grow_fbWalk (E : Env) (p : List Key) (v : Val) : Pres Grow (fbWalk E p v) := by
  induction p generalizing v with
  | nil => exact pres_pure grow_pre _
  | cons k r ih =>
    refine pres_bind grow_pre (grow_fbChild E v k) fun nxt => ?_
    split
    · exact ih _
    · exact pres_pure grow_pre _
    · exact pres_raise grow_pre _

theorem grow_toRoot (E : Env) (n : Nat) (o : Oid) (p : List Key)
    (vis : List Oid) : Pres Grow (toRoot E n o p vis) := by
  induction n generalizing o vis with
  | zero => exact pres_raise grow_pre _
  | succ n ih =>
    refine pres_bind grow_pre (pres_getW grow_pre) fun w => ?_
    split
    · exact pres_pure grow_pre _
    · split
      · exact pres_ite grow_pre (pres_bind grow_pre (grow_getitem0 E _ _) fun _ => pres_raise grow_pre _) (ih _ _)
      · split
        · exact ih _ _
        · refine pres_bind grow_pre (grow_getitem0 E _ _) fun start => ?_
          split
          · exact pres_raise grow_pre _
          · refine pres_bind grow_pre (pres_of_id grow_pre (path_id _)) fun sp => ?_
            refine pres_bind grow_pre (grow_fbWalk E _ _) fun res => ?_
            split
            · exact pres_pure grow_pre _
            · exact ih _ _

theorem grow_fbHandler (E : Env) (o : Oid) (k : Key) (e : Exc) :
    Pres Grow (fbHandler E o k e) := by
  refine grow_fbGuard fun n => ?_
  refine pres_ite grow_pre (pres_raise grow_pre _) ?_
  refine pres_bind grow_pre (pres_of_id grow_pre (path_id _)) fun p => ?_
  refine pres_bind grow_pre (pres_getW grow_pre) fun w => ?_
  refine pres_bind grow_pre (grow_toRoot E _ _ _ _) fun v => ?_
  split
  · exact pres_pure grow_pre _
  · exact pres_raise grow_pre _

theorem grow_getitem (E : Env) (o : Oid) (k : Key) : Pres Grow (getitem E o k) := fun w =>
  grow_getPipe E (grow_fbHandler E) _ o k w

theorem grow_iter (E : Env) (o : Oid) : Pres Grow (iter E o) := grow_of_keep (keep_iter E o)

theorem grow_mkeys (E : Env) (o : Oid) : Pres Grow (mkeys E o) :=
  pres_bind grow_pre (grow_iter E o) fun _ =>
    pres_bind grow_pre (pres_endIter grow_pre _) fun _ => pres_pure grow_pre _

theorem grow_mvalues (E : Env) (o : Oid) : Pres Grow (mvalues E o) :=
  pres_bind grow_pre (grow_iter E o) fun _ =>
    pres_bind grow_pre (pres_forM' grow_pre (grow_getitem E o) _) fun _ =>
      pres_bind grow_pre (pres_endIter grow_pre _) fun _ => pres_pure grow_pre _

theorem grow_indexDelete (o : Oid) (us : List Nat) : Pres Grow (indexDelete o us) := by
  induction us with
  | nil => exact pres_pure grow_pre _
  | cons u r ih =>
    refine pres_bind grow_pre (pres_of_id grow_pre (indexRef_id _)) fun i => ?_
    refine pres_bind grow_pre (pres_getW grow_pre) fun w => ?_
    refine pres_ite grow_pre ?_ (pres_raise grow_pre _)
    exact pres_bind grow_pre (grow_setIdxs i (fun w => (w.idxs i).del (some u)) fun w hw =>
      Od.nodup_keys_del (hw.iNd i) _) fun _ => ih

theorem grow_delPrims (E : Env) (o : Oid) : DelPrims E Grow o where
  pre := grow_pre
  getitem := grow_getitem E
  iter := grow_iter E
  delEnd k := by
    refine pres_bind grow_pre (pres_getW grow_pre) fun w => ?_
    refine pres_ite grow_pre (pres_raise grow_pre _) ?_
    refine pres_ite grow_pre ?_ (pres_raise grow_pre _)
    refine pres_bind grow_pre (grow_of_keep (keep_storageRef E o)) fun r => ?_
    refine pres_bind grow_pre (pres_getW grow_pre) fun w => ?_
    refine pres_ite grow_pre ?_ (pres_raise grow_pre _)
    exact grow_of_keep (keep_setStores r (fun w => (w.stores r).del k) fun w hw =>
      Od.nodup_keys_del (hw.sNd r) _)
  nsDrop k := by
    refine pres_bind grow_pre (grow_of_keep (keep_nodespacesRef o)) fun r => ?_
    refine pres_bind grow_pre (pres_getW grow_pre) fun w => ?_
    refine pres_ite grow_pre ?_ (pres_raise grow_pre _)
    exact grow_of_keep (keep_setNspaces r (fun w => (w.nspaces r).del k) fun w hw =>
      Od.nodup_keys_del (hw.nNd r) _)
  cacheDrop k := grow_of_keep (keep_cacheDrop o k)
  unindex := grow_indexDelete o
  notify := grow_notify

theorem grow_delitem (E : Env) (o : Oid) (k : Key) : Pres Grow (delitem E o k) :=
  (grow_delPrims E o).delitem k

/-- `self._index[u] = c; c._index = self._index`. -/
theorem grow_indexPut (o c : Oid) (u : Nat) {β : Type} {f : Unit → M β} (hf : Pres Grow (f ())) :
    Pres Grow (do
      let i ← indexRef o
      M.modifyW fun w => { w with idxs := upd w.idxs i ((w.idxs i).set (some u) c) }
      modO c fun ob => { ob with index := some i }
      f ()) := by
  intro w
  simp only [M.bind_apply]
  rcases h : indexRef o w with ⟨_ | si, w1⟩
  · have := indexRef_id o w; rw [h] at this; simp only at this; subst this; exact grow_pre.refl _
  · obtain ⟨e1, hsi⟩ := indexRef_ok h
    subst e1
    simp only [M.modifyW_apply, modO_apply]
    have k1 := keep_setIdxs si (fun w => (w.idxs si).set (some u) c)
        (fun w hw => Od.nodup_keys_set (hw.iNd si) _ _) w1
    have k2 := keep_setIndex c si { w1 with idxs := upd w1.idxs si ((w1.idxs si).set (some u) c) }
      fun hw => hw.iLt (o := o) hsi
    exact grow_pre.trans (k1.grow) (grow_pre.trans k2.grow (hf _))

theorem grow_indexNodes (E : Env) (n : Nat) (o : Oid) : Pres Grow (indexNodes E n o) := by
  induction n generalizing o with
  | zero => exact pres_raise grow_pre _
  | succ n ih =>
    refine pres_bind grow_pre (grow_mvalues E o) fun vs => pres_forU grow_pre (fun v => ?_) vs
    unfold indexNodesStep
    split
    · exact pres_pure grow_pre _
    · rename_i c
      refine pres_bind grow_pre (pres_getW grow_pre) fun w => ?_
      refine pres_ite grow_pre ?_ (pres_pure grow_pre _)
      split
      · exact pres_raise grow_pre _
      · exact grow_indexPut o c _ (f := fun _ => if (bhvsOf E w c).contains .reference = true
          then indexNodes E n c else M.raise .attr)
          (pres_ite grow_pre (ih c) (pres_raise grow_pre _))

theorem grow_referenceDetach (E : Env) (v : Val) : Pres Grow (referenceDetach E v) := by
  unfold referenceDetach
  split
  · exact pres_raise grow_pre _
  · rename_i c
    refine pres_bind grow_pre (pres_getW grow_pre) fun w => ?_
    refine pres_ite grow_pre ?_ (pres_raise grow_pre _)
    split
    · exact pres_raise grow_pre _
    · rename_i u _
      refine pres_bind grow_pre (grow_newIdx c (fun _ => [(some u, c)]) fun _ => by
        simp [Od.keys]) fun _ => ?_
      exact pres_ite grow_pre (grow_indexNodes E _ _) (pres_raise grow_pre _)

theorem grow_detachPipe (E : Env) (bs : List Bhv) (o : Oid) (k : Key) :
    Pres Grow (detachPipe E bs o k) := by
  induction bs with
  | nil =>
    exact pres_bind grow_pre (grow_getitem E o k) fun _ =>
      pres_bind grow_pre (grow_delitem E o k) fun _ => pres_pure grow_pre _
  | cons b r ih =>
    cases b
    case reference =>
      exact pres_bind grow_pre ih fun v =>
        pres_bind grow_pre (grow_referenceDetach E v) fun _ => pres_pure grow_pre _
    case lifecycle =>
      refine pres_bind grow_pre (grow_modO o _ (fun _ => rfl) (fun _ => rfl) (fun _ => rfl)
        (fun _ => rfl) (fun _ => rfl)) fun _ => ?_
      refine pres_bind grow_pre ih fun v => ?_
      refine pres_bind grow_pre (grow_modO o _ (fun _ => rfl) (fun _ => rfl) (fun _ => rfl)
        (fun _ => rfl) (fun _ => rfl)) fun _ => ?_
      exact pres_bind grow_pre (grow_notify _) fun _ => pres_pure grow_pre _
    all_goals exact ih

theorem grow_detach (E : Env) (o : Oid) (k : Key) : Pres Grow (detach E o k) := fun w =>
  grow_detachPipe E _ o k w

theorem grow_invalidatePipe (E : Env) (all bs : List Bhv) (o : Oid) (k : Key) :
    Pres Grow (invalidatePipe E all bs o k) := by
  induction bs generalizing k with
  | nil =>
    unfold invalidatePipe
    split
    · unfold invalidateDel
      refine pres_ite grow_pre ?_ (grow_delitem E o k)
      exact pres_bind grow_pre (grow_mkeys E o) fun ks => pres_forU grow_pre (grow_delitem E o) ks
    · refine pres_bind grow_pre (grow_of_keep (keep_storageRef E o)) fun r => ?_
      refine pres_ite grow_pre ?_ ?_
      · exact grow_of_keep (keep_setStores r (fun _ => []) fun _ _ => by simp [Od.keys])
      · refine pres_bind grow_pre (grow_mkeys E o) fun ks => ?_
        refine pres_ite grow_pre ?_ (pres_raise grow_pre _)
        exact grow_of_keep (keep_setStores r (fun w => (w.stores r).del k) fun w hw =>
          Od.nodup_keys_del (hw.sNd r) _)
    · exact pres_raise grow_pre _
  | cons b r ih =>
    cases b
    case cache =>
      show Pres Grow (if k = .none then _ else _)
      refine pres_ite grow_pre ?_ ?_
      · refine pres_bind grow_pre (grow_of_keep (keep_cacheRef o)) fun c => ?_
        refine pres_bind grow_pre (pres_getW grow_pre) fun w => ?_
        exact pres_bind grow_pre (grow_of_keep (keep_setCaches c (fun _ => []) fun _ _ => by
          simp [Od.keys])) fun _ => ih _
      · exact pres_bind grow_pre (grow_of_keep (keep_cacheDrop o k)) fun _ => ih k
    all_goals exact ih k

theorem Od.keys_insertBefore {K V : Type} [DecidableEq K] (d : Od K V) (ref k : K) (v : V) :
    (d.insertBefore ref k v).keys.Perm (if ref ∈ d.keys then k :: d.keys else d.keys) := by
  induction d with
  | nil => simp [Od.insertBefore, Od.keys]
  | cons a t ih =>
    obtain ⟨k', v'⟩ := a
    simp only [Od.insertBefore]
    by_cases h : k' = ref
    · simp [h, Od.keys]
    · have hne : ref ≠ k' := fun e => h e.symm
      simp only [h, if_false]
      have e1 : (Od.keys ((k', v') :: Od.insertBefore t ref k v)) = k' :: Od.keys (Od.insertBefore t ref k v) := rfl
      have e2 : Od.keys ((k', v') :: t) = k' :: Od.keys t := rfl
      rw [e1, e2]
      by_cases hm : ref ∈ Od.keys t
      · simp only [hm, if_true] at ih
        simp only [List.mem_cons, hm, or_true, if_true]
        exact (ih.cons k').trans (List.Perm.swap _ _ _)
      · simp only [hm, if_false] at ih
        simp only [List.mem_cons, hne, hm, or_self, if_false]
        exact ih.cons k'

theorem Od.keys_insertAfter {K V : Type} [DecidableEq K] (d : Od K V) (ref k : K) (v : V) :
    (d.insertAfter ref k v).keys.Perm (if ref ∈ d.keys then k :: d.keys else d.keys) := by
  induction d with
  | nil => simp [Od.insertAfter, Od.keys]
  | cons a t ih =>
    obtain ⟨k', v'⟩ := a
    simp only [Od.insertAfter]
    by_cases h : k' = ref
    · simp only [h, if_true, Od.keys, List.map_cons, List.mem_cons, true_or]
      exact List.Perm.swap _ _ _
    · have hne : ref ≠ k' := fun e => h e.symm
      simp only [h, if_false]
      have e1 : (Od.keys ((k', v') :: Od.insertAfter t ref k v)) = k' :: Od.keys (Od.insertAfter t ref k v) := rfl
      have e2 : Od.keys ((k', v') :: t) = k' :: Od.keys t := rfl
      rw [e1, e2]
      by_cases hm : ref ∈ Od.keys t
      · simp only [hm, if_true] at ih
        simp only [List.mem_cons, hm, or_true, if_true]
        exact (ih.cons k').trans (List.Perm.swap _ _ _)
      · simp only [hm, if_false] at ih
        simp only [List.mem_cons, hne, hm, or_self, if_false]
        exact ih.cons k'

theorem Od.nodup_insertBefore {K V : Type} [DecidableEq K] {d : Od K V} (hd : d.keys.Nodup)
    {k : K} (hk : k ∉ d.keys) (ref : K) (v : V) : (d.insertBefore ref k v).keys.Nodup := by
  refine (Od.keys_insertBefore d ref k v).nodup_iff.mpr ?_
  split
  · exact List.nodup_cons.mpr ⟨hk, hd⟩
  · exact hd

theorem Od.nodup_insertAfter {K V : Type} [DecidableEq K] {d : Od K V} (hd : d.keys.Nodup)
    {k : K} (hk : k ∉ d.keys) (ref : K) (v : V) : (d.insertAfter ref k v).keys.Nodup := by
  refine (Od.keys_insertAfter d ref k v).nodup_iff.mpr ?_
  split
  · exact List.nodup_cons.mpr ⟨hk, hd⟩
  · exact hd

/-- The key sequence after a swap. -/
theorem Od.keys_swap {K V : Type} [DecidableEq K] {d : Od K V} {a b : K}
    (ha : a ∈ d.keys) (hb : b ∈ d.keys) :
    (d.swap a b).keys = d.keys.map fun k => if k = a then b else if k = b then a else k := by
  obtain ⟨va, hva⟩ := Od.get?_of_mem_keys ha
  obtain ⟨vb, hvb⟩ := Od.get?_of_mem_keys hb
  simp only [Od.swap, hva, hvb, Od.keys, List.map_map]
  apply List.map_congr_left
  intro kv _
  simp only [Function.comp]
  split
  · rfl
  · split <;> rfl

theorem Od.nodup_swap {K V : Type} [DecidableEq K] {d : Od K V} (hd : d.keys.Nodup) (a b : K) :
    (d.swap a b).keys.Nodup := by
  by_cases ha : a ∈ d.keys
  · by_cases hb : b ∈ d.keys
    · rw [Od.keys_swap ha hb]
      refine List.Pairwise.map _ (fun x y hne hxy => hne ?_) hd
      by_cases h1 : x = a <;> by_cases h2 : y = a <;> by_cases h3 : x = b <;>
        by_cases h4 : y = b <;> simp_all
    · have := (Od.get?_eq_none_iff d b).mpr hb
      unfold Od.swap
      rw [this]
      split <;> simp_all
  · have := (Od.get?_eq_none_iff d a).mpr ha
    unfold Od.swap
    rw [this]
    exact hd


theorem grow_validateInsertion (E : Env) (o n : Oid) : Pres Grow (validateInsertion E o n) := by
  refine pres_bind grow_pre (pres_getW grow_pre) fun w => ?_
  refine pres_ite grow_pre (pres_raise grow_pre _) ?_
  refine pres_ite grow_pre ?_ (pres_ite grow_pre (pres_raise grow_pre _) (pres_pure grow_pre _))
  refine pres_ite grow_pre ?_ (pres_raise grow_pre _)
  split
  · exact pres_raise grow_pre _
  · refine pres_bind grow_pre (pres_of_id grow_pre (indexRef_id _)) fun i => ?_
    exact pres_ite grow_pre (pres_raise grow_pre _) (pres_pure grow_pre _)

theorem grow_storageInsert (E : Env) (before : Bool) (o : Oid) (ref new : Key) (v : Val) :
    Pres Grow (storageInsert E before o ref new v) := by
  refine pres_bind grow_pre (grow_of_keep (keep_storageRef E o)) fun r => ?_
  intro w
  simp only [M.bind_apply, M.getW_apply]
  split
  · split
    · split
      · exact grow_pre.refl w
      · rename_i hnew
        have hk : new ∉ (w.stores r).keys := by
          rw [← Od.has_iff]; exact hnew
        refine ⟨fun hw => hw.setStore r ?_, Nat.le_refl _, fun _ _ => rfl, Nat.le_refl _⟩
        split
        · exact Od.nodup_insertBefore (hw.sNd r) hk ref v
        · exact Od.nodup_insertAfter (hw.sNd r) hk ref v
    · exact grow_pre.refl w
  · exact grow_pre.refl w

theorem grow_insertAt (E : Env) (before : Bool) (o n ref : Oid) :
    Pres Grow (insertAt E before o n ref) :=
  pres_bind grow_pre (grow_validateInsertion E o n) fun _ =>
    pres_bind grow_pre (pres_getW grow_pre) fun _ =>
      pres_bind grow_pre (grow_storageInsert E _ _ _ _ _) fun _ => grow_setitem E _ _ _

theorem grow_insertEnd (E : Env) (first : Bool) (o n : Oid) :
    Pres Grow (insertEnd E first o n) := by
  refine pres_bind grow_pre (grow_mkeys E o) fun ks => ?_
  split
  · exact pres_bind grow_pre (pres_getW grow_pre) fun _ => grow_setitem E _ _ _
  · refine pres_bind grow_pre (grow_getitem E _ _) fun v => ?_
    split
    · exact grow_insertAt E _ _ _ _
    · exact pres_bind grow_pre (grow_validateInsertion E o n) fun _ => pres_raise grow_pre _

theorem grow_swapNodes (E : Env) (o a b : Oid) : Pres Grow (swapNodes E o a b) := by
  refine pres_bind grow_pre (grow_of_keep (keep_storageRef E o)) fun r => ?_
  refine pres_bind grow_pre (pres_getW grow_pre) fun w => ?_
  refine pres_ite grow_pre ?_ (pres_raise grow_pre _)
  refine pres_ite grow_pre (pres_raise grow_pre _) ?_
  refine pres_ite grow_pre ?_ (pres_raise grow_pre _)
  refine pres_ite grow_pre ?_ (pres_raise grow_pre _)
  exact grow_of_keep (keep_setStores r
    (fun w => (w.stores r).swap (w.objs a).name (w.objs b).name) fun w hw => Od.nodup_swap (hw.sNd r) _ _)

theorem grow_attrs (E : Env) (o : Oid) : Pres Grow (attrs E o) := by
  refine pres_bind grow_pre (pres_getW grow_pre) fun w => ?_
  refine pres_ite grow_pre ?_ (pres_raise grow_pre _)
  refine pres_bind grow_pre (grow_of_keep (keep_nodespacesRef o)) fun r => ?_
  refine pres_bind grow_pre (pres_getW grow_pre) fun w => ?_
  split
  · exact pres_pure grow_pre _
  · exact pres_raise grow_pre _
  · refine pres_bind grow_pre (grow_newNode E _ _ _) fun a => ?_
    exact pres_bind grow_pre (grow_of_keep (keep_setNspaces r
      (fun w => (w.nspaces r).set attrsKey (.node a)) fun w hw =>
        Od.nodup_keys_set (hw.nNd r) _ _)) fun _ => pres_pure grow_pre _

/-- Every operation of the API. -/
theorem grow_exec (E : Env) (op : Op) : Pres Grow (exec E op) := by
  have hr : ∀ {α : Type} {m : M α} (f : α → Res), Pres Grow m →
      Pres Grow (do let x ← m; pure (f x)) := fun f h =>
    pres_bind grow_pre h fun _ => pres_pure grow_pre _
  cases op
  case new c n p => exact hr _ (grow_newNode E c n p)
  case get o k => exact hr _ (grow_getitem E o k)
  case set o k v => exact hr (fun _ => .unit) (grow_setitem E o k v)
  case del o k => exact hr (fun _ => .unit) (grow_delitem E o k)
  case getD o k d =>
    exact hr _ (pres_catchIf grow_pre (grow_getitem E o k) fun _ => pres_pure grow_pre _)
  case contains o k =>
    exact hr _ (pres_catchIf grow_pre (pres_bind grow_pre (grow_getitem E o k) fun _ =>
      pres_pure grow_pre _) fun _ => pres_pure grow_pre _)
  case keys o => exact hr _ (grow_mkeys E o)
  case values o => exact hr _ (grow_mvalues E o)
  case items o =>
    exact hr _ (pres_bind grow_pre (grow_iter E o) fun _ =>
      pres_bind grow_pre (pres_forM' grow_pre (fun k => pres_bind grow_pre (grow_getitem E o k)
        fun _ => pres_pure grow_pre _) _) fun _ =>
        pres_bind grow_pre (pres_endIter grow_pre _) fun _ => pres_pure grow_pre _)
  case len o => exact hr _ (pres_bind grow_pre (grow_mkeys E o) fun _ => pres_pure grow_pre _)
  case setdefault o k v =>
    exact hr _ (pres_catchIf grow_pre (grow_getitem E o k) fun _ =>
      pres_bind grow_pre (grow_setitem E o k v) fun _ => pres_pure grow_pre _)
  case pop o k d =>
    refine hr _ (pres_catchIf grow_pre (pres_bind grow_pre (grow_getitem E o k) fun _ =>
      pres_bind grow_pre (grow_delitem E o k) fun _ => pres_pure grow_pre _) fun e => ?_)
    split
    · exact pres_raise grow_pre _
    · exact pres_pure grow_pre _
  case popitem o =>
    refine hr (fun kv : Key × Val => .item kv.1 kv.2) (pres_bind grow_pre (grow_mkeys E o) fun ks => ?_)
    split
    · exact pres_raise grow_pre _
    · exact pres_bind grow_pre (grow_getitem E o _) fun _ =>
        pres_bind grow_pre (grow_delitem E o _) fun _ => pres_pure grow_pre _
  case update o kvs =>
    exact hr (fun _ => .unit) (show Pres Grow (mupdate E o kvs) from
      pres_forU grow_pre (f := fun kv : Key × Val => setitem E o kv.1 kv.2)
        (fun kv => grow_setitem E o kv.1 kv.2) kvs)
  case clear o =>
    exact hr (fun _ => .unit) (pres_bind grow_pre (grow_mkeys E o) fun ks =>
      pres_forU grow_pre (grow_delitem E o) ks)
  case detach o k => exact hr _ (grow_detach E o k)
  case invalidate o k =>
    exact hr (fun _ => .unit) fun w => grow_invalidatePipe E _ _ o k w
  case insertBefore o n r => exact hr (fun _ => .unit) (grow_insertAt E _ o n r)
  case insertAfter o n r => exact hr (fun _ => .unit) (grow_insertAt E _ o n r)
  case insertFirst o n => exact hr (fun _ => .unit) (grow_insertEnd E _ o n)
  case insertLast o n => exact hr (fun _ => .unit) (grow_insertEnd E _ o n)
  case swap o a b => exact hr (fun _ => .unit) (grow_swapNodes E o a b)
  case attrs o => exact hr (fun a => .val (.node a)) (grow_attrs E o)
  case setUuid o u => exact hr (fun _ => .unit) (grow_setUuidRef o u)
  case setFallbackKey o k =>
    exact hr (fun _ => .unit) (grow_modO o _ (fun _ => rfl) (fun _ => rfl) (fun _ => rfl)
      (fun _ => rfl) (fun _ => rfl))

theorem grow_execAll (E : Env) (ops : List Op) (w : World) : Grow w (execAll E ops w).2 := by
  induction ops generalizing w with
  | nil => exact grow_pre.refl w
  | cons op r ih => exact grow_pre.trans (grow_exec E op w) (ih _)

/-- Every heap the API can produce is well-formed. -/
theorem Reachable.wf {E : Env} {w : World} (h : Reachable E w) : WF w := by
  obtain ⟨ops, rfl⟩ := h
  exact (grow_execAll E ops {}).wf WF.empty

end Verif
