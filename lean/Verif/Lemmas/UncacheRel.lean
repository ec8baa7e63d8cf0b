import Verif.Lemmas.Uncache

/-!
Heaps whose caches hold what a read would find, and computations that keep them so while doing what
their counterparts do without caches.
-/

namespace Verif

/-- `__x__`. -/
def reservedKey : Key → Bool
  | .str s => reserved s
  | _ => false

/-- `self.storage` is a dictionary. -/
def hasStorage (c : ClassDef) : Bool :=
  match storageKind c.bhvs with
  | none | some .storage => false
  | some _ => true

/-- What the behaviors below the cache find under a key. -/
def World.found (E : Env) (w : World) (o : Oid) (k : Key) : Option Val :=
  if (belowCache (clsOf E w o).bhvs).contains .nodespaces && reservedKey k then
    if (w.objs o).nodespaces.isSome then (w.nsview o).get? k else none
  else if (clsOf E w o).bhvs.contains .fixedChildren then (w.objs o).fixed.get? k
  else if hasStorage (clsOf E w o) then (w.children o).get? k else none

/-- A heap whose caches hold what a read would find. -/
structure Fresh (E : Env) (w : World) : Prop where
  wf : WF w
  coh : ∀ o k v, Bhv.cache ∈ (clsOf E w o).bhvs → (w.cached o).get? k = some v → w.found E o k = some v

theorem Fresh.empty (E : Env) : Fresh E {} := ⟨WF.empty, fun _ _ _ _ h => nomatch h⟩

/-- Nothing a read or a cache could show has changed. -/
structure Mute (w w' : World) : Prop where
  wf : WF w → WF w'
  children : WF w → ∀ o, w'.children o = w.children o
  nsview : WF w → ∀ o, w'.nsview o = w.nsview o
  spaces : ∀ o, (w.objs o).nodespaces.isSome → (w'.objs o).nodespaces.isSome
  cached : WF w → ∀ o, w'.cached o = w.cached o
  cls : ∀ o, (w'.objs o).cls = (w.objs o).cls
  nobj : w'.nobj = w.nobj
  fixed : ∀ o, (w'.objs o).fixed = (w.objs o).fixed

theorem mute_pre : PreR Mute :=
  ⟨fun _ => ⟨id, fun _ _ => rfl, fun _ _ => rfl, fun _ => id, fun _ _ => rfl, fun _ => rfl, rfl, fun _ => rfl⟩, fun h h' =>
    ⟨fun x => h'.wf (h.wf x), fun x o => (h'.children (h.wf x) o).trans (h.children x o),
     fun x o => (h'.nsview (h.wf x) o).trans (h.nsview x o),
     fun o x => h'.spaces o (h.spaces o x),
     fun x o => (h'.cached (h.wf x) o).trans (h.cached x o),
     fun o => (h'.cls o).trans (h.cls o), h'.nobj.trans h.nobj, fun o => (h'.fixed o).trans (h.fixed o)⟩⟩

theorem Hidden.mute {w w' : World} (h : Hidden w w') : Mute w w' :=
  ⟨h.wf, fun _ => h.children, fun _ => h.nsview,
   fun o x => by rw [h.spaces]; exact x, fun _ => h.cached, h.cls, h.nobj, h.fixed⟩

theorem mute_of_hidden {α : Type} {m : M α} (h : Pres Hidden m) : Pres Mute m := fun w => (h w).mute

theorem Mute.clsOf {E : Env} {w w' : World} (h : Mute w w') (o : Oid) : clsOf E w' o = clsOf E w o :=
  congrArg E.cls (h.cls o)

theorem Mute.found {E : Env} {w w' : World} (h : Mute w w') (hw : WF w) {o : Oid} {k : Key} {v : Val}
    (hf : w.found E o k = some v) : w'.found E o k = some v := by
  unfold World.found at hf ⊢
  rw [h.clsOf, h.nsview hw, h.children hw, h.fixed]
  split
  · rename_i hc
    rw [if_pos hc] at hf
    split at hf
    · rename_i hs; rw [if_pos (h.spaces o hs)]; exact hf
    · cases hf
  · rename_i hc
    rw [if_neg hc] at hf
    exact hf

theorem Mute.fresh {E : Env} {w w' : World} (h : Mute w w') (hf : Fresh E w) : Fresh E w' :=
  ⟨h.wf hf.wf, fun o k v hc hk => by
    rw [h.clsOf] at hc
    rw [h.cached hf.wf] at hk
    exact h.found hf.wf (hf.coh o k v hc hk)⟩

/-- A write to attributes other than the private dictionaries. -/
theorem mute_modO (o : Oid) (f : Obj → Obj) (h1 : ∀ b, (f b).cls = b.cls)
    (hs : ∀ b, (f b).storage = b.storage) (hc : ∀ b, (f b).cache = b.cache)
    (hn : ∀ b, (f b).nodespaces = b.nodespaces) (hi : ∀ b, (f b).index = b.index)
    (hf : ∀ b, (f b).fixed = b.fixed) : Pres Mute (modO o f) := fun w =>
  ⟨fun hw => hw.modO o f (hs _) (hc _) (hn _) fun r hr => hw.iLt ((hi _).symm.trans hr),
   fun _ => children_modO o f (hs _), fun _ => nsview_modO o f (hn _),
   fun p x => by
     show (upd w.objs o (f (w.objs o)) p).nodespaces.isSome
     rw [proj_upd Obj.nodespaces w.objs o _ (hn _)]; exact x,
   fun _ => cached_modO o f (hc _), fun p => proj_upd Obj.cls w.objs o _ (h1 _) p, rfl,
   fun p => proj_upd Obj.fixed w.objs o _ (hf _) p⟩

theorem mute_name (o : Oid) (k : Key) : Pres Mute (modO o fun ob => { ob with name := k }) :=
  mute_modO o _ (fun _ => rfl) (fun _ => rfl) (fun _ => rfl) (fun _ => rfl) (fun _ => rfl) (fun _ => rfl)

theorem mute_parent (o : Oid) (p : Option Oid) :
    Pres Mute (modO o fun ob => { ob with parent := p }) :=
  mute_modO o _ (fun _ => rfl) (fun _ => rfl) (fun _ => rfl) (fun _ => rfl) (fun _ => rfl) (fun _ => rfl)

theorem storageRef_spaces (E : Env) (o : Oid) (w : World) (p : Oid)
    (h : (w.objs p).nodespaces.isSome) : (((storageRef E o w).2).objs p).nodespaces.isSome := by
  unfold storageRef
  split
  · exact h
  · exact h
  · split
    · exact h
    · show (upd w.objs o { w.objs o with storage := some w.nstore } p).nodespaces.isSome
      rw [proj_upd Obj.nodespaces w.objs o _ (by rfl)]; exact h

theorem cacheRef_spaces (o : Oid) (w : World) (p : Oid)
    (h : (w.objs p).nodespaces.isSome) : (((cacheRef o w).2).objs p).nodespaces.isSome := by
  unfold cacheRef
  split
  · exact h
  · show (upd w.objs o { w.objs o with cache := some w.ncache } p).nodespaces.isSome
    rw [proj_upd Obj.nodespaces w.objs o _ (by rfl)]; exact h

theorem nodespacesRef_spaces (o : Oid) (w : World) (p : Oid)
    (h : (w.objs p).nodespaces.isSome) : (((nodespacesRef o w).2).objs p).nodespaces.isSome := by
  unfold nodespacesRef
  split
  · exact h
  · dsimp only
    unfold upd
    split
    · rfl
    · exact h

theorem mute_storageRef (E : Env) (o : Oid) : Pres Mute (storageRef E o) := fun w =>
  ⟨fun hw => (storageRef_quiet E o w hw).1, fun hw => (storageRef_quiet E o w hw).2.children,
   fun hw => (storageRef_quiet E o w hw).2.nsview, storageRef_spaces E o w, fun _ => storageRef_cached E o w,
   (keep_storageRef E o w).cls, (keep_storageRef E o w).nobj, (keep_storageRef E o w).fixed⟩

theorem mute_nodespacesRef (o : Oid) : Pres Mute (nodespacesRef o) := fun w =>
  ⟨fun hw => (nodespacesRef_quiet o w hw).1, fun hw => (nodespacesRef_quiet o w hw).2.children,
   fun hw => (nodespacesRef_quiet o w hw).2.nsview, nodespacesRef_spaces o w, fun _ => nodespacesRef_cached o w,
   (keep_nodespacesRef o w).cls, (keep_nodespacesRef o w).nobj, (keep_nodespacesRef o w).fixed⟩

theorem mute_cacheRef (o : Oid) : Pres Mute (cacheRef o) := fun w =>
  ⟨fun hw => (cacheRef_quiet o w hw).1, fun hw => (cacheRef_quiet o w hw).2.children,
   fun hw => (cacheRef_quiet o w hw).2.nsview, cacheRef_spaces o w, fun hw => cacheRef_cached hw o,
   (keep_cacheRef o w).cls, (keep_cacheRef o w).nobj, (keep_cacheRef o w).fixed⟩

theorem mute_iterEnd (E : Env) (o : Oid) : Pres Mute (iterEnd E o) := by
  intro w
  have h := mute_storageRef E o w
  simp only [iterEnd]
  split
  · exact mute_pre.refl w
  · split
    · exact mute_pre.refl w
    · revert h
      rcases storageRef E o w with ⟨_ | _, w'⟩ <;> exact id
    · exact mute_pre.refl w

theorem mute_iterPipe (E : Env) (bs : List Bhv) (o : Oid) : Pres Mute (iterPipe E bs o) := by
  induction bs with
  | nil => exact mute_iterEnd E o
  | cons b r ih =>
    cases b
    case alias =>
      exact pres_bind mute_pre ih fun _ =>
        pres_bind mute_pre (pres_getW mute_pre) fun _ => pres_pure mute_pre _
    all_goals exact ih

theorem mute_iter (E : Env) (o : Oid) : Pres Mute (iter E o) := fun w => mute_iterPipe E _ o w

theorem mute_mkeys (E : Env) (o : Oid) : Pres Mute (mkeys E o) :=
  pres_bind mute_pre (mute_iter E o) fun _ =>
    pres_bind mute_pre (pres_endIter mute_pre _) fun _ => pres_pure mute_pre _

theorem mute_referenceCheck (E : Env) (o c : Oid) : Pres Mute (referenceCheck E o c) := by
  have hR := mute_pre
  refine pres_bind hR (mute_iter E c) fun it => ?_
  split
  · exact pres_pure hR _
  · exact pres_raise hR _
  · refine pres_bind hR (pres_of_id hR (indexRef_id _)) fun _ => ?_
    refine pres_bind hR (pres_of_id hR (indexRef_id _)) fun _ => ?_
    refine pres_bind hR (pres_getW hR) fun _ => ?_
    exact pres_ite hR (pres_raise hR _) (pres_pure hR _)

theorem mute_getEnd (E : Env) (o : Oid) (k : Key) : Pres Mute (getEnd E o k) := by
  refine pres_bind mute_pre (pres_getW mute_pre) fun w => ?_
  refine pres_ite mute_pre (pres_ofExcept mute_pre _) ?_
  refine pres_ite mute_pre ?_ (pres_raise mute_pre _)
  exact pres_bind mute_pre (mute_storageRef E o) fun _ =>
    pres_bind mute_pre (pres_getW mute_pre) fun _ => pres_ofExcept mute_pre _

theorem mute_notifyModified (E : Env) (o : Oid) : Pres Mute (notifyModified E o) :=
  pres_notifyModified mute_pre (fun _ => mute_of_hidden (hidden_notify _)) o

/-! ### The two runs side by side -/

/-- From `w` both runs end alike and the caches stay right. -/
def CRelAt (E : Env) {α : Type} (m m' : M α) (w : World) : Prop :=
  m' w.uncache = ((m w).1, (m w).2.uncache) ∧ Fresh E (m w).2

/-- The same from every fresh heap with `P`. -/
def CRelOn (E : Env) (P : World → Prop) {α : Type} (m m' : M α) : Prop :=
  ∀ w, Fresh E w → P w → CRelAt E m m' w

/-- The same from every fresh heap. -/
def CRel (E : Env) {α : Type} (m m' : M α) : Prop := ∀ w, Fresh E w → CRelAt E m m' w

section
variable {E : Env} {P : World → Prop} {α β : Type}

theorem CRel.on {m m' : M α} (h : CRel E m m') : CRelOn E P m m' := fun w hw _ => h w hw

theorem CRelOn.all {m m' : M α} (h : CRelOn E (fun _ => True) m m') : CRel E m m' := fun w hw => h w hw trivial

theorem rel_mute {m m' : M α} (he : Eqv m m') (hm : Pres Mute m) : CRel E m m' := fun w hw =>
  ⟨he w, (hm w).fresh hw⟩

theorem rel_hidden {m m' : M α} (he : Eqv m m') (hm : Pres Hidden m) : CRel E m m' :=
  rel_mute he (mute_of_hidden hm)

theorem rel_pure (a : α) : CRel E (pure a : M α) (pure a) := fun _ hw => ⟨rfl, hw⟩

theorem rel_raise (e : Exc) : CRel E (M.raise e : M α) (M.raise e) := fun _ hw => ⟨rfl, hw⟩

theorem rel_ofExcept (x : Except Exc α) : CRel E (M.ofExcept x) (M.ofExcept x) := fun _ hw => ⟨rfl, hw⟩

theorem relAt_bind {m m' : M α} {f f' : α → M β} {w : World} (hm : CRelAt E m m' w)
    (hf : ∀ a w', m w = (.ok a, w') → Fresh E w' → CRelAt E (f a) (f' a) w') :
    CRelAt E (m >>= f) (m' >>= f') w := by
  obtain ⟨h1, h2⟩ := hm
  unfold CRelAt
  simp only [M.bind_apply, h1]
  rcases hx : m w with ⟨_ | a, w1⟩
  · rw [hx] at h2; exact ⟨rfl, h2⟩
  · rw [hx] at h2; exact hf a w1 hx h2

theorem relAt_catchIf {m m' : M α} {p : Exc → Bool} {h h' : Exc → M α} {w : World}
    (hm : CRelAt E m m' w)
    (hh : ∀ e w', m w = (.error e, w') → Fresh E w' → CRelAt E (h e) (h' e) w') :
    CRelAt E (M.catchIf p m h) (M.catchIf p m' h') w := by
  obtain ⟨h1, h2⟩ := hm
  unfold CRelAt
  simp only [M.catchIf_apply, h1]
  rcases hx : m w with ⟨e | a, w1⟩
  · rw [hx] at h2
    simp only
    split
    · exact hh e w1 hx h2
    · exact ⟨rfl, h2⟩
  · rw [hx] at h2; exact ⟨rfl, h2⟩

theorem rel_bind {m m' : M α} {f f' : α → M β} (hm : CRel E m m') (hf : ∀ a, CRel E (f a) (f' a)) :
    CRel E (m >>= f) (m' >>= f') := fun w hw =>
  relAt_bind (hm w hw) fun a w' _ hw' => hf a w' hw'

theorem rel_catchIf {m m' : M α} {p : Exc → Bool} {h h' : Exc → M α} (hm : CRel E m m')
    (hh : ∀ e, CRel E (h e) (h' e)) : CRel E (M.catchIf p m h) (M.catchIf p m' h') := fun w hw =>
  relAt_catchIf (hm w hw) fun e w' _ hw' => hh e w' hw'

theorem rel_getW {f f' : World → M β} (hf : ∀ w, CRel E (f w) (f' w.uncache)) :
    CRel E (M.getW >>= f) (M.getW >>= f') := fun w hw => hf w w hw

theorem rel_getO {o : Oid} {f f' : Obj → M β} (hf : ∀ ob, CRel E (f ob) (f' { ob with cache := none })) :
    CRel E (getO o >>= f) (getO o >>= f') := fun w hw => hf (w.objs o) w hw

theorem rel_ite {c : Prop} [Decidable c] {a a' b b' : M α} (h : CRel E a a') (h' : CRel E b b') :
    CRel E (if c then a else b) (if c then a' else b') := by split <;> assumption

theorem rel_forU {f f' : α → M Unit} (h : ∀ a, CRel E (f a) (f' a)) (l : List α) :
    CRel E (forU f l) (forU f' l) := by
  induction l with
  | nil => exact rel_pure _
  | cons a t ih => exact rel_bind (h a) fun _ => ih

theorem rel_forM' {f f' : α → M β} (h : ∀ a, CRel E (f a) (f' a)) (l : List α) :
    CRel E (forM' f l) (forM' f' l) := by
  induction l with
  | nil => exact rel_pure _
  | cons a t ih => exact rel_bind (h a) fun _ => rel_bind ih fun _ => rel_pure _

theorem relOn_bind {m m' : M α} {f f' : α → M β} (hm : CRelOn E P m m')
    (hk : ∀ w, Fresh E w → P w → P (m w).2) (hf : ∀ a, CRelOn E P (f a) (f' a)) :
    CRelOn E P (m >>= f) (m' >>= f') := fun w hw hp =>
  relAt_bind (hm w hw hp) fun a w' hx hw' => hf a w' hw' (by have := hk w hw hp; rw [hx] at this; exact this)

/-- Afterwards `P` is not needed any more. -/
theorem relOn_then {m m' : M α} {f f' : α → M β} (hm : CRelOn E P m m')
    (hf : ∀ a, CRel E (f a) (f' a)) : CRelOn E P (m >>= f) (m' >>= f') := fun w hw hp =>
  relAt_bind (hm w hw hp) fun a w' _ hw' => hf a w' hw'

theorem relOn_catch {m m' : M α} {p : Exc → Bool} {h h' : Exc → M α} (hm : CRelOn E P m m')
    (hh : ∀ e, CRel E (h e) (h' e)) : CRelOn E P (M.catchIf p m h) (M.catchIf p m' h') := fun w hw hp =>
  relAt_catchIf (hm w hw hp) fun e w' _ hw' => hh e w' hw'

theorem relOn_getW {f f' : World → M β} (hf : ∀ w, CRelOn E P (f w) (f' w.uncache)) :
    CRelOn E P (M.getW >>= f) (M.getW >>= f') := fun w hw hp => hf w w hw hp

theorem relOn_ite {c : Prop} [Decidable c] {a a' b b' : M α} (h : CRelOn E P a a') (h' : CRelOn E P b b') :
    CRelOn E P (if c then a else b) (if c then a' else b') := by split <;> assumption

end

/-! ### Writes to storages and nodespaces -/

section
variable {E : Env}

/-- Replacing the contents of the storage of `o` where no cached value is affected. -/
theorem Fresh.setStore {w : World} (h : Fresh E w) {o r : Nat} (hr : (w.objs o).storage = some r)
    {d : Od Key Val} (hd : d.keys.Nodup)
    (hk : ∀ k v, Bhv.cache ∈ (clsOf E w o).bhvs → (w.cached o).get? k = some v →
      (w.children o).get? k = some v → d.get? k = some v) :
    Fresh E { w with stores := upd w.stores r d } := by
  refine ⟨h.wf.setStore r hd, fun p k v hc hg => ?_⟩
  have h0 := h.coh p k v hc hg
  unfold World.found at h0 ⊢
  rw [children_setStore h.wf hr]
  have e1 : clsOf E { w with stores := upd w.stores r d } p = clsOf E w p := rfl
  have e2 : World.nsview { w with stores := upd w.stores r d } p = w.nsview p := rfl
  have e3 : (({ w with stores := upd w.stores r d } : World).objs p).nodespaces = (w.objs p).nodespaces := rfl
  rw [e1, e2, e3]
  by_cases hn : ((belowCache (clsOf E w p).bhvs).contains .nodespaces && reservedKey k) = true
  · rw [if_pos hn] at h0 ⊢; exact h0
  · rw [if_neg hn] at h0 ⊢
    by_cases hf : (clsOf E w p).bhvs.contains .fixedChildren = true
    · rw [if_pos hf] at h0 ⊢; exact h0
    rw [if_neg hf] at h0 ⊢
    by_cases hs : hasStorage (clsOf E w p) = true
    · rw [if_pos hs] at h0 ⊢
      by_cases hp : p = o
      · subst hp; rw [if_pos rfl]; exact hk k v hc hg h0
      · rw [if_neg hp]; exact h0
    · rw [if_neg hs] at h0; cases h0

/-- Replacing the nodespaces of `o` where no cached value is affected. -/
theorem Fresh.setNspace {w : World} (h : Fresh E w) {o r : Nat} (hr : (w.objs o).nodespaces = some r)
    {d : Od Key Val} (hd : d.keys.Nodup)
    (hk : ∀ k v, Bhv.cache ∈ (clsOf E w o).bhvs →
      (belowCache (clsOf E w o).bhvs).contains .nodespaces = true → (w.cached o).get? k = some v →
      (w.nsview o).get? k = some v → d.get? k = some v) :
    Fresh E { w with nspaces := upd w.nspaces r d } := by
  refine ⟨h.wf.setNspace r hd, fun p k v hc hg => ?_⟩
  have h0 := h.coh p k v hc hg
  unfold World.found at h0 ⊢
  rw [nsview_setNspace h.wf hr]
  have e1 : clsOf E { w with nspaces := upd w.nspaces r d } p = clsOf E w p := rfl
  have e2 : World.children { w with nspaces := upd w.nspaces r d } p = w.children p := rfl
  have e3 : (({ w with nspaces := upd w.nspaces r d } : World).objs p).nodespaces = (w.objs p).nodespaces := rfl
  rw [e1, e2, e3]
  by_cases hn : ((belowCache (clsOf E w p).bhvs).contains .nodespaces && reservedKey k) = true
  · rw [if_pos hn] at h0 ⊢
    by_cases hs : (w.objs p).nodespaces.isSome = true
    · rw [if_pos hs] at h0 ⊢
      by_cases hp : p = o
      · subst hp; rw [if_pos rfl]; exact hk k v hc (by simp at hn; simpa using hn.1) hg h0
      · rw [if_neg hp]; exact h0
    · rw [if_neg hs] at h0; cases h0
  · rw [if_neg hn] at h0 ⊢; exact h0

/-- Nothing is cached under `k` that a write could make wrong. -/
def Uncached (E : Env) (o : Oid) (k : Key) (w : World) : Prop :=
  Bhv.cache ∈ (clsOf E w o).bhvs → (w.cached o).get? k = none

theorem Uncached.mute {o : Oid} {k : Key} {w w' : World} (hw : Fresh E w) (hm : Mute w w')
    (h : Uncached E o k w) : Uncached E o k w' := fun hc => by
  rw [hm.clsOf] at hc
  rw [hm.cached hw.wf]; exact h hc

theorem rel_setEnd (o : Oid) (k : Key) (v : Val) :
    CRelOn E (Uncached E o k) (setEnd E o k v) (setEnd E.uncached o k v) := by
  refine relOn_getW fun w0 => ?_
  rw [bhvsOf_uncached, contains_unc (by decide), any_unc rfl]
  refine relOn_ite (rel_raise _).on (relOn_ite ?_ (rel_raise _).on)
  intro w hw hp
  refine relAt_bind (rel_mute (eqv_storageRef E o) (mute_storageRef E o) w hw) fun r w1 hx hw1 => ?_
  have hp1 : Uncached E o k w1 := by
    have := mute_storageRef E o w; rw [hx] at this; exact hp.mute hw this
  refine ⟨rfl, hw1.setStore (storageRef_ok hx) (Od.nodup_keys_set (hw1.wf.sNd _) _ _) ?_⟩
  intro j u hc hj hu
  rw [Od.get?_set]
  split
  · rename_i e; subst e; rw [hp1 hc] at hj; cases hj
  · rw [← children_eq (storageRef_ok hx)]; exact hu

theorem rel_delEnd (o : Oid) (k : Key) :
    CRelOn E (Uncached E o k) (delEnd E o k) (delEnd E.uncached o k) := by
  refine relOn_getW fun w0 => ?_
  rw [bhvsOf_uncached, contains_unc (by decide), any_unc rfl]
  refine relOn_ite (rel_raise _).on (relOn_ite ?_ (rel_raise _).on)
  intro w hw hp
  refine relAt_bind (rel_mute (eqv_storageRef E o) (mute_storageRef E o) w hw) fun r w1 hx hw1 => ?_
  have hp1 : Uncached E o k w1 := by
    have := mute_storageRef E o w; rw [hx] at this; exact hp.mute hw this
  show CRelAt E (if (w1.stores r).has k then _ else _) (if (w1.stores r).has k then _ else _) w1
  by_cases hh : (w1.stores r).has k = true
  · rw [if_pos hh]
    refine ⟨rfl, hw1.setStore (storageRef_ok hx) (Od.nodup_keys_del (hw1.wf.sNd _) _) ?_⟩
    intro j u hc hj hu
    rw [Od.get?_del (hw1.wf.sNd _)]
    split
    · rename_i e; subst e; rw [hp1 hc] at hj; cases hj
    · rw [← children_eq (storageRef_ok hx)]; exact hu
  · rw [if_neg hh]; exact ⟨rfl, hw1⟩

/-- The same for the nodespaces: with `Nodespaces` below the cache only. -/
def UncachedNs (E : Env) (o : Oid) (k : Key) (w : World) : Prop :=
  Bhv.cache ∈ (clsOf E w o).bhvs → (belowCache (clsOf E w o).bhvs).contains .nodespaces = true →
    (w.cached o).get? k = none

theorem UncachedNs.mute {o : Oid} {k : Key} {w w' : World} (hw : Fresh E w) (hm : Mute w w')
    (h : UncachedNs E o k w) : UncachedNs E o k w' := fun hc => by
  rw [hm.clsOf] at hc ⊢
  rw [hm.cached hw.wf]; exact h hc

theorem rel_nsPut (o : Oid) (k : Key) (v : Val) :
    CRelOn E (UncachedNs E o k) (nsPut o k v) (nsPut o k v) := by
  intro w hw hp
  refine relAt_bind (rel_mute (eqv_nodespacesRef o) (mute_nodespacesRef o) w hw) fun r w1 hx hw1 => ?_
  have hp1 : UncachedNs E o k w1 := by
    have := mute_nodespacesRef o w; rw [hx] at this; exact hp.mute hw this
  refine ⟨rfl, hw1.setNspace (nodespacesRef_ok hx) (Od.nodup_keys_set (hw1.wf.nNd _) _ _) ?_⟩
  intro j u hc hn hj hu
  rw [Od.get?_set]
  split
  · rename_i e; subst e; rw [hp1 hc hn] at hj; cases hj
  · rw [← nsview_eq (nodespacesRef_ok hx)]; exact hu

theorem rel_nsDrop (o : Oid) (k : Key) :
    CRelOn E (UncachedNs E o k) (nsDrop o k) (nsDrop o k) := by
  intro w hw hp
  refine relAt_bind (rel_mute (eqv_nodespacesRef o) (mute_nodespacesRef o) w hw) fun r w1 hx hw1 => ?_
  have hp1 : UncachedNs E o k w1 := by
    have := mute_nodespacesRef o w; rw [hx] at this; exact hp.mute hw this
  show CRelAt E (if (w1.nspaces r).has k then _ else _) (if (w1.nspaces r).has k then _ else _) w1
  by_cases hh : (w1.nspaces r).has k = true
  · rw [if_pos hh]
    refine ⟨rfl, hw1.setNspace (nodespacesRef_ok hx) (Od.nodup_keys_del (hw1.wf.nNd _) _) ?_⟩
    intro j u hc hn hj hu
    rw [Od.get?_del (hw1.wf.nNd _)]
    split
    · rename_i e; subst e; rw [hp1 hc hn] at hj; cases hj
    · rw [← nsview_eq (nodespacesRef_ok hx)]; exact hu
  · rw [if_neg hh]; exact ⟨rfl, hw1⟩

/-! ### The cache itself -/

theorem uncache_cacheRef (o : Oid) (w : World) : (cacheRef o w).2.uncache = w.uncache := by
  unfold cacheRef
  cases hs : (w.objs o).cache with
  | some r => rfl
  | none =>
    simp only [World.uncache, uncache_upd]
    have : upd (fun p => { w.objs p with cache := none }) o { w.objs o with cache := none } =
        fun p => ({ w.objs p with cache := none } : Obj) := by
      funext p
      unfold upd
      split
      · rename_i e; rw [e]
      · rfl
    rw [this]

theorem uncache_setCache (w : World) (r : Ref) (d : Od Key Val) :
    ({ w with caches := upd w.caches r d } : World).uncache = w.uncache := rfl

/-- Replacing the cache of `o` by something a read would find. -/
theorem Fresh.setCache {w : World} (h : Fresh E w) {o r : Nat} (hr : (w.objs o).cache = some r)
    {d : Od Key Val} (hd : d.keys.Nodup) (hk : ∀ k v, d.get? k = some v → w.found E o k = some v) :
    Fresh E { w with caches := upd w.caches r d } := by
  refine ⟨h.wf.setCache r hd, fun p k v hc hg => ?_⟩
  show w.found E p k = some v
  rw [cached_setCache h.wf hr] at hg
  by_cases hp : p = o
  · subst hp; rw [if_pos rfl] at hg; exact hk k v hg
  · rw [if_neg hp] at hg; exact h.coh p k v hc hg

/-- Dropping a cached value: nothing but the cache is touched and the key is free. -/
theorem cacheDrop_runs (o : Oid) (k : Key) {w : World} (hw : Fresh E w)
    (hc : Bhv.cache ∈ (clsOf E w o).bhvs) :
    ∃ w', cacheDrop o k w = (.ok (), w') ∧ w'.uncache = w.uncache ∧ Fresh E w' ∧ Uncached E o k w' ∧
      (∀ p, (w'.objs p).cls = (w.objs p).cls) ∧ w'.nobj = w.nobj := by
  obtain ⟨r, w1, hx⟩ := cacheRef_isOk o w
  have hm := mute_cacheRef o w
  have hu := uncache_cacheRef o w
  rw [hx] at hm hu
  have h1 := hm.fresh (E := E) hw
  have hr := cacheRef_ok hx
  refine ⟨{ w1 with caches := upd w1.caches r ((w1.caches r).del k) }, ?_, hu, ?_, ?_, hm.cls, hm.nobj⟩
  · simp only [cacheDrop, M.bind_apply, hx, M.modifyW_apply]
  · refine h1.setCache hr (Od.nodup_keys_del (h1.wf.cNd _) _) fun j v hj => ?_
    rw [Od.get?_del (h1.wf.cNd _)] at hj
    split at hj
    · cases hj
    · refine h1.coh o j v ?_ ?_
      · rw [hm.clsOf]; exact hc
      · rw [cached_eq hr]; exact hj
  · intro _
    rw [cached_setCache h1.wf hr, if_pos rfl, Od.get?_del (h1.wf.cNd _), if_pos rfl]

end

end Verif
