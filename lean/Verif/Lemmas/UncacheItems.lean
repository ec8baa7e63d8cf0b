import Verif.Lemmas.UncachePipe

/-! `__setitem__`, `__getitem__`, constructors and `__delitem__` with and without caches. -/

namespace Verif

section
variable {E : Env}

/-- On the way down the pipeline of `o`, with `l` still to come: either the cache is still to come or
nothing is cached under the key. -/
structure OnWay (E : Env) (o : Oid) (l : List Bhv) (k : Key) (w : World) : Prop where
  suffix : ∃ pre, (clsOf E w o).bhvs = pre ++ l
  free : Bhv.cache ∉ l → Uncached E o k w

theorem OnWay.start (o : Oid) (k : Key) (w : World) : OnWay E o (clsOf E w o).bhvs k w :=
  ⟨⟨[], rfl⟩, fun h hc => absurd hc h⟩

theorem OnWay.tail {o : Oid} {b : Bhv} {l : List Bhv} {k : Key} {w : World} (hb : b ≠ .cache)
    (h : OnWay E o (b :: l) k w) : OnWay E o l k w := by
  obtain ⟨⟨pre, hp⟩, hf⟩ := h
  refine ⟨⟨pre ++ [b], by rw [hp]; simp⟩, fun hc => hf fun hm => ?_⟩
  rcases List.mem_cons.mp hm with e | e
  · exact hb e.symm
  · exact hc e

theorem OnWay.mute {o : Oid} {l : List Bhv} {k : Key} {w w' : World} (hw : Fresh E w) (hm : Mute w w')
    (h : OnWay E o l k w) : OnWay E o l k w' := by
  obtain ⟨hp, hf⟩ := h
  exact ⟨by rw [hm.clsOf]; exact hp, fun hc => (hf hc).mute hw hm⟩

/-- Below a behavior that is not settled any key will do. -/
theorem OnWay.skip (hE : ∀ c, CacheSafe (E.cls c)) {o : Oid} {b : Bhv} {l : List Bhv} {w : World}
    (hb : b ≠ .cache) (hs : b.settled = false) (h : ∃ pre, (clsOf E w o).bhvs = pre ++ b :: l) (k : Key) :
    OnWay E o l k w := by
  obtain ⟨pre, hp⟩ := h
  refine ⟨⟨pre ++ [b], by rw [hp]; simp⟩, fun hc hm => ?_⟩
  exact absurd ((hE _).left hp hs hm hb) hc

theorem OnWay.ns (hE : ∀ c, CacheSafe (E.cls c)) {o : Oid} {l : List Bhv} {k : Key} {w : World}
    (h : OnWay E o (.nodespaces :: l) k w) : UncachedNs E o k w := by
  obtain ⟨⟨pre, hp⟩, hf⟩ := h
  intro hm hn
  by_cases hc : Bhv.cache ∈ l
  · exact absurd (List.contains_iff_mem.mp hn) ((hE _).apart hp hc)
  · exact hf (fun h => (List.mem_cons.mp h).elim (fun e => nomatch e) hc) hm

variable {o : Oid} {P : World → Prop} {α β : Type}

/-- A step nobody can see, then the rest. -/
theorem relOn_mute {m m' : M α} {f f' : α → M β} (he : Eqv m m') (hm : Pres Mute m)
    (hk : ∀ w w', Fresh E w → Mute w w' → P w → P w') (hf : ∀ a, CRelOn E P (f a) (f' a)) :
    CRelOn E P (m >>= f) (m' >>= f') :=
  relOn_bind (rel_mute he hm).on (fun w hw hp => hk _ _ hw (hm w) hp) hf

theorem relOn_getO {c : Oid} {f f' : Obj → M β} (hf : ∀ ob, CRelOn E P (f ob) (f' { ob with cache := none })) :
    CRelOn E P (getO c >>= f) (getO c >>= f') := fun w hw hp => hf (w.objs c) w hw hp

theorem CRelOn.weaken {Q : World → Prop} {m m' : M α} (h : CRelOn E P m m') (hq : ∀ w, Q w → P w) :
    CRelOn E Q m m' := fun w hw hp => h w hw (hq w hp)

/-! ### Assignment -/

theorem rel_setPipe (hE : ∀ c, CacheSafe (E.cls c)) (v : Val) (l : List Bhv) (k : Key) :
    CRelOn E (OnWay E o l k) (setPipe E l o k v) (setPipe E.uncached (unc l) o k v) := by
  induction l generalizing k with
  | nil => exact (rel_setEnd o k v).weaken fun w h => h.free nofun
  | cons b r ih =>
    by_cases hb : b = .cache
    · subst hb
      rw [unc_cache]
      intro w hw hp
      obtain ⟨pre, hpre⟩ := hp.suffix
      obtain ⟨w1, h1, h2, h3, h4, h5, -⟩ := cacheDrop_runs (E := E) o k hw (by rw [hpre]; simp)
      have h6 := ih k w1 h3 ⟨⟨pre ++ [.cache], by
        have : clsOf E w1 o = clsOf E w o := congrArg E.cls (h5 o)
        rw [this, hpre]; simp⟩, fun _ => h4⟩
      have e : setPipe E (.cache :: r) o k v w = setPipe E r o k v w1 := by
        simp only [setPipe, M.bind_apply, h1]
      unfold CRelAt at h6 ⊢
      rw [e, ← h2]; exact h6
    · rw [unc_cons hb]
      have next : ∀ {Q : World → Prop}, (∀ w, Q w → OnWay E o (b :: r) k w) →
          CRelOn E Q (setPipe E r o k v) (setPipe E.uncached (unc r) o k v) := fun hq =>
        (ih k).weaken fun w h => (hq w h).tail hb
      have keep : ∀ w w', Fresh E w → Mute w w' → OnWay E o (b :: r) k w → OnWay E o (b :: r) k w' :=
        fun w w' hw hm h => h.mute hw hm
      cases b
      case cache => exact absurd rfl hb
      case nodeChildValidate =>
        refine relOn_getW fun w => ?_
        exact relOn_ite (rel_raise _).on (relOn_ite (rel_raise _).on (next fun _ h => h))
      case nodespaces =>
        have put : ∀ s, k = .str s → CRelOn E (OnWay E o (.nodespaces :: r) k) (nsPut o k v) (nsPut o k v) :=
          fun _ _ => (rel_nsPut o k v).weaken fun w h => h.ns hE
        show CRelOn E _ (nodespacesSet _ o k v) (nodespacesSet _ o k v)
        cases k with
        | str s =>
          unfold nodespacesSet
          dsimp only
          refine relOn_ite ?_ (next fun _ h => h)
          cases v with
          | node c =>
            exact relOn_mute (eqv_modO c fun _ => rfl) (mute_name c _) keep fun _ =>
              relOn_mute (eqv_modO c fun _ => rfl) (mute_parent c _) keep fun _ => put s rfl
          | data d => cases d <;> first | exact (rel_raise _).on | exact put s rfl
        | _ => exact (rel_raise _).on
      case adopt =>
        show CRelOn E _ (adoptSet _ o k v) (adoptSet _ o k v)
        cases v with
        | data d => exact next fun _ h => h
        | node c =>
          refine relOn_getO fun old => ?_
          refine relOn_mute (eqv_modO c fun _ => rfl) (mute_name c _) keep fun _ => ?_
          refine relOn_mute (eqv_modO c fun _ => rfl) (mute_parent c _) keep fun _ => ?_
          refine relOn_catch (next fun _ h => h) fun e => ?_
          exact rel_bind (rel_mute (eqv_modO c fun _ => rfl) (mute_name c _)) fun _ =>
            rel_bind (rel_mute (eqv_modO c fun _ => rfl) (mute_parent c _)) fun _ => rel_raise e
      case reference =>
        show CRelOn E _ (referenceSet E _ o k v) (referenceSet E.uncached _ o k v)
        cases v with
        | data d => exact next fun _ h => h
        | node c =>
          exact relOn_mute (eqv_referenceCheck E o c) (mute_referenceCheck E o c) keep fun _ =>
            relOn_mute (eqv_referenceMerge o c) (mute_of_hidden (hidden_referenceMerge o c)) keep fun _ =>
              next fun _ h => h
      case lifecycle =>
        exact relOn_then (next fun _ h => h) fun _ => rel_getO fun ob =>
          rel_ite (rel_pure _) (rel_hidden (eqv_notify _) (hidden_notify _))
      case attributesLifecycle =>
        exact relOn_then (next fun _ h => h) fun _ => rel_mute (eqv_notifyModified E o) (mute_notifyModified E o)
      case alias =>
        refine fun w hw hp => relAt_bind (rel_mute (eqv_unaliasKey E o k)
          (pres_of_id mute_pre (unaliasKey_id E o k)) w hw) fun u w1 hx hw1 => ?_
        have := unaliasKey_id E o k w
        rw [hx] at this
        dsimp only at this
        subst this
        exact relAt_catchIf (ih u w1 hw1 (OnWay.skip hE (by decide) rfl hp.suffix u)) fun e w' _ hw' =>
          rel_raise _ w' hw'
      all_goals exact next fun _ h => h

theorem rel_setitem (hE : ∀ c, CacheSafe (E.cls c)) (o : Oid) (k : Key) (v : Val) :
    CRel E (setitem E o k v) (setitem E.uncached o k v) := fun w hw =>
  rel_setPipe hE v (bhvsOf E w o) k w hw (OnWay.start o k w)

/-! ### Constructors -/

theorem fresh_alloc (c : ClassId) {w : World} (hw : Fresh E w) : Fresh E (alloc c w).2 := by
  refine ⟨(grow_alloc c w).wf hw.wf, fun p k v hc hg => ?_⟩
  by_cases hp : p = w.nobj
  · subst hp; simp [World.cached, alloc] at hg; cases hg
  · have e : (alloc c w).2.objs p = w.objs p := upd_other _ _ hp
    have h1 : clsOf E (alloc c w).2 p = clsOf E w p := by simp only [clsOf, e]
    have h2 : (alloc c w).2.cached p = w.cached p := by simp only [World.cached, e]; rfl
    have h3 : (alloc c w).2.children p = w.children p := by simp only [World.children, e]; rfl
    have h4 : (alloc c w).2.nsview p = w.nsview p := by simp only [World.nsview, e]; rfl
    rw [h1] at hc
    rw [h2] at hg
    have := hw.coh p k v hc hg
    unfold World.found at this ⊢
    rw [h1, h3, h4, e]; exact this

theorem rel_alloc (c : ClassId) : CRel E (alloc c) (alloc c) := fun w hw => ⟨eqv_alloc c w, fresh_alloc c hw⟩

/-- The node has no cache yet, and still has none. -/
def BlankR (o : Oid) (w w' : World) : Prop := (w.objs o).cache = none → (w'.objs o).cache = none

theorem blank_pre {o : Oid} : PreR (BlankR o) := ⟨fun _ h => h, fun h h' x => h' (h x)⟩

theorem blank_modO {o : Oid} (p : Oid) (f : Obj → Obj) (hc : ∀ b, (f b).cache = b.cache) :
    Pres (BlankR o) (modO p f) := fun w h => by
  rw [← h]; exact proj_upd Obj.cache w.objs p _ (hc _) o

theorem blank_modO' {o p : Oid} {f : Obj → Obj} (w : World) (h : (w.objs o).cache = none)
    (hc : ∀ b, (f b).cache = b.cache := by intro; rfl) : (((modO p f w).2).objs o).cache = none :=
  blank_modO p f hc w h

theorem blank_alloc {o : Oid} (c : ClassId) : Pres (BlankR o) (alloc c) := fun w h => by
  simp only [alloc, upd]
  split
  · rfl
  · exact h

theorem blank_setUuidRef {o : Oid} (p : Oid) (u : Option Nat) : Pres (BlankR o) (setUuidRef p u) := by
  refine pres_bind blank_pre (pres_of_id blank_pre (indexRef_id p)) fun i => ?_
  refine pres_bind blank_pre (pres_getW blank_pre) fun w => ?_
  refine pres_ite blank_pre (pres_raise blank_pre _) ?_
  exact pres_bind blank_pre (fun _ h => h) fun _ => blank_modO p _ fun _ => rfl

theorem blank_referenceInit {o : Oid} (p : Oid) : Pres (BlankR o) (referenceInit p) := by
  refine pres_bind blank_pre (fun w h => ?_) fun _ => pres_bind blank_pre (fun _ h => h) fun u =>
    blank_setUuidRef p (some u)
  rw [← h]; exact proj_upd Obj.cache w.objs p _ (by rfl) o

theorem blank_fixedLoop {o : Oid} {mk : ClassId → M Oid} (hmk : ∀ d, Pres (BlankR o) (mk d)) (p : Oid)
    (l : List (Key × ClassId)) : Pres (BlankR o) (initPipe.loop mk p l) := by
  induction l with
  | nil => exact pres_pure blank_pre _
  | cons a t ih =>
    obtain ⟨k, d⟩ := a
    exact pres_bind blank_pre (hmk d) fun child => pres_bind blank_pre (blank_modO _ _ fun _ => rfl) fun _ =>
      pres_bind blank_pre (blank_modO _ _ fun _ => rfl) fun _ =>
      pres_bind blank_pre (blank_modO _ _ fun _ => rfl) fun _ => ih

theorem blank_initPipe {o : Oid} {mk : ClassId → M Oid} (hmk : ∀ d, Pres (BlankR o) (mk d))
    (all l : List Bhv) (p : Oid) (name : Key) (parent : Option Oid) :
    Pres (BlankR o) (initPipe E mk all l p name parent) := by
  induction l with
  | nil =>
    unfold initPipe
    exact pres_ite blank_pre (pres_bind blank_pre (blank_modO _ _ fun _ => rfl) fun _ =>
      blank_modO _ _ fun _ => rfl) (pres_pure blank_pre _)
  | cons b r ih =>
    cases b
    case reference => exact pres_bind blank_pre (blank_referenceInit p) fun _ => ih
    case lifecycle => exact pres_bind blank_pre ih fun _ => fun _ h => h
    case uuidAware =>
      exact pres_bind blank_pre ih fun _ => pres_bind blank_pre (fun _ h => h) fun u =>
        pres_ite blank_pre (blank_setUuidRef p (some u)) (blank_modO _ _ fun _ => rfl)
    case fixedChildren =>
      exact pres_bind blank_pre ih fun _ => pres_bind blank_pre (blank_modO _ _ fun _ => rfl) fun _ =>
        pres_bind blank_pre (pres_getW blank_pre) fun w => blank_fixedLoop hmk p _
    all_goals exact ih

theorem blank_newNodeN {o : Oid} (n : Nat) (c : ClassId) (name : Key) (parent : Option Oid) :
    Pres (BlankR o) (newNodeN E n c name parent) := by
  induction n generalizing c name parent with
  | zero => exact pres_raise blank_pre _
  | succ n ih =>
    exact pres_bind blank_pre (blank_alloc c) fun p =>
      pres_bind blank_pre (blank_initPipe (fun d => ih d .none none) _ _ p name parent) fun _ => pres_pure blank_pre _

/-- Writing the fixed children of a node without a cache. -/
theorem rel_fixed (o : Oid) (f : Od Key Val → Od Key Val) :
    CRelOn E (fun w => (w.objs o).cache = none) (modO o fun ob => { ob with fixed := f ob.fixed })
      (modO o fun ob => { ob with fixed := f ob.fixed }) := fun w hw hp => by
  refine ⟨eqv_modO o (fun _ => rfl) w, hw.wf.modO o (fun ob => { ob with fixed := f ob.fixed }) rfl rfl rfl
    fun r hr => hw.wf.iLt (o := o) hr, fun p k v hc hg => ?_⟩
  have hcl : clsOf E (modO o (fun ob => { ob with fixed := f ob.fixed }) w).2 p = clsOf E w p :=
    congrArg E.cls (proj_upd Obj.cls w.objs o _ (by rfl) p)
  have hca : (modO o (fun ob => { ob with fixed := f ob.fixed }) w).2.cached p = w.cached p :=
    cached_modO o (fun ob => { ob with fixed := f ob.fixed }) rfl p
  rw [hcl] at hc
  rw [hca] at hg
  by_cases he : p = o
  · subst he
    unfold World.cached at hg
    rw [hp] at hg
    cases hg
  · have h1 := hw.coh p k v hc hg
    have h2 : (modO o (fun ob => { ob with fixed := f ob.fixed }) w).2.objs p = w.objs p := upd_other _ _ he
    unfold World.found at h1 ⊢
    have h3 : (modO o (fun ob => { ob with fixed := f ob.fixed }) w).2.nsview p = w.nsview p :=
      nsview_modO o (fun ob => { ob with fixed := f ob.fixed }) rfl p
    have h4 : (modO o (fun ob => { ob with fixed := f ob.fixed }) w).2.children p = w.children p :=
      children_modO o (fun ob => { ob with fixed := f ob.fixed }) rfl p
    rw [hcl, h2, h3, h4]
    exact h1

theorem rel_name (c : Oid) (k : Key) :
    CRel E (modO c fun ob => { ob with name := k }) (modO c fun ob => { ob with name := k }) :=
  rel_mute (eqv_modO c fun _ => rfl) (mute_name c k)

theorem rel_parent (c : Oid) (p : Option Oid) :
    CRel E (modO c fun ob => { ob with parent := p }) (modO c fun ob => { ob with parent := p }) :=
  rel_mute (eqv_modO c fun _ => rfl) (mute_parent c p)

theorem rel_fixedLoop {mk mk' : ClassId → M Oid} (h : ∀ c, CRel E (mk c) (mk' c)) (o : Oid)
    (hb : ∀ c, Pres (BlankR o) (mk c)) (l : List (Key × ClassId)) :
    CRelOn E (fun w => (w.objs o).cache = none) (initPipe.loop mk o l) (initPipe.loop mk' o l) := by
  induction l with
  | nil => exact (rel_pure _).on
  | cons a t ih =>
    obtain ⟨k, c⟩ := a
    refine relOn_bind (h c).on (fun w _ hp => hb c w hp) fun child => ?_
    refine relOn_bind (rel_name _ _).on (fun w _ hp => blank_modO' w hp) fun _ => ?_
    refine relOn_bind (rel_parent _ _).on (fun w _ hp => blank_modO' w hp) fun _ => ?_
    exact relOn_bind (rel_fixed o fun d => d.set k (.node child))
      (fun w _ hp => blank_modO' w hp) fun _ => ih

theorem rel_initPipe {mk mk' : ClassId → M Oid} (h : ∀ c, CRel E (mk c) (mk' c)) (o : Oid)
    (hbl : ∀ c, Pres (BlankR o) (mk c)) (all l : List Bhv) (name : Key) (parent : Option Oid) :
    CRelOn E (fun w => (w.objs o).cache = none) (initPipe E mk all l o name parent)
      (initPipe E.uncached mk' (unc all) (unc l) o name parent) := by
  induction l with
  | nil =>
    unfold initPipe unc
    show CRelOn E _ _ (if (unc all).contains .defaultInit then _ else _)
    rw [contains_unc (by decide)]
    exact (rel_ite (rel_bind (rel_name _ _) fun _ => rel_parent _ _) (rel_pure _)).on
  | cons b r ih =>
    by_cases hb : b = .cache
    · subst hb; rw [unc_cache]; exact ih
    · rw [unc_cons hb]
      cases b
      case cache => exact absurd rfl hb
      case reference =>
        exact relOn_bind (rel_hidden (eqv_referenceInit o) (hidden_referenceInit o)).on
          (fun w _ hp => blank_referenceInit o w hp) fun _ => ih
      case lifecycle => exact relOn_then ih fun _ => rel_hidden (eqv_notify _) (hidden_notify _)
      case uuidAware =>
        refine relOn_then ih fun _ => rel_bind (rel_hidden eqv_freshUuid hidden_freshUuid) fun u => ?_
        rw [contains_unc (by decide)]
        exact rel_ite (rel_hidden (eqv_setUuidRef o _) (hidden_setUuidRef o _))
          (rel_mute (eqv_modO _ fun _ => rfl) (mute_modO o _ (fun _ => rfl) (fun _ => rfl) (fun _ => rfl)
            (fun _ => rfl) (fun _ => rfl) (fun _ => rfl)))
      case fixedChildren =>
        refine relOn_bind ih (fun w _ hp => blank_initPipe hbl _ _ o name parent w hp) fun _ => ?_
        refine relOn_bind (rel_fixed o fun _ => []) (fun w _ hp => blank_modO' w hp) fun _ => ?_
        exact relOn_getW fun w => rel_fixedLoop h o hbl _
      all_goals exact ih

theorem rel_newNodeN (n : Nat) (c : ClassId) (name : Key) (parent : Option Oid) :
    CRel E (newNodeN E n c name parent) (newNodeN E.uncached n c name parent) := by
  induction n generalizing c name parent with
  | zero => exact rel_raise _
  | succ n ih =>
    intro w hw
    refine relAt_bind (rel_alloc c w hw) fun o w1 hx hw1 => ?_
    have ho : (w1.objs o).cache = none := by
      injection hx with h1 h2
      injection h1 with h1
      subst h1; subst h2
      simp only [upd_same]
    refine relAt_bind (rel_initPipe (fun c' => ih c' .none none) o (fun c' => blank_newNodeN n c' .none none)
      _ _ name parent w1 hw1 ho) fun _ w2 _ hw2 => rel_pure _ w2 hw2

theorem rel_newNode (c : ClassId) (name : Key) (parent : Option Oid) :
    CRel E (newNode E c name parent) (newNode E.uncached c name parent) := by
  unfold newNode
  have : (E.uncached.cls c).takesArgs = (E.cls c).takesArgs := by
    unfold ClassDef.takesArgs
    rw [bhvs_uncached, contains_unc (by decide), contains_unc (by decide)]
  rw [this]
  exact rel_ite (rel_newNodeN _ c name parent) (rel_raise _)

/-! ### Reading -/

/-- On the way down the pipeline of `o` for a read: a factory below the cache is not handed a key that
`Nodespaces` to the left of the cache takes. -/
structure OnRead (E : Env) (o : Oid) (l : List Bhv) (k : Key) (w : World) : Prop where
  suffix : ∃ pre, (clsOf E w o).bhvs = pre ++ l ∧
    (Bhv.childFactory ∈ belowCache (clsOf E w o).bhvs → Bhv.nodespaces ∈ pre → reservedKey k = false)

theorem OnRead.start (o : Oid) (k : Key) (w : World) : OnRead E o (clsOf E w o).bhvs k w :=
  ⟨⟨[], rfl, fun _ h => nomatch h⟩⟩

theorem OnRead.tail {o : Oid} {b : Bhv} {l : List Bhv} {k : Key} {w : World} (h : OnRead E o (b :: l) k w)
    (hb : b = .nodespaces → reservedKey k = false) : OnRead E o l k w := by
  obtain ⟨pre, hp, hk⟩ := h.suffix
  refine ⟨⟨pre ++ [b], by rw [hp]; simp, fun hf hm => ?_⟩⟩
  rcases List.mem_append.mp hm with hm | hm
  · exact hk hf hm
  · exact hb (List.mem_singleton.mp hm).symm

theorem OnRead.mute {o : Oid} {l : List Bhv} {k : Key} {w w' : World} (hm : Mute w w')
    (h : OnRead E o l k w) : OnRead E o l k w' := by
  obtain ⟨h⟩ := h
  exact ⟨by rw [hm.clsOf]; exact h⟩

theorem rel_getPipe (hE : ∀ c, CacheSafe (E.cls c)) {fb fb' : Oid → Key → Exc → M Val}
    (hfb : ∀ o k e, CRel E (fb o k e) (fb' o k e)) (l : List Bhv) (k : Key) :
    CRelOn E (OnRead E o l k) (getPipe E fb l o k) (getPipe E.uncached fb' (unc l) o k) := by
  induction l generalizing k with
  | nil => exact (rel_mute (eqv_getEnd E o k) (mute_getEnd E o k)).on
  | cons b r ih =>
    by_cases hb : b = .cache
    · subst hb
      rw [unc_cache]
      intro w hw hp
      obtain ⟨pre, hpre, hk⟩ := hp.suffix
      have ht : belowCache (clsOf E w o).bhvs = r := (hE (w.objs o).cls).tail hpre
      have hs : ∀ b ∈ r, b.settled = true := fun b hm =>
        (hE (w.objs o).cls).below b (by rw [← ht] at hm; exact hm)
      have hc : Bhv.cache ∈ (clsOf E w o).bhvs := by rw [hpre]; simp
      show CRelAt E (cacheGet (getPipe E fb r o) o k) _ w
      refine rel_cacheGet hw hc k (fun w1 hm hw1 => ?_) (fun w1 v hm hv => ?_) (fun w1 w2 v hm hw1 hx hcl => ?_)
        fun r' c => whose_getPipe E fb hs o k
      · exact ih k w1 hw1 ((hp.mute hm).tail fun e => nomatch e)
      · refine getPipe_found fb hv hs (fun b hb => ?_) fun e => ?_
        · rw [hm.clsOf, ht]; exact hb
        · rw [hm.clsOf, ht, Bool.and_eq_true] at e
          exact List.contains_iff_mem.mp e.1
      · refine getPipe_ok hE fb hw1.wf (hcl.trans (hm.clsOf o).symm) hs
          (fun b hb => by rw [hm.clsOf, ht]; exact hb) (fun e => ?_) (fun hf e => ?_) hx
        · rw [hm.clsOf, ht, Bool.and_eq_true] at e
          exact List.contains_iff_mem.mp e.1
        · rw [hm.clsOf] at hf e ⊢
          rw [Bool.and_eq_true] at e
          have hmem := List.contains_iff_mem.mp e.1
          rw [hpre] at hmem
          rcases List.mem_append.mp hmem with h | h
          · have := hk hf h
            rw [e.2] at this; cases this
          · rw [ht]
            exact (List.mem_cons.mp h).resolve_left fun e => nomatch e
    · rw [unc_cons hb]
      have next : ∀ k, (b = .nodespaces → reservedKey k = false) →
          CRelOn E (OnRead E o (b :: r) k) (getPipe E fb r o k) (getPipe E.uncached fb' (unc r) o k) :=
        fun k hk => (ih k).weaken fun w h => h.tail hk
      cases b
      case cache => exact absurd rfl hb
      case nodespaces =>
        show CRelOn E _ (nodespacesGet _ o k) (nodespacesGet _ o k)
        cases k with
        | str s =>
          show CRelOn E _ (if reserved s = true then _ else _) (if reserved s = true then _ else _)
          by_cases hs : reserved s = true
          · rw [if_pos hs, if_pos hs]
            exact (rel_bind (rel_mute (eqv_nodespacesRef o) (mute_nodespacesRef o)) fun _ =>
              rel_getW fun _ => rel_ofExcept _).on
          · rw [if_neg hs, if_neg hs]
            have hs' : reserved s = false := by simpa using hs
            exact next _ fun _ => hs'
        | _ => exact next _ fun _ => rfl
      case fallback => exact relOn_catch (next k fun e => nomatch e) fun e => hfb o k e
      case alias =>
        refine fun w hw hp => relAt_bind (rel_mute (eqv_unaliasKey E o k)
          (pres_of_id mute_pre (unaliasKey_id E o k)) w hw) fun u w1 hx hw1 => ?_
        have := unaliasKey_id E o k w
        rw [hx] at this
        dsimp only at this
        subst this
        obtain ⟨pre, hpre, hk⟩ := hp.suffix
        have hp' : OnRead E o r u w1 := ⟨⟨pre ++ [.alias], by rw [hpre]; simp, fun hf _ =>
          absurd (show Bhv.alias ∈ (clsOf E w1 o).bhvs by rw [hpre]; simp) ((hE (w1.objs o).cls).noAlias hf)⟩⟩
        exact relAt_catchIf (ih u w1 hw1 hp') fun e w' _ hw' => rel_raise _ w' hw'
      case childFactory =>
        refine relOn_catch (next k fun e => nomatch e) fun e => rel_getW fun w => ?_
        show CRel E _ (match (clsOf E w o).factories.get? k with
          | none => _
          | some c => _)
        cases (clsOf E w o).factories.get? k with
        | none => exact rel_raise _
        | some c =>
          exact rel_bind (rel_newNode c .none none) fun child =>
            rel_bind (rel_setitem hE o k (.node child)) fun _ => rel_pure _
      all_goals exact next k fun e => nomatch e

theorem Fresh.setFb {w : World} (h : Fresh E w) (f : Option Int) : Fresh E { w with fb := f } :=
  ⟨h.wf.setFb f, h.coh⟩

theorem rel_fbGuard {body body' : Int → M α} (h : ∀ n, CRel E (body n) (body' n)) :
    CRel E (fbGuard body) (fbGuard body') := by
  intro w hw
  unfold CRelAt fbGuard
  show (match w.fb with
    | none => _
    | some n => _) = _ ∧ _
  cases w.fb with
  | none => exact ⟨rfl, hw⟩
  | some n =>
    dsimp only
    obtain ⟨h1, h2⟩ := h (n + 1) { w with fb := some (n + 1) } (hw.setFb _)
    have e : ({ w.uncache with fb := some (n + 1) } : World) = ({ w with fb := some (n + 1) } : World).uncache := rfl
    rw [e, h1]
    exact ⟨rfl, h2.setFb _⟩

theorem rel_getitem0 (hE : ∀ c, CacheSafe (E.cls c)) (o : Oid) (k : Key) :
    CRel E (getitem0 E o k) (getitem0 E.uncached o k) := fun w hw =>
  rel_getPipe hE (fun _ _ e => rel_fbGuard fun n => rel_ite (rel_raise e) (rel_raise .unmodelled))
    (bhvsOf E w o) k w hw (OnRead.start o k w)

theorem rel_path (o : Oid) : CRel E (path o) (path o) :=
  rel_mute (eqv_path o) (pres_of_id mute_pre fun w => by unfold path; split <;> rfl)

theorem rel_fbChild (hE : ∀ c, CacheSafe (E.cls c)) (cur : Val) (name : Key) :
    CRel E (fbChild E cur name) (fbChild E.uncached cur name) := by
  cases cur with
  | node c => exact rel_catchIf (rel_bind (rel_getitem0 hE c name) fun _ => rel_pure _) fun _ => rel_pure _
  | data d => cases d <;> exact rel_raise _

theorem rel_fbWalk (hE : ∀ c, CacheSafe (E.cls c)) (p : List Key) (cur : Val) :
    CRel E (fbWalk E p cur) (fbWalk E.uncached p cur) := by
  induction p generalizing cur with
  | nil => exact rel_pure _
  | cons name rest ih =>
    refine rel_bind (rel_fbChild hE cur name) fun nxt => ?_
    cases nxt with
    | some v => exact ih v
    | none =>
      cases cur with
      | node c => exact rel_pure _
      | data d => exact rel_raise _

theorem asksChildren_uncached (w : World) (o : Oid) :
    asksChildren E.uncached w.uncache o = asksChildren E w o := by
  unfold asksChildren
  rw [bhvsOf_uncached, contains_unc (by decide), contains_unc (by decide)]
  rfl

theorem rel_toRoot (hE : ∀ c, CacheSafe (E.cls c)) (n : Nat) (node : Oid) (p : List Key) (visited : List Oid) :
    CRel E (toRoot E n node p visited) (toRoot E.uncached n node p visited) := by
  induction n generalizing node visited with
  | zero => exact rel_raise _
  | succ n ih =>
    refine rel_getW fun w => ?_
    show CRel E _ (match (w.objs node).parent with
      | none => _
      | some parent => _)
    cases (w.objs node).parent with
    | none => exact rel_pure _
    | some parent =>
      dsimp only
      show CRel E _ (match activeFallback E w parent with
        | none => _
        | some fk => _)
      cases activeFallback E w parent with
      | none =>
        dsimp only
        rw [asksChildren_uncached]
        exact rel_ite (rel_bind (rel_getitem0 hE parent _) fun _ => rel_raise _) (ih _ _)
      | some fk =>
        dsimp only
        refine rel_ite (ih _ _) (rel_bind (rel_getitem0 hE parent fk) fun start => ?_)
        cases start with
        | data d => exact rel_raise _
        | node s =>
          refine rel_bind (rel_path s) fun sp => rel_bind (rel_fbWalk hE _ _) fun res => ?_
          cases res with
          | inl v => exact rel_pure _
          | inr c => exact ih _ _

theorem rel_fbHandler (hE : ∀ c, CacheSafe (E.cls c)) (o : Oid) (k : Key) (e : Exc) :
    CRel E (fbHandler E o k e) (fbHandler E.uncached o k e) := by
  refine rel_fbGuard fun n => rel_ite (rel_raise e) (rel_bind (rel_path o) fun p => rel_getW fun w => ?_)
  refine rel_bind (rel_toRoot hE _ o _ _) fun v => ?_
  cases v with
  | some v => exact rel_pure _
  | none => exact rel_raise e

theorem rel_getitem (hE : ∀ c, CacheSafe (E.cls c)) (o : Oid) (k : Key) :
    CRel E (getitem E o k) (getitem E.uncached o k) := fun w hw =>
  rel_getPipe hE (rel_fbHandler hE) (bhvsOf E w o) k w hw (OnRead.start o k w)

/-! ### Deletion -/

theorem rel_iter (o : Oid) : CRel E (iter E o) (iter E.uncached o) := rel_mute (eqv_iter E o) (mute_iter E o)

theorem rel_toDelete (hE : ∀ c, CacheSafe (E.cls c)) (n : Nat) (o : Oid) :
    CRel E (toDelete E n o) (toDelete E.uncached n o) := by
  induction n generalizing o with
  | zero => exact rel_raise _
  | succ n ih =>
    have loop : ∀ ks, CRel E (toDeleteLoop E (toDelete E n) o ks)
        (toDeleteLoop E.uncached (toDelete E.uncached n) o ks) := by
      intro ks
      induction ks with
      | nil => exact rel_pure _
      | cons k r ihk =>
        refine rel_bind (rel_catchIf (rel_bind (rel_getitem hE o k) fun v => ?_) fun _ => rel_pure _) fun _ =>
          rel_bind ihk fun _ => rel_pure _
        cases v with
        | data d => exact rel_raise _
        | node c =>
          refine rel_getW fun w => ?_
          rw [bhvsOf_uncached, contains_unc (by decide)]
          exact rel_ite (ih c) (rel_raise _)
    refine rel_getO fun ob => ?_
    show CRel E _ (match ob.uuid with
      | none => _
      | some u => _)
    cases ob.uuid with
    | none => exact rel_raise _
    | some u =>
      refine rel_bind (rel_iter o) fun it => rel_bind (loop it.1) fun below => ?_
      cases it.2 with
      | none => exact rel_pure _
      | some e => exact rel_raise _

theorem rel_referenceUnindex (hE : ∀ c, CacheSafe (E.cls c)) (o : Oid) (v : Val) :
    CRel E (referenceUnindex E o v) (referenceUnindex E.uncached o v) := by
  cases v with
  | data d => exact rel_pure _
  | node c =>
    refine rel_getW fun w => ?_
    rw [bhvsOf_uncached, contains_unc (by decide)]
    exact rel_ite (rel_bind (rel_toDelete hE _ c) fun us =>
      rel_hidden (eqv_indexDelete o us) (hidden_indexDelete o us)) (rel_pure _)

/-- The class of an existing object stays. -/
theorem grown_suffix {o : Oid} {l : List Bhv} {w w' : World} (hg : Grow w w') (ho : o < w.nobj)
    (h : ∃ pre, (clsOf E w o).bhvs = pre ++ l) : ∃ pre, (clsOf E w' o).bhvs = pre ++ l := by
  have : clsOf E w' o = clsOf E w o := congrArg E.cls (hg.cls o ho)
  rw [this]; exact h

theorem grow_referenceUnindex (E : Env) (o : Oid) (v : Val) : Pres Grow (referenceUnindex E o v) :=
  (grow_delPrims E o).toDelPrims0.unindexed v

theorem rel_delPipe (hE : ∀ c, CacheSafe (E.cls c)) (l : List Bhv) (k : Key) :
    CRelOn E (fun w => o < w.nobj ∧ OnWay E o l k w) (delPipe E l o k) (delPipe E.uncached (unc l) o k) := by
  induction l generalizing k with
  | nil => exact (rel_delEnd o k).weaken fun w h => h.2.free nofun
  | cons b r ih =>
    by_cases hb : b = .cache
    · subst hb
      rw [unc_cache]
      intro w hw hp
      obtain ⟨pre, hpre⟩ := hp.2.suffix
      obtain ⟨w1, h1, h2, h3, h4, h5, h7⟩ := cacheDrop_runs (E := E) o k hw (by rw [hpre]; simp)
      have h6 := ih k w1 h3 ⟨by rw [h7]; exact hp.1, ⟨pre ++ [.cache], by
        have : clsOf E w1 o = clsOf E w o := congrArg E.cls (h5 o)
        rw [this, hpre]; simp⟩, fun _ => h4⟩
      have e : delPipe E (.cache :: r) o k w = delPipe E r o k w1 := by
        simp only [delPipe, M.bind_apply, h1]
      unfold CRelAt at h6 ⊢
      rw [e, ← h2]; exact h6
    · rw [unc_cons hb]
      have next : CRelOn E (fun w => o < w.nobj ∧ OnWay E o (b :: r) k w) (delPipe E r o k)
          (delPipe E.uncached (unc r) o k) := (ih k).weaken fun w h => ⟨h.1, h.2.tail hb⟩
      cases b
      case cache => exact absurd rfl hb
      case nodespaces =>
        show CRelOn E _ (nodespacesDel _ o k) (nodespacesDel _ o k)
        cases k with
        | str s => exact relOn_ite ((rel_nsDrop o _).weaken fun w h => h.2.ns hE) next
        | _ => exact (rel_raise _).on
      case reference =>
        intro w hw hp
        refine relAt_bind (rel_getitem hE o k w hw) fun v w1 hx hw1 => ?_
        have g1 := grow_getitem E o k w
        rw [hx] at g1
        refine relAt_bind (rel_referenceUnindex hE o v w1 hw1) fun _ w2 hy hw2 => ?_
        have g2 := grow_referenceUnindex E o v w1
        rw [hy] at g2
        have g := grow_pre.trans g1 g2
        exact ih k w2 hw2 ⟨Nat.lt_of_lt_of_le hp.1 g.nobj,
          OnWay.skip hE (by decide) rfl (grown_suffix g hp.1 hp.2.suffix) k⟩
      case lifecycle =>
        intro w hw hp
        refine relAt_bind (rel_getitem hE o k w hw) fun v w1 hx hw1 => ?_
        have g := grow_getitem E o k w
        rw [hx] at g
        refine relAt_bind (ih k w1 hw1 ⟨Nat.lt_of_lt_of_le hp.1 g.nobj,
          OnWay.skip hE (by decide) rfl (grown_suffix g hp.1 hp.2.suffix) k⟩) fun _ w2 _ hw2 => ?_
        exact rel_getO (f := fun ob => if ob.suppress then pure () else notify (.removed v o k))
          (fun ob => rel_ite (rel_pure _) (rel_hidden (eqv_notify _) (hidden_notify _))) w2 hw2
      case attributesLifecycle =>
        exact relOn_then next fun _ => rel_mute (eqv_notifyModified E o) (mute_notifyModified E o)
      case alias =>
        refine fun w hw hp => relAt_bind (rel_mute (eqv_unaliasKey E o k)
          (pres_of_id mute_pre (unaliasKey_id E o k)) w hw) fun u w1 hx hw1 => ?_
        have := unaliasKey_id E o k w
        rw [hx] at this
        dsimp only at this
        subst this
        exact relAt_catchIf (ih u w1 hw1 ⟨hp.1, OnWay.skip hE (by decide) rfl hp.2.suffix u⟩)
          fun e w' _ hw' => rel_raise _ w' hw'
      all_goals exact next

theorem rel_delitem (hE : ∀ c, CacheSafe (E.cls c)) (o : Oid) (k : Key) :
    CRelOn E (fun w => o < w.nobj) (delitem E o k) (delitem E.uncached o k) := fun w hw ho =>
  rel_delPipe hE (bhvsOf E w o) k w hw ⟨ho, OnWay.start o k w⟩

end

end Verif
