import Verif.Lemmas.FullMappingRun
import Verif.Lemmas.UncacheApi

/-!
# The operations the tests are made of, with `Cache`

They do what they do without `Cache`.  A copy shares the cache of the original, if that was created
already.
-/

namespace Verif.FullMapping

variable {E : Env} {c : ClassId} {nc : Bool} {o : Oid}

/-! ### Reading a shared storage through a shared cache -/

/-- The heap after `p` has read `v` under `k`. -/
def noted (p : Oid) (k : Key) (v : Val) (w : World) : World :=
  match (w.objs p).cache with
  | some r => match (w.caches r).get? k with
    | some _ => w
    | none => { w with caches := upd w.caches r ((w.caches r).set k v) }
  | none =>
    { w with
      objs := upd w.objs p { w.objs p with cache := some w.ncache }
      caches := upd w.caches w.ncache [(k, v)]
      ncache := w.ncache + 1 }

theorem upd_upd {α : Type} (f : Nat → α) (a : Nat) (x y : α) : upd (upd f a x) a y = upd f a y := by
  funext q
  by_cases e : q = a
  · subst e; simp
  · simp [upd_other _ _ e]

theorem cacheGet_noted {next : Key → M Val} {p : Oid} {k : Key} {v : Val} {w : World}
    (hn : ∀ w', w'.stores = w.stores → (w'.objs p).storage = (w.objs p).storage → (w'.objs p).cls = (w.objs p).cls →
      next k w' = (.ok v, w'))
    (hc : ∀ u, (w.cached p).get? k = some u → u = v) : cacheGet next p k w = (.ok v, noted p k v w) := by
  unfold cacheGet noted
  unfold World.cached at hc
  cases hr : (w.objs p).cache with
  | some r =>
    rw [hr] at hc
    dsimp only at hc ⊢
    have : cacheRef p w = (.ok r, w) := by simp only [cacheRef, hr]
    rw [M.bind_apply, this]
    show (M.getW >>= _) w = _
    rw [M.bind_apply, M.getW_apply]
    dsimp only
    cases hg : (w.caches r).get? k with
    | some u => rw [hc u hg]; rfl
    | none =>
      dsimp only
      rw [M.bind_apply, hn w rfl rfl rfl]
      simp only [M.bind_apply, M.modifyW_apply, M.getW_apply, M.ofExcept_apply, upd_same]
      rw [show lookup ((w.caches r).set k v) k = .ok v by simp [lookup, Od.get?_set]]
  | none =>
    dsimp only
    have : cacheRef p w = (.ok w.ncache, { w with
        objs := upd w.objs p { w.objs p with cache := some w.ncache }
        caches := upd w.caches w.ncache []
        ncache := w.ncache + 1 }) := by simp only [cacheRef, hr]
    rw [M.bind_apply, this]
    generalize hw1 : ({ w with
        objs := upd w.objs p { w.objs p with cache := some w.ncache }
        caches := upd w.caches w.ncache []
        ncache := w.ncache + 1 } : World) = w1
    have h1 : w1.caches w.ncache = [] := by rw [← hw1]; simp
    show (M.getW >>= _) w1 = _
    rw [M.bind_apply, M.getW_apply]
    dsimp only
    rw [h1]
    show ((next k) >>= _) w1 = _
    rw [M.bind_apply, hn w1 (by rw [← hw1]) (by rw [← hw1]; simp) (by rw [← hw1]; simp)]
    simp only [M.bind_apply, M.modifyW_apply, M.getW_apply, M.ofExcept_apply, upd_same]
    rw [h1]
    rw [show lookup (Od.set [] k v) k = .ok v by simp [lookup, Od.get?_set]]
    rw [← hw1]
    simp only [upd_upd]
    rfl

/-- An existing storage is read through a cache that agrees with it, however many nodes share them. -/
theorem getPipe_sharedCache (fb : Oid → Key → Exc → M Val) {bs : List Bhv}
    (hb : ∀ b ∈ bs, b ∉ [Bhv.alias, .childFactory, .fallback]) (hnd : bs.Nodup) (hca : Bhv.cache ∈ bs)
    {p : Oid} {k : Key} (hk : Ordinary k) {w : World} {r : Ref} {v : Val} (hs : Stores (clsOf E w p))
    (hr : (w.objs p).storage = some r) (hl : lookup (w.stores r) k = .ok v)
    (hc : ∀ u, (w.cached p).get? k = some u → u = v) : getPipe E fb bs p k w = (.ok v, noted p k v w) := by
  induction bs with
  | nil => cases hca
  | cons b t ih =>
    have ih' := ih (fun x h => hb x (List.mem_cons_of_mem _ h)) (List.nodup_cons.mp hnd).2
    have hbp := hb b List.mem_cons_self
    have step : b ≠ .cache → Bhv.cache ∈ t := fun h => (List.mem_cons.mp hca).resolve_left fun e => h e.symm
    cases b
    case cache =>
      have hnt : Bhv.cache ∉ t := (List.nodup_cons.mp hnd).1
      show cacheGet (getPipe E fb t p) p k w = _
      refine cacheGet_noted (fun w' h1 h2 h3 => ?_) hc
      have := getPipe_shared (E := E) fb (bs := t) (w := w') (p := p) (r := r) (fun b hm => ?_) hk
        (by rw [show clsOf E w' p = clsOf E w p from congrArg E.cls h3]; exact hs) (h2.trans hr)
      · rw [this, h1, hl]
      · have := hb b (List.mem_cons_of_mem _ hm)
        simp only [List.mem_cons, List.not_mem_nil, or_false, not_or] at this ⊢
        exact ⟨this.1, fun e => hnt (e ▸ hm), this.2.1, this.2.2⟩
    case nodespaces =>
      obtain ⟨s, rfl, hs⟩ := hk
      simp only [getPipe, nodespacesGet, not_reserved hs, Bool.false_eq_true, if_false]
      exact ih' (step (by decide))
    case alias => exact absurd (by decide) hbp
    case childFactory => exact absurd (by decide) hbp
    case fallback => exact absurd (by decide) hbp
    all_goals exact ih' (step (by decide))

/-! ### `test_copy` -/

/-- The heap in which `test_copy` compares the copy with the original. -/
def duplicated (nc : Bool) (o : Oid) (w : World) : World :=
  let w1 := moved nc o (.str "nametopcopy".toList) (some (w.nobj + 1)) w
  { w1 with objs := upd w1.objs w.nobj (w1.objs o), nobj := w.nobj + 1 }

/-- What is left of it, when the heap of the comparison is `w4`. -/
def restored (nc : Bool) (o : Oid) (w w4 : World) : World :=
  { w4 with objs := upd (moved nc o (w.objs o).name (w.objs o).parent w4).objs w.nobj {}, nobj := w.nobj }

theorem testCopy_reads {w w3 w4 : World} {v : Val} (ho : o < w.nobj) (hn : Bhv.nodify ∈ (Verif.clsOf E w o).bhvs)
    (hu : Bhv.uuidAware ∉ (Verif.clsOf E w o).bhvs) (hg : Bhv.getattrChildren ∉ (Verif.clsOf E w o).bhvs)
    (h3 : getitem E w.nobj foo (duplicated nc o w) = (.ok v, w3)) (h4 : getitem E o foo w3 = (.ok v, w4))
    (hl : w4.loc w.nobj = w4.loc o) : testCopy E nc o w = (.ok (), restored nc o w w4) := by
  have hne : w.nobj ≠ o := Nat.ne_of_gt ho
  generalize hw1 : moved nc o (.str "nametopcopy".toList) (some (w.nobj + 1)) w = w1
  have o1 : (w1.objs o).cls = (w.objs o).cls := by subst hw1; cases nc <;> simp [moved]
  have n1 : w1.nobj = w.nobj := by subst hw1; rfl
  have c1 : Verif.clsOf E w1 o = Verif.clsOf E w o := congrArg E.cls o1
  have hd : duplicated nc o w = { w1 with objs := upd w1.objs w.nobj (w1.objs o), nobj := w.nobj + 1 } := by
    unfold duplicated; rw [hw1]
  obtain ⟨n, w2, hcp⟩ : ∃ n w2, copyNode E o w1 = (.ok n, w2) := by
    have hnod : (bhvsOf E w1 o).contains .nodify = true := by
      have : Bhv.nodify ∈ (Verif.clsOf E w1 o).bhvs := by rw [c1]; exact hn
      exact List.contains_iff_mem.mpr this
    simp only [copyNode, hnod, if_true]
    refine copyPipe_runs ?_ ?_
    · show _ ∉ (Verif.clsOf E w1 o).bhvs
      rw [c1]; exact hu
    · show _ ∉ (Verif.clsOf E w1 o).bhvs
      rw [c1]; exact hg
  obtain ⟨rfl, hw2⟩ := copyNode_ok (n1 ▸ ho) hcp
  rw [n1] at hw2 hcp
  rw [← hd] at hw2
  subst hw2
  have hname : (w4.objs w.nobj).name = (w4.objs o).name := congrArg Prod.fst hl
  have hpar : (w4.objs w.nobj).parent = (w4.objs o).parent := congrArg Prod.snd hl
  have hcmp : compareCopy E nc o w.nobj (duplicated nc o w) = (.ok (), w4) := by
    simp only [compareCopy, M.bind_apply, failIf, h3, h4, hne, decide_false, Bool.false_eq_true, if_false,
      M.pure_apply, ne_eq, not_true_eq_false]
    cases nc with
    | false => rfl
    | true =>
      simp only [if_true, M.bind_apply, getO_apply, hname, hpar, not_true_eq_false, decide_false, Bool.false_eq_true,
        if_false, M.pure_apply]
  unfold testCopy
  rw [M.bind_apply, getO_apply]
  show (M.getW >>= _) w = _
  rw [M.bind_apply, M.getW_apply]
  show ((relocate _ _ _ _) >>= _) w = _
  rw [M.bind_apply, relocate_eq]
  rw [show moved nc o (.str "nametopcopy".toList) (some (w.nobj + 1)) w = w1 from hw1]
  show ((copyNode E o) >>= _) w1 = _
  rw [M.bind_apply, hcp]
  show ((compareCopy E nc o w.nobj) >>= _) (duplicated nc o w) = _
  rw [M.bind_apply, hcmp]
  show ((relocate _ _ _ _) >>= _) w4 = _
  rw [M.bind_apply, relocate_eq]
  rfl

/-- A cache nobody has. -/
def withSpare (w : World) (d : Od Key Val) : World := { w with caches := upd w.caches w.ncache d, ncache := w.ncache + 1 }

theorem fresh_spare {w : World} (h : Fresh E w) {d : Od Key Val} (hd : d.keys.Nodup) : Fresh E (withSpare w d) := by
  refine ⟨⟨h.wf.s, ⟨fun hr => Nat.lt_succ_of_lt (h.wf.c.lt hr), h.wf.c.inj⟩, h.wf.n, h.wf.iLt, h.wf.sNd, fun r => ?_, h.wf.nNd,
    h.wf.iNd⟩, fun p k v hb hv => h.coh p k v hb ?_⟩
  · show (upd w.caches w.ncache d r).keys.Nodup
    by_cases e : r = w.ncache
    · subst e; rw [upd_same]; exact hd
    · rw [upd_other _ _ e]; exact h.wf.cNd r
  · have : (withSpare w d).cached p = w.cached p := by
      unfold World.cached withSpare
      dsimp only
      cases hr : (w.objs p).cache with
      | none => rfl
      | some r => exact upd_other _ _ (Nat.ne_of_lt (h.wf.c.lt hr))
    rwa [this] at hv

/-- The newest object released. -/
def released (w : World) : World := { w with objs := upd w.objs w.nobj {} }

theorem fresh_released {w : World} (h : Fresh E w) : Fresh E (released w) := by
  have href : ∀ {f : Obj → Option Ref} {n : Nat}, f {} = none → RefsOK (fun p => f (w.objs p)) n →
      RefsOK (fun p => f (upd w.objs w.nobj {} p)) n := by
    intro f n h0 hf
    have key : ∀ {p r}, f (upd w.objs w.nobj {} p) = some r → f (w.objs p) = some r := by
      intro p r hp
      by_cases e : p = w.nobj
      · subst e; rw [upd_same, h0] at hp; cases hp
      · rwa [upd_other _ _ e] at hp
    exact ⟨fun hp => hf.lt (key hp), fun hp hq => hf.inj (key hp) (key hq)⟩
  refine ⟨⟨href rfl h.wf.s, href rfl h.wf.c, href rfl h.wf.n, fun {p r} hp => ?_, h.wf.sNd, h.wf.cNd, h.wf.nNd, h.wf.iNd⟩,
    fun p k v hb hv => ?_⟩
  · have hp : (upd w.objs w.nobj {} p).index = some r := hp
    by_cases e : p = w.nobj
    · subst e; rw [upd_same] at hp; cases hp
    · rw [upd_other _ _ e] at hp; exact h.wf.iLt hp
  · by_cases e : p = w.nobj
    · subst e
      have : (released w).cached w.nobj = [] := by simp [World.cached, released]
      rw [this] at hv; cases hv
    · have ho : (released w).objs p = w.objs p := upd_other _ _ e
      have hc : clsOf E (released w) p = clsOf E w p := by simp only [clsOf, ho]
      have h1 : (released w).cached p = w.cached p := by simp only [World.cached, ho]; rfl
      have h2 : (released w).found E p k = w.found E p k := by
        simp only [World.found, hc, ho, World.nsview, World.children]; rfl
      rw [h2]
      exact h.coh p k v (hc ▸ hb) (h1 ▸ hv)

theorem restored_eq {w w4 : World} {cc : Option Ref}
    (ho : w4.objs o = { (duplicated nc o w).objs o with cache := cc }) (hlt : o < w.nobj)
    (hq : ∀ q, q ≠ o → q ≠ w.nobj → w4.objs q = w.objs q)
    (hr : { w4 with objs := w.objs, nobj := w.nobj, caches := w.caches, ncache := w.ncache } = w) :
    restored nc o w w4 =
      released { w with objs := upd w.objs o { w.objs o with cache := cc }, caches := w4.caches, ncache := w4.ncache } := by
  have hne : o ≠ w.nobj := Nat.ne_of_lt hlt
  have hobjs : upd (moved nc o (w.objs o).name (w.objs o).parent w4).objs w.nobj {} =
      upd (upd w.objs o { w.objs o with cache := cc }) w.nobj {} := by
    funext p
    by_cases e1 : p = w.nobj
    · rw [e1, upd_same, upd_same]
    · rw [upd_other _ _ e1, upd_other _ _ e1]
      by_cases e2 : p = o
      · subst e2
        simp only [moved, upd_same, ho, duplicated, upd_other _ _ hne]
        cases nc <;> simp
      · simp only [moved, upd_other _ _ e2, hq p e2 e1]
  unfold restored released
  rw [hobjs]
  have h1 := congrArg World.stores hr
  have h2 := congrArg World.nstore hr
  have h3 := congrArg World.nspaces hr
  have h4 := congrArg World.nnspace hr
  have h5 := congrArg World.idxs hr
  have h6 := congrArg World.nidx hr
  have h7 := congrArg World.nuuid hr
  have h8 := congrArg World.log hr
  have h9 := congrArg World.fb hr
  dsimp only at h1 h2 h3 h4 h5 h6 h7 h8 h9
  rw [h1, h2, h3, h4, h5, h6, h7, h8, h9]

theorem noted_uncache (p : Oid) (k : Key) (v : Val) (w : World) : (noted p k v w).uncache = w.uncache := by
  unfold noted
  split
  · split <;> rfl
  · unfold World.uncache
    congr 1
    funext q
    by_cases e : q = p
    · subst e; simp only [upd_same]
    · simp only [upd_other _ _ e]

theorem released_uncache (w : World) : (released w).uncache = released w.uncache := by
  unfold released World.uncache
  congr 1
  funext q
  by_cases e : q = w.nobj
  · subst e; simp only [upd_same]
  · simp only [upd_other _ _ e]

/-- A `test_copy` of a node with and without `Cache`. -/
theorem testCopy_cached {w w0 : World} {F : List Oid} {x z : Oid} (hE : ∀ c, CacheSafe (E.cls c)) (hw : Fresh E w)
    (h : Holds E.uncached c nc w0 o [(foo, x), (baz, z)] F w.uncache)
    (hc : TestClass (Verif.clsOf E.uncached w0 o) nc) (ho : o < w0.nobj) :
    ∃ w', testCopy E nc o w = (.ok (), w') ∧ Fresh E w' ∧ w'.uncache = released w.uncache := by
  have hon : o < w.nobj := Nat.lt_of_lt_of_le ho h.nobj
  have hne : o ≠ w.nobj := Nat.ne_of_lt hon
  have hcls : (Verif.clsOf E w o).uncached = Verif.clsOf E.uncached w0 o := h.theCls ho
  have hin : ∀ b, b ≠ .cache → (b ∈ (Verif.clsOf E w o).bhvs ↔ b ∈ (Verif.clsOf E.uncached w0 o).bhvs) := fun b hb => by
    rw [← hcls]; simp [ClassDef.uncached, hb]
  have hch : w.children o = kids [(foo, x), (baz, z)] := h.children
  obtain ⟨r, hr, hst⟩ : ∃ r, (w.objs o).storage = some r ∧ w.stores r = kids [(foo, x), (baz, z)] := by
    unfold World.children at hch
    cases hs : (w.objs o).storage with
    | none => rw [hs] at hch; cases hch
    | some r => rw [hs] at hch; exact ⟨r, rfl, hch⟩
  have hl : lookup (w.stores r) foo = .ok (.node x) := by rw [hst]; rfl
  have hstores : Stores (Verif.clsOf E w o) := by
    obtain ⟨⟨b, h1, h2⟩, h3⟩ := hc.concrete.stores
    rw [← hcls] at h1 h3
    exact ⟨⟨b, (storageKind_unc _).symm.trans h1, h2⟩, fun hm => h3 ((by simp [ClassDef.uncached]; exact hm))⟩
  have hbs : ∀ b ∈ (Verif.clsOf E w o).bhvs, b ∉ [Bhv.alias, .childFactory, .fallback] := fun b hm => by
    simp only [List.mem_cons, List.not_mem_nil, or_false, not_or]
    refine ⟨fun e => ?_, fun e => ?_, fun e => ?_⟩ <;> subst e
    · exact hc.concrete.noAlias ((hin _ (by decide)).mp hm)
    · exact hc.concrete.noFactory ((hin _ (by decide)).mp hm)
    · exact hc.noFallback ((hin _ (by decide)).mp hm)
  have hfound : ∀ u, (w.cached o).get? foo = some u → Bhv.cache ∈ (Verif.clsOf E w o).bhvs → u = .node x := fun u hu hb => by
    have := hw.coh o foo u hb hu
    unfold World.found at this
    rw [if_neg (by simp [show reservedKey foo = false from by decide]), if_neg (by simpa using hstores.2)] at this
    split at this
    · rw [hch, kids_get] at this
      exact (Option.some.inj this).symm
    · cases this
  have hD : ∀ q, q ≠ o → q ≠ w.nobj → (duplicated nc o w).objs q = w.objs q := fun q h1 h2 => by
    simp only [duplicated, moved, upd_other _ _ h1, upd_other _ _ h2]
  have hDn : (duplicated nc o w).objs w.nobj = (duplicated nc o w).objs o := by
    simp only [duplicated, upd_same, upd_other _ _ hne]
  have hDo : ((duplicated nc o w).objs o).cls = (w.objs o).cls ∧ ((duplicated nc o w).objs o).storage = (w.objs o).storage ∧
      ((duplicated nc o w).objs o).cache = (w.objs o).cache := by
    simp only [duplicated, moved, upd_other _ _ hne, upd_same]
    cases nc <;> exact ⟨rfl, rfl, rfl⟩
  have hnodify := (hin .nodify (by decide)).mpr hc.nodify
  have hnuuid : Bhv.uuidAware ∉ (Verif.clsOf E w o).bhvs := fun hm => hc.noUuid ((hin _ (by decide)).mp hm)
  have hngetattr : Bhv.getattrChildren ∉ (Verif.clsOf E w o).bhvs := fun hm => hc.noGetattr ((hin _ (by decide)).mp hm)
  have hself : upd w.objs o { w.objs o with cache := (w.objs o).cache } = w.objs := by
    funext q
    by_cases e : q = o
    · subst e; rw [upd_same]
    · rw [upd_other _ _ e]
  -- nothing but the copy was made
  have plain : ∀ w4 : World, w4 = duplicated nc o w → getitem E w.nobj foo (duplicated nc o w) = (.ok (.node x), w4) →
      getitem E o foo w4 = (.ok (.node x), w4) →
      ∃ w', testCopy E nc o w = (.ok (), w') ∧ Fresh E w' ∧ w'.uncache = released w.uncache := fun w4 e h3 h4 => by
    refine ⟨_, testCopy_reads hon hnodify hnuuid hngetattr h3 h4 ?_, ?_, ?_⟩
    · subst e; simp only [World.loc, hDn]
    all_goals
      rw [restored_eq (cc := (w.objs o).cache) (by subst e; rw [← hDo.2.2]) hon (by subst e; exact hD) (by subst e; rfl), hself]
      subst e
    · exact fresh_released hw
    · exact released_uncache w
  by_cases hca : Bhv.cache ∈ (Verif.clsOf E w o).bhvs
  · have rd : ∀ {p : Oid} {v : World}, (v.objs p).cls = (w.objs o).cls → (v.objs p).storage = (w.objs o).storage →
        v.stores = w.stores → (∀ u, (v.cached p).get? foo = some u → u = .node x) →
        getitem E p foo v = (.ok (.node x), noted p foo (.node x) v) := fun {p v} h1 h2 h3 h4 => by
      have hcl : Verif.clsOf E v p = Verif.clsOf E w o := congrArg E.cls h1
      have hbv : bhvsOf E v p = (Verif.clsOf E w o).bhvs := congrArg ClassDef.bhvs hcl
      refine getPipe_sharedCache (E := E) (fbHandler E) (by rw [hbv]; exact hbs) (by rw [hbv]; exact (hE _).once)
        (by rw [hbv]; exact hca) ord_foo (by rw [hcl]; exact hstores) (h2.trans hr) (by rw [h3]; exact hl) h4
    have rdo := rd (p := o) (v := w) rfl rfl rfl fun u hu => hfound u hu hca
    have dcache : ∀ p, p = o ∨ p = w.nobj → ((duplicated nc o w).objs p).cache = (w.objs o).cache := fun p hp => by
      rcases hp with rfl | rfl
      · exact hDo.2.2
      · rw [hDn]; exact hDo.2.2
    have dcached : ∀ p, p = o ∨ p = w.nobj → (duplicated nc o w).cached p = w.cached o := fun p hp => by
      unfold World.cached
      rw [dcache p hp]; rfl
    have rdn := rd (p := w.nobj) (v := duplicated nc o w) (by rw [hDn]; exact hDo.1) (by rw [hDn]; exact hDo.2.1) rfl
      fun u hu => by rw [dcached _ (.inr rfl)] at hu; exact hfound u hu hca
    have fresh : ∀ {v : World}, getitem E o foo v = (.ok (.node x), noted o foo (.node x) v) → Fresh E v →
        Fresh E (noted o foo (.node x) v) := fun {v} h1 h2 => by
      have := (rel_getitem hE o foo v h2).2
      rwa [h1] at this
    cases hcr : (w.objs o).cache with
    | some rc =>
      cases hg : (w.caches rc).get? foo with
      | some u =>
        have same : ∀ p, p = o ∨ p = w.nobj → noted p foo (.node x) (duplicated nc o w) = duplicated nc o w := fun p hp => by
          unfold noted
          rw [dcache p hp, hcr]
          dsimp only
          rw [show (duplicated nc o w).caches rc = w.caches rc from rfl, hg]
        rw [same _ (.inr rfl)] at rdn
        refine plain _ rfl rdn ?_
        have := rd (p := o) (v := duplicated nc o w) hDo.1 hDo.2.1 rfl
          fun u hu => by rw [dcached _ (.inl rfl)] at hu; exact hfound u hu hca
        rwa [same _ (.inl rfl)] at this
      | none =>
        have e3 : noted w.nobj foo (.node x) (duplicated nc o w) =
            { duplicated nc o w with caches := upd w.caches rc ((w.caches rc).set foo (.node x)) } := by
          unfold noted
          rw [dcache _ (.inr rfl), hcr]
          dsimp only
          rw [show (duplicated nc o w).caches rc = w.caches rc from rfl, hg]
          rfl
        have en : noted o foo (.node x) w = { w with caches := upd w.caches rc ((w.caches rc).set foo (.node x)) } := by
          unfold noted
          rw [hcr]
          dsimp only
          rw [hg]
        generalize hw3 : noted w.nobj foo (.node x) (duplicated nc o w) = w3 at rdn
        rw [e3] at hw3
        have o3 : w3.objs = (duplicated nc o w).objs := by rw [← hw3]
        have c3 : w3.caches rc = (w.caches rc).set foo (.node x) := by rw [← hw3]; simp
        have rdo3 := rd (p := o) (v := w3) (by rw [o3]; exact hDo.1) (by rw [o3]; exact hDo.2.1) (by rw [← hw3]; rfl)
          fun u hu => by
            unfold World.cached at hu
            rw [o3, dcache _ (.inl rfl), hcr] at hu
            dsimp only at hu
            rw [c3, Od.get?_set, if_pos rfl] at hu
            exact (Option.some.inj hu).symm
        have e4 : noted o foo (.node x) w3 = w3 := by
          unfold noted
          rw [o3, dcache _ (.inl rfl), hcr]
          dsimp only
          rw [c3, Od.get?_set, if_pos rfl]
        rw [e4] at rdo3
        refine ⟨_, testCopy_reads hon hnodify hnuuid hngetattr rdn rdo3 ?_, ?_, ?_⟩
        · simp only [World.loc, o3, hDn]
        all_goals
          rw [restored_eq (cc := (w.objs o).cache) (by rw [o3, ← hDo.2.2]) hon (by rw [o3]; exact hD) (by rw [← hw3]; rfl),
            hself, show w3.caches = upd w.caches rc ((w.caches rc).set foo (.node x)) by rw [← hw3],
            show w3.ncache = w.ncache by rw [← hw3]; rfl]
          rw [show ({ w with objs := w.objs, caches := upd w.caches rc ((w.caches rc).set foo (.node x)), ncache := w.ncache } : World) =
            noted o foo (.node x) w from en.symm]
        · exact fresh_released (fresh rdo hw)
        · rw [released_uncache, noted_uncache]
    | none =>
      generalize hv : withSpare w [(foo, .node x)] = v
      have hfv : Fresh E v := hv ▸ fresh_spare hw (by simp [Od.keys])
      have v1 : v.objs = w.objs := by rw [← hv]; rfl
      have rdv := rd (p := o) (v := v) (by rw [v1]) (by rw [v1]) (by rw [← hv]; rfl) fun u hu => by
        unfold World.cached at hu
        rw [v1, hcr] at hu; cases hu
      have e3 : noted w.nobj foo (.node x) (duplicated nc o w) =
          { duplicated nc o w with
            objs := upd (duplicated nc o w).objs w.nobj { (duplicated nc o w).objs w.nobj with cache := some w.ncache }
            caches := upd w.caches w.ncache [(foo, .node x)]
            ncache := w.ncache + 1 } := by
        unfold noted
        rw [dcache _ (.inr rfl), hcr]
        rfl
      generalize hw3 : noted w.nobj foo (.node x) (duplicated nc o w) = w3 at rdn
      rw [e3] at hw3
      have o3 : w3.objs o = (duplicated nc o w).objs o := by rw [← hw3]; exact upd_other _ _ hne
      have rdo3 := rd (p := o) (v := w3) (by rw [o3]; exact hDo.1) (by rw [o3]; exact hDo.2.1) (by rw [← hw3]; rfl)
        fun u hu => by
          unfold World.cached at hu
          rw [o3, dcache _ (.inl rfl), hcr] at hu; cases hu
      have e4 : noted o foo (.node x) w3 =
          { w3 with
            objs := upd w3.objs o { (duplicated nc o w).objs o with cache := some (w.ncache + 1) }
            caches := upd (upd w.caches w.ncache [(foo, .node x)]) (w.ncache + 1) [(foo, .node x)]
            ncache := w.ncache + 2 } := by
        unfold noted
        rw [o3, dcache _ (.inl rfl), hcr]
        dsimp only
        rw [← hw3]
      generalize hw4 : noted o foo (.node x) w3 = w4 at rdo3
      rw [e4] at hw4
      have en : noted o foo (.node x) v =
          { w with
            objs := upd w.objs o { w.objs o with cache := some (w.ncache + 1) }
            caches := upd (upd w.caches w.ncache [(foo, .node x)]) (w.ncache + 1) [(foo, .node x)]
            ncache := w.ncache + 2 } := by
        unfold noted
        rw [v1, hcr]
        dsimp only
        rw [← hv]; rfl
      refine ⟨_, testCopy_reads hon hnodify hnuuid hngetattr rdn rdo3 ?_, ?_, ?_⟩
      · have h1 : w4.objs o = { (duplicated nc o w).objs o with cache := some (w.ncache + 1) } := by
          rw [← hw4]; exact upd_same ..
        have h2 : w4.objs w.nobj = { (duplicated nc o w).objs o with cache := some w.ncache } := by
          rw [← hw4]
          refine (upd_other _ _ (Ne.symm hne)).trans ?_
          rw [← hw3]
          refine (upd_same ..).trans ?_
          rw [hDn]
        simp only [World.loc, h1, h2]
      all_goals
        rw [restored_eq (cc := some (w.ncache + 1)) (by rw [← hw4]; exact upd_same ..) hon
          (fun q h1 h2 => by
            rw [← hw4]
            refine (upd_other _ _ h1).trans ?_
            rw [← hw3]
            exact (upd_other _ _ h2).trans (hD q h1 h2))
          (by rw [← hw4, ← hw3]; rfl),
          show w4.caches = upd (upd w.caches w.ncache [(foo, .node x)]) (w.ncache + 1) [(foo, .node x)] by rw [← hw4],
          show w4.ncache = w.ncache + 2 by rw [← hw4], ← en]
      · exact fresh_released (fresh rdv hfv)
      · rw [released_uncache, noted_uncache, ← hv]; rfl
  · have rd : ∀ p, p = o ∨ p = w.nobj → getitem E p foo (duplicated nc o w) = (.ok (.node x), duplicated nc o w) := fun p hp => by
      have hobj : (duplicated nc o w).objs p = (duplicated nc o w).objs o := by
        rcases hp with rfl | rfl
        · rfl
        · exact hDn
      have hcl : Verif.clsOf E (duplicated nc o w) p = Verif.clsOf E w o := by
        show E.cls _ = E.cls _
        rw [hobj, hDo.1]
      have hbv : bhvsOf E (duplicated nc o w) p = (Verif.clsOf E w o).bhvs := congrArg ClassDef.bhvs hcl
      have := getPipe_shared (E := E) (fbHandler E) (bs := bhvsOf E (duplicated nc o w) p) (w := duplicated nc o w) (p := p) (r := r)
        (by
          rw [hbv]
          intro b hm
          have := hbs b hm
          simp only [List.mem_cons, List.not_mem_nil, or_false, not_or] at this ⊢
          exact ⟨this.1, fun e => hca (e ▸ hm), this.2.1, this.2.2⟩) ord_foo
        (by rw [hcl]; exact hstores) (by rw [hobj]; exact hDo.2.1.trans hr)
      refine Eq.trans this ?_
      rw [show (duplicated nc o w).stores = w.stores from rfl, hl]
    exact plain _ rfl (rd _ (.inr rfl)) (rd _ (.inl rfl))

/-! ### All operations -/

section
variable {α : Type} {m m' : M α} {v : α} {P Q : World → Prop}

theorem ret_cached (h : CRelOn E (fun w => P w.uncache) m m') (hr : Ret P m' v Q) :
    Ret (fun w => Fresh E w ∧ P w.uncache) m v (fun w => Fresh E w ∧ Q w.uncache) := fun w ⟨hw, hp⟩ => by
  obtain ⟨w', h1, h2⟩ := hr _ hp
  obtain ⟨h3, h4⟩ := h w hw hp
  rw [h3] at h1
  have h5 := (Prod.mk.inj h1).1
  refine ⟨(m w).2, Prod.ext h5 rfl, h4, ?_⟩
  rw [show (m w).2.uncache = w' from (Prod.mk.inj h1).2]; exact h2

theorem raises_cached {e : Exc} (h : CRelOn E (fun w => P w.uncache) m m') (hr : Raises P m' e Q) :
    Raises (fun w => Fresh E w ∧ P w.uncache) m e (fun w => Fresh E w ∧ Q w.uncache) := fun w ⟨hw, hp⟩ => by
  obtain ⟨w', h1, h2⟩ := hr _ hp
  obtain ⟨h3, h4⟩ := h w hw hp
  rw [h3] at h1
  have h5 := (Prod.mk.inj h1).1
  refine ⟨(m w).2, Prod.ext h5 rfl, h4, ?_⟩
  rw [show (m w).2.uncache = w' from (Prod.mk.inj h1).2]; exact h2

end

theorem accepts_uncached {d : ClassDef} {name : Key} {parent : Option Oid} :
    d.uncached.Accepts name parent ↔ d.Accepts name parent := by
  unfold ClassDef.Accepts
  simp [ClassDef.uncached, ClassDef.Located]

/-- What is known without caches is known with them. -/
theorem prims_cached {H : Od Key Oid → List Oid → World → Prop} {w0 : World} (hE : ∀ c, CacheSafe (E.cls c))
    (hp : Prims E.uncached c nc o H) (hh : ∀ {L F w}, H L F w → Holds E.uncached c nc w0 o L F w)
    (hr : ∀ {L F w}, H L F w → H L F (released w)) (hc : TestClass (Verif.clsOf E.uncached w0 o) nc) (ho : o < w0.nobj) :
    Prims E c nc o fun L F w => Fresh E w ∧ H L F w.uncache where
  get hk hx := ret_cached (rel_getitem hE o _).on (hp.get hk hx)
  miss hk hx := raises_cached (rel_getitem hE o _).on (hp.miss hk hx)
  keys := ret_cached (rel_mkeys o).on hp.keys
  values := ret_cached (rel_mvalues hE o).on hp.values
  items := ret_cached (rel_mitems hE o).on hp.items
  itemsFree hx := ret_cached (rel_mitems hE _).on (hp.itemsFree hx)
  set hk hl hx := ret_cached (rel_setitem hE o _ _).on (hp.set hk hl hx)
  del hk hl := ret_cached (fun w hw h => rel_delitem hE o _ w hw (Nat.lt_of_lt_of_le ho (hh h).nobj)) (hp.del hk hl)
  new name ha w hw := by
    obtain ⟨x, w', h1, h2⟩ := hp.new name (accepts_uncached.mpr ha) _ hw.2
    obtain ⟨h3, h4⟩ := rel_newNode c name none w hw.1
    rw [h3] at h1
    have h5 := (Prod.mk.inj h1).1
    refine ⟨x, (newNode E c name none w).2, Prod.ext h5 rfl, h4, ?_⟩
    rw [show (newNode E c name none w).2.uncache = w' from (Prod.mk.inj h1).2]; exact h2
  named {_ _ w _} h hn hx := hp.named (w := w.uncache) h.2 hn hx
  nodup h := hp.nodup h.2
  apart h hx hy := hp.apart h.2 hx hy
  copy w h := by
    obtain ⟨w', h1, h2, h3⟩ := testCopy_cached hE h.1 (hh h.2) hc ho
    exact ⟨w', h1, h2, h3 ▸ hr h.2⟩

theorem RefHolds.released {w0 w : World} {Rs0 : List Oid} {L : Od Key Oid} {F : List Oid}
    (h : RefHolds E c nc w0 o Rs0 L F w) (ho : o < w0.nobj) : RefHolds E c nc w0 o Rs0 L F (released w) := by
  obtain ⟨Rs, h1, h2⟩ := h.forest
  have hr := h.base.released ho
  have hlt := h.base.nobj
  refine ⟨hr, ⟨Rs, forest_released h1 hr.wf, h2⟩, fun p hp => ?_, fun p u hp hu => ?_⟩
  · show (upd w.objs w.nobj {} p).uuid = _
    rw [upd_other _ _ (by omega)]; exact h.uuid p hp
  · have hu : (upd w.objs w.nobj {} p).uuid = some u := hu
    by_cases e : p = w.nobj
    · rw [e, upd_same] at hu; cases hu
    · rw [upd_other _ _ e] at hu; exact h.drawn p u hp hu

end Verif.FullMapping
