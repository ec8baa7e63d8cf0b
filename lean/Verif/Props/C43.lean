import Verif.Lemmas.Fallback
import Verif.Props.C57
import Verif.Lemmas.AliasView

/-!
# C43 Local wins, C44 fallback lookups end and are justified, C45 the counter is balanced
-/

namespace Verif

variable {E : Env}

/-! ### C45 -/

/-- The counter of running searches is as before. -/
def FbEq (w w' : World) : Prop := w'.fb = w.fb

theorem fbEq_pre : PreR FbEq := ⟨fun _ => rfl, fun h h' => h'.trans h⟩

theorem fbEq_quiet {α : Type} {m : M α} (h : Pres QuietF m) : Pres FbEq m := fun w => (h w).2

theorem fbEq_setPrims (E : Env) (o : Oid) (v : Val) : SetPrims E FbEq o v where
  pre := fbEq_pre
  iter c _ := fbEq_quiet (iter_quietF E c)
  setEnd k := by
    refine pres_bind fbEq_pre (pres_getW fbEq_pre) fun w => ?_
    refine pres_ite fbEq_pre (pres_raise fbEq_pre _) (pres_ite fbEq_pre ?_ (pres_raise fbEq_pre _))
    exact pres_bind fbEq_pre (fbEq_quiet (storageRef_quietF E o)) fun r _ => rfl
  nsPut k := pres_bind fbEq_pre (fbEq_quiet (nodespacesRef_quietF o)) fun r _ => rfl
  name _ _ _ _ := rfl
  parent _ _ _ _ := rfl
  cacheDrop k := fbEq_quiet (cacheDrop_quietF o k)
  notify _ _ := rfl
  merge c _ := by
    refine pres_bind fbEq_pre (pres_of_id fbEq_pre (indexRef_id o)) fun si => ?_
    refine pres_bind fbEq_pre (pres_of_id fbEq_pre (indexRef_id c)) fun vi => ?_
    exact pres_bind fbEq_pre (fun _ => rfl) fun _ _ => rfl

/-- Well formed and the counter as before. -/
def FbKept (w w' : World) : Prop := WF w → WF w' ∧ w'.fb = w.fb

theorem fbKept_pre : PreR FbKept :=
  ⟨fun _ hw => ⟨hw, rfl⟩, fun h h' hw =>
    ⟨(h' (h hw).1).1, (h' (h hw).1).2.trans (h hw).2⟩⟩

theorem fbKept_of {α : Type} {m : M α} (h : Pres FixKept m) (h' : Pres FbEq m) : Pres FbKept m :=
  fun w hw => ⟨(h w hw).1, h' w⟩

theorem fbKept_api (E : Env) : ApiBase E FbKept where
  pre := fbKept_pre
  quiet _ _ h hw := ⟨(h.1 hw).1, h.2⟩
  fbGuard {α body} hb w hw := by
    unfold fbGuard
    split
    · exact ⟨hw, rfl⟩
    · rename_i n hn
      have h1 := hb (n + 1) { w with fb := some (n + 1) } (setFb_quiet w _ hw).1
      refine ⟨(setFb_quiet _ _ h1.1).1, ?_⟩
      show Option.map (· - 1) _ = _
      rw [h1.2, hn]
      show some (n + 1 - 1) = some n
      congr 1
      omega
  hidden _ _ h hw := ⟨h.wf hw, h.fb⟩
  setitem o k v := fbKept_of ((fixKept_api E).setitem o k v) ((fbEq_setPrims E o v).setitem k)
  delEnd o k := by
    refine fbKept_of ((fixKept_api E).delEnd o k) ?_
    refine pres_bind fbEq_pre (pres_getW fbEq_pre) fun w => ?_
    refine pres_ite fbEq_pre (pres_raise fbEq_pre _) (pres_ite fbEq_pre ?_ (pres_raise fbEq_pre _))
    exact pres_bind fbEq_pre (fbEq_quiet (storageRef_quietF E o)) fun r => pres_bind fbEq_pre
      (pres_getW fbEq_pre) fun w => pres_ite fbEq_pre (fun _ => rfl) (pres_raise fbEq_pre _)
  nsDrop o k := by
    refine fbKept_of ((fixKept_api E).nsDrop o k) ?_
    exact pres_bind fbEq_pre (fbEq_quiet (nodespacesRef_quietF o)) fun r => pres_bind fbEq_pre
      (pres_getW fbEq_pre) fun w => pres_ite fbEq_pre (fun _ => rfl) (pres_raise fbEq_pre _)
  attrsPut r a := fbKept_of ((fixKept_api E).attrsPut r a) fun _ => rfl
  insert b o ref new c := by
    refine fbKept_of ((fixKept_api E).insert b o ref new c) fun w => ?_
    have hq := (storageRef_quietF E o w).2
    simp only [FbEq, storageInsert, M.bind_apply, M.getW_apply]
    rcases hr : storageRef E o w with ⟨e | r, w1⟩
    · rw [hr] at hq; exact hq
    · rw [hr] at hq
      simp only
      repeat' split
      all_goals exact hq
  swap o a b := by
    refine fbKept_of ((fixKept_api E).swap o a b) fun w => ?_
    have hq := (storageRef_quietF E o w).2
    simp only [FbEq, swapNodes, M.bind_apply, M.getW_apply]
    rcases hr : storageRef E o w with ⟨e | r, w1⟩
    · rw [hr] at hq; exact hq
    · rw [hr] at hq
      simp only
      repeat' split
      all_goals exact hq
  volatile o k := by
    refine fbKept_of ((fixKept_api E).volatile o k) ?_
    refine pres_bind fbEq_pre (fbEq_quiet (storageRef_quietF E o)) fun r => ?_
    refine pres_ite fbEq_pre (fun _ => rfl) ?_
    refine pres_bind fbEq_pre (pres_bind fbEq_pre (fbEq_quiet (iter_quietF E o)) fun _ =>
      pres_bind fbEq_pre (pres_endIter fbEq_pre _) fun _ => pres_pure fbEq_pre _) fun ks => ?_
    exact pres_ite fbEq_pre (fun _ => rfl) (pres_raise fbEq_pre _)
  newNode c n p w hw := by
    obtain ⟨b1, -, b3, -⟩ := newNode_builds E c n p hw
    exact ⟨b1, b3.fb⟩

/-- C45: every operation, whatever its outcome, leaves the counter as it was; child
factories and every behavior included. -/
theorem c45_balanced {w : World} (hw : WF w) (op : Op) : (exec E op w).2.fb = w.fb :=
  ((fbKept_api E).exec op w hw).2

/-- C45: and so does every history. -/
theorem c45_history {w : World} (hw : WF w) (ops : List Op) : (execAll E ops w).2.fb = w.fb :=
  ((fbKept_api E).execAll ops w hw).2

/-- C45: between two operations no search is running, so the next lookup of a missing
key starts one. -/
theorem c45_reachable {w : World} (hr : Reachable E w) : w.fb = some (-1) := by
  obtain ⟨ops, rfl⟩ := hr
  exact c45_history WF.empty ops

/-! ### C43 -/

/-- A lookup that ends well without asking the handler does so with every handler. -/
theorem getPipe_handler {bs : List Bhv} (hb : ∀ b ∈ bs, b ≠ .alias ∧ b ≠ .cache ∧ b ≠ .childFactory)
    {o : Oid} {k : Key} {w w' : World} {v : Val}
    (h0 : getPipe E (fun _ _ _ => M.raise .unmodelled) bs o k w = (.ok v, w'))
    (h : Oid → Key → Exc → M Val) : getPipe E h bs o k w = (.ok v, w') := by
  induction bs with
  | nil => exact h0
  | cons b r ih =>
    have ih := ih fun b hx => hb b (List.mem_cons_of_mem _ hx)
    have hb := hb b List.mem_cons_self
    cases b
    case alias => exact absurd rfl hb.1
    case cache => exact absurd rfl hb.2.1
    case childFactory => exact absurd rfl hb.2.2
    case nodespaces =>
      cases k with
      | str s =>
        simp only [getPipe, nodespacesGet] at h0 ⊢
        split
        · rename_i hr
          simp only [hr, if_true] at h0
          exact h0
        · rename_i hr
          simp only [hr] at h0
          exact ih h0
      | _ => exact ih h0
    case fallback =>
      simp only [getPipe, M.catchIf_apply] at h0 ⊢
      rcases hx : getPipe E (fun _ _ _ => M.raise .unmodelled) r o k w with ⟨e | u, w1⟩
      · rw [hx] at h0
        simp only at h0
        split at h0 <;> cases h0
      · rw [hx] at h0
        cases h0
        rw [ih hx]
    all_goals exact ih h0

theorem Reads.plain {c : ClassDef} (h : Reads c) :
    ∀ b ∈ c.bhvs, b ≠ .alias ∧ b ≠ .cache ∧ b ≠ .childFactory := fun _ hb =>
  ⟨fun e => h.noAlias (e ▸ hb), fun e => h.noCache (e ▸ hb), fun e => h.noFactory (e ▸ hb)⟩

/-- C43: a node's own item is returned.  No other node is consulted: the lookup is the
same whatever would be done about a missing key, and nothing is changed. -/
theorem c43_local {w : World} (hw : WF w) {o : Oid} (hc : Reads (clsOf E w o)) {k : Key} {v : Val}
    (hv : itemAt E w o k = some v) :
    ∃ w', getitem E o k w = (.ok v, w') ∧ Same w w' ∧ w'.fb = w.fb ∧
      ∀ h : Oid → Key → Exc → M Val, getPipe E h (clsOf E w o).bhvs o k w = (.ok v, w') := by
  obtain ⟨w', h1, h2⟩ := getPipe_item (E := E) (fun _ _ _ => M.raise .unmodelled) hc (fun _ h => h) hw
    rfl (k := k) (fun hn => absurd (hn.symm.trans hv) (nomatch ·))
  rw [show itemIn w (clsOf E w o).bhvs o k = some v from hv] at h1
  have h3 := fun h => getPipe_handler hc.plain h1 h
  exact ⟨w', h3 _, h2.same, h2.fb, h3⟩

/-- C43 with `Cache` and `ChildFactory` in the class: a stored child is returned. -/
theorem c43_cached {w : World} (hw : WF w) {o : Oid} {k : Key} (hc : Looks (clsOf E w o) k)
    (hcoh : Bhv.cache ∈ (clsOf E w o).bhvs →
      ∀ j v, (w.cached o).get? j = some v → (w.omap o).val j = some v) {v : Val}
    (hv : (w.omap o).val k = some v) :
    ∃ w', getitem E o k w = (.ok v, w') ∧ Same w w' := by
  obtain ⟨w', h1, h2⟩ := getitem_hit (E := E) (S := (· = o)) hc hw
    (fun p hp hcc j u hu => by subst hp; exact hcoh hcc j u hu) rfl hv
  exact ⟨w', h1, h2.same⟩

theorem getPipe_skip {h h' : Oid → Key → Exc → M Val} {bs : List Bhv}
    (hcf : ∀ l r, bs = l ++ .childFactory :: r → Bhv.fallback ∉ r) {o : Oid} :
    ∀ {k : Key} {w w' : World} {v : Val}, getPipe E h (bs.filter (· != .fallback)) o k w = (.ok v, w') →
      getPipe E h' bs o k w = (.ok v, w') := by
  induction bs with
  | nil => exact fun hx => hx
  | cons b r ih =>
    intro k w w' v hx
    have ih := fun {k w w' v} => @ih (fun l r' e => hcf (b :: l) r' (by rw [e]; rfl)) k w w' v
    cases b
    case fallback =>
      simp only [getPipe, M.catchIf_apply, ih hx]
    case nodespaces =>
      rw [List.filter_cons_of_pos (by decide)] at hx
      cases k with
      | str s =>
        simp only [getPipe, nodespacesGet] at hx ⊢
        split
        · rename_i hr
          simp only [hr, if_true] at hx
          exact hx
        · rename_i hr
          simp only [hr] at hx
          exact ih hx
      | _ => exact ih hx
    case alias =>
      rw [List.filter_cons_of_pos (by decide)] at hx
      simp only [getPipe, M.bind_apply] at hx ⊢
      rcases hu : unaliasKey E o k w with ⟨e | u, w1⟩
      · rw [hu] at hx; cases hx
      · rw [hu] at hx
        simp only [rekey_apply] at hx ⊢
        rcases hy : getPipe E h (r.filter (· != .fallback)) o u w1 with ⟨e | y, w2⟩
        · rw [hy] at hx
          simp only at hx
          split at hx <;> cases hx
        · rw [hy] at hx
          cases hx
          rw [ih hy]
    case cache =>
      rw [List.filter_cons_of_pos (by decide)] at hx
      simp only [getPipe, cacheGet, M.bind_apply, M.getW_apply] at hx ⊢
      rcases hu : cacheRef o w with ⟨e | u, w1⟩
      · rw [hu] at hx; cases hx
      · rw [hu] at hx
        simp only at hx ⊢
        cases hg : (w1.caches u).get? k with
        | some y => rw [hg] at hx; exact hx
        | none =>
          rw [hg] at hx
          simp only [M.bind_apply] at hx ⊢
          rcases hy : getPipe E h (r.filter (· != .fallback)) o k w1 with ⟨e | y, w2⟩
          · rw [hy] at hx; cases hx
          · rw [hy] at hx
            rw [ih hy]
            exact hx
    case childFactory =>
      have hf := hcf [] r rfl
      rw [List.filter_cons_of_pos (by decide), List.filter_eq_self.mpr (fun b hb => by
        simp only [bne_iff_ne, ne_eq]; exact fun e => hf (e ▸ hb))] at hx
      have hsame : ∀ bs : List Bhv, Bhv.fallback ∉ bs → ∀ k, getPipe E h bs o k = getPipe E h' bs o k := by
        intro bs
        induction bs with
        | nil => exact fun _ _ => rfl
        | cons b t ih =>
          intro hn k
          have ih := fun k => ih (fun hm => hn (List.mem_cons_of_mem _ hm)) k
          have ihf : getPipe E h t o = getPipe E h' t o := funext ih
          cases b <;> first | exact absurd List.mem_cons_self hn | exact ih k | (simp only [getPipe, ihf])
      rw [← hsame _ (by
        intro hm
        rcases List.mem_cons.mp hm with e | e
        · cases e
        · exact hf e)]
      exact hx
    all_goals
      rw [List.filter_cons_of_pos (by decide)] at hx
      exact ih hx

/-- C43 for every class, translated and cached keys included: whatever the lookup would return with
`Fallback` left out of the class is returned, in the same state, whatever the search for fallbacks would
do.  (A child factory must not stand left of `Fallback`: it makes the child only if no fallback is
found.) -/
theorem c43_any {o : Oid} {w w' : World} (hcf : ∀ l r, (clsOf E w o).bhvs = l ++ .childFactory :: r → Bhv.fallback ∉ r)
    {k : Key} {v : Val} {h : Oid → Key → Exc → M Val}
    (hx : getPipe E h ((clsOf E w o).bhvs.filter (· != .fallback)) o k w = (.ok v, w')) :
    getitem E o k w = (.ok v, w') ∧ ∀ h', getPipe E h' (clsOf E w o).bhvs o k w = (.ok v, w') :=
  ⟨getPipe_skip hcf hx, fun _ => getPipe_skip hcf hx⟩

/-- An aliased class with `Fallback`. -/
def aliasFallbackEnv : Env where
  cls _ := { bhvs := [.alias, .fallback, .adopt, .nodify, .odictStorage], aliaser := some (.pre "p-".toList),
             fallbackKey := some (.str ['e', 'n']) }

example : let w := after aliasFallbackEnv [.new 0 .none none, .set 0 (.str ['p', '-', 'a']) (.data (.int 1))]
    (getPipe aliasFallbackEnv (fun _ _ e => M.raise e) ((clsOf aliasFallbackEnv w 0).bhvs.filter (· != .fallback)) 0
      (.str ['p', '-', 'a']) w).1 = .ok (.data (.int 1)) ∧
    (getitem aliasFallbackEnv 0 (.str ['p', '-', 'a']) w).1 = .ok (.data (.int 1)) := by decide +kernel

/-! ### C44 -/

/-- The names on the way to the node whose ancestors are `l`, and the key. -/
def fullPath (w : World) (o : Oid) (l : List Oid) (k : Key) : List Key :=
  ((o :: l).map fun p => (w.loc p).1).reverse ++ [k]

/-- A class with `Fallback` in it that looks for `k`: reserved names handled by
`Nodespaces` left of it are not looked for. -/
def Falls (c : ClassDef) (k : Key) : Prop :=
  ∃ l r, c.bhvs = l ++ .fallback :: r ∧ Bhv.fallback ∉ l ∧ Bhv.fallback ∉ r ∧
    (Bhv.nodespaces ∈ l → ¬ ReservedKey k)

theorem getPipe_miss {c : ClassDef} (hc : Reads c) (h : Oid → Key → Exc → M Val) {l r : List Bhv}
    (hsub : ∀ b ∈ l ++ .fallback :: r, b ∈ c.bhvs) (hl : Bhv.fallback ∉ l) (hr : Bhv.fallback ∉ r)
    {k : Key} (hns : Bhv.nodespaces ∈ l → ¬ ReservedKey k) {o : Oid} {w : World} (hw : WF w)
    (hcl : clsOf E w o = c) (hm : itemIn w (l ++ .fallback :: r) o k = none) :
    ∃ w1, Ro w w1 ∧ getPipe E h (l ++ .fallback :: r) o k w = h o k (.key (.key k)) w1 := by
  induction l with
  | nil =>
    obtain ⟨w1, h1, h2⟩ := getPipe_item (E := E) h hc
      (fun b hb => hsub b (List.mem_cons_of_mem _ hb)) hw hcl (k := k) fun _ hf => absurd hf hr
    have : itemIn w r o k = none := by
      simp only [itemIn, List.nil_append, List.mem_cons, reduceCtorEq, false_or] at hm
      exact hm
    rw [this] at h1
    refine ⟨w1, h2, ?_⟩
    simp only [List.nil_append, getPipe, M.catchIf_apply, h1, asResult, Exc.isKey, if_true]
  | cons b l ih =>
    have ih := fun e => ih (fun x hx => hsub x (List.mem_cons_of_mem _ hx))
      (fun hx => hl (List.mem_cons_of_mem _ hx)) (fun hx => hns (List.mem_cons_of_mem _ hx)) e
    have hpass : b ≠ .nodespaces → itemIn w (l ++ .fallback :: r) o k = none := fun hb => by
      simp only [itemIn, List.cons_append, List.mem_cons, show (Bhv.nodespaces = b) = False from
        eq_false fun e => hb e.symm, false_or] at hm
      exact hm
    have hin : b ∈ c.bhvs := hsub _ List.mem_cons_self
    cases b
    case nodespaces =>
      have hres : ¬ ReservedKey k := hns List.mem_cons_self
      have e : getPipe E h (.nodespaces :: (l ++ .fallback :: r)) o k =
          getPipe E h (l ++ .fallback :: r) o k := by
        cases k with
        | str s =>
          have : reserved s ≠ true := fun x => hres ((reserved_iff s).mp x)
          simp only [getPipe, nodespacesGet, this]; rfl
        | _ => rfl
      rw [List.cons_append, e]
      refine ih ?_
      simp only [itemIn, hres, and_false] at hm ⊢
      exact hm
    case fallback => exact absurd List.mem_cons_self hl
    case cache => exact absurd hin hc.noCache
    case alias => exact absurd hin hc.noAlias
    case childFactory => exact absurd hin hc.noFactory
    all_goals exact ih (hpass (by decide))

/-- What becomes of a lookup whose search ended with `x`. -/
def searchResult (k : Key) : Except Exc (Option Val) → Except Exc Val
  | .ok (some v) => .ok v
  | .ok none => .error (.key (.key k))
  | .error e => .error e

/-- A missing key: the search runs, and decides when it ends. -/
theorem getitem_searched {w : World} (hw : WF w) (hs : Sound w) (hrd : Reads (clsOf E w o)) (hfb : w.fb = some (-1))
    (ho : o < w.nobj) {l : List Oid} (hl : Chain w o l) {k : Key} (hf : Falls (clsOf E w o) k)
    (hm : itemAt E w o k = none) :
    ∃ w1, InSearch 0 w w1 ∧ ∀ x w2, toRoot E (fbFuel w) o (fullPath w o l k) [] w1 = (x, w2) → InSearch 0 w w2 →
      ∃ w', getitem E o k w = (searchResult k x, w') ∧ Ro w w' := by
  obtain ⟨bl, br, hbs, h1, h2, h3⟩ := hf
  obtain ⟨w1, hro, hp⟩ := getPipe_miss (E := E) hrd (fbHandler E) (l := bl) (r := br)
    (fun b hb => by rw [hbs]; exact hb) h1 h2 h3 hw rfl
    (by unfold itemAt at hm; rw [hbs] at hm; exact hm)
  have hmid : InSearch 0 w { w1 with fb := some 0 } := by
    have := setFb_quiet w1 (some 0) hro.wf
    exact ⟨this.1, hro.same.trans this.2, rfl⟩
  refine ⟨_, hmid, fun x w2 e1 e2 => ?_⟩
  have hpath : pathOf { w1 with fb := some 0 } o = some ((o :: l).map fun p => (w.loc p).1).reverse :=
    hmid.same.pathOf hs ho hl
  have hfuel : fbFuel { w1 with fb := some 0 } = fbFuel w := by
    simp only [fbFuel]; rw [hro.same.nobj]
  have hfb1 : w1.fb = some (-1) := hro.fb.trans hfb
  have hw' : Ro w { w2 with fb := some (-1) } := by
    have := setFb_quiet w2 (some (-1)) e2.wf
    exact ⟨this.1, e2.same.trans this.2, hfb.symm⟩
  refine ⟨{ w2 with fb := some (-1) }, ?_, hw'⟩
  have e4 : getitem E o k w = fbHandler E o k (.key (.key k)) w1 := by
    show getPipe E (fbHandler E) (clsOf E w o).bhvs o k w = _
    rw [hbs]; exact hp
  rw [e4]
  have h0 : (-1 : Int) + 1 = 0 := rfl
  simp only [fbHandler, fbGuard, hfb1, h0]
  rw [if_neg (by decide)]
  simp only [M.bind_apply, path, hpath, M.getW_apply, hfuel]
  rw [show ((o :: l).map fun p => (w.loc p).1).reverse ++ [k] = fullPath w o l k from rfl, e1]
  have hfb2 := e2.fb
  match x with
  | .ok (some v) => simp only [searchResult, M.pure_apply, hfb2]; rfl
  | .ok none => simp only [searchResult, M.raise_apply, hfb2]; rfl
  | .error e => simp only [searchResult, hfb2]; rfl

/-- A missing key: the search runs, ends, and decides. -/
theorem getitem_search {w : World} (hw : WF w) (ht : FallTree E w) (hfb : w.fb = some (-1)) {o : Oid}
    (ho : o < w.nobj) {l : List Oid} (hl : Chain w o l) {k : Key} (hf : Falls (clsOf E w o) k)
    (hm : itemAt E w o k = none) :
    ∃ x w1 w2 w', InSearch 0 w w1 ∧ toRoot E (fbFuel w) o (fullPath w o l k) [] w1 = (x, w2) ∧
      RootOut E w (fullPath w o l k) o [] x ∧
      getitem E o k w = (searchResult k x, w') ∧ Ro w w' := by
  obtain ⟨w1, hmid, hx⟩ := getitem_searched hw ht.sound (ht.reads o ho) hfb ho hl hf hm
  obtain ⟨x, w2, e1, e2, e3⟩ := toRoot_out ht (fullPath w o l k) (Int.le_refl 0) (fbFuel w) o [] l
    w1 hmid List.nodup_nil (fun _ h => (nomatch h)) ho hl
    (by
      have := ht.sound.length hl ho
      simp only [List.length_nil, Nat.sub_zero, fbFuel]
      calc w.nobj * (w.nobj + 1) + l.length < w.nobj * (w.nobj + 1) + (w.nobj + 2) := by omega
        _ ≤ (w.nobj + 1) * (w.nobj + 2) := by
          have e : (w.nobj + 1) * (w.nobj + 2) = w.nobj * (w.nobj + 1) + w.nobj + (w.nobj + 2) := by
            simp only [Nat.add_mul, Nat.mul_add]; omega
          omega)
  obtain ⟨w', h1, h2⟩ := hx x w2 e1 e2
  exact ⟨x, w1, w2, w', hmid, e1, e3, h1, h2⟩

/-- C44: a lookup of a missing key ends, and ends in one of three ways.  With the value
at the remaining path below the fallback some ancestor declares, where those that lack
the path continue the search.  With `KeyError`, for the key, or for a declared fallback
that is missing itself.  With an error about a plain value on the way. -/
theorem c44_outcome {w : World} (hw : WF w) (ht : FallTree E w) (hfb : w.fb = some (-1)) {o : Oid}
    (ho : o < w.nobj) {l : List Oid} (hl : Chain w o l) {k : Key} (hf : Falls (clsOf E w o) k)
    (hm : itemAt E w o k = none) :
    match (getitem E o k w).1 with
    | .ok v => Found E w (fullPath w o l k) o v
    | .error e => e = .key (.key k) ∨
        (∃ p fk, e = .key (.key fk) ∧ Declares E w p fk ∧ itemAt E w p fk = none) ∨
        Blocked E w (fullPath w o l k) e := by
  obtain ⟨x, w1, w2, w', -, -, h3, h4, -⟩ := getitem_search hw ht hfb ho hl hf hm
  rw [h4]
  match x, h3 with
  | .ok (some v), h3 => exact h3
  | .ok none, _ => exact .inl rfl
  | .error e, h3 => exact .inr h3

/-- C44: in particular the search never runs forever. -/
theorem c44_terminates {w : World} (hw : WF w) (ht : FallTree E w) (hfb : w.fb = some (-1)) {o : Oid}
    (ho : o < w.nobj) {k : Key} (hf : Falls (clsOf E w o) k) :
    (getitem E o k w).1 ≠ .error .diverge := by
  cases hm : itemAt E w o k with
  | some v =>
    obtain ⟨w', h1, -⟩ := c43_local hw (ht.reads o ho) hm
    rw [h1]; exact fun h => nomatch h
  | none =>
    obtain ⟨l, hl⟩ := (ht.sound o ho).2
    have := c44_outcome hw ht hfb ho hl hf hm
    intro h
    rw [h] at this
    simp only at this
    rcases this with h | ⟨_, _, h, -⟩ | ⟨h | h, -⟩ <;> cases h

/-- C44: whatever a lookup does, it changes nothing. -/
theorem c44_pure {w : World} (hw : WF w) (ht : FallTree E w) (hfb : w.fb = some (-1)) {o : Oid}
    (ho : o < w.nobj) {k : Key} (hf : Falls (clsOf E w o) k) :
    Same w (getitem E o k w).2 := by
  cases hm : itemAt E w o k with
  | some v =>
    obtain ⟨w', h1, h2, -⟩ := c43_local hw (ht.reads o ho) hm
    rw [h1]; exact h2
  | none =>
    obtain ⟨l, hl⟩ := (ht.sound o ho).2
    obtain ⟨x, w1, w2, w', -, -, h3, h4, h5⟩ := getitem_search hw ht hfb ho hl hf hm
    rw [h4]; exact h5.same

/-- C44: `KeyError` means nothing was found.  When every declared fallback exists, items
have their node as parent, and the lookup raises `KeyError`, then the fallback of every
ancestor that declares one lacks the remaining path. -/
theorem c44_complete {w : World} (hw : WF w) (ht : FallTree E w) (hfb : w.fb = some (-1)) {o : Oid}
    (ho : o < w.nobj) {l : List Oid} (hl : Chain w o l) {k : Key} (hf : Falls (clsOf E w o) k)
    (hm : itemAt E w o k = none)
    (hd : ∀ p fk, Declares E w p fk → itemAt E w p fk ≠ none)
    (hloc : ∀ p j c, (j ∈ fullPath w o l k ∨ Declares E w p j) → itemAt E w p j = some (.node c) →
      (w.loc c).2 = some p)
    (he : (getitem E o k w).1 = .error (.key (.key k))) :
    ∀ a p fk, a = o ∨ Ancestor w a o → (w.loc a).2 = some p → Declares E w p fk →
      ∃ s ks c, FallsTo E w (fullPath w o l k) p s ks ∧ Stuck E w (.node s) ks c := by
  obtain ⟨x, w1, w2, w', -, -, h3, h4, -⟩ := getitem_search hw ht hfb ho hl hf hm
  rw [h4] at he
  match x, h3, he with
  | .ok none, h3, _ => exact h3 hloc (fun _ h => (nomatch h))
  | .ok (some v), _, he => cases he
  | .error e, h3, he =>
    cases he
    rcases h3 with ⟨p, fk, -, h5, h6⟩ | ⟨h5 | h5, -⟩
    · exact absurd h6 (hd p fk h5)
    · cases h5
    · cases h5

/-- The nearest ancestor of `o` that declares a fallback. -/
inductive NearestFallback (E : Env) (w : World) : Oid → Oid → Key → Prop
  | here {o p : Oid} {fk : Key} : (w.loc o).2 = some p → Declares E w p fk → NearestFallback E w o p fk
  | up {o p q : Oid} {fk : Key} : (w.loc o).2 = some p → (∀ j, ¬ Declares E w p j) →
      NearestFallback E w p q fk → NearestFallback E w o q fk

theorem fbWalk_leads {w0 : World} (ht : FallTree E w0) {v u : Val} {ks : List Key}
    (h : Leads E w0 v ks u) {w : World} (hw : InSearch 0 w0 w) (hx : ∀ p, v = .node p → p < w0.nobj) :
    ∃ w', fbWalk E ks v w = (.ok (.inl u), w') := by
  induction h generalizing w with
  | here v => exact ⟨w, rfl⟩
  | @step p k v u ks hi _ ih =>
    obtain ⟨w1, h1, h2⟩ := fbChild_item (E := E) (p := p)
      (by rw [hw.same.clsOf]; exact ht.reads p (hx p rfl)) k hw.wf hw.fb (Int.le_refl 0)
    rw [hw.same.itemAt, hi] at h1
    obtain ⟨w2, h3⟩ := ih (hw.trans h2) (fun c hc => ht.exist p k c (hx p rfl) (by rw [hi, hc]))
    exact ⟨w2, by simp only [fbWalk, M.bind_apply, h1, h3]⟩

/-- The search first reaches the nearest declared fallback. -/
theorem toRoot_nearest {w0 : World} (ht : FallTree E w0) (full : List Key) {n : Nat} {node q : Oid}
    {fk : Key} (hq : NearestFallback E w0 node q fk) {l : List Oid} {w : World} (hw : InSearch 0 w0 w)
    (hno : node < w0.nobj) (hc : Chain w0 node l) (hf : l.length < n) :
    (itemAt E w0 q fk = none → (toRoot E n node full [] w).1 = .error (.key (.key fk))) ∧
    (∀ s ks v, FallsTo E w0 full q s ks → Leads E w0 (.node s) ks v →
      (toRoot E n node full [] w).1 = .ok (some v)) := by
  induction hq generalizing n l w with
  | @here node p fk hp hd =>
    cases n with
    | zero => omega
    | succ n =>
      have hpar : (w.objs node).parent = some p :=
        (congrArg Prod.snd (hw.same.locAt node)).trans hp
      have hfk : activeFallback E w p = some fk := by
        rw [hw.same.activeFallback]; exact activeFallback_iff.mpr hd
      have hpl : p < w0.nobj := (ht.sound node hno).1 p hp
      obtain ⟨w1, h1, h2⟩ := getitem0_item (E := E) (o := p)
        (by rw [hw.same.clsOf]; exact ht.reads p hpl) fk hw.wf hw.fb (Int.le_refl 0)
      rw [hw.same.itemAt] at h1
      unfold toRoot
      simp only [M.bind_apply, M.getW_apply, hpar, hfk, List.contains_nil, Bool.false_eq_true,
        if_false, h1]
      constructor
      · intro hi; rw [hi]; rfl
      · rintro s ks v ⟨fk', ls, hd', hi, hls, rfl⟩ hv
        have : fk' = fk := by
          have := (activeFallback_iff.mpr hd').symm.trans (activeFallback_iff.mpr hd)
          exact Option.some.inj this
        subst this
        have hs := ht.exist p fk' s hpl hi
        have hw1 := hw.trans h2
        simp only [hi, asResult, M.bind_apply, path, hw1.same.pathOf ht.sound hs hls]
        have hlen : ((s :: ls).map fun p => (w0.loc p).1).reverse.length = ls.length + 1 := by simp
        rw [hlen]
        obtain ⟨w2, h3⟩ := fbWalk_leads ht hv hw1 (fun q hq => by cases hq; exact hs)
        simp only [h3]
        rfl
  | @up node p q fk hp hnd _ ih =>
    cases n with
    | zero => omega
    | succ n =>
      have hpar : (w.objs node).parent = some p :=
        (congrArg Prod.snd (hw.same.locAt node)).trans hp
      have hfk : activeFallback E w p = none := by
        rw [hw.same.activeFallback]
        cases h : activeFallback E w0 p with
        | none => rfl
        | some j => exact absurd (activeFallback_iff.mp h) (hnd j)
      have hpl : p < w0.nobj := (ht.sound node hno).1 p hp
      unfold toRoot
      simp only [M.bind_apply, M.getW_apply, hpar, hfk, hw.same.asksChildren p, ht.asks hpl,
        Bool.false_eq_true, if_false]
      cases hc with
      | root h => rw [hp] at h; cases h
      | @up _ p' l h hc' =>
        rw [hp] at h; cases h
        exact ih hw hpl hc' (by simp only [List.length_cons] at hf; omega)

/-- C44: the nearest ancestor with a declared fallback decides, if that has the path. -/
theorem c44_nearest {w : World} (hw : WF w) (ht : FallTree E w) (hfb : w.fb = some (-1)) {o : Oid}
    (ho : o < w.nobj) {l : List Oid} (hl : Chain w o l) {k : Key} (hf : Falls (clsOf E w o) k)
    (hm : itemAt E w o k = none) {q s : Oid} {fk : Key} (hq : NearestFallback E w o q fk) {ks : List Key}
    {v : Val} (hs : FallsTo E w (fullPath w o l k) q s ks) (hv : Leads E w (.node s) ks v) :
    (getitem E o k w).1 = .ok v := by
  obtain ⟨x, w1, w2, w', h1, h2, -, h4, -⟩ := getitem_search hw ht hfb ho hl hf hm
  have := (toRoot_nearest ht _ hq h1 ho hl (n := fbFuel w) (by
    have := ht.sound.length hl ho
    simp only [fbFuel, Nat.add_mul, Nat.mul_add]
    omega)).2 s ks v hs hv
  rw [h2] at this
  rw [h4, show x = _ from this]; rfl

/-- C44, finding: a declared fallback that is missing ends the search with `KeyError`
for the fallback, not for the key, and without asking the ancestors further up. -/
theorem c44_missing_fallback {w : World} (hw : WF w) (ht : FallTree E w) (hfb : w.fb = some (-1))
    {o : Oid} (ho : o < w.nobj) {l : List Oid} (hl : Chain w o l) {k : Key}
    (hf : Falls (clsOf E w o) k) (hm : itemAt E w o k = none) {q : Oid} {fk : Key}
    (hq : NearestFallback E w o q fk) (hn : itemAt E w q fk = none) :
    (getitem E o k w).1 = .error (.key (.key fk)) := by
  obtain ⟨x, w1, w2, w', h1, h2, -, h4, -⟩ := getitem_search hw ht hfb ho hl hf hm
  have := (toRoot_nearest ht (fullPath w o l k) hq h1 ho hl (n := fbFuel w) (by
    have := ht.sound.length hl ho
    simp only [fbFuel, Nat.add_mul, Nat.mul_add]
    omega)).1 hn
  rw [h2] at this
  rw [h4, show x = _ from this]; rfl

/-! ### A tree with fallbacks, tests/test_fallback.py -/

/-- test_fallback.py:16-25 -/
def fallbackAttributes : ClassDef :=
  { bhvs := [.nodespaces, .fallback, .adopt, .defaultInit, .nodify, .odictStorage] }

/-- test_fallback.py:28-40 -/
def fallbackTree : ClassDef :=
  { bhvs := [.nodeChildValidate, .nodespaces, .adopt, .attributes, .defaultInit, .nodify,
      .odictStorage], attrsFactory := 14 }

/-- The sample classes and these two. -/
def fallEnv : Env where
  cls c := if c = 14 then fallbackAttributes else if c = 15 then fallbackTree else sampleEnv.cls c

/-- `'x'`, `'y'`, `'1'`, `'2'`, `'d'` -/
def kx : Key := .str ['x']
@[inherit_doc kx] def ky : Key := .str ['y']
@[inherit_doc kx] def k1 : Key := .str ['1']
@[inherit_doc kx] def k2 : Key := .str ['2']
@[inherit_doc kx] def kd : Key := .str ['d']

/-- The tree of test_fallback.py:53-95: root 0, x 1, x/1 2 (attributes 3), x/2 4
(attributes 5), y 6, y/1 7 (attributes 8), y/2 9 (attributes 10). -/
def fallOps : List Op :=
  [.new 15 (.str ['r']) none, .setFallbackKey 0 kx,
   .new 15 .none none, .set 0 kx (.node 1), .setFallbackKey 1 k1,
   .new 15 .none none, .set 1 k1 (.node 2), .attrs 2,
   .set 3 ka (.data (.int 1)), .set 3 kd (.data (.int (-3))),
   .new 15 .none none, .set 1 k2 (.node 4), .attrs 4,
   .set 5 kb (.data (.int 2)), .set 5 kd (.data (.int (-2))),
   .new 15 .none none, .set 0 ky (.node 6), .setFallbackKey 6 k1,
   .new 15 .none none, .set 6 k1 (.node 7), .attrs 7,
   .set 8 kc (.data (.int 3)), .set 8 kd (.data (.int (-1))),
   .new 15 .none none, .set 6 k2 (.node 9), .attrs 9, .set 10 kd (.data (.int 4))]

/-- The results of the lookups in test_fallback.py:110-169. -/
example : (execAll fallEnv (fallOps ++ [.get 10 kd, .get 10 kc, .get 10 kb, .get 10 ka, .get 10 kx])
      {}).1.drop fallOps.length =
    [.ok (.val (.data (.int 4))), .ok (.val (.data (.int 3))), .ok (.val (.data (.int 2))),
     .ok (.val (.data (.int 1))), .error (.key (.key kx))] := by decide +kernel

theorem namesUp_chain {w : World} {n : Nat} {o : Oid} (h : (namesUp w n o).isSome) :
    ∃ l, Chain w o l := by
  induction n generalizing o with
  | zero => cases h
  | succ n ih =>
    unfold namesUp at h
    cases hp : (w.objs o).parent with
    | none => exact ⟨[], .root hp⟩
    | some p =>
      rw [hp] at h
      simp only [Option.isSome_map] at h
      obtain ⟨l, hl⟩ := ih h
      exact ⟨p :: l, .up hp hl⟩

/-- The first ancestor the search cannot pass: it has `GetattrChildren`, and nothing gives it an attribute
`fallback_key`. -/
inductive AskedAbove (E : Env) (w : World) : Oid → Oid → Prop
  | here {o p : Oid} : (w.loc o).2 = some p → Bhv.getattrChildren ∈ (clsOf E w p).bhvs →
      Bhv.fallback ∉ (clsOf E w p).bhvs → (w.objs p).fallbackKey = none → (clsOf E w p).fallbackKey = none →
      AskedAbove E w o p
  | up {o p q : Oid} : (w.loc o).2 = some p → Bhv.getattrChildren ∉ (clsOf E w p).bhvs →
      (∀ fk, ¬ Declares E w p fk) → AskedAbove E w p q → AskedAbove E w o q

theorem toRoot_asked {w0 : World} (hs : Sound w0) (full : List Key) {n : Nat} {node q : Oid}
    (hq : AskedAbove E w0 node q) (hrd : Reads (clsOf E w0 q)) (hi : itemAt E w0 q (.str fallbackName) = none)
    {l : List Oid} {w : World} (hw : InSearch 0 w0 w) (hc : Chain w0 node l) (hf : l.length < n) :
    ∃ w', toRoot E n node full [] w = (.error (.key (.key (.str fallbackName))), w') ∧ InSearch 0 w0 w' := by
  induction hq generalizing n l with
  | @here node p hp h1 h2 h3 h4 =>
    cases n with
    | zero => omega
    | succ n =>
      have hpar : (w.objs node).parent = some p := (congrArg Prod.snd (hw.same.locAt node)).trans hp
      have hfk : activeFallback E w p = none := by
        rw [hw.same.activeFallback]; simp [activeFallback, h3, h4]
      have hask : asksChildren E w p = true := by
        rw [hw.same.asksChildren]
        have e1 : (bhvsOf E w0 p).contains .getattrChildren = true := List.contains_iff_mem.mpr h1
        have e2 : (bhvsOf E w0 p).contains .fallback = false := by
          rw [Bool.eq_false_iff]
          exact fun h => h2 (List.contains_iff_mem.mp h)
        simp only [asksChildren, e1, e2, h3, h4]
        rfl
      obtain ⟨w1, h5, h6⟩ := getitem0_item (E := E) (o := p)
        (by rw [hw.same.clsOf]; exact hrd) (.str fallbackName) hw.wf hw.fb (Int.le_refl 0)
      rw [hw.same.itemAt, hi] at h5
      refine ⟨w1, ?_, hw.trans h6⟩
      unfold toRoot
      simp only [M.bind_apply, M.getW_apply, hpar, hfk, hask, if_true, h5]
      rfl
  | @up node p q hp hg hnd _ ih =>
    cases n with
    | zero => omega
    | succ n =>
      have hpar : (w.objs node).parent = some p := (congrArg Prod.snd (hw.same.locAt node)).trans hp
      have hfk : activeFallback E w p = none := by
        rw [hw.same.activeFallback]
        cases h : activeFallback E w0 p with
        | none => rfl
        | some j => exact absurd (activeFallback_iff.mp h) (hnd j)
      have hask : asksChildren E w p = false := by
        rw [hw.same.asksChildren]
        have e1 : (bhvsOf E w0 p).contains .getattrChildren = false := by
          rw [Bool.eq_false_iff]
          exact fun h => hg (List.contains_iff_mem.mp h)
        simp only [asksChildren, e1, Bool.false_and]
      cases hc with
      | root h => rw [hp] at h; cases h
      | @up _ p' l h hc' =>
        rw [hp] at h; cases h
        obtain ⟨w', h1, h2⟩ := ih hrd hi hc' (n := n) (by simp only [List.length_cons] at hf; omega)
        refine ⟨w', ?_, h2⟩
        unfold toRoot
        simp only [M.bind_apply, M.getW_apply, hpar, hfk, hask, Bool.false_eq_true, if_false]
        exact h1

/-- C44, finding: an ancestor that answers attribute requests with its items and has no attribute
`fallback_key` ends the search with `KeyError` for `fallback_key`, whatever is declared further up. -/
theorem c44_asked {w : World} (hw : WF w) (hs : Sound w) (hfb : w.fb = some (-1)) {o : Oid} (ho : o < w.nobj)
    (hrd : Reads (clsOf E w o)) {l : List Oid} (hl : Chain w o l) {k : Key} (hf : Falls (clsOf E w o) k)
    (hm : itemAt E w o k = none) {q : Oid} (hq : AskedAbove E w o q) (hrq : Reads (clsOf E w q))
    (hn : itemAt E w q (.str fallbackName) = none) :
    ∃ w', getitem E o k w = (.error (.key (.key (.str fallbackName))), w') ∧ Ro w w' := by
  obtain ⟨w1, h1, h2⟩ := getitem_searched hw hs hrd hfb ho hl hf hm
  obtain ⟨w2, h3, h4⟩ := toRoot_asked hs (fullPath w o l k) hq hrq hn h1 hl (n := fbFuel w) (by
    have := hs.length hl ho
    simp only [fbFuel, Nat.add_mul, Nat.mul_add]
    omega)
  exact h2 _ w2 h3 h4

/-- A finite check of `FallTree`. -/
def fallCheck (E : Env) (w : World) : Bool :=
  (List.range w.nobj).all fun p =>
    (match (w.objs p).parent with
      | none => true
      | some q => decide (q < w.nobj)) && (namesUp w (w.nobj + 1) p).isSome &&
    ((bhvsOf E w p).all fun b => b != .alias && b != .cache && b != .childFactory &&
      b != .fixedChildren) && (storageKind (bhvsOf E w p) == some .odictStorage) &&
    (!(bhvsOf E w p).contains .getattrChildren || (bhvsOf E w p).contains .fallback) &&
    ((w.children p ++ w.nsview p).all fun kv => match kv.2 with
      | .node c => decide (c < w.nobj)
      | .data _ => true)

theorem fallTree_of_check {w : World} (h : fallCheck E w = true) : FallTree E w := by
  have hp : ∀ p, p < w.nobj → _ := fun p hp => List.all_eq_true.mp h p (List.mem_range.mpr hp)
  simp only [Bool.and_eq_true] at hp
  refine ⟨fun o ho => ⟨fun q hq => ?_, namesUp_chain (hp o ho).1.1.1.1.2⟩, fun p hpn => ?_,
    fun p k c hpn hi => ?_, fun p hpn hg => ?_⟩
  · have := (hp o ho).1.1.1.1.1
    replace hq : (w.objs o).parent = some q := hq
    rw [hq] at this
    simpa using this
  · have h1 := List.all_eq_true.mp (hp p hpn).1.1.1.2
    have h2 := (hp p hpn).1.1.2
    have key : ∀ b, b ∈ (clsOf E w p).bhvs → b ≠ .alias ∧ b ≠ .cache ∧ b ≠ .childFactory ∧
        b ≠ .fixedChildren := fun b hb => by
      have := h1 b hb
      simp only [Bool.and_eq_true, bne_iff_ne] at this
      exact ⟨this.1.1.1, this.1.1.2, this.1.2, this.2⟩
    refine ⟨⟨?_, ?_⟩, fun hb => (key _ hb).1 rfl, fun hb => (key _ hb).2.1 rfl,
      fun hb => (key _ hb).2.2.1 rfl⟩
    · exact ⟨_, beq_iff_eq.mp h2, by decide⟩
    · exact fun hb => (key _ hb).2.2.2 rfl
  · have h1 := List.all_eq_true.mp (hp p hpn).2
    have : (k, Val.node c) ∈ w.children p ++ w.nsview p := by
      unfold itemAt at hi
      split at hi
      · exact List.mem_append_right _ (Od.get?_some_mem hi)
      · exact List.mem_append_left _ (Od.get?_some_mem hi)
    simpa using h1 _ this
  · have := (hp p hpn).1.2
    rw [show (bhvsOf E w p).contains .getattrChildren = true from List.contains_iff_mem.mpr hg] at this
    exact List.contains_iff_mem.mp this

/-- The hypotheses are met by that tree. -/
theorem fallEnv_tree : FallTree fallEnv (after fallEnv fallOps) :=
  fallTree_of_check (by decide +kernel)

theorem fall_declares {p : Oid} {k : Key}
    (h : activeFallback fallEnv (after fallEnv fallOps) p = some k) :
    Declares fallEnv (after fallEnv fallOps) p k := activeFallback_iff.mp h

theorem fall_silent {p : Oid} (h : activeFallback fallEnv (after fallEnv fallOps) p = none) (j : Key) :
    ¬ Declares fallEnv (after fallEnv fallOps) p j := fun hd => by
  rw [activeFallback_iff.mpr hd] at h; cases h

/-- `y/2` has the ancestors `y` and the root; its attributes are below it. -/
theorem fall_chain : Chain (after fallEnv fallOps) 10 [9, 6, 0] :=
  .up (by decide +kernel) (.up (by decide +kernel) (.up (by decide +kernel) (.root (by decide +kernel))))

/-- `root['y']['2'].attrs['c']` is found below the fallback of `y`, the nearest. -/
example : (getitem fallEnv 10 kc (after fallEnv fallOps)).1 = .ok (.data (.int 3)) := by
  have hf : Falls (clsOf fallEnv (after fallEnv fallOps) 10) kc :=
    ⟨[.nodespaces], [.adopt, .defaultInit, .nodify, .odictStorage], by decide +kernel, by decide,
      by decide, fun _ => by decide⟩
  refine c44_nearest (q := 6) (s := 7) (fk := k1) (ks := [attrsKey, kc])
    (reachable_after _ _).wf fallEnv_tree (c45_reachable (reachable_after _ _)) (by decide +kernel)
    fall_chain hf (by decide +kernel) ?_ ?_ ?_
  · exact .up (p := 9) (by decide +kernel) (fall_silent (by decide +kernel))
      (.here (by decide +kernel) (fall_declares (by decide +kernel)))
  · exact ⟨k1, [6, 0], fall_declares (by decide +kernel), by decide +kernel,
      .up (by decide +kernel) (.up (by decide +kernel) (.root (by decide +kernel))), by decide +kernel⟩
  · exact .step (v := .node 8) (by decide +kernel) (.step (by decide +kernel) (.here _))

/-- The same tree when `y` declares a fallback it does not have: `root/x/2` has the
value, but the lookup raises `KeyError('0')`. -/
example : (execAll fallEnv (fallOps ++ [.get 10 kb, .setFallbackKey 6 (.str ['0']), .get 10 kb])
      {}).1.drop fallOps.length =
    [.ok (.val (.data (.int 2))), .ok .unit, .error (.key (.key (.str ['0'])))] := by decide +kernel

/-- The root falls back to `x`, where `a` is a plain value; below `y` it is a node. -/
def blockedOps : List Op :=
  [.new 14 (.str ['r']) none, .setFallbackKey 0 kx, .new 14 .none none, .set 0 kx (.node 1),
   .set 1 ka (.data (.int 1)), .new 14 .none none, .set 0 ky (.node 2), .new 14 .none none,
   .set 2 ka (.node 3)]

/-- C44 is false as stated: when the search meets a plain value before the path ends, the
lookup raises `AttributeError`, although nothing was found. -/
theorem c44_refuted : ∃ ops o k l, (execAll fallEnv ops {}).1.all (fun r => r.toBool) = true ∧
    FallTree fallEnv (after fallEnv ops) ∧ Chain (after fallEnv ops) o l ∧
    Falls (clsOf fallEnv (after fallEnv ops) o) k ∧ itemAt fallEnv (after fallEnv ops) o k = none ∧
    (getitem fallEnv o k (after fallEnv ops)).1 = .error .attr :=
  ⟨blockedOps, 3, kb, [2, 0], by decide +kernel, fallTree_of_check (by decide +kernel),
    .up (by decide +kernel) (.up (by decide +kernel) (.root (by decide +kernel))),
    ⟨[.nodespaces], [.adopt, .defaultInit, .nodify, .odictStorage], by decide +kernel, by decide,
      by decide, fun _ => by decide⟩, by decide +kernel, by decide +kernel⟩

/-- A node class that answers attribute requests with its items. -/
def askEnv : Env where
  cls c := if c = 16 then { bhvs := [.adopt, .getattrChildren, .defaultInit, .nodify, .odictStorage] }
    else fallEnv.cls c

/-- The root declares the fallback `x`, which has `y/a`; `y` is the node that answers with items, and has
no `a`. -/
def askOps : List Op :=
  [.new 14 (.str ['r']) none, .setFallbackKey 0 kx, .new 14 .none none, .set 0 kx (.node 1),
   .new 14 .none none, .set 1 ky (.node 2), .new 14 .none none, .set 2 ka (.node 3),
   .new 16 .none none, .set 0 ky (.node 4), .new 14 .none none, .set 4 ka (.node 5),
   .new 14 .none none, .set 3 kb (.node 6)]

/-- `root['y']['a']['b']` would be found below `x`; it is `KeyError('fallback_key')`. -/
example : ∃ w', getitem askEnv 5 kb (after askEnv askOps) =
    (.error (.key (.key (.str fallbackName))), w') ∧ Ro (after askEnv askOps) w' := by
  have hn : (after askEnv askOps).nobj = 7 := by decide +kernel
  have hs : ((List.range 7).all fun p => (match ((after askEnv askOps).objs p).parent with
      | none => true
      | some q => decide (q < 7)) && (namesUp (after askEnv askOps) 8 p).isSome) = true := by decide +kernel
  refine c44_asked (l := [4, 0]) (q := 4) (reachable_after _ _).wf (fun o ho => ?_)
    (c45_reachable (reachable_after _ _)) (by decide +kernel) ?_
    (.up (by decide +kernel) (.up (by decide +kernel) (.root (by decide +kernel))))
    ⟨[.nodespaces], [.adopt, .defaultInit, .nodify, .odictStorage], by decide +kernel, by decide,
      by decide, fun _ => by decide⟩ (by decide +kernel)
    (.here (by decide +kernel) (by decide +kernel) (by decide +kernel) (by decide +kernel) (by decide +kernel)) ?_
    (by decide +kernel)
  · rw [hn] at ho ⊢
    have := List.all_eq_true.mp hs o (List.mem_range.mpr ho)
    simp only [Bool.and_eq_true] at this
    refine ⟨fun q hq => ?_, namesUp_chain this.2⟩
    have h1 := this.1
    rw [show ((after askEnv askOps).objs o).parent = some q from hq] at h1
    simpa using h1
  · exact ⟨⟨⟨.odictStorage, by decide +kernel, by decide⟩, by decide +kernel⟩, by decide +kernel,
      by decide +kernel, by decide +kernel⟩
  · exact ⟨⟨⟨.odictStorage, by decide +kernel, by decide⟩, by decide +kernel⟩, by decide +kernel,
      by decide +kernel, by decide +kernel⟩

end Verif
