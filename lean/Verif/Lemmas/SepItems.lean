import Verif.Lemmas.Sep
import Verif.Lemmas.Accept

/-! Separation for item access. -/

namespace Verif

variable {Γ : Prot} {E : Env}

/-- Discharge "is not protected" from what is known with fewer objects. -/
macro "good" : tactic =>
  `(tactic| first
    | assumption
    | exact goodV_data _ _
    | exact Good.mono (by assumption) (by omega)
    | exact GoodV.mono (by assumption) (by omega)
    | exact Good.val (Good.mono (by assumption) (by omega))
    | exact (GoodV.mono (by assumption) (by omega)).node
    | (intro c hc; injection hc with hc; subst hc; exact Good.mono (by assumption) (by omega)))

/-! ### Iteration -/

theorem sep_iterEnd {n : Nat} {o : Oid} (ho : Good Γ n o) : Sep Γ n (iterEnd E o) tt := by
  refine sep_self (f := fun v => fun w =>
    if (bhvsOf E v o).contains .fixedChildren then (.ok ((v.objs o).fixed.keys, none), w)
    else
      match (bhvsOf E v o).find? fun b => b.isStorage || b == .childFactory with
      | some .childFactory => (.ok ((clsOf E v o).factories.keys, none), w)
      | some _ =>
        match storageRef E o w with
        | (.ok r, w') => (.ok ((w'.stores r).keys, none), w')
        | (.error e, w') => (.error e, w')
      | none => (.error .notImpl, w)) fun v hv hn w hI hw => ?_
  simp only
  split
  · exact ⟨hI, Nat.le_refl _, fun _ _ => trivial⟩
  · split
    · exact ⟨hI, Nat.le_refl _, fun _ _ => trivial⟩
    · have := sep_storageRef (E := E) (ho.mono hn) w hI hw
      split
      · rename_i h; rw [h] at this; exact ⟨this.1, this.2.1, fun _ _ => trivial⟩
      · rename_i h; rw [h] at this; exact ⟨this.1, this.2.1, fun _ _ => trivial⟩
    · exact ⟨hI, Nat.le_refl _, fun _ _ => trivial⟩

theorem sep_iterPipe {n : Nat} {o : Oid} (ho : Good Γ n o) (bs : List Bhv) : Sep Γ n (iterPipe E bs o) tt := by
  induction bs with
  | nil => exact sep_iterEnd ho
  | cons b r ih =>
    cases b
    case alias =>
      refine sep_bind ih fun it n1 h1 _ => ?_
      exact sep_getW fun v _ _ => sep_pure fun _ _ => trivial
    all_goals exact ih

theorem sep_iter {n : Nat} {o : Oid} (ho : Good Γ n o) : Sep Γ n (iter E o) tt :=
  sep_self (f := fun w => iterPipe E (bhvsOf E w o) o) fun _ _ hn => sep_iterPipe (ho.mono hn) _

/-! ### Assignment -/

theorem sep_name {n : Nat} {o : Oid} (ho : Good Γ n o) {k : Key} :
    Sep Γ n (modO o fun ob => { ob with name := k }) tt :=
  sep_modO ho fun _ _ _ h => { h with }

theorem sep_parent {n : Nat} {o : Oid} (ho : Good Γ n o) {p : Option Oid} (hp : ∀ a, p = some a → Good Γ n a) :
    Sep Γ n (modO o fun ob => { ob with parent := p }) tt :=
  sep_modO ho fun _ _ hn h => { h with parent := fun a ha => (hp a ha).mono hn }

theorem sep_some {n : Nat} {p : Oid} (hp : Good Γ n p) : ∀ a, some p = some a → Good Γ n a := fun a ha => by
  injection ha with ha; subst ha; exact hp

theorem sep_nsPut {n : Nat} {o : Oid} (ho : Good Γ n o) {k : Key} {v : Val} (hv : GoodV Γ n v) :
    Sep Γ n (do
      let r ← nodespacesRef o
      M.modifyW fun w => { w with nspaces := upd w.nspaces r ((w.nspaces r).set k v) }) tt :=
  sep_bind (sep_nodespacesRef ho) fun r n1 h1 hr => sep_ns hr fun w hI hw hd => hd.set (by good)

theorem sep_nodespacesSet {n : Nat} {o : Oid} (ho : Good Γ n o) {k : Key} {v : Val} (hv : GoodV Γ n v)
    {next : Key → Val → M Unit} (hnx : Sep Γ n (next k v) tt) : Sep Γ n (nodespacesSet next o k v) tt := by
  unfold nodespacesSet
  split
  · split
    · split
      · rename_i c
        have hc := hv.node
        refine sep_bind (sep_name hc) fun _ n1 h1 _ => ?_
        refine sep_bind (sep_parent (by good) (sep_some (by good))) fun _ n2 h2 _ => ?_
        exact sep_nsPut (by good) (by good)
      · exact sep_nsPut ho hv
      · exact sep_nsPut ho hv
      · exact sep_raise
    · exact hnx
  · exact sep_raise

theorem sep_validateSet {n : Nat} {o : Oid} {k : Key} {v : Val} {next : Key → Val → M Unit}
    (hnx : Sep Γ n (next k v) tt) : Sep Γ n (validateSet E next o k v) tt :=
  sep_getW fun _ _ hn => sep_ite sep_raise (sep_ite sep_raise (sep_mono hnx hn))

theorem sep_adoptSet {n : Nat} {o : Oid} (ho : Good Γ n o) {k : Key} {v : Val} (hv : GoodV Γ n v)
    {next : Key → Val → M Unit} (hnx : Sep Γ n (next k v) tt) : Sep Γ n (adoptSet next o k v) tt := by
  unfold adoptSet
  split
  · exact hnx
  · rename_i c
    have hc := hv.node
    refine sep_bind (sep_getO hc) fun old n1 h1 hold => ?_
    refine sep_bind (sep_name (by good)) fun _ n2 h2 _ => ?_
    refine sep_bind (sep_parent (by good) (sep_some (by good))) fun _ n3 h3 _ => ?_
    refine sep_catch (sep_mono hnx (by omega)) fun e => ?_
    refine sep_bind (sep_name (by good)) fun _ n4 h4 _ => ?_
    refine sep_bind (sep_parent (by good) fun a ha => (hold.parent a ha).mono (by omega)) fun _ n5 h5 _ => ?_
    exact sep_raise

theorem sep_referenceCheck {n : Nat} {o c : Oid} (ho : Good Γ n o) (hc : Good Γ n c) :
    Sep Γ n (referenceCheck E o c) tt := by
  unfold referenceCheck
  refine sep_bind (sep_iter hc) fun it n1 h1 _ => ?_
  split
  · exact sep_pure fun _ _ => trivial
  · exact sep_raise
  · refine sep_bind (sep_indexRef (by good)) fun _ n2 h2 _ => ?_
    refine sep_bind (sep_indexRef (by good)) fun _ n3 h3 _ => ?_
    exact sep_getW fun _ _ _ => sep_ite sep_raise (sep_pure fun _ _ => trivial)

theorem sep_referenceMerge {n : Nat} {o c : Oid} (ho : Good Γ n o) (hc : Good Γ n c) :
    Sep Γ n (referenceMerge o c) tt := by
  intro w hI hn
  have hob := hI.refs o (ho.mono hn)
  have hcb := hI.refs c (hc.mono hn)
  unfold referenceMerge
  rw [M.bind_apply]
  cases hi : (w.objs o).index with
  | none =>
    simp only [indexRef, hi]
    exact ⟨hI, Nat.le_refl _, nofun⟩
  | some i =>
    cases hj : (w.objs c).index with
    | none =>
      simp only [indexRef, hi, M.bind_apply, hj]
      exact ⟨hI, Nat.le_refl _, nofun⟩
    | some j =>
      simp only [indexRef, hi, M.bind_apply, hj]
      have h1 := hI.setIdx (hob.index i hi) (d := Od.update (w.idxs i) (w.idxs j)) fun h =>
        (hI.ivals i (hob.index i hi) h).update (hI.ivals j (hcb.index j hj) (hI.iLt c j hj))
      exact ⟨h1.index (hc.mono hn) (hob.index i hi) (hI.iLt o i hi), Nat.le_refl _, fun _ _ => trivial⟩

theorem sep_referenceSet {n : Nat} {o : Oid} (ho : Good Γ n o) {k : Key} {v : Val} (hv : GoodV Γ n v)
    {next : Key → Val → M Unit} (hnx : Sep Γ n (next k v) tt) : Sep Γ n (referenceSet E next o k v) tt := by
  unfold referenceSet
  split
  · exact hnx
  · have hc := hv.node
    refine sep_bind (sep_referenceCheck ho hc) fun _ n1 h1 _ => ?_
    refine sep_bind (sep_referenceMerge (by good) (by good)) fun _ n2 h2 _ => ?_
    exact sep_mono hnx (by omega)

theorem sep_lifecycleSet {n : Nat} {o : Oid} (ho : Good Γ n o) {k : Key} {v : Val}
    {next : Key → Val → M Unit} (hnx : Sep Γ n (next k v) tt) : Sep Γ n (lifecycleSet next o k v) tt :=
  sep_bind hnx fun _ n1 h1 _ => sep_bind (sep_getO (by good)) fun _ _ _ _ =>
    sep_ite (sep_pure fun _ _ => trivial) sep_notify

theorem sep_notifyModified {n : Nat} {o : Oid} : Sep Γ n (notifyModified E o) tt := by
  refine sep_getW fun v _ _ => ?_
  split
  · exact sep_raise
  · exact sep_ite (sep_ite (sep_pure fun _ _ => trivial) sep_notify) sep_raise

theorem sep_cacheDrop {n : Nat} {o : Oid} (ho : Good Γ n o) {k : Key} : Sep Γ n (cacheDrop o k) tt :=
  sep_bind (sep_cacheRef ho) fun _ _ _ hr => sep_cache hr fun _ _ _ hd => hd.del _

theorem sep_setEnd {n : Nat} {o : Oid} (ho : Good Γ n o) {k : Key} {v : Val} (hv : GoodV Γ n v) :
    Sep Γ n (setEnd E o k v) tt := by
  refine sep_getW fun w _ hn => sep_ite sep_raise (sep_ite ?_ sep_raise)
  exact sep_bind (sep_storageRef (by good)) fun r n1 h1 hr => sep_store hr fun w hI hw hd => hd.set (by good)

theorem sep_setPipe {n : Nat} {o : Oid} (ho : Good Γ n o) {v : Val} (hv : GoodV Γ n v) (bs : List Bhv) (k : Key) :
    Sep Γ n (setPipe E bs o k v) tt := by
  induction bs generalizing k n with
  | nil => exact sep_setEnd ho hv
  | cons b r ih =>
    have base := ih ho hv k
    cases b
    case nodeChildValidate => exact sep_validateSet base
    case nodespaces => exact sep_nodespacesSet ho hv base
    case adopt => exact sep_adoptSet ho hv base
    case reference => exact sep_referenceSet ho hv base
    case lifecycle => exact sep_lifecycleSet ho base
    case attributesLifecycle => exact sep_bind base fun _ _ _ _ => sep_notifyModified
    case cache => exact sep_bind (sep_cacheDrop ho) fun _ _ _ _ => sep_mono base (by omega)
    case alias => exact sep_bind sep_unaliasKey fun u n1 h1 _ => sep_rekey (ih (by good) (by good) u)
    all_goals exact base

theorem sep_setitem {n : Nat} {o : Oid} (ho : Good Γ n o) {k : Key} {v : Val} (hv : GoodV Γ n v) :
    Sep Γ n (setitem E o k v) tt :=
  sep_self (f := fun w => setPipe E (bhvsOf E w o) o k v) fun _ _ hn => sep_setPipe (ho.mono hn) (hv.mono hn) _ k

/-! ### Constructors -/

theorem sep_setUuidRef {n : Nat} {o : Oid} (ho : Good Γ n o) {u : Option Nat} : Sep Γ n (setUuidRef o u) tt := by
  refine sep_bind (sep_indexRef ho) fun r n1 h1 hr => sep_getW fun _ _ _ => sep_ite sep_raise ?_
  refine sep_bind (sep_idx hr fun w hI hw hd => (hd.del _).set (by good)) fun _ n2 h2 _ => ?_
  exact sep_modO (by good) fun _ _ _ h => { h with }

theorem sep_newIndex {n : Nat} {o : Oid} (ho : Good Γ n o) {g : World → Od (Option Nat) Oid}
    (hg : ∀ w, Inv Γ w → n ≤ w.nobj → AllV (Good Γ w.nobj) (g w)) : Sep Γ n (M.modifyW fun w =>
    { w with
      objs := upd w.objs o { w.objs o with index := some w.nidx }
      idxs := upd w.idxs w.nidx (g w)
      nidx := w.nidx + 1 }) tt := by
  intro w hI hn
  exact ⟨(hI.newIdx (ho.mono hn) (hg w hI hn)).2, Nat.le_refl _, fun _ _ => trivial⟩

theorem sep_referenceInit {n : Nat} {o : Oid} (ho : Good Γ n o) : Sep Γ n (referenceInit o) tt := by
  refine sep_bind (sep_newIndex ho (g := fun _ => []) fun _ _ _ => nofun) fun _ n1 h1 _ => ?_
  refine sep_bind sep_freshUuid fun u n2 h2 _ => ?_
  exact sep_setUuidRef (by good)

theorem sep_initLoop {n : Nat} {o : Oid} (ho : Good Γ n o) {mk : ClassId → M Oid}
    (hmk : ∀ c n', n ≤ n' → Sep Γ n' (mk c) fun n' o => Good Γ n' o) (l : List (Key × ClassId)) :
    Sep Γ n (initPipe.loop mk o l) tt := by
  induction l generalizing n with
  | nil => exact sep_pure fun _ _ => trivial
  | cons a r ih =>
    obtain ⟨k, c⟩ := a
    refine sep_bind (hmk c n (Nat.le_refl _)) fun child n1 h1 hc => ?_
    refine sep_bind (sep_name (by good)) fun _ n2 h2 _ => ?_
    refine sep_bind (sep_parent (by good) (sep_some (by good))) fun _ n3 h3 _ => ?_
    refine sep_bind (sep_modO (by good) fun n' ob hn h => { h with fixed := h.fixed.set (by good) }) fun _ n4 h4 _ => ?_
    exact ih (by good) fun c n' hn' => hmk c n' (by omega)

theorem sep_initPipe {n : Nat} {o : Oid} (ho : Good Γ n o) {mk : ClassId → M Oid}
    (hmk : ∀ c n', n ≤ n' → Sep Γ n' (mk c) fun n' o => Good Γ n' o) {name : Key} {parent : Option Oid}
    (hp : ∀ a, parent = some a → Good Γ n a) (all bs : List Bhv) :
    Sep Γ n (initPipe E mk all bs o name parent) tt := by
  induction bs generalizing n with
  | nil =>
    simp only [initPipe]
    refine sep_ite ?_ (sep_pure fun _ _ => trivial)
    refine sep_bind (sep_name ho) fun _ n1 h1 _ => ?_
    exact sep_parent (by good) fun a ha => (hp a ha).mono (by omega)
  | cons b r ih =>
    have base := ih ho hmk hp
    cases b
    case reference =>
      exact sep_bind (sep_referenceInit ho) fun _ _ _ _ => sep_mono base (by omega)
    case lifecycle => exact sep_bind base fun _ _ _ _ => sep_notify
    case uuidAware =>
      refine sep_bind base fun _ n1 h1 _ => sep_bind sep_freshUuid fun u n2 h2 _ => ?_
      exact sep_ite (sep_setUuidRef (by good)) (sep_modO (by good) fun _ _ _ h => { h with })
    case fixedChildren =>
      refine sep_bind base fun _ n1 h1 _ => ?_
      refine sep_bind (sep_modO (by good) fun _ _ _ h => { h with fixed := nofun }) fun _ n2 h2 _ => ?_
      refine sep_getW fun v hv hn => ?_
      exact sep_initLoop (by good) (fun c n' hn' => hmk c n' (by omega)) _
    all_goals exact base

theorem sep_newNodeN {n : Nat} (d : Nat) {c : ClassId} {name : Key} {parent : Option Oid}
    (hp : ∀ a, parent = some a → Good Γ n a) : Sep Γ n (newNodeN E d c name parent) fun n' o => Good Γ n' o := by
  induction d generalizing n c name parent with
  | zero => exact sep_raise
  | succ d ih =>
    refine sep_bind sep_alloc fun o n1 h1 ho => ?_
    refine sep_bind (sep_initPipe ho (fun c n' hn' => ih (parent := none) nofun) (fun a ha => (hp a ha).mono h1) _ _) fun _ n2 h2 _ => ?_
    exact sep_pure fun n' hn' => by good

theorem sep_newNode {n : Nat} {c : ClassId} {name : Key} {parent : Option Oid}
    (hp : ∀ a, parent = some a → Good Γ n a) : Sep Γ n (newNode E c name parent) fun n' o => Good Γ n' o := by
  rcases newNode_cases E c name parent with e | e
  · rw [e]; exact sep_newNodeN _ hp
  · rw [e]; exact sep_raise

/-! ### Reading -/

theorem sep_lookup {n : Nat} {d : Od Key Val} (hd : AllV (GoodV Γ n) d) {k : Key} :
    Sep Γ n (M.ofExcept (lookup d k)) (GoodV Γ) :=
  sep_ofExcept fun a n' hn' ha => by
    unfold lookup at ha
    split at ha
    · rename_i v hv
      injection ha with ha
      subst ha
      exact (hd.get hv).mono hn'
    · cases ha

theorem sep_getEnd {n : Nat} {o : Oid} (ho : Good Γ n o) {k : Key} : Sep Γ n (getEnd E o k) (GoodV Γ) := by
  refine sep_getW fun v hv hn => sep_ite (sep_lookup (hv.refs o (by good)).fixed) (sep_ite ?_ sep_raise)
  exact sep_storageRead (by good) fun r v _ _ _ hd => sep_lookup hd

theorem sep_nodespacesGet {n : Nat} {o : Oid} (ho : Good Γ n o) {k : Key} {next : Key → M Val}
    (hnx : Sep Γ n (next k) (GoodV Γ)) : Sep Γ n (nodespacesGet next o k) (GoodV Γ) := by
  unfold nodespacesGet
  split
  · refine sep_ite ?_ hnx
    exact sep_nodespacesRead (by good) fun r v _ _ _ hd => sep_lookup hd
  · exact hnx

/-- What is written to the cache is what is read from it at once. -/
theorem cachePut_apply (r : Ref) (k : Key) (x : Val) (w : World) :
    ((do
      M.modifyW fun w => { w with caches := upd w.caches r ((w.caches r).set k x) }
      let w ← M.getW
      M.ofExcept (lookup (w.caches r) k) : M Val) w) =
      (.ok x, { w with caches := upd w.caches r ((w.caches r).set k x) }) := by
  have : lookup (upd w.caches r ((w.caches r).set k x) r) k = .ok x := by
    simp only [upd, lookup, Od.get?_set, ↓reduceIte]
  show (lookup (upd w.caches r ((w.caches r).set k x) r) k, _) = _
  rw [this]

theorem sep_cachePut {n : Nat} {r : Ref} (hr : ¬ Γ.QC r) {k : Key} {x : Val} (hx : GoodV Γ n x) :
    Sep Γ n (do
      M.modifyW fun w => { w with caches := upd w.caches r ((w.caches r).set k x) }
      let w ← M.getW
      M.ofExcept (lookup (w.caches r) k) : M Val) (GoodV Γ) := by
  intro w hI hn
  rw [cachePut_apply]
  exact ⟨hI.setCache hr fun h => (hI.cvals r hr h).set (hx.mono hn), Nat.le_refl _, fun a ha => by
    injection ha with ha; subst ha; exact hx.mono hn⟩

theorem sep_cacheGet {n : Nat} {o : Oid} (ho : Good Γ n o) {k : Key} {next : Key → M Val}
    (hnx : Sep Γ n (next k) (GoodV Γ)) : Sep Γ n (cacheGet next o k) (GoodV Γ) := by
  refine sep_cacheRead ho fun r v hr hv hn hd => ?_
  split
  · rename_i x hx
    exact sep_pure fun n' hn' => (hd.get hx).mono hn'
  · exact sep_bind (sep_mono hnx hn) fun x n2 h2 hx => sep_cachePut hr hx

theorem sep_childFactoryGet {n : Nat} {o : Oid} (ho : Good Γ n o) {k : Key} {next : Key → M Val}
    (hnx : Sep Γ n (next k) (GoodV Γ)) : Sep Γ n (childFactoryGet E next o k) (GoodV Γ) := by
  refine sep_catch hnx fun _ => sep_getW fun v hv hn => ?_
  split
  · exact sep_raise
  · refine sep_bind (sep_newNode nofun) fun child n1 h1 hc => ?_
    refine sep_bind (sep_setitem (by good) (by good)) fun _ n2 h2 _ => ?_
    exact sep_pure fun n' hn' => by good

theorem sep_getPipe {n : Nat} {o : Oid} (ho : Good Γ n o) {fb : Oid → Key → Exc → M Val}
    (hfb : ∀ k e n', n ≤ n' → Sep Γ n' (fb o k e) (GoodV Γ)) (bs : List Bhv) (k : Key) :
    Sep Γ n (getPipe E fb bs o k) (GoodV Γ) := by
  induction bs generalizing k n with
  | nil => exact sep_getEnd ho
  | cons b r ih =>
    have base := ih ho hfb k
    cases b
    case nodespaces => exact sep_nodespacesGet ho base
    case fallback => exact sep_catch base fun e => hfb k e n (Nat.le_refl _)
    case cache => exact sep_cacheGet ho base
    case alias =>
      exact sep_bind sep_unaliasKey fun u n1 h1 _ => sep_rekey (ih (by good) (fun k e n' hn' => hfb k e n' (by omega)) u)
    case childFactory => exact sep_childFactoryGet ho base
    all_goals exact base

theorem sep_fbGuard {n : Nat} {α : Type} {body : Int → M α} {post : Nat → α → Prop} (hb : ∀ c, Sep Γ n (body c) post) :
    Sep Γ n (fbGuard body) post := by
  intro w hI hn
  unfold fbGuard
  split
  · exact ⟨hI, Nat.le_refl _, nofun⟩
  · rename_i m hm
    have := hb (m + 1) { w with fb := some (m + 1) } { hI with } hn
    obtain ⟨h1, h2, h3⟩ := this
    exact ⟨{ h1 with }, h2, h3⟩

theorem sep_getitem0 {n : Nat} {o : Oid} (ho : Good Γ n o) {k : Key} : Sep Γ n (getitem0 E o k) (GoodV Γ) :=
  sep_self (f := fun w => getPipe E
    (fun _ _ e => fbGuard fun count => if count > 0 then M.raise e else M.raise .unmodelled)
    (bhvsOf E w o) o k) fun v _ hn =>
    sep_getPipe (ho.mono hn) (fun _ _ _ _ => sep_fbGuard fun _ => sep_ite sep_raise sep_raise) _ k

theorem sep_path {n : Nat} {o : Oid} : Sep Γ n (path o) tt := by
  intro w hI _
  unfold path
  split
  · exact ⟨hI, Nat.le_refl _, fun _ _ => trivial⟩
  · exact ⟨hI, Nat.le_refl _, nofun⟩

theorem sep_fbChild {n : Nat} {cur : Val} (hc : GoodV Γ n cur) {name : Key} :
    Sep Γ n (fbChild E cur name) fun n' r => ∀ v, r = some v → GoodV Γ n' v := by
  unfold fbChild
  split
  · refine sep_catch (sep_bind (sep_getitem0 hc.node) fun v n1 h1 hv => sep_pure fun n' hn' x hx => ?_)
      fun _ => sep_pure fun _ _ => nofun
    injection hx with hx
    subst hx
    exact hv.mono hn'
  · exact sep_raise
  · exact sep_raise

theorem sep_fbWalk {n : Nat} (l : List Key) {cur : Val} (hc : GoodV Γ n cur) :
    Sep Γ n (fbWalk E l cur) fun n' r => (∀ v, r = .inl v → GoodV Γ n' v) ∧ ∀ c, r = .inr c → Good Γ n' c := by
  induction l generalizing n cur with
  | nil => exact sep_pure fun n' hn' => ⟨fun v hv => by injection hv with hv; subst hv; exact hc.mono hn', nofun⟩
  | cons a r ih =>
    refine sep_bind (sep_fbChild hc) fun x n1 h1 hx => ?_
    split
    · exact ih (hx _ rfl)
    · rename_i c
      have hc := hc.node
      exact sep_pure fun n' hn' => ⟨nofun, fun x hx => by injection hx with hx; subst hx; good⟩
    · exact sep_raise

theorem sep_toRoot {n : Nat} (fuel : Nat) {node : Oid} (ho : Good Γ n node) {p : List Key} {vis : List Oid} :
    Sep Γ n (toRoot E fuel node p vis) fun n' r => ∀ v, r = some v → GoodV Γ n' v := by
  induction fuel generalizing n node vis with
  | zero => exact sep_raise
  | succ d ih =>
    refine sep_getW fun v hv hn => ?_
    split
    · exact sep_pure fun _ _ => nofun
    · rename_i parent hpar
      have hp : Good Γ v.nobj parent := (hv.refs node (by good)).parent _ hpar
      split
      · exact sep_ite (sep_bind (sep_getitem0 hp) fun _ _ _ _ => sep_raise) (ih hp)
      · refine sep_ite (ih hp) ?_
        refine sep_bind (sep_getitem0 hp) fun start n1 h1 hs => ?_
        split
        · exact sep_raise
        · have hs := hs.node
          refine sep_bind sep_path fun sp n2 h2 _ => ?_
          refine sep_bind (sep_fbWalk _ (by good)) fun res n3 h3 hres => ?_
          split
          · exact sep_pure fun n' hn' x hx => by injection hx with hx; subst hx; exact (hres.1 _ rfl).mono hn'
          · exact ih (hres.2 _ rfl)

theorem sep_fbHandler {n : Nat} {o : Oid} (ho : Good Γ n o) {k : Key} {e : Exc} :
    Sep Γ n (fbHandler E o k e) (GoodV Γ) := by
  refine sep_fbGuard fun _ => sep_ite sep_raise ?_
  refine sep_bind sep_path fun p n1 h1 _ => sep_getW fun v hv hn => ?_
  refine sep_bind (sep_toRoot _ (by good)) fun x n2 h2 hx => ?_
  split
  · exact sep_pure fun n' hn' => (hx _ rfl).mono hn'
  · exact sep_raise

theorem sep_getitem {n : Nat} {o : Oid} (ho : Good Γ n o) {k : Key} : Sep Γ n (getitem E o k) (GoodV Γ) :=
  sep_self (f := fun w => getPipe E (fbHandler E) (bhvsOf E w o) o k) fun v _ hn =>
    sep_getPipe (ho.mono hn) (fun _ _ _ hn' => sep_fbHandler (by good)) _ k

/-! ### Deleting -/

theorem sep_toDeleteLoop {n : Nat} {o : Oid} (ho : Good Γ n o) {rec : Oid → M (List Nat)}
    (hrec : ∀ c n', n ≤ n' → Good Γ n' c → Sep Γ n' (rec c) tt) (l : List Key) :
    Sep Γ n (toDeleteLoop E rec o l) tt := by
  induction l generalizing n with
  | nil => exact sep_pure fun _ _ => trivial
  | cons k r ih =>
    refine sep_bind (p := tt) (sep_catch ?_ fun _ => sep_pure fun _ _ => trivial) fun here n1 h1 _ =>
      sep_bind (ih (by good) fun c n' hn' => hrec c n' (by omega)) fun _ _ _ _ => sep_pure fun _ _ => trivial
    refine sep_bind (sep_getitem ho) fun v n2 h2 hv => ?_
    split
    · exact sep_raise
    · exact sep_getW fun w _ hn => sep_ite (hrec _ _ (by omega) (hv.node.mono hn)) sep_raise

theorem sep_toDelete {n : Nat} (fuel : Nat) {o : Oid} (ho : Good Γ n o) : Sep Γ n (toDelete E fuel o) tt := by
  induction fuel generalizing n o with
  | zero => exact sep_raise
  | succ d ih =>
    refine sep_bind (sep_getO ho) fun ob n1 h1 _ => ?_
    split
    · exact sep_raise
    · refine sep_bind (sep_iter (by good)) fun it n2 h2 _ => ?_
      refine sep_bind (sep_toDeleteLoop (by good) (fun c n' _ hc => ih hc) _) fun _ n3 h3 _ => ?_
      split
      · exact sep_raise
      · exact sep_pure fun _ _ => trivial

theorem sep_indexDelete {n : Nat} {o : Oid} (ho : Good Γ n o) (l : List Nat) : Sep Γ n (indexDelete o l) tt := by
  induction l generalizing n with
  | nil => exact sep_pure fun _ _ => trivial
  | cons u r ih =>
    refine sep_bind (sep_indexRef ho) fun i n1 h1 hi => sep_getW fun v _ hn => sep_ite ?_ sep_raise
    exact sep_bind (sep_idx hi fun w hI _ hd => hd.del _) fun _ n2 h2 _ => ih (by good)

theorem sep_referenceUnindex {n : Nat} {o : Oid} (ho : Good Γ n o) {v : Val} (hv : GoodV Γ n v) :
    Sep Γ n (referenceUnindex E o v) tt := by
  unfold referenceUnindex
  split
  · exact sep_pure fun _ _ => trivial
  · have hc := hv.node
    refine sep_getW fun w _ hn => sep_ite ?_ (sep_pure fun _ _ => trivial)
    exact sep_bind (sep_toDelete _ (by good)) fun us n1 h1 _ => sep_indexDelete (by good) us

theorem sep_referenceDel {n : Nat} {o : Oid} (ho : Good Γ n o) {k : Key} {next : Key → M Unit}
    (hnx : Sep Γ n (next k) tt) : Sep Γ n (referenceDel E next o k) tt :=
  sep_bind (sep_getitem ho) fun v n1 h1 hv => sep_bind (sep_referenceUnindex (by good) (by good)) fun _ n2 h2 _ =>
    sep_mono hnx (by omega)

theorem sep_nodespacesDel {n : Nat} {o : Oid} (ho : Good Γ n o) {k : Key} {next : Key → M Unit}
    (hnx : Sep Γ n (next k) tt) : Sep Γ n (nodespacesDel next o k) tt := by
  unfold nodespacesDel
  split
  · refine sep_ite ?_ hnx
    refine sep_bind (sep_nodespacesRef (by good)) fun r n1 h1 hr => sep_getW fun v hv hn => sep_ite ?_ sep_raise
    exact sep_ns hr fun w hI _ hd => hd.del _
  · exact sep_raise

theorem sep_lifecycleDel {n : Nat} {o : Oid} (ho : Good Γ n o) {k : Key} {next : Key → M Unit}
    (hnx : Sep Γ n (next k) tt) : Sep Γ n (lifecycleDel E next o k) tt :=
  sep_bind (sep_getitem ho) fun v n1 h1 hv => sep_bind (sep_mono hnx h1) fun _ n2 h2 _ =>
    sep_bind (sep_getO (by good)) fun _ _ _ _ => sep_ite (sep_pure fun _ _ => trivial) sep_notify

theorem sep_delEnd {n : Nat} {o : Oid} (ho : Good Γ n o) {k : Key} : Sep Γ n (delEnd E o k) tt := by
  refine sep_getW fun v hv hn => sep_ite sep_raise (sep_ite ?_ sep_raise)
  refine sep_bind (sep_storageRef (by good)) fun r n1 h1 hr => sep_getW fun v hv hn => sep_ite ?_ sep_raise
  exact sep_store hr fun w hI _ hd => hd.del _

theorem sep_delPipe {n : Nat} {o : Oid} (ho : Good Γ n o) (bs : List Bhv) (k : Key) :
    Sep Γ n (delPipe E bs o k) tt := by
  induction bs generalizing k n with
  | nil => exact sep_delEnd ho
  | cons b r ih =>
    have base := ih ho k
    cases b
    case nodespaces => exact sep_nodespacesDel ho base
    case reference => exact sep_referenceDel ho base
    case lifecycle => exact sep_lifecycleDel ho base
    case attributesLifecycle => exact sep_bind base fun _ _ _ _ => sep_notifyModified
    case cache => exact sep_bind (sep_cacheDrop ho) fun _ _ _ _ => sep_mono base (by omega)
    case alias => exact sep_bind sep_unaliasKey fun u n1 h1 _ => sep_rekey (ih (by good) u)
    all_goals exact base

theorem sep_delitem {n : Nat} {o : Oid} (ho : Good Γ n o) {k : Key} : Sep Γ n (delitem E o k) tt :=
  sep_self (f := fun w => delPipe E (bhvsOf E w o) o k) fun _ _ hn => sep_delPipe (ho.mono hn) _ k

end Verif
