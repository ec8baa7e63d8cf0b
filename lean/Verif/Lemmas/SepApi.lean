import Verif.Lemmas.SepItems
import Verif.Spec.Copy

/-! Separation for every operation and every history. -/

namespace Verif

variable {Γ : Prot} {E : Env} {n : Nat}

theorem sep_mkeys {o : Oid} (ho : Good Γ n o) : Sep Γ n (mkeys E o) tt :=
  sep_bind (sep_iter ho) fun _ _ _ _ => sep_bind sep_endIter fun _ _ _ _ => sep_pure fun _ _ => trivial

theorem sep_mvalues {o : Oid} (ho : Good Γ n o) :
    Sep Γ n (mvalues E o) fun n' vs => ∀ v ∈ vs, GoodV Γ n' v := by
  refine sep_bind (sep_iter ho) fun it n1 h1 _ => ?_
  refine sep_bind (sep_forM (p := GoodV Γ) (fun _ _ _ h hv => hv.mono h) _ fun k _ n' hn' =>
    sep_getitem (by good)) fun vs n2 h2 hvs => ?_
  exact sep_bind sep_endIter fun _ n3 h3 _ => sep_pure fun n' hn' v hv => (hvs v hv).mono (by omega)

theorem sep_mitems {o : Oid} (ho : Good Γ n o) :
    Sep Γ n (mitems E o) fun n' kvs => ∀ kv ∈ kvs, GoodV Γ n' kv.2 := by
  refine sep_bind (sep_iter ho) fun it n1 h1 _ => ?_
  refine sep_bind (sep_forM (p := fun n' (kv : Key × Val) => GoodV Γ n' kv.2) (fun _ _ _ h hv => hv.mono h) _
    fun k _ n' hn' => sep_bind (sep_getitem (by good)) fun v n2 h2 hv => sep_pure fun n3 h3 => hv.mono h3)
    fun vs n2 h2 hvs => ?_
  exact sep_bind sep_endIter fun _ n3 h3 _ => sep_pure fun n' hn' v hv => (hvs v hv).mono (by omega)

theorem sep_mclear {o : Oid} (ho : Good Γ n o) : Sep Γ n (mclear E o) tt :=
  sep_bind (sep_mkeys ho) fun _ _ _ _ => sep_forU _ fun _ _ _ _ => sep_delitem (by good)

theorem sep_mupdate {o : Oid} (ho : Good Γ n o) {kvs : List (Key × Val)} (hk : ∀ kv ∈ kvs, GoodV Γ n kv.2) :
    Sep Γ n (mupdate E o kvs) tt :=
  sep_forU _ fun kv hkv _ hn' => sep_setitem (by good) ((hk kv hkv).mono hn')

theorem sep_mget {o : Oid} (ho : Good Γ n o) {k : Key} {d : Val} (hd : GoodV Γ n d) :
    Sep Γ n (mget E o k d) (GoodV Γ) :=
  sep_catch (sep_getitem ho) fun _ => sep_pure fun _ hn => hd.mono hn

theorem sep_mcontains {o : Oid} (ho : Good Γ n o) {k : Key} : Sep Γ n (mcontains E o k) tt :=
  sep_catch (sep_bind (sep_getitem ho) fun _ _ _ _ => sep_pure fun _ _ => trivial) fun _ =>
    sep_pure fun _ _ => trivial

theorem sep_msetdefault {o : Oid} (ho : Good Γ n o) {k : Key} {v : Val} (hv : GoodV Γ n v) :
    Sep Γ n (msetdefault E o k v) (GoodV Γ) :=
  sep_catch (sep_getitem ho) fun _ => sep_bind (sep_setitem ho hv) fun _ _ h1 _ =>
    sep_pure fun _ hn => hv.mono (Nat.le_trans h1 hn)

theorem sep_detachEnd {o : Oid} (ho : Good Γ n o) {k : Key} : Sep Γ n (detachEnd E o k) (GoodV Γ) :=
  sep_bind (sep_getitem ho) fun _ _ h1 hv => sep_bind (sep_delitem (by good)) fun _ _ h2 _ =>
    sep_pure fun _ hn => hv.mono (Nat.le_trans h2 hn)

theorem sep_mpop {o : Oid} (ho : Good Γ n o) {k : Key} {d : Option Val} (hd : ∀ v, d = some v → GoodV Γ n v) :
    Sep Γ n (mpop E o k d) (GoodV Γ) := by
  refine sep_catch (sep_detachEnd ho) fun e => ?_
  split
  · exact sep_raise
  · exact sep_pure fun _ hn => (hd _ rfl).mono hn

theorem sep_mpopitem {o : Oid} (ho : Good Γ n o) : Sep Γ n (mpopitem E o) fun n' kv => GoodV Γ n' kv.2 := by
  refine sep_bind (sep_mkeys ho) fun ks n1 h1 _ => ?_
  split
  · exact sep_raise
  · exact sep_bind (sep_getitem (by good)) fun v n2 h2 hv => sep_bind (sep_delitem (by good)) fun _ n3 h3 _ =>
      sep_pure fun _ hn => hv.mono (Nat.le_trans h3 hn)

theorem sep_indexNodesStep {o : Oid} (ho : Good Γ n o) {rec : Oid → M Unit}
    (hrec : ∀ c n', n ≤ n' → Good Γ n' c → Sep Γ n' (rec c) tt) {v : Val} (hv : GoodV Γ n v) :
    Sep Γ n (indexNodesStep E rec o v) tt := by
  unfold indexNodesStep
  split
  · exact sep_pure fun _ _ => trivial
  · rename_i c
    have hc := hv.node
    refine sep_getW fun w hw hn => sep_ite ?_ (sep_pure fun _ _ => trivial)
    split
    · exact sep_raise
    · exact sep_indexShare (by good) (by good) (fun i w hI hw hd => hd.set (by good)) fun n' hn' =>
        sep_ite (hrec c n' (by omega) (by good)) sep_raise

theorem sep_indexNodes (fuel : Nat) {o : Oid} (ho : Good Γ n o) : Sep Γ n (indexNodes E fuel o) tt := by
  induction fuel generalizing n o with
  | zero => exact sep_raise
  | succ d ih =>
    exact sep_bind (sep_mvalues ho) fun vs n1 h1 hvs => sep_forU _ fun v hv n' hn' =>
      sep_indexNodesStep (by good) (fun c _ _ hc => ih hc) ((hvs v hv).mono hn')

theorem sep_referenceDetach {v : Val} (hv : GoodV Γ n v) : Sep Γ n (referenceDetach E v) tt := by
  unfold referenceDetach
  split
  · exact sep_raise
  · rename_i c
    have hc := hv.node
    refine sep_getW fun w hw hn => sep_ite ?_ sep_raise
    split
    · exact sep_raise
    · rename_i u _
      refine sep_bind (sep_newIndex (by good) (g := fun _ => [(some u, c)]) fun w hI hw kv hkv => ?_) fun _ n1 h1 _ => ?_
      · rw [List.mem_singleton] at hkv
        subst hkv
        exact hc.mono (by omega)
      · exact sep_ite (sep_indexNodes _ (by good)) sep_raise

theorem sep_detachPipe {o : Oid} (ho : Good Γ n o) (bs : List Bhv) {k : Key} :
    Sep Γ n (detachPipe E bs o k) (GoodV Γ) := by
  induction bs generalizing n with
  | nil => exact sep_detachEnd ho
  | cons b r ih =>
    have base := ih ho
    cases b
    case reference =>
      exact sep_bind base fun v n1 h1 hv => sep_bind (sep_referenceDetach hv) fun _ n2 h2 _ =>
        sep_pure fun _ hn => hv.mono (Nat.le_trans h2 hn)
    case lifecycle =>
      refine sep_bind (sep_modO ho fun _ _ _ h => { h with }) fun _ n1 h1 _ => ?_
      refine sep_bind (ih (by good)) fun v n2 h2 hv => ?_
      refine sep_bind (sep_modO (by good) fun _ _ _ h => { h with }) fun _ n3 h3 _ => ?_
      exact sep_bind sep_notify fun _ n4 h4 _ => sep_pure fun _ hn => hv.mono (by omega)
    all_goals exact base

theorem sep_detach {o : Oid} (ho : Good Γ n o) {k : Key} : Sep Γ n (detach E o k) (GoodV Γ) :=
  sep_self (f := fun w => detachPipe E (bhvsOf E w o) o k) fun _ _ hn => sep_detachPipe (ho.mono hn) _

theorem sep_invalidateDel {o : Oid} (ho : Good Γ n o) {k : Key} : Sep Γ n (invalidateDel E o k) tt :=
  sep_ite (sep_mclear ho) (sep_delitem ho)

theorem sep_invalidateVolatile {o : Oid} (ho : Good Γ n o) {k : Key} : Sep Γ n (invalidateVolatile E o k) tt := by
  refine sep_bind (sep_storageRef ho) fun r n1 h1 hr => sep_ite (sep_store hr fun _ _ _ _ => nofun) ?_
  refine sep_bind (sep_mkeys (by good)) fun ks n2 h2 _ => sep_ite ?_ sep_raise
  exact sep_store hr fun w hI _ hd => hd.del _

theorem sep_invalidatePipe {o : Oid} (ho : Good Γ n o) (all bs : List Bhv) {k : Key} :
    Sep Γ n (invalidatePipe E all bs o k) tt := by
  induction bs generalizing n k with
  | nil =>
    simp only [invalidatePipe]
    split
    · exact sep_invalidateDel ho
    · exact sep_invalidateVolatile ho
    · exact sep_raise
  | cons b r ih =>
    have base := ih (k := k) ho
    cases b
    case cache =>
      simp only [invalidatePipe]
      refine sep_ite ?_ (sep_bind (sep_cacheDrop ho) fun _ _ _ _ => sep_mono base (by omega))
      refine sep_bind (sep_cacheRef ho) fun c n1 h1 hc => sep_getW fun w hw hn => ?_
      exact sep_bind (sep_cache hc fun _ _ _ _ => nofun) fun _ n2 h2 _ => ih (by good)
    all_goals exact base

theorem sep_invalidate {o : Oid} (ho : Good Γ n o) {k : Key} : Sep Γ n (invalidate E o k) tt :=
  sep_self (f := fun w => invalidatePipe E (bhvsOf E w o) (bhvsOf E w o) o k) fun _ _ hn =>
    sep_invalidatePipe (ho.mono hn) _ _

theorem sep_validateInsertion {o m : Oid} (ho : Good Γ n o) : Sep Γ n (validateInsertion E o m) tt := by
  refine sep_getW fun w hw hn => sep_ite sep_raise (sep_ite (sep_ite ?_ sep_raise)
    (sep_ite sep_raise (sep_pure fun _ _ => trivial)))
  split
  · exact sep_raise
  · exact sep_bind (sep_indexRef (by good)) fun _ _ _ _ => sep_ite sep_raise (sep_pure fun _ _ => trivial)

theorem sep_storageInsert {before : Bool} {o : Oid} (ho : Good Γ n o) {ref new : Key} {v : Val} (hv : GoodV Γ n v) :
    Sep Γ n (storageInsert E before o ref new v) tt := by
  refine sep_bind (sep_storageRef ho) fun r n1 h1 hr => sep_getW fun w hw hn => ?_
  refine sep_ite (sep_ite (sep_ite sep_raise ?_) sep_raise) sep_raise
  refine sep_store hr fun w hI hw hd => ?_
  split
  · exact hd.insertBefore (by good)
  · exact hd.insertAfter (by good)

theorem sep_insertAt {before : Bool} {o m ref : Oid} (ho : Good Γ n o) (hm : Good Γ n m) :
    Sep Γ n (insertAt E before o m ref) tt := by
  refine sep_bind (sep_validateInsertion ho) fun _ n1 h1 _ => sep_getW fun w hw hn => ?_
  refine sep_bind (sep_storageInsert (by good) (by good)) fun _ n2 h2 _ => ?_
  exact sep_setitem (by good) (by good)

theorem sep_insertEnd {first : Bool} {o m : Oid} (ho : Good Γ n o) (hm : Good Γ n m) :
    Sep Γ n (insertEnd E first o m) tt := by
  refine sep_bind (sep_mkeys ho) fun ks n1 h1 _ => ?_
  split
  · exact sep_getW fun w hw hn => sep_setitem (by good) (by good)
  · refine sep_bind (sep_getitem (by good)) fun v n2 h2 hv => ?_
    split
    · exact sep_insertAt (by good) (by good)
    · exact sep_bind (sep_validateInsertion (by good)) fun _ _ _ _ => sep_raise

theorem sep_swapNodes {o a b : Oid} (ho : Good Γ n o) : Sep Γ n (swapNodes E o a b) tt := by
  refine sep_bind (sep_storageRef ho) fun r n1 h1 hr => sep_getW fun w hw hn => ?_
  refine sep_ite (sep_ite sep_raise (sep_ite (sep_ite ?_ sep_raise) sep_raise)) sep_raise
  exact sep_store hr fun w hI hw hd => hd.swap _ _

theorem sep_attrs {o : Oid} (ho : Good Γ n o) : Sep Γ n (attrs E o) (Good Γ) := by
  refine sep_getW fun w hw hn => sep_ite ?_ sep_raise
  refine sep_nodespacesRead (by good) fun r w hr hw hn hd => ?_
  split
  · rename_i a ha
    exact sep_pure fun n' hn' => (hd.get ha).node.mono hn'
  · exact sep_raise
  · refine sep_bind (sep_newNode (sep_some (by good))) fun a n2 h2 ha => ?_
    refine sep_bind (sep_ns hr fun w hI hw hd => hd.set (by good)) fun _ n3 h3 _ => ?_
    exact sep_pure fun n' hn' => by good

/-! ### Histories -/

/-- Operations given what is not protected give back what is not protected, and change nothing that is
protected. -/
theorem sep_exec (op : Op) (h : ∀ v ∈ op.vals, GoodV Γ n v) :
    Sep Γ n (exec E op) fun n' r => ∀ v ∈ r.outs, GoodV Γ n' v := by
  have no : ∀ n', ∀ v ∈ Res.outs .unit, GoodV Γ n' v := fun _ _ h => nomatch h
  have one : ∀ {n' v}, GoodV Γ n' v → ∀ x ∈ [v], GoodV Γ n' x := fun hv x hx => by
    rw [List.mem_singleton] at hx; subst hx; exact hv
  cases op
  case new c name parent =>
    refine sep_bind (sep_newNode (parent := parent) fun a ha => ?_) fun o n1 h1 ho =>
      sep_pure fun n' hn' => one (ho.mono hn').val
    subst ha
    exact (h (.node a) (by simp [Op.vals])).node
  case get o k =>
    exact sep_bind (sep_getitem (h _ List.mem_cons_self).node) fun v _ _ hv =>
      sep_pure fun _ hn => one (hv.mono hn)
  case set o k v =>
    exact sep_bind (sep_setitem (h _ List.mem_cons_self).node (h v (by simp [Op.vals]))) fun _ _ _ _ =>
      sep_pure fun _ _ => no _
  case del o k =>
    exact sep_bind (sep_delitem (h _ List.mem_cons_self).node) fun _ _ _ _ => sep_pure fun _ _ => no _
  case getD o k d =>
    exact sep_bind (sep_mget (h _ List.mem_cons_self).node (h d (by simp [Op.vals]))) fun v _ _ hv =>
      sep_pure fun _ hn => one (hv.mono hn)
  case contains o k =>
    exact sep_bind (sep_mcontains (h _ List.mem_cons_self).node) fun _ _ _ _ => sep_pure fun _ _ _ h => nomatch h
  case keys o =>
    exact sep_bind (sep_mkeys (h _ List.mem_cons_self).node) fun _ _ _ _ => sep_pure fun _ _ _ h => nomatch h
  case values o =>
    exact sep_bind (sep_mvalues (h _ List.mem_cons_self).node) fun vs _ _ hvs =>
      sep_pure fun _ hn v hv => (hvs v hv).mono hn
  case items o =>
    refine sep_bind (sep_mitems (h _ List.mem_cons_self).node) fun vs _ _ hvs =>
      sep_pure fun _ hn v hv => ?_
    obtain ⟨kv, hkv, rfl⟩ := List.mem_map.mp hv
    exact (hvs kv hkv).mono hn
  case len o =>
    exact sep_bind (sep_bind (p := tt) (post := tt) (sep_mkeys (h _ List.mem_cons_self).node) fun _ _ _ _ =>
      sep_pure fun _ _ => trivial) fun _ _ _ _ => sep_pure fun _ _ _ h => nomatch h
  case setdefault o k v =>
    exact sep_bind (sep_msetdefault (h _ List.mem_cons_self).node (h v (by simp [Op.vals]))) fun v _ _ hv =>
      sep_pure fun _ hn => one (hv.mono hn)
  case pop o k d =>
    refine sep_bind (sep_mpop (d := d) (h _ List.mem_cons_self).node fun v hv => ?_) fun v _ _ hv =>
      sep_pure fun _ hn => one (hv.mono hn)
    subst hv
    exact h v (by simp [Op.vals])
  case popitem o =>
    exact sep_bind (sep_mpopitem (h _ List.mem_cons_self).node) fun v _ _ hv =>
      sep_pure fun _ hn => one (hv.mono hn)
  case update o kvs =>
    exact sep_bind (sep_mupdate (h _ List.mem_cons_self).node fun kv hkv =>
      h kv.2 (List.mem_cons_of_mem _ (List.mem_map.mpr ⟨kv, hkv, rfl⟩))) fun _ _ _ _ => sep_pure fun _ _ => no _
  case clear o =>
    exact sep_bind (sep_mclear (h _ List.mem_cons_self).node) fun _ _ _ _ => sep_pure fun _ _ => no _
  case detach o k =>
    exact sep_bind (sep_detach (h _ List.mem_cons_self).node) fun v _ _ hv =>
      sep_pure fun _ hn => one (hv.mono hn)
  case invalidate o k =>
    exact sep_bind (sep_invalidate (h _ List.mem_cons_self).node) fun _ _ _ _ => sep_pure fun _ _ => no _
  case insertBefore o a b =>
    exact sep_bind (sep_insertAt (h _ List.mem_cons_self).node (h (.node a) (by simp [Op.vals])).node)
      fun _ _ _ _ => sep_pure fun _ _ => no _
  case insertAfter o a b =>
    exact sep_bind (sep_insertAt (h _ List.mem_cons_self).node (h (.node a) (by simp [Op.vals])).node)
      fun _ _ _ _ => sep_pure fun _ _ => no _
  case insertFirst o a =>
    exact sep_bind (sep_insertEnd (h _ List.mem_cons_self).node (h (.node a) (by simp [Op.vals])).node)
      fun _ _ _ _ => sep_pure fun _ _ => no _
  case insertLast o a =>
    exact sep_bind (sep_insertEnd (h _ List.mem_cons_self).node (h (.node a) (by simp [Op.vals])).node)
      fun _ _ _ _ => sep_pure fun _ _ => no _
  case swap o a b =>
    exact sep_bind (sep_swapNodes (h _ List.mem_cons_self).node) fun _ _ _ _ => sep_pure fun _ _ => no _
  case attrs o =>
    exact sep_bind (sep_attrs (h _ List.mem_cons_self).node) fun a _ _ ha =>
      sep_pure fun _ hn => one (ha.mono hn).val
  case setUuid o u =>
    exact sep_bind (sep_setUuidRef (h _ List.mem_cons_self).node) fun _ _ _ _ => sep_pure fun _ _ => no _
  case setFallbackKey o k =>
    exact sep_bind (sep_modO (h _ List.mem_cons_self).node fun _ _ _ h => { h with }) fun _ _ _ _ =>
      sep_pure fun _ _ => no _

/-- The same for histories. -/
theorem Inv.execAll {ops : List Op} {w : World} (hI : Inv Γ w) (hu : Uses E (fun c => ¬ Γ.Q c) ops w) :
    Inv Γ (execAll E ops w).2 := by
  induction ops generalizing w with
  | nil => exact hI
  | cons op r ih =>
    refine ih (sep_exec op (n := w.nobj) (fun v hv c hc => ?_) w hI (Nat.le_refl _)).1 hu.2
    subst hc
    exact ⟨(hu.1 c hv).2, (hu.1 c hv).1⟩

/-- What is not protected never yields what is protected. -/
theorem Inv.handles {ops : List Op} {w : World} {K : List Oid} (hI : Inv Γ w) (hK : ∀ c ∈ K, Good Γ w.nobj c)
    (hh : Handles E K ops w) : Uses E (fun c => ¬ Γ.Q c) ops w := by
  induction ops generalizing w K with
  | nil => trivial
  | cons op r ih =>
    have hs := sep_exec op (E := E) (n := w.nobj)
      (fun v hv c hc => by subst hc; exact hK c (hh.1 c hv)) w hI (Nat.le_refl _)
    refine ⟨fun c hc => ⟨(hK c (hh.1 c hc)).2, (hK c (hh.1 c hc)).1⟩, ih hs.1 (fun c hc => ?_) hh.2⟩
    rcases List.mem_append.mp hc with h | h
    · exact (hK c h).mono hs.2.1
    · cases hr : (exec E op w).1 with
      | error e => rw [hr] at h; cases h
      | ok a =>
        rw [hr] at h
        obtain ⟨v, hv, hvc⟩ := List.mem_filterMap.mp h
        cases v with
        | data d => cases hvc
        | node x =>
          injection hvc with hvc
          subst hvc
          exact (hs.2.2 a hr _ hv).node

end Verif
