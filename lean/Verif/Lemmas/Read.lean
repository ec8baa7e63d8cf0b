import Verif.Lemmas.Heap

/-! Reading is quiet: for every stack without `ChildFactory`. -/

namespace Verif

/-- No class of the program has child factories. -/
def NoFactory (E : Env) : Prop := ∀ c, Bhv.childFactory ∉ (E.cls c).bhvs

theorem pres_modifyW {R : World → World → Prop} {f : World → World} (h : ∀ w, R w (f w)) :
    Pres R (M.modifyW f) := h

theorem pres_of_id {R : World → World → Prop} (hR : PreR R) {α : Type} {m : M α}
    (h : ∀ w, (m w).2 = w) : Pres R m := by
  intro w; rw [h w]; exact hR.refl w

theorem iterEnd_quiet (E : Env) (o : Oid) : Pres Quiet (iterEnd E o) := by
  intro w
  unfold iterEnd
  dsimp only
  split
  · exact Quiet.refl w
  · split
    · exact Quiet.refl w
    · have := storageRef_quiet E o w
      split
      · rename_i h; rw [h] at this; exact this
      · rename_i h; rw [h] at this; exact this
    · exact Quiet.refl w

theorem iterPipe_quiet (E : Env) (bs : List Bhv) (o : Oid) : Pres Quiet (iterPipe E bs o) := by
  induction bs with
  | nil => exact iterEnd_quiet E o
  | cons b r ih =>
    cases b <;> first
      | exact ih
      | exact pres_bind quiet_pre ih fun _ => pres_bind quiet_pre (pres_getW quiet_pre) fun _ =>
          pres_pure quiet_pre _

theorem iter_quiet (E : Env) (o : Oid) : Pres Quiet (iter E o) := fun w =>
  iterPipe_quiet E _ o w

theorem fbGuard_quiet {α : Type} {body : Int → M α} (h : ∀ n, Pres Quiet (body n)) :
    Pres Quiet (fbGuard body) := by
  intro w
  unfold fbGuard
  split
  · exact Quiet.refl w
  · rename_i n _
    dsimp only
    exact ((setFb_quiet w _).trans (h _ _)).trans (setFb_quiet _ _)

theorem getEnd_quiet (E : Env) (o : Oid) (k : Key) : Pres Quiet (getEnd E o k) := by
  refine pres_bind quiet_pre (pres_getW quiet_pre) fun w => ?_
  refine pres_ite quiet_pre (pres_ofExcept quiet_pre _) ?_
  refine pres_ite quiet_pre ?_ (pres_raise quiet_pre _)
  exact pres_bind quiet_pre (storageRef_quiet E o) fun _ =>
    pres_bind quiet_pre (pres_getW quiet_pre) fun _ => pres_ofExcept quiet_pre _

theorem nodespacesGet_quiet {next : Key → M Val} (hn : ∀ k, Pres Quiet (next k)) (o : Oid)
    (k : Key) : Pres Quiet (nodespacesGet next o k) := by
  unfold nodespacesGet
  split
  · split
    · exact pres_bind quiet_pre (nodespacesRef_quiet o) fun _ =>
        pres_bind quiet_pre (pres_getW quiet_pre) fun _ => pres_ofExcept quiet_pre _
    · exact hn _
  · exact hn _

theorem cacheGet_quiet {next : Key → M Val} (hn : ∀ k, Pres Quiet (next k)) (o : Oid)
    (k : Key) : Pres Quiet (cacheGet next o k) := by
  refine pres_bind quiet_pre (cacheRef_quiet o) fun r => ?_
  refine pres_bind quiet_pre (pres_getW quiet_pre) fun w => ?_
  split
  · exact pres_pure quiet_pre _
  · refine pres_bind quiet_pre (hn k) fun v => ?_
    refine pres_bind quiet_pre (pres_modifyW fun w => setCache_quiet _ _ fun hw =>
      Od.nodup_keys_set (hw.cNd _) _ _) fun _ => ?_
    exact pres_bind quiet_pre (pres_getW quiet_pre) fun _ => pres_ofExcept quiet_pre _

theorem getPipe_quiet_of (E : Env) {fb : Oid → Key → Exc → M Val} (bs : List Bhv)
    (hfb : Bhv.fallback ∈ bs → ∀ o k e, Pres Quiet (fb o k e)) (hbs : Bhv.childFactory ∉ bs)
    (o : Oid) (k : Key) : Pres Quiet (getPipe E fb bs o k) := by
  induction bs generalizing k with
  | nil => exact getEnd_quiet E o k
  | cons b r ih =>
    have hr : Bhv.childFactory ∉ r := fun h => hbs (List.mem_cons_of_mem _ h)
    have ih' := fun k => ih (fun h => hfb (List.mem_cons_of_mem _ h)) hr k
    cases b
    case nodespaces => exact nodespacesGet_quiet ih' o k
    case fallback => exact pres_catchIf quiet_pre (ih' k) fun e => hfb List.mem_cons_self o k e
    case cache => exact cacheGet_quiet ih' o k
    case alias =>
      exact pres_bind quiet_pre (pres_of_id quiet_pre (unaliasKey_id E o k)) fun u =>
        pres_catchIf quiet_pre (ih' u) fun _ => pres_raise quiet_pre _
    case childFactory => exact absurd List.mem_cons_self hbs
    all_goals exact ih' k

theorem getPipe_quiet (E : Env) {fb : Oid → Key → Exc → M Val}
    (hfb : ∀ o k e, Pres Quiet (fb o k e)) (bs : List Bhv) (hbs : Bhv.childFactory ∉ bs)
    (o : Oid) (k : Key) : Pres Quiet (getPipe E fb bs o k) :=
  getPipe_quiet_of E bs (fun _ => hfb) hbs o k

theorem getitem0_quiet {E : Env} (hE : NoFactory E) (o : Oid) (k : Key) :
    Pres Quiet (getitem0 E o k) := fun w =>
  getPipe_quiet E (fun _ _ _ => fbGuard_quiet fun _ =>
    pres_ite quiet_pre (pres_raise quiet_pre _) (pres_raise quiet_pre _)) _ (hE _) o k w

theorem path_id (o : Oid) (w : World) : (path o w).2 = w := by
  unfold path; split <;> rfl

theorem fbChild_quiet {E : Env} (hE : NoFactory E) (v : Val) (k : Key) :
    Pres Quiet (fbChild E v k) := by
  unfold fbChild
  split
  · exact pres_catchIf quiet_pre (pres_bind quiet_pre (getitem0_quiet hE _ _) fun _ =>
      pres_pure quiet_pre _) fun _ => pres_pure quiet_pre _
  · exact pres_raise quiet_pre _
  · exact pres_raise quiet_pre _

theorem fbWalk_quiet {E : Env} (hE : NoFactory E) (p : List Key) (v : Val) :
    Pres Quiet (fbWalk E p v) := by
  induction p generalizing v with
  | nil => exact pres_pure quiet_pre _
  | cons k r ih =>
    refine pres_bind quiet_pre (fbChild_quiet hE v k) fun nxt => ?_
    split
    · exact ih _
    · exact pres_pure quiet_pre _
    · exact pres_raise quiet_pre _

theorem toRoot_quiet {E : Env} (hE : NoFactory E) (n : Nat) (o : Oid) (p : List Key)
    (vis : List Oid) : Pres Quiet (toRoot E n o p vis) := by
  induction n generalizing o vis with
  | zero => exact pres_raise quiet_pre _
  | succ n ih =>
    refine pres_bind quiet_pre (pres_getW quiet_pre) fun w => ?_
    split
    · exact pres_pure quiet_pre _
    · split
      · exact pres_ite quiet_pre (pres_bind quiet_pre (getitem0_quiet hE _ _) fun _ =>
          pres_raise quiet_pre _) (ih _ _)
      · split
        · exact ih _ _
        · refine pres_bind quiet_pre (getitem0_quiet hE _ _) fun start => ?_
          split
          · exact pres_raise quiet_pre _
          · refine pres_bind quiet_pre (pres_of_id quiet_pre (path_id _)) fun sp => ?_
            refine pres_bind quiet_pre (fbWalk_quiet hE _ _) fun res => ?_
            split
            · exact pres_pure quiet_pre _
            · exact ih _ _

theorem fbHandler_quiet {E : Env} (hE : NoFactory E) (o : Oid) (k : Key) (e : Exc) :
    Pres Quiet (fbHandler E o k e) := by
  refine fbGuard_quiet fun n => ?_
  refine pres_ite quiet_pre (pres_raise quiet_pre _) ?_
  refine pres_bind quiet_pre (pres_of_id quiet_pre (path_id _)) fun p => ?_
  refine pres_bind quiet_pre (pres_getW quiet_pre) fun w => ?_
  refine pres_bind quiet_pre (toRoot_quiet hE _ _ _ _) fun v => ?_
  split
  · exact pres_pure quiet_pre _
  · exact pres_raise quiet_pre _

/-- Item access is quiet. -/
theorem getitem_quiet {E : Env} (hE : NoFactory E) (o : Oid) (k : Key) :
    Pres Quiet (getitem E o k) := fun w =>
  getPipe_quiet E (fbHandler_quiet hE) _ (hE _) o k w

theorem mget_quiet {E : Env} (hE : NoFactory E) (o : Oid) (k : Key) (d : Val) :
    Pres Quiet (mget E o k d) :=
  pres_catchIf quiet_pre (getitem_quiet hE o k) fun _ => pres_pure quiet_pre _

theorem mcontains_quiet {E : Env} (hE : NoFactory E) (o : Oid) (k : Key) :
    Pres Quiet (mcontains E o k) :=
  pres_catchIf quiet_pre (pres_bind quiet_pre (getitem_quiet hE o k) fun _ =>
    pres_pure quiet_pre _) fun _ => pres_pure quiet_pre _

theorem mkeys_quiet (E : Env) (o : Oid) : Pres Quiet (mkeys E o) :=
  pres_bind quiet_pre (iter_quiet E o) fun _ =>
    pres_bind quiet_pre (pres_endIter quiet_pre _) fun _ => pres_pure quiet_pre _

theorem mvalues_quiet {E : Env} (hE : NoFactory E) (o : Oid) : Pres Quiet (mvalues E o) :=
  pres_bind quiet_pre (iter_quiet E o) fun _ =>
    pres_bind quiet_pre (pres_forM' quiet_pre (getitem_quiet hE o) _) fun _ =>
      pres_bind quiet_pre (pres_endIter quiet_pre _) fun _ => pres_pure quiet_pre _

theorem mitems_quiet {E : Env} (hE : NoFactory E) (o : Oid) : Pres Quiet (mitems E o) :=
  pres_bind quiet_pre (iter_quiet E o) fun _ =>
    pres_bind quiet_pre (pres_forM' quiet_pre (fun k => pres_bind quiet_pre
      (getitem_quiet hE o k) fun _ => pres_pure quiet_pre _) _) fun _ =>
      pres_bind quiet_pre (pres_endIter quiet_pre _) fun _ => pres_pure quiet_pre _

theorem mlen_quiet (E : Env) (o : Oid) : Pres Quiet (mlen E o) :=
  pres_bind quiet_pre (mkeys_quiet E o) fun _ => pres_pure quiet_pre _

end Verif
