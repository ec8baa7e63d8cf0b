import Verif.Spec.Uncached
import Verif.Lemmas.ApiGeneric
import Verif.Lemmas.OdOrder
import Verif.Lemmas.NewNode

/-!
Running a computation on a heap with caches and its counterpart on the heap without them.
-/

namespace Verif

/-! ### Computations that do not look at caches -/

/-- `m'` does without caches what `m` does with them. -/
def Eqv {α : Type} (m m' : M α) : Prop := ∀ w : World, m' w.uncache = ((m w).1, (m w).2.uncache)

section
variable {α β : Type}

theorem eqv_pure (a : α) : Eqv (pure a : M α) (pure a) := fun _ => rfl

theorem eqv_raise (e : Exc) : Eqv (M.raise e : M α) (M.raise e) := fun _ => rfl

theorem eqv_ofExcept (x : Except Exc α) : Eqv (M.ofExcept x) (M.ofExcept x) := fun _ => rfl

theorem eqv_bind {m m' : M α} {f f' : α → M β} (hm : Eqv m m') (hf : ∀ a, Eqv (f a) (f' a)) :
    Eqv (m >>= f) (m' >>= f') := fun w => by
  simp only [M.bind_apply, hm w]
  rcases m w with ⟨_ | a, w1⟩
  · rfl
  · exact hf a w1

theorem eqv_catchIf {m m' : M α} {p : Exc → Bool} {h h' : Exc → M α} (hm : Eqv m m')
    (hh : ∀ e, Eqv (h e) (h' e)) : Eqv (M.catchIf p m h) (M.catchIf p m' h') := fun w => by
  simp only [M.catchIf_apply, hm w]
  rcases m w with ⟨e | a, w1⟩
  · simp only
    split
    · exact hh e w1
    · rfl
  · rfl

theorem eqv_getW {f f' : World → M β} (hf : ∀ w, Eqv (f w) (f' w.uncache)) :
    Eqv (M.getW >>= f) (M.getW >>= f') := fun w => hf w w

theorem eqv_getO {o : Oid} {f f' : Obj → M β} (hf : ∀ ob, Eqv (f ob) (f' { ob with cache := none })) :
    Eqv (getO o >>= f) (getO o >>= f') := fun w => hf (w.objs o) w

theorem eqv_ite {c : Prop} [Decidable c] {a a' b b' : M α} (h : Eqv a a') (h' : Eqv b b') :
    Eqv (if c then a else b) (if c then a' else b') := by split <;> assumption

theorem eqv_modifyW {f f' : World → World} (h : ∀ w, f' w.uncache = (f w).uncache) :
    Eqv (M.modifyW f) (M.modifyW f') := fun w => by simp only [M.modifyW_apply, h w]

/-- Throwing the caches away after a write to one object. -/
theorem uncache_upd (f : Oid → Obj) (o : Oid) (x : Obj) :
    (fun p => { upd f o x p with cache := none }) =
      upd (fun p => { f p with cache := none }) o { x with cache := none } := by
  funext p
  unfold upd
  split <;> rfl

theorem eqv_modO (o : Oid) {f : Obj → Obj}
    (h : ∀ ob, f { ob with cache := none } = { f ob with cache := none }) :
    Eqv (modO o f) (modO o f) := eqv_modifyW fun w => by
  simp only [World.uncache, uncache_upd, h]

theorem eqv_endIter (e : Option Exc) : Eqv (endIter e) (endIter e) := by
  cases e
  · exact eqv_pure _
  · exact eqv_raise _

theorem eqv_forU {f f' : α → M Unit} (h : ∀ a, Eqv (f a) (f' a)) (l : List α) :
    Eqv (forU f l) (forU f' l) := by
  induction l with
  | nil => exact eqv_pure _
  | cons a t ih => exact eqv_bind (h a) fun _ => ih

end

/-! ### Classes without their cache -/

/-- Behaviors without `Cache`. -/
def unc (l : List Bhv) : List Bhv := l.filter fun b => b ≠ .cache

theorem bhvsOf_uncached (E : Env) (w : World) (o : Oid) :
    bhvsOf E.uncached w.uncache o = unc (bhvsOf E w o) := rfl

theorem unc_cons {b : Bhv} (h : b ≠ .cache) (l : List Bhv) : unc (b :: l) = b :: unc l := by
  simp [unc, h]

theorem unc_cache (l : List Bhv) : unc (.cache :: l) = unc l := by simp [unc]

theorem find_unc {p : Bhv → Bool} (hp : p .cache = false) (l : List Bhv) :
    (unc l).find? p = l.find? p := by
  induction l with
  | nil => rfl
  | cons b r ih =>
    by_cases h : b = .cache
    · subst h; rw [unc_cache, ih, List.find?_cons, hp]
    · rw [unc_cons h, List.find?_cons, List.find?_cons, ih]

theorem any_unc {p : Bhv → Bool} (hp : p .cache = false) (l : List Bhv) : (unc l).any p = l.any p := by
  induction l with
  | nil => rfl
  | cons b r ih =>
    by_cases h : b = .cache
    · subst h; rw [unc_cache, ih, List.any_cons, hp, Bool.false_or]
    · rw [unc_cons h, List.any_cons, List.any_cons, ih]

theorem contains_unc {b : Bhv} (hb : b ≠ .cache) (l : List Bhv) : (unc l).contains b = l.contains b := by
  rw [Bool.eq_iff_iff, List.contains_iff_mem, List.contains_iff_mem]
  simp [unc, hb]

theorem storageKind_unc (l : List Bhv) : storageKind (unc l) = storageKind l := find_unc rfl l

theorem bhvs_uncached (E : Env) (c : ClassId) : (E.uncached.cls c).bhvs = unc (E.cls c).bhvs := rfl

/-! ### The lazily created dictionaries -/

theorem eqv_storageRef (E : Env) (o : Oid) : Eqv (storageRef E o) (storageRef E.uncached o) := by
  intro w
  unfold storageRef
  rw [bhvsOf_uncached, storageKind_unc]
  cases h : storageKind (bhvsOf E w o) with
  | none => rfl
  | some b =>
    cases b
    case storage => rfl
    all_goals
      dsimp only
      cases hs : (w.objs o).storage with
      | some r => simp only [World.uncache, hs]
      | none => simp only [World.uncache, hs, uncache_upd]

theorem eqv_nodespacesRef (o : Oid) : Eqv (nodespacesRef o) (nodespacesRef o) := by
  intro w
  unfold nodespacesRef
  cases hs : (w.objs o).nodespaces with
  | some r => simp only [World.uncache, hs]
  | none => simp only [World.uncache, hs, uncache_upd]

theorem eqv_indexRef (o : Oid) : Eqv (indexRef o) (indexRef o) := by
  intro w
  unfold indexRef
  cases hs : (w.objs o).index with
  | some r => simp only [World.uncache, hs]
  | none => simp only [World.uncache, hs]

theorem children_uncache (w : World) : w.uncache.children = w.children := rfl

theorem eqv_notify (e : Event) : Eqv (notify e) (notify e) := eqv_modifyW fun _ => rfl

theorem eqv_unaliasKey (E : Env) (o : Oid) (k : Key) :
    Eqv (unaliasKey E o k) (unaliasKey E.uncached o k) := by
  intro w
  unfold unaliasKey
  show (match (clsOf E w o).aliaser with
    | none => _
    | some a => _) = _
  cases (clsOf E w o).aliaser with
  | none => rfl
  | some a => dsimp only; split <;> rfl

/-! ### Iteration -/

theorem eqv_iterEnd (E : Env) (o : Oid) : Eqv (iterEnd E o) (iterEnd E.uncached o) := by
  intro w
  have hs := eqv_storageRef E o w
  have h1 : (bhvsOf E.uncached w.uncache o).contains .fixedChildren =
    (bhvsOf E w o).contains .fixedChildren := contains_unc (by decide) _
  have h2 : (bhvsOf E.uncached w.uncache o).find? (fun b => b.isStorage || b == .childFactory) =
    (bhvsOf E w o).find? fun b => b.isStorage || b == .childFactory := find_unc rfl _
  unfold iterEnd
  simp only [h1, h2, hs]
  split
  · rfl
  · split
    · rfl
    · rcases storageRef E o w with ⟨_ | _, w1⟩ <;> rfl
    · rfl

theorem eqv_iterPipe (E : Env) (l : List Bhv) (o : Oid) :
    Eqv (iterPipe E l o) (iterPipe E.uncached (unc l) o) := by
  induction l with
  | nil => exact eqv_iterEnd E o
  | cons b r ih =>
    by_cases h : b = .cache
    · subst h; rw [unc_cache]; exact ih
    · rw [unc_cons h]
      cases b
      case alias => exact eqv_bind ih fun _ => eqv_getW fun _ => eqv_pure _
      case cache => exact absurd rfl h
      all_goals exact ih

theorem eqv_iter (E : Env) (o : Oid) : Eqv (iter E o) (iter E.uncached o) := fun w =>
  eqv_iterPipe E (bhvsOf E w o) o w

theorem eqv_mkeys (E : Env) (o : Oid) : Eqv (mkeys E o) (mkeys E.uncached o) :=
  eqv_bind (eqv_iter E o) fun _ => eqv_bind (eqv_endIter _) fun _ => eqv_pure _

/-! ### The reference index -/

theorem eqv_setIdxs (r : Ref) {f : World → Od (Option Nat) Oid} (h : ∀ w, f w.uncache = f w) :
    Eqv (M.modifyW fun w => { w with idxs := upd w.idxs r (f w) })
      (M.modifyW fun w => { w with idxs := upd w.idxs r (f w) }) :=
  eqv_modifyW fun w => by rw [h]; rfl

theorem eqv_referenceCheck (E : Env) (o c : Oid) :
    Eqv (referenceCheck E o c) (referenceCheck E.uncached o c) := by
  refine eqv_bind (eqv_iter E c) fun it => ?_
  rcases it with ⟨_ | ⟨_, _⟩, _ | _⟩
  · exact eqv_pure _
  · exact eqv_raise _
  all_goals
    exact eqv_bind (eqv_indexRef o) fun _ => eqv_bind (eqv_indexRef c) fun _ => eqv_getW fun w =>
      eqv_ite (c := (_ : Bool) = true) (eqv_raise _) (eqv_pure _)

theorem eqv_referenceMerge (o c : Oid) : Eqv (referenceMerge o c) (referenceMerge o c) :=
  eqv_bind (eqv_indexRef o) fun si => eqv_bind (eqv_indexRef c) fun vi =>
    eqv_bind (eqv_setIdxs si (f := fun w => (w.idxs si).update (w.idxs vi)) fun _ => rfl) fun _ =>
      eqv_modO c fun _ => rfl

theorem eqv_setUuidRef (o : Oid) (u : Option Nat) : Eqv (setUuidRef o u) (setUuidRef o u) :=
  eqv_bind (eqv_indexRef o) fun r => eqv_getW fun w =>
    eqv_ite (c := (_ : Bool) = true) (eqv_raise _)
      (eqv_bind (eqv_setIdxs r
        (f := fun w => ((w.idxs r).del (iuuid (w.objs o).uuid)).set (iuuid u) o) fun _ => rfl) fun _ =>
        eqv_modO o fun _ => rfl)

theorem eqv_freshUuid : Eqv freshUuid freshUuid := fun _ => rfl

theorem eqv_newIdx (o : Oid) (d : Od (Option Nat) Oid) :
    Eqv (M.modifyW fun w =>
      { w with
        objs := upd w.objs o { w.objs o with index := some w.nidx }
        idxs := upd w.idxs w.nidx d
        nidx := w.nidx + 1 })
      (M.modifyW fun w =>
      { w with
        objs := upd w.objs o { w.objs o with index := some w.nidx }
        idxs := upd w.idxs w.nidx d
        nidx := w.nidx + 1 }) := eqv_modifyW fun w => by
  simp only [World.uncache, uncache_upd]

theorem eqv_referenceInit (o : Oid) : Eqv (referenceInit o) (referenceInit o) :=
  eqv_bind (eqv_newIdx o []) fun _ => eqv_bind eqv_freshUuid fun _ => eqv_setUuidRef o _

theorem eqv_indexDelete (o : Oid) (us : List Nat) : Eqv (indexDelete o us) (indexDelete o us) := by
  induction us with
  | nil => exact eqv_pure _
  | cons u r ih =>
    exact eqv_bind (eqv_indexRef o) fun i => eqv_getW fun w =>
      eqv_ite (c := (_ : Bool) = true)
        (eqv_bind (eqv_setIdxs i (f := fun w => (w.idxs i).del (some u)) fun _ => rfl) fun _ => ih)
        (eqv_raise _)

theorem eqv_notifyModified (E : Env) (o : Oid) :
    Eqv (notifyModified E o) (notifyModified E.uncached o) := by
  refine eqv_getW fun w => ?_
  show Eqv _ (match (w.objs o).parent with
    | none => _
    | some p => _)
  cases (w.objs o).parent with
  | none => exact eqv_raise _
  | some p =>
    dsimp only
    rw [bhvsOf_uncached, contains_unc (by decide)]
    exact eqv_ite (eqv_ite (eqv_pure _) (eqv_notify _)) (eqv_raise _)

/-! ### Constructors -/

theorem eqv_alloc (c : ClassId) : Eqv (alloc c) (alloc c) := fun w => by
  simp only [alloc, World.uncache, uncache_upd]

theorem eqv_fixedLoop {mk mk' : ClassId → M Oid} (h : ∀ c, Eqv (mk c) (mk' c)) (o : Oid)
    (l : List (Key × ClassId)) : Eqv (initPipe.loop mk o l) (initPipe.loop mk' o l) := by
  induction l with
  | nil => exact eqv_pure _
  | cons a t ih =>
    obtain ⟨k, c⟩ := a
    exact eqv_bind (h c) fun child => eqv_bind (eqv_modO _ fun _ => rfl) fun _ =>
      eqv_bind (eqv_modO _ fun _ => rfl) fun _ => eqv_bind (eqv_modO _ fun _ => rfl) fun _ => ih

theorem eqv_initPipe (E : Env) {mk mk' : ClassId → M Oid} (h : ∀ c, Eqv (mk c) (mk' c))
    (all l : List Bhv) (o : Oid) (name : Key) (parent : Option Oid) :
    Eqv (initPipe E mk all l o name parent) (initPipe E.uncached mk' (unc all) (unc l) o name parent) := by
  induction l with
  | nil =>
    unfold initPipe unc
    show Eqv _ (if (unc all).contains .defaultInit then _ else _)
    rw [contains_unc (by decide)]
    exact eqv_ite (eqv_bind (eqv_modO _ fun _ => rfl) fun _ => eqv_modO _ fun _ => rfl) (eqv_pure _)
  | cons b r ih =>
    by_cases hb : b = .cache
    · subst hb; rw [unc_cache]; exact ih
    · rw [unc_cons hb]
      cases b
      case cache => exact absurd rfl hb
      case reference => exact eqv_bind (eqv_referenceInit o) fun _ => ih
      case lifecycle => exact eqv_bind ih fun _ => eqv_notify _
      case uuidAware =>
        refine eqv_bind ih fun _ => eqv_bind eqv_freshUuid fun u => ?_
        rw [contains_unc (by decide)]
        exact eqv_ite (eqv_setUuidRef o _) (eqv_modO _ fun _ => rfl)
      case fixedChildren =>
        exact eqv_bind ih fun _ => eqv_bind (eqv_modO _ fun _ => rfl) fun _ =>
          eqv_getW fun w => eqv_fixedLoop h o _
      all_goals exact ih

theorem eqv_newNodeN (E : Env) (n : Nat) (c : ClassId) (name : Key) (parent : Option Oid) :
    Eqv (newNodeN E n c name parent) (newNodeN E.uncached n c name parent) := by
  induction n generalizing c name parent with
  | zero => exact eqv_raise _
  | succ n ih =>
    exact eqv_bind (eqv_alloc c) fun o =>
      eqv_bind (eqv_initPipe E (fun c' => ih c' .none none) _ _ o name parent) fun _ => eqv_pure _

theorem eqv_newNode (E : Env) (c : ClassId) (name : Key) (parent : Option Oid) :
    Eqv (newNode E c name parent) (newNode E.uncached c name parent) := by
  unfold newNode
  have : (E.uncached.cls c).takesArgs = (E.cls c).takesArgs := by
    unfold ClassDef.takesArgs
    rw [bhvs_uncached, contains_unc (by decide), contains_unc (by decide)]
  rw [this]
  exact eqv_ite (eqv_newNodeN E _ c name parent) (eqv_raise _)

/-! ### Reading below the cache -/

theorem eqv_getEnd (E : Env) (o : Oid) (k : Key) : Eqv (getEnd E o k) (getEnd E.uncached o k) := by
  refine eqv_getW fun w => ?_
  rw [bhvsOf_uncached, contains_unc (by decide), any_unc rfl]
  exact eqv_ite (eqv_ofExcept _) (eqv_ite
    (eqv_bind (eqv_storageRef E o) fun r => eqv_getW fun w => eqv_ofExcept _) (eqv_raise _))

theorem namesUp_uncache (w : World) (n : Nat) (o : Oid) : namesUp w.uncache n o = namesUp w n o := by
  induction n generalizing o with
  | zero => rfl
  | succ n ih =>
    unfold namesUp
    show (match (w.objs o).parent with
      | none => some [(w.objs o).name]
      | some p => (namesUp w.uncache n p).map ((w.objs o).name :: ·)) = _
    cases (w.objs o).parent with
    | none => rfl
    | some p => dsimp only; rw [ih]

theorem eqv_path (o : Oid) : Eqv (path o) (path o) := fun w => by
  have : pathOf w.uncache o = pathOf w o := by
    unfold pathOf; rw [namesUp_uncache]; rfl
  unfold path
  rw [this]
  cases pathOf w o <;> rfl

end Verif
