import Verif.Spec.View
import Verif.Lemmas.Accept
import Verif.Model.Mapping
import Verif.Lemmas.Odict

/-! Views of the heap, well-formedness and relations between heaps. -/

namespace Verif

/-- An attribute holding a private dictionary: references are allocated and no
two nodes share one. -/
structure RefsOK (f : Oid → Option Ref) (n : Nat) : Prop where
  lt : ∀ {o r}, f o = some r → r < n
  inj : ∀ {o o' r}, f o = some r → f o' = some r → o = o'

/-- No two nodes share a storage, cache or nodespace dictionary, references
point to allocated dictionaries, dictionaries have unique keys. -/
structure WF (w : World) : Prop where
  s : RefsOK (fun o => (w.objs o).storage) w.nstore
  c : RefsOK (fun o => (w.objs o).cache) w.ncache
  n : RefsOK (fun o => (w.objs o).nodespaces) w.nnspace
  iLt : ∀ {o r}, (w.objs o).index = some r → r < w.nidx
  sNd : ∀ r, (w.stores r).keys.Nodup
  cNd : ∀ r, (w.caches r).keys.Nodup
  nNd : ∀ r, (w.nspaces r).keys.Nodup
  iNd : ∀ r, (w.idxs r).keys.Nodup

theorem WF.sLt {w : World} (h : WF w) {o r : Nat} (e : (w.objs o).storage = some r) :
    r < w.nstore := h.s.lt e
theorem WF.sInj {w : World} (h : WF w) {o p r : Nat} (e : (w.objs o).storage = some r)
    (e' : (w.objs p).storage = some r) : o = p := h.s.inj e e'
theorem WF.cLt {w : World} (h : WF w) {o r : Nat} (e : (w.objs o).cache = some r) :
    r < w.ncache := h.c.lt e
theorem WF.cInj {w : World} (h : WF w) {o p r : Nat} (e : (w.objs o).cache = some r)
    (e' : (w.objs p).cache = some r) : o = p := h.c.inj e e'
theorem WF.nLt {w : World} (h : WF w) {o r : Nat} (e : (w.objs o).nodespaces = some r) :
    r < w.nnspace := h.n.lt e
theorem WF.nInj {w : World} (h : WF w) {o p r : Nat} (e : (w.objs o).nodespaces = some r)
    (e' : (w.objs p).nodespaces = some r) : o = p := h.n.inj e e'

theorem WF.children_nodup {w : World} (h : WF w) (o : Oid) : (w.children o).keys.Nodup := by
  unfold World.children
  split
  · simp [Od.keys]
  · exact h.sNd _

theorem WF.nsview_nodup {w : World} (h : WF w) (o : Oid) : (w.nsview o).keys.Nodup := by
  unfold World.nsview
  split
  · simp [Od.keys]
  · exact h.nNd _

theorem WF.cached_nodup {w : World} (h : WF w) (o : Oid) : (w.cached o).keys.Nodup := by
  unfold World.cached
  split
  · simp [Od.keys]
  · exact h.cNd _

theorem WF.empty : WF {} where
  s := ⟨by simp, by simp⟩
  c := ⟨by simp, by simp⟩
  n := ⟨by simp, by simp⟩
  iLt := by simp
  sNd := by simp [Od.keys]
  cNd := by simp [Od.keys]
  nNd := by simp [Od.keys]
  iNd := by simp [Od.keys]

/-- Reading an attribute after a write that kept it. -/
theorem proj_upd {β : Type} (g : Obj → β) (f : Oid → Obj) (o : Oid) (x : Obj)
    (h : g x = g (f o)) (p : Oid) : g (upd f o x p) = g (f p) := by
  unfold upd
  split
  · rename_i e; rw [h, e]
  · rfl

theorem RefsOK.congr {f g : Oid → Option Ref} {n : Nat} (h : RefsOK f n) (e : ∀ o, g o = f o) :
    RefsOK g n := by
  have : g = f := funext e
  rw [this]; exact h

/-- A fresh private dictionary. -/
theorem RefsOK.alloc {g : Obj → Option Ref} {f : Oid → Obj} {n : Nat}
    (h : RefsOK (fun o => g (f o)) n) (o : Oid) (x : Obj) (hx : g x = some n) :
    RefsOK (fun p => g (upd f o x p)) (n + 1) := by
  constructor
  · intro p r hr
    simp only [upd] at hr
    split at hr
    · rw [hx] at hr; injection hr with hr; omega
    · have := h.lt hr; omega
  · intro p q r hr hr'
    simp only [upd] at hr hr'
    split at hr <;> split at hr'
    · rename_i a b; rw [a, b]
    · rw [hx] at hr; injection hr with hr; have := h.lt hr'; omega
    · rw [hx] at hr'; injection hr' with hr'; have := h.lt hr; omega
    · exact h.inj hr hr'

/-- Dropping a private dictionary. -/
theorem RefsOK.drop {g : Obj → Option Ref} {f : Oid → Obj} {n : Nat}
    (h : RefsOK (fun o => g (f o)) n) (o : Oid) (x : Obj) (hx : g x = none) :
    RefsOK (fun p => g (upd f o x p)) n := by
  constructor
  · intro p r hr
    simp only [upd] at hr
    split at hr
    · rw [hx] at hr; cases hr
    · exact h.lt hr
  · intro p q r hr hr'
    simp only [upd] at hr hr'
    split at hr <;> split at hr'
    · rename_i a b; rw [a, b]
    · rw [hx] at hr; cases hr
    · rw [hx] at hr'; cases hr'
    · exact h.inj hr hr'

theorem nodup_upd {K V : Type} {f : Nat → Od K V} (h : ∀ r, (f r).keys.Nodup) (i : Nat)
    {d : Od K V} (hd : d.keys.Nodup) (r : Nat) : (upd f i d r).keys.Nodup := by
  unfold upd
  split
  · exact hd
  · exact h r

/-- Instance attributes other than the lazily created dictionaries. -/
structure SameObj (a b : Obj) : Prop where
  cls : b.cls = a.cls
  name : b.name = a.name
  parent : b.parent = a.parent
  index : b.index = a.index
  uuid : b.uuid = a.uuid
  suppress : b.suppress = a.suppress
  fixed : b.fixed = a.fixed
  fallbackKey : b.fallbackKey = a.fallbackKey

theorem SameObj.refl (a : Obj) : SameObj a a := ⟨rfl, rfl, rfl, rfl, rfl, rfl, rfl, rfl⟩

theorem SameObj.trans {a b c : Obj} (h : SameObj a b) (h' : SameObj b c) : SameObj a c :=
  ⟨h'.cls.trans h.cls, h'.name.trans h.name, h'.parent.trans h.parent, h'.index.trans h.index,
   h'.uuid.trans h.uuid, h'.suppress.trans h.suppress, h'.fixed.trans h.fixed,
   h'.fallbackKey.trans h.fallbackKey⟩

/-- Two heaps a user of the API cannot tell apart, except through the caches (and
the thread-local counter). -/
structure Same (w w' : World) : Prop where
  children : ∀ o, w'.children o = w.children o
  nsview : ∀ o, w'.nsview o = w.nsview o
  obj : ∀ o, SameObj (w.objs o) (w'.objs o)
  idxs : w'.idxs = w.idxs
  nidx : w'.nidx = w.nidx
  nobj : w'.nobj = w.nobj
  nuuid : w'.nuuid = w.nuuid
  log : w'.log = w.log

theorem Same.refl (w : World) : Same w w :=
  ⟨fun _ => rfl, fun _ => rfl, fun _ => SameObj.refl _, rfl, rfl, rfl, rfl, rfl⟩

theorem Same.trans {a b c : World} (h : Same a b) (h' : Same b c) : Same a c :=
  ⟨fun o => (h'.children o).trans (h.children o), fun o => (h'.nsview o).trans (h.nsview o),
   fun o => (h.obj o).trans (h'.obj o), h'.idxs.trans h.idxs, h'.nidx.trans h.nidx,
   h'.nobj.trans h.nobj, h'.nuuid.trans h.nuuid, h'.log.trans h.log⟩

/-- `Quiet`: well-formedness is kept and nothing observable changes. -/
def Quiet (w w' : World) : Prop := WF w → WF w' ∧ Same w w'

theorem Quiet.refl (w : World) : Quiet w w := fun h => ⟨h, Same.refl w⟩

theorem Quiet.trans {a b c : World} (h : Quiet a b) (h' : Quiet b c) : Quiet a c := fun ha => by
  obtain ⟨hb, s⟩ := h ha
  obtain ⟨hc, s'⟩ := h' hb
  exact ⟨hc, s.trans s'⟩

/-! ### Computations that respect a relation -/

/-- Every run of `m` relates the heap before and after by `R`. -/
def Pres (R : World → World → Prop) {α : Type} (m : M α) : Prop := ∀ w, R w (m w).2

/-- `R` is reflexive and transitive. -/
structure PreR (R : World → World → Prop) : Prop where
  refl : ∀ w, R w w
  trans : ∀ {a b c}, R a b → R b c → R a c

theorem quiet_pre : PreR Quiet := ⟨Quiet.refl, Quiet.trans⟩

section
variable {R : World → World → Prop} {α β : Type}

theorem pres_pure (hR : PreR R) (a : α) : Pres R (pure a : M α) := fun w => hR.refl w

theorem pres_raise (hR : PreR R) (e : Exc) : Pres R (M.raise e : M α) := fun w => hR.refl w

theorem pres_getW (hR : PreR R) : Pres R M.getW := fun w => hR.refl w

theorem pres_getO (hR : PreR R) (o : Oid) : Pres R (getO o) := fun w => hR.refl w

theorem pres_ofExcept (hR : PreR R) (x : Except Exc α) : Pres R (M.ofExcept x) :=
  fun w => hR.refl w

theorem pres_bind (hR : PreR R) {m : M α} {f : α → M β} (hm : Pres R m)
    (hf : ∀ a, Pres R (f a)) : Pres R (m >>= f) := by
  intro w
  have h1 := hm w
  simp only [M.bind_apply]
  rcases h : m w with ⟨_ | a, w1⟩
  · simp only [h] at h1 ⊢; exact h1
  · simp only [h] at h1 ⊢; exact hR.trans h1 (hf a w1)

theorem pres_catchIf (hR : PreR R) {m : M α} {p : Exc → Bool} {h : Exc → M α} (hm : Pres R m)
    (hh : ∀ e, Pres R (h e)) : Pres R (M.catchIf p m h) := by
  intro w
  have h1 := hm w
  simp only [M.catchIf_apply]
  rcases hw : m w with ⟨e | a, w1⟩
  · simp only [hw] at h1 ⊢
    split
    · exact hR.trans h1 (hh e w1)
    · exact h1
  · simp only [hw] at h1 ⊢; exact h1

theorem pres_ite (hR : PreR R) {c : Prop} [Decidable c] {m m' : M α} (h : Pres R m)
    (h' : Pres R m') : Pres R (if c then m else m') := by
  have := hR.refl
  split
  · exact h
  · exact h'

theorem pres_forM' (hR : PreR R) {f : α → M β} (hf : ∀ a, Pres R (f a)) (l : List α) :
    Pres R (forM' f l) := by
  induction l with
  | nil => exact pres_pure hR _
  | cons a t ih =>
    exact pres_bind hR (hf a) fun _ => pres_bind hR ih fun _ => pres_pure hR _

theorem pres_forU (hR : PreR R) {f : α → M Unit} (hf : ∀ a, Pres R (f a)) (l : List α) :
    Pres R (forU f l) := by
  induction l with
  | nil => exact pres_pure hR _
  | cons a t ih => exact pres_bind hR (hf a) fun _ => ih

theorem pres_endIter (hR : PreR R) (e : Option Exc) : Pres R (endIter e) := by
  cases e
  · exact pres_pure hR _
  · exact pres_raise hR _

end

/-! ### The lazily created dictionaries -/

theorem storageRef_quiet (E : Env) (o : Oid) : Pres Quiet (storageRef E o) := by
  intro w hw
  unfold storageRef
  split
  · exact ⟨hw, Same.refl w⟩
  · exact ⟨hw, Same.refl w⟩
  · cases hs : (w.objs o).storage with
    | some r => exact ⟨hw, Same.refl w⟩
    | none =>
      refine ⟨⟨?_, ?_, ?_, ?_, ?_, hw.cNd, hw.nNd, hw.iNd⟩, ⟨?_, ?_, ?_, rfl, rfl, rfl, rfl, rfl⟩⟩
      · exact hw.s.alloc (g := Obj.storage) o _ rfl
      · exact hw.c.congr (proj_upd Obj.cache w.objs o _ rfl)
      · exact hw.n.congr (proj_upd Obj.nodespaces w.objs o _ rfl)
      · intro p r hr; exact hw.iLt ((proj_upd Obj.index w.objs o _ (by rfl) p).symm.trans hr)
      · exact nodup_upd hw.sNd _ (by simp [Od.keys])
      · intro p
        by_cases hp : p = o
        · subst hp; simp [World.children, hs]
        · simp only [World.children, upd, hp, if_false]
          cases hps : (w.objs p).storage with
          | none => rfl
          | some r =>
            have := hw.sLt hps
            have : r ≠ w.nstore := by omega
            simp [this]
      · intro p
        by_cases hp : p = o
        · subst hp; simp [World.nsview]
        · simp [World.nsview, upd, hp]
      · intro p
        by_cases hp : p = o
        · subst hp; simp only [upd_same]; exact ⟨rfl, rfl, rfl, rfl, rfl, rfl, rfl, rfl⟩
        · simp only [upd, hp, if_false]; exact SameObj.refl _

theorem cacheRef_quiet (o : Oid) : Pres Quiet (cacheRef o) := by
  intro w hw
  unfold cacheRef
  cases hs : (w.objs o).cache with
  | some r => exact ⟨hw, Same.refl w⟩
  | none =>
    refine ⟨⟨?_, ?_, ?_, ?_, hw.sNd, ?_, hw.nNd, hw.iNd⟩, ⟨?_, ?_, ?_, rfl, rfl, rfl, rfl, rfl⟩⟩
    · exact hw.s.congr (proj_upd Obj.storage w.objs o _ rfl)
    · exact hw.c.alloc (g := Obj.cache) o _ rfl
    · exact hw.n.congr (proj_upd Obj.nodespaces w.objs o _ rfl)
    · intro p r hr; exact hw.iLt ((proj_upd Obj.index w.objs o _ (by rfl) p).symm.trans hr)
    · exact nodup_upd hw.cNd _ (by simp [Od.keys])
    · intro p
      by_cases hp : p = o
      · subst hp; simp [World.children]
      · simp [World.children, upd, hp]
    · intro p
      by_cases hp : p = o
      · subst hp; simp [World.nsview]
      · simp [World.nsview, upd, hp]
    · intro p
      by_cases hp : p = o
      · subst hp; simp only [upd_same]; exact ⟨rfl, rfl, rfl, rfl, rfl, rfl, rfl, rfl⟩
      · simp only [upd, hp, if_false]; exact SameObj.refl _

theorem nodespacesRef_quiet (o : Oid) : Pres Quiet (nodespacesRef o) := by
  intro w hw
  unfold nodespacesRef
  cases hs : (w.objs o).nodespaces with
  | some r => exact ⟨hw, Same.refl w⟩
  | none =>
    refine ⟨⟨?_, ?_, ?_, ?_, hw.sNd, hw.cNd, ?_, hw.iNd⟩, ⟨?_, ?_, ?_, rfl, rfl, rfl, rfl, rfl⟩⟩
    · exact hw.s.congr (proj_upd Obj.storage w.objs o _ rfl)
    · exact hw.c.congr (proj_upd Obj.cache w.objs o _ rfl)
    · exact hw.n.alloc (g := Obj.nodespaces) o _ rfl
    · intro p r hr; exact hw.iLt ((proj_upd Obj.index w.objs o _ (by rfl) p).symm.trans hr)
    · exact nodup_upd hw.nNd _ (by simp [Od.keys])
    · intro p
      by_cases hp : p = o
      · subst hp; simp [World.children]
      · simp [World.children, upd, hp]
    · intro p
      by_cases hp : p = o
      · subst hp; simp [World.nsview, hs]
      · simp only [World.nsview, upd, hp, if_false]
        cases hps : (w.objs p).nodespaces with
        | none => rfl
        | some r =>
          have := hw.nLt hps
          have : r ≠ w.nnspace := by omega
          simp [this]
    · intro p
      by_cases hp : p = o
      · subst hp; simp only [upd_same]; exact ⟨rfl, rfl, rfl, rfl, rfl, rfl, rfl, rfl⟩
      · simp only [upd, hp, if_false]; exact SameObj.refl _

/-- What `storageRef` returns and where. -/
theorem storageRef_ok {E : Env} {o r : Nat} {w w' : World} (h : storageRef E o w = (.ok r, w')) :
    (w'.objs o).storage = some r := by
  unfold storageRef at h
  split at h
  · simp at h
  · simp at h
  · split at h
    · rename_i hs; injection h with h1 h2; injection h1 with h1; subst h1; subst h2; exact hs
    · injection h with h1 h2; injection h1 with h1; subst h1; subst h2; simp

theorem cacheRef_ok {o r : Nat} {w w' : World} (h : cacheRef o w = (.ok r, w')) :
    (w'.objs o).cache = some r := by
  unfold cacheRef at h
  split at h
  · rename_i hs; injection h with h1 h2; injection h1 with h1; subst h1; subst h2; exact hs
  · injection h with h1 h2; injection h1 with h1; subst h1; subst h2; simp

theorem nodespacesRef_ok {o r : Nat} {w w' : World} (h : nodespacesRef o w = (.ok r, w')) :
    (w'.objs o).nodespaces = some r := by
  unfold nodespacesRef at h
  split at h
  · rename_i hs; injection h with h1 h2; injection h1 with h1; subst h1; subst h2; exact hs
  · injection h with h1 h2; injection h1 with h1; subst h1; subst h2; simp

theorem cacheRef_isOk (o : Oid) (w : World) : ∃ r w', cacheRef o w = (.ok r, w') := by
  unfold cacheRef
  split
  · exact ⟨_, _, rfl⟩
  · exact ⟨_, _, rfl⟩

theorem nodespacesRef_isOk (o : Oid) (w : World) : ∃ r w', nodespacesRef o w = (.ok r, w') := by
  unfold nodespacesRef
  split
  · exact ⟨_, _, rfl⟩
  · exact ⟨_, _, rfl⟩

/-- The other lazily created dictionaries are untouched. -/
theorem storageRef_cached (E : Env) (o : Oid) (w : World) (p : Oid) :
    ((storageRef E o w).2).cached p = w.cached p := by
  unfold storageRef
  split
  · rfl
  · rfl
  · split
    · rfl
    · by_cases hp : p = o
      · subst hp; simp [World.cached]
      · simp [World.cached, upd, hp]

theorem cacheRef_cached {w : World} (hw : WF w) (o : Oid) (p : Oid) :
    ((cacheRef o w).2).cached p = w.cached p := by
  unfold cacheRef
  split
  · rfl
  · rename_i hs
    by_cases hp : p = o
    · subst hp; simp [World.cached, hs]
    · simp only [World.cached, upd, hp, if_false]
      cases hps : (w.objs p).cache with
      | none => rfl
      | some r =>
        have := hw.cLt hps
        have : r ≠ w.ncache := by omega
        simp [this]

theorem nodespacesRef_cached (o : Oid) (w : World) (p : Oid) :
    ((nodespacesRef o w).2).cached p = w.cached p := by
  unfold nodespacesRef
  split
  · rfl
  · by_cases hp : p = o
    · subst hp; simp [World.cached]
    · simp [World.cached, upd, hp]

theorem storageRef_fb (E : Env) (o : Oid) (w : World) : ((storageRef E o w).2).fb = w.fb := by
  unfold storageRef
  split
  · rfl
  · rfl
  · split <;> rfl

theorem cacheRef_fb (o : Oid) (w : World) : ((cacheRef o w).2).fb = w.fb := by
  unfold cacheRef; split <;> rfl

theorem nodespacesRef_fb (o : Oid) (w : World) : ((nodespacesRef o w).2).fb = w.fb := by
  unfold nodespacesRef; split <;> rfl

/-! ### Writes -/

/-- Writing instance attributes other than the private dictionaries. -/
theorem WF.modO {w : World} (hw : WF w) (o : Oid) (f : Obj → Obj)
    (hs : (f (w.objs o)).storage = (w.objs o).storage)
    (hc : (f (w.objs o)).cache = (w.objs o).cache)
    (hn : (f (w.objs o)).nodespaces = (w.objs o).nodespaces)
    (hi : ∀ r, (f (w.objs o)).index = some r → r < w.nidx) :
    WF { w with objs := upd w.objs o (f (w.objs o)) } where
  s := hw.s.congr (proj_upd Obj.storage w.objs o _ hs)
  c := hw.c.congr (proj_upd Obj.cache w.objs o _ hc)
  n := hw.n.congr (proj_upd Obj.nodespaces w.objs o _ hn)
  iLt := by
    intro p r hr
    simp only [upd] at hr
    split at hr
    · exact hi r hr
    · exact hw.iLt hr
  sNd := hw.sNd
  cNd := hw.cNd
  nNd := hw.nNd
  iNd := hw.iNd

/-- Writing a storage dictionary. -/
theorem WF.setStore {w : World} (hw : WF w) (r : Ref) {d : Od Key Val} (hd : d.keys.Nodup) :
    WF { w with stores := upd w.stores r d } :=
  ⟨hw.s, hw.c, hw.n, hw.iLt, nodup_upd hw.sNd r hd, hw.cNd, hw.nNd, hw.iNd⟩

theorem WF.setCache {w : World} (hw : WF w) (r : Ref) {d : Od Key Val} (hd : d.keys.Nodup) :
    WF { w with caches := upd w.caches r d } :=
  ⟨hw.s, hw.c, hw.n, hw.iLt, hw.sNd, nodup_upd hw.cNd r hd, hw.nNd, hw.iNd⟩

theorem WF.setNspace {w : World} (hw : WF w) (r : Ref) {d : Od Key Val} (hd : d.keys.Nodup) :
    WF { w with nspaces := upd w.nspaces r d } :=
  ⟨hw.s, hw.c, hw.n, hw.iLt, hw.sNd, hw.cNd, nodup_upd hw.nNd r hd, hw.iNd⟩

theorem WF.setIdx {w : World} (hw : WF w) (r : Ref) {d : Od (Option Nat) Oid}
    (hd : d.keys.Nodup) : WF { w with idxs := upd w.idxs r d } :=
  ⟨hw.s, hw.c, hw.n, hw.iLt, hw.sNd, hw.cNd, hw.nNd, nodup_upd hw.iNd r hd⟩

theorem WF.setLog {w : World} (hw : WF w) (l : List Logged) : WF { w with log := l } :=
  ⟨hw.s, hw.c, hw.n, hw.iLt, hw.sNd, hw.cNd, hw.nNd, hw.iNd⟩

theorem WF.setFb {w : World} (hw : WF w) (f : Option Int) : WF { w with fb := f } :=
  ⟨hw.s, hw.c, hw.n, hw.iLt, hw.sNd, hw.cNd, hw.nNd, hw.iNd⟩

/-- The children after writing the storage dictionary of `o`. -/
theorem children_setStore {w : World} (hw : WF w) {o r : Nat} (h : (w.objs o).storage = some r)
    (d : Od Key Val) (p : Oid) :
    World.children { w with stores := upd w.stores r d } p =
      if p = o then d else w.children p := by
  by_cases hp : p = o
  · subst hp; simp [World.children, h]
  · simp only [hp, if_false, World.children]
    cases hps : (w.objs p).storage with
    | none => rfl
    | some r' =>
      have : r' ≠ r := fun e => hp (hw.sInj hps (e ▸ h))
      simp [upd, this]

theorem cached_setCache {w : World} (hw : WF w) {o r : Nat} (h : (w.objs o).cache = some r)
    (d : Od Key Val) (p : Oid) :
    World.cached { w with caches := upd w.caches r d } p =
      if p = o then d else w.cached p := by
  by_cases hp : p = o
  · subst hp; simp [World.cached, h]
  · simp only [hp, if_false, World.cached]
    cases hps : (w.objs p).cache with
    | none => rfl
    | some r' =>
      have : r' ≠ r := fun e => hp (hw.cInj hps (e ▸ h))
      simp [upd, this]

theorem nsview_setNspace {w : World} (hw : WF w) {o r : Nat}
    (h : (w.objs o).nodespaces = some r) (d : Od Key Val) (p : Oid) :
    World.nsview { w with nspaces := upd w.nspaces r d } p =
      if p = o then d else w.nsview p := by
  by_cases hp : p = o
  · subst hp; simp [World.nsview, h]
  · simp only [hp, if_false, World.nsview]
    cases hps : (w.objs p).nodespaces with
    | none => rfl
    | some r' =>
      have : r' ≠ r := fun e => hp (hw.nInj hps (e ▸ h))
      simp [upd, this]

theorem children_eq {w : World} {o r : Nat} (h : (w.objs o).storage = some r) :
    w.children o = w.stores r := by simp [World.children, h]

theorem cached_eq {w : World} {o r : Nat} (h : (w.objs o).cache = some r) :
    w.cached o = w.caches r := by simp [World.cached, h]

theorem nsview_eq {w : World} {o r : Nat} (h : (w.objs o).nodespaces = some r) :
    w.nsview o = w.nspaces r := by simp [World.nsview, h]

theorem children_modO {w : World} (o : Oid) (f : Obj → Obj)
    (hs : (f (w.objs o)).storage = (w.objs o).storage) (p : Oid) :
    World.children { w with objs := upd w.objs o (f (w.objs o)) } p = w.children p := by
  unfold World.children
  rw [proj_upd Obj.storage w.objs o _ hs]

theorem cached_modO {w : World} (o : Oid) (f : Obj → Obj)
    (hs : (f (w.objs o)).cache = (w.objs o).cache) (p : Oid) :
    World.cached { w with objs := upd w.objs o (f (w.objs o)) } p = w.cached p := by
  unfold World.cached
  rw [proj_upd Obj.cache w.objs o _ hs]

theorem nsview_modO {w : World} (o : Oid) (f : Obj → Obj)
    (hs : (f (w.objs o)).nodespaces = (w.objs o).nodespaces) (p : Oid) :
    World.nsview { w with objs := upd w.objs o (f (w.objs o)) } p = w.nsview p := by
  unfold World.nsview
  rw [proj_upd Obj.nodespaces w.objs o _ hs]

/-- Writing a cache is not observable. -/
theorem setCache_quiet {w : World} (r : Ref) (d : Od Key Val) (hd : WF w → d.keys.Nodup) :
    Quiet w { w with caches := upd w.caches r d } := fun hw =>
  ⟨hw.setCache r (hd hw),
   ⟨fun _ => rfl, fun _ => rfl, fun _ => SameObj.refl _, rfl, rfl, rfl, rfl, rfl⟩⟩

theorem setFb_quiet (w : World) (f : Option Int) : Quiet w { w with fb := f } := fun hw =>
  ⟨hw.setFb f, ⟨fun _ => rfl, fun _ => rfl, fun _ => SameObj.refl _, rfl, rfl, rfl, rfl, rfl⟩⟩

theorem indexRef_id (o : Oid) (w : World) : (indexRef o w).2 = w := by
  unfold indexRef; split <;> rfl

theorem unaliasKey_id (E : Env) (o : Oid) (k : Key) (w : World) : (unaliasKey E o k w).2 = w := by
  unfold unaliasKey
  split
  · rfl
  · split <;> rfl

end Verif
