import Verif.Lemmas.DelOutcome
import Verif.Lemmas.Lookup
import Verif.Lemmas.MapRefine
import Verif.Lemmas.NewNode
import Verif.Model.FullMapping
import Verif.Props.C06
import Verif.Props.C59

/-!
# Running the tester of mappings

A small logic of computations that return, and the operations the tests are made of, on a context
whose children are new nodes.
-/

namespace Verif.FullMapping

/-- From heaps with `P` the computation returns `v` and leaves a heap with `Q`. -/
def Ret {α : Type} (P : World → Prop) (m : M α) (v : α) (Q : World → Prop) : Prop :=
  ∀ w, P w → ∃ w', m w = (.ok v, w') ∧ Q w'

/-- From heaps with `P` the computation returns something that has, with the heap, `Q`. -/
def Gives {α : Type} (P : World → Prop) (m : M α) (Q : α → World → Prop) : Prop :=
  ∀ w, P w → ∃ v w', m w = (.ok v, w') ∧ Q v w'

/-- From heaps with `P` the computation raises `e` and leaves a heap with `Q`. -/
def Raises {α : Type} (P : World → Prop) (m : M α) (e : Exc) (Q : World → Prop) : Prop :=
  ∀ w, P w → ∃ w', m w = (.error e, w') ∧ Q w'

theorem Ret.bind {α β : Type} {P Q : World → Prop} {R : β → World → Prop} {m : M α} {v : α} {f : α → M β}
    (h : Ret P m v Q) (h' : Gives Q (f v) R) : Gives P (m >>= f) R := fun w hw => by
  obtain ⟨w1, e1, h1⟩ := h w hw
  obtain ⟨b, w2, e2, h2⟩ := h' w1 h1
  exact ⟨b, w2, by simp only [M.bind_apply, e1, e2], h2⟩

theorem Gives.bind {α β : Type} {P : World → Prop} {Q : α → World → Prop} {R : β → World → Prop} {m : M α}
    {f : α → M β} (h : Gives P m Q) (h' : ∀ a, Gives (Q a) (f a) R) : Gives P (m >>= f) R := fun w hw => by
  obtain ⟨a, w1, e1, h1⟩ := h w hw
  obtain ⟨b, w2, e2, h2⟩ := h' a w1 h1
  exact ⟨b, w2, by simp only [M.bind_apply, e1, e2], h2⟩

theorem Ret.gives {α : Type} {P Q : World → Prop} {m : M α} {v : α} (h : Ret P m v Q) :
    Gives P m fun a w => a = v ∧ Q w := fun w hw => by
  obtain ⟨w1, e1, h1⟩ := h w hw
  exact ⟨v, w1, e1, rfl, h1⟩

theorem Ret.unit {P Q : World → Prop} {m : M Unit} (h : Ret P m () Q) : Gives P m fun _ w => Q w := fun w hw => by
  obtain ⟨w1, e1, h1⟩ := h w hw
  exact ⟨(), w1, e1, h1⟩

theorem Gives.ret {P Q : World → Prop} {m : M Unit} (h : Gives P m fun _ w => Q w) : Ret P m () Q := fun w hw => by
  obtain ⟨_, w1, e1, h1⟩ := h w hw
  exact ⟨w1, e1, h1⟩

theorem Ret.seq {α β : Type} {P Q R : World → Prop} {m : M α} {v : α} {f : α → M β} {b : β}
    (h : Ret P m v Q) (h' : Ret Q (f v) b R) : Ret P (m >>= f) b R := fun w hw => by
  obtain ⟨w1, e1, h1⟩ := h w hw
  obtain ⟨w2, e2, h2⟩ := h' w1 h1
  exact ⟨w2, by simp only [M.bind_apply, e1, e2], h2⟩

theorem Ret.pure {α : Type} {P : World → Prop} {v : α} : Ret P (Pure.pure v) v P := fun w hw => ⟨w, rfl, hw⟩

theorem Ret.failIf {P : World → Prop} {b : Bool} {m : String} (h : b = false) : Ret P (failIf b m) () P := fun w hw =>
  ⟨w, by subst h; rfl, hw⟩

theorem Ret.try {α : Type} {P Q : World → Prop} {m : M α} {v : α} {p : Exc → Bool} {f : Exc → M α}
    (h : Ret P m v Q) : Ret P (M.catchIf p m f) v Q := fun w hw => by
  obtain ⟨w1, e1, h1⟩ := h w hw
  exact ⟨w1, by simp only [M.catchIf_apply, e1], h1⟩

theorem Raises.caught {α : Type} {P Q R : World → Prop} {m : M α} {e : Exc} {v : α} {p : Exc → Bool} {f : Exc → M α}
    (h : Raises P m e Q) (hp : p e = true) (h' : Ret Q (f e) v R) : Ret P (M.catchIf p m f) v R := fun w hw => by
  obtain ⟨w1, e1, h1⟩ := h w hw
  obtain ⟨w2, e2, h2⟩ := h' w1 h1
  exact ⟨w2, by simp only [M.catchIf_apply, e1, hp, if_true, e2], h2⟩

theorem Raises.recaught {α : Type} {P Q R : World → Prop} {m : M α} {e e' : Exc} {p : Exc → Bool} {f : Exc → M α}
    (h : Raises P m e Q) (hp : p e = true) (h' : Raises Q (f e) e' R) : Raises P (M.catchIf p m f) e' R := fun w hw => by
  obtain ⟨w1, e1, h1⟩ := h w hw
  obtain ⟨w2, e2, h2⟩ := h' w1 h1
  exact ⟨w2, by simp only [M.catchIf_apply, e1, hp, if_true, e2], h2⟩

theorem Raises.raise {α : Type} {P : World → Prop} {e : Exc} : Raises P (M.raise e : M α) e P := fun w hw => ⟨w, rfl, hw⟩

theorem Raises.bind {α β : Type} {P Q : World → Prop} {m : M α} {e : Exc} {f : α → M β} (h : Raises P m e Q) :
    Raises P (m >>= f) e Q := fun w hw => by
  obtain ⟨w1, e1, h1⟩ := h w hw
  exact ⟨w1, by simp only [M.bind_apply, e1], h1⟩

theorem Ret.raises {α β : Type} {P Q R : World → Prop} {m : M α} {v : α} {e : Exc} {f : α → M β} (h : Ret P m v Q)
    (h' : Raises Q (f v) e R) : Raises P (m >>= f) e R := fun w hw => by
  obtain ⟨w1, e1, h1⟩ := h w hw
  obtain ⟨w2, e2, h2⟩ := h' w1 h1
  exact ⟨w2, by simp only [M.bind_apply, e1, e2], h2⟩

theorem Gives.ex {α ι : Type} {P : ι → World → Prop} {m : M α} {Q : α → World → Prop} (h : ∀ i, Gives (P i) m Q) :
    Gives (fun w => ∃ i, P i w) m Q := fun w ⟨i, hi⟩ => h i w hi

theorem Gives.post {α : Type} {P : World → Prop} {m : M α} {Q R : α → World → Prop} (h : Gives P m Q)
    (h' : ∀ a w, Q a w → R a w) : Gives P m R := fun w hw => by
  obtain ⟨a, w1, e1, h1⟩ := h w hw
  exact ⟨a, w1, e1, h' a w1 h1⟩

/-- What the heap tells may be used. -/
theorem Gives.know {α : Type} {P : World → Prop} {m : M α} {Q : α → World → Prop} {φ : Prop} (h : ∀ w, P w → φ)
    (h' : φ → Gives P m Q) : Gives P m Q := fun w hw => h' (h w hw) w hw

/-- A loop whose steps all keep `P`. -/
theorem Ret.forU {α : Type} {P : World → Prop} {f : α → M Unit} {l : List α} (h : ∀ x ∈ l, Ret P (f x) () P) :
    Ret P (forU f l) () P := by
  induction l with
  | nil => exact .pure
  | cons a t ih => exact (h a List.mem_cons_self).seq (ih fun x hx => h x (List.mem_cons_of_mem _ hx))

/-- Classes the tester is meant for: `Nodify` above a storage, read by the keys stored there, and
`Adopt` if names are checked. -/
structure TestClass (d : ClassDef) (nc : Bool) : Prop where
  concrete : Concrete d
  noFallback : Bhv.fallback ∉ d.bhvs
  noCache : Bhv.cache ∉ d.bhvs
  noUuid : Bhv.uuidAware ∉ d.bhvs
  noGetattr : Bhv.getattrChildren ∉ d.bhvs
  nodify : Bhv.nodify ∈ d.bhvs
  adopt : nc = true → Bhv.adopt ∈ d.bhvs

/-- The children of the context. -/
def kids (L : Od Key Oid) : Od Key Val := L.map fun x => (x.1, .node x.2)

theorem kids_keys (L : Od Key Oid) : (kids L).keys = L.keys := by simp [kids, Od.keys]

theorem kids_get (L : Od Key Oid) (k : Key) : (kids L).get? k = (L.get? k).map Val.node := by
  induction L with
  | nil => rfl
  | cons a t ih =>
    obtain ⟨j, x⟩ := a
    show (if j = k then some (Val.node x) else (kids t).get? k) = (if j = k then some x else Od.get? t k).map Val.node
    rw [ih]
    split <;> rfl

theorem kids_set (L : Od Key Oid) (k : Key) (x : Oid) : (kids L).set k (.node x) = kids (L.set k x) := by
  induction L with
  | nil => rfl
  | cons a t ih =>
    obtain ⟨j, y⟩ := a
    show (if j = k then (j, Val.node x) :: kids t else (j, .node y) :: (kids t).set k (.node x)) =
      kids (if j = k then (j, x) :: t else (j, y) :: Od.set t k x)
    rw [ih]
    split <;> rfl

theorem kids_del (L : Od Key Oid) (k : Key) : (kids L).del k = kids (L.del k) := by
  induction L with
  | nil => rfl
  | cons a t ih =>
    obtain ⟨j, y⟩ := a
    show (if j = k then kids t else (j, .node y) :: (kids t).del k) = kids (if j = k then t else (j, y) :: Od.del t k)
    rw [ih]
    split <;> rfl

theorem mem_set {L : Od Key Oid} {k : Key} {x : Oid} {y : Key × Oid} (h : y ∈ L.set k x) : y = (k, x) ∨ y ∈ L :=
  Od.mem_of_set h

theorem mem_del {L : Od Key Oid} {k : Key} {y : Key × Oid} (h : y ∈ L.del k) : y ∈ L := Od.mem_of_del h

/-- Keys of the kind the tests use. -/
def Ordinary (k : Key) : Prop := ∃ s, k = .str s ∧ ¬ Reserved s

theorem ord_foo : Ordinary foo := ⟨_, rfl, by decide⟩
theorem ord_bar : Ordinary bar := ⟨_, rfl, by decide⟩
theorem ord_baz : Ordinary baz := ⟨_, rfl, by decide⟩
theorem ord_blub : Ordinary blub := ⟨_, rfl, by decide⟩
theorem ord_xxx : Ordinary xxx := ⟨_, rfl, by decide⟩

/-- Since heap `w0` with the empty context `o`, the context got the children `L`, nodes made meanwhile,
there are the nodes `F` without children not stored anywhere, and no other old node has
changed. -/
structure Holds (E : Env) (c : ClassId) (nc : Bool) (w0 : World) (o : Oid) (L : Od Key Oid) (F : List Oid) (w : World) :
    Prop where
  wf : WF w
  cls : ∀ p, p < w0.nobj → (w.objs p).cls = (w0.objs p).cls
  nobj : w0.nobj ≤ w.nobj
  loc : ∀ p, p < w0.nobj → w.loc p = w0.loc p
  others : ∀ p, p < w0.nobj → p ≠ o → w.children p = w0.children p
  children : w.children o = kids L
  ord : ∀ k ∈ L.keys, Ordinary k
  made : ∀ x ∈ L, w0.nobj ≤ x.2 ∧ x.2 < w.nobj
  named : nc = true → ∀ x ∈ L, (w.objs x.2).name = x.1
  free : ∀ x ∈ F, w0.nobj ≤ x ∧ x < w.nobj ∧ (∀ y ∈ L, y.2 ≠ x) ∧ w.children x = [] ∧ (w.objs x).cls = c
  nodup : F.Nodup

section
variable {E : Env} {c : ClassId} {nc : Bool} {w0 : World} {o : Oid} {L : Od Key Oid} {F : List Oid}

theorem Holds.same {w w' : World} (h : Holds E c nc w0 o L F w) (hw : WF w') (hs : Same w w') :
    Holds E c nc w0 o L F w' where
  wf := hw
  cls p hp := (hs.obj p).cls.trans (h.cls p hp)
  nobj := hs.nobj ▸ h.nobj
  loc p hp := (hs.loc p).trans (h.loc p hp)
  others p hp hpo := (hs.children p).trans (h.others p hp hpo)
  children := (hs.children o).trans h.children
  ord := h.ord
  made x hx := hs.nobj ▸ h.made x hx
  named hn x hx := (hs.obj x.2).name.trans (h.named hn x hx)
  free x hx := by
    obtain ⟨h1, h2, h3, h4, h5⟩ := h.free x hx
    exact ⟨h1, hs.nobj ▸ h2, h3, (hs.children x).trans h4, (hs.obj x).cls.trans h5⟩
  nodup := h.nodup

variable (hc : TestClass (Verif.clsOf E w0 o) nc) (ho : o < w0.nobj)

theorem Holds.theCls {w : World} (h : Holds E c nc w0 o L F w) (ho : o < w0.nobj) :
    Verif.clsOf E w o = Verif.clsOf E w0 o := congrArg E.cls (h.cls o ho)

include hc ho in
theorem Holds.coh {w : World} (h : Holds E c nc w0 o L F w) : Coh E (· = o) w := fun p hp hb => by
  subst hp
  rw [h.theCls ho] at hb
  exact absurd hb hc.noCache

include hc ho in
theorem Holds.open {w : World} (h : Holds E c nc w0 o L F w) : Open E w o where
  concrete := by rw [h.theCls ho]; exact hc.concrete
  keys k hk _ := h.ord k (by
    have : k ∈ (w.children o).keys := hk
    rwa [h.children, kids_keys] at this)
  cache hb := by rw [h.theCls ho] at hb; exact absurd hb hc.noCache

/-- What the tests are made of, for a context `o` that has the children `L` while the nodes `F` are
free: `H L F` tells what is known of the heap. -/
structure Prims (E : Env) (c : ClassId) (nc : Bool) (o : Oid) (H : Od Key Oid → List Oid → World → Prop) : Prop where
  get {L : Od Key Oid} {F : List Oid} {k : Key} {x : Oid} : Ordinary k → L.get? k = some x → Ret (H L F) (getitem E o k) (.node x) (H L F)
  miss {L : Od Key Oid} {F : List Oid} {k : Key} : Ordinary k → L.get? k = none → Raises (H L F) (getitem E o k) (.key (.key k)) (H L F)
  keys {L : Od Key Oid} {F : List Oid} : Ret (H L F) (mkeys E o) L.keys (H L F)
  values {L : Od Key Oid} {F : List Oid} : Ret (H L F) (mvalues E o) (L.map fun x => .node x.2) (H L F)
  items {L : Od Key Oid} {F : List Oid} : Ret (H L F) (mitems E o) (kids L) (H L F)
  itemsFree {L : Od Key Oid} {F : List Oid} {x : Oid} : x ∈ F → Ret (H L F) (mitems E x) [] (H L F)
  set {L : Od Key Oid} {F : List Oid} {k : Key} {x : Oid} : Ordinary k → k ∉ L.keys → x ∈ F →
    Ret (H L F) (setitem E o k (.node x)) () (H (L.set k x) (F.erase x))
  del {L : Od Key Oid} {F : List Oid} {k : Key} : Ordinary k → k ∈ L.keys → Ret (H L F) (delitem E o k) () (H (L.del k) F)
  new {L : Od Key Oid} {F : List Oid} (name : Key) : (E.cls c).Accepts name none → Gives (H L F) (newNode E c name none) fun x => H L (x :: F)
  named {L : Od Key Oid} {F : List Oid} {w : World} {x : Key × Oid} : H L F w → nc = true → x ∈ L → (w.objs x.2).name = x.1
  nodup {L : Od Key Oid} {F : List Oid} {w : World} : H L F w → F.Nodup
  apart {L : Od Key Oid} {F : List Oid} {w : World} {x : Key × Oid} {y : Oid} : H L F w → x ∈ L → y ∈ F → x.2 ≠ y
  copy {F : List Oid} {x z : Oid} : Ret (H [(foo, x), (baz, z)] F) (testCopy E nc o) () (H [(foo, x), (baz, z)] F)

section
variable {H : Od Key Oid → List Oid → World → Prop}
  (base : ∀ {L F w}, H L F w → Holds E c nc w0 o L F w)
  (same : ∀ {L F w w'}, H L F w → WF w' → Same w w' → H L F w')
include hc ho base same

theorem run_get {k : Key} {x : Oid} (hk : Ordinary k) (hx : L.get? k = some x) :
    Ret (H L F) (getitem E o k) (.node x) (H L F) := fun w hh => by
  have h := base hh
  have ho' := h.open hc ho
  obtain ⟨w', h1, h2⟩ := getitem_look (E := E) (S := (· = o)) (w := w) (k := k)
    ⟨ho'.concrete.stores, ho'.concrete.noAlias, fun _ => hk⟩ h.wf (h.coh hc ho) rfl ho'.concrete.noFactory
    (by rw [h.theCls ho]; exact hc.noFallback)
  refine ⟨w', ?_, same hh h2.wf h2.same⟩
  rw [h1, h.children]
  simp only [lookup, kids_get, hx, Option.map_some]

theorem run_getMiss {k : Key} (hk : Ordinary k) (hx : L.get? k = none) :
    Raises (H L F) (getitem E o k) (.key (.key k)) (H L F) := fun w hh => by
  have h := base hh
  have ho' := h.open hc ho
  obtain ⟨w', h1, h2⟩ := getitem_look (E := E) (S := (· = o)) (w := w) (k := k)
    ⟨ho'.concrete.stores, ho'.concrete.noAlias, fun _ => hk⟩ h.wf (h.coh hc ho) rfl ho'.concrete.noFactory
    (by rw [h.theCls ho]; exact hc.noFallback)
  refine ⟨w', ?_, same hh h2.wf h2.same⟩
  rw [h1, h.children]
  simp only [lookup, kids_get, hx, Option.map_none]

theorem run_keys : Ret (H L F) (mkeys E o) L.keys (H L F) := fun w hh => by
  have h := base hh
  obtain ⟨w', h1, h2⟩ := iter_open (E := E) (S := (· = o)) (w := w) (h.open hc ho).concrete h.wf (h.coh hc ho)
  refine ⟨w', ?_, same hh h2.wf h2.same⟩
  simp only [mkeys, M.bind_apply, h1, endIter, M.pure_apply]
  rw [h.children, kids_keys]

theorem run_values : Ret (H L F) (mvalues E o) (L.map fun x => .node x.2) (H L F) :=
  fun w hh => by
  have h := base hh
  obtain ⟨w', h1, h2⟩ := mvalues_open (S := (· = o)) (h.open hc ho) h.wf (h.coh hc ho) rfl
  refine ⟨w', ?_, same hh h2.wf h2.same⟩
  have hi := toMap_items (h.wf.children_nodup o)
  have hn := h.wf.children_nodup o
  rw [h1]
  show (Except.ok ((w.children o).keys.filterMap (w.children o).get?), w') = _
  have : ∀ (l : List (Key × Val)), (∀ kv ∈ l, (w.children o).get? kv.1 = some kv.2) →
      (l.map Prod.fst).filterMap (w.children o).get? = l.map Prod.snd := by
    intro l hl
    induction l with
    | nil => rfl
    | cons a t ih =>
      simp only [List.map_cons, List.filterMap_cons, hl a List.mem_cons_self]
      rw [ih fun kv hkv => hl kv (List.mem_cons_of_mem _ hkv)]
  have e := this _ fun kv hkv => Od.get?_of_mem hn hkv
  have e' : (w.children o).map Prod.snd = L.map fun x => .node x.2 := by rw [h.children]; simp [kids]
  rw [← e', ← e]
  rfl

theorem run_items : Ret (H L F) (mitems E o) (kids L) (H L F) := fun w hh => by
  have h := base hh
  obtain ⟨w', h1, h2⟩ := mitems_open (S := (· = o)) (h.open hc ho) h.wf (h.coh hc ho) rfl
  refine ⟨w', ?_, same hh h2.wf h2.same⟩
  rw [h1]
  have hi : (w.omap o).items = w.children o := toMap_items (h.wf.children_nodup o)
  rw [hi, h.children]

omit hc ho in
/-- The items of a new node. -/
theorem run_itemsFree {x : Oid} (hm : Concrete (E.cls c)) (hx : x ∈ F) :
    Ret (H L F) (mitems E x) [] (H L F) := fun w hh => by
  have h := base hh
  obtain ⟨-, -, -, h4, h5⟩ := h.free x hx
  have hcls : Verif.clsOf E w x = E.cls c := congrArg E.cls h5
  obtain ⟨w', h1, h2⟩ := iter_open (E := E) (S := fun _ => False) (o := x) (by rw [hcls]; exact hm) h.wf
    fun _ hf => hf.elim
  refine ⟨w', ?_, same hh h2.wf h2.same⟩
  rw [h4] at h1
  simp only [mitems, M.bind_apply, h1]
  rfl

end

/-- The heap after a free node was put in. -/
theorem Holds.set {w w' : World} (h : Holds E c nc w0 o L F w) (hc : TestClass (Verif.clsOf E w0 o) nc) (ho : o < w0.nobj)
    {k : Key} {x : Oid} (hk : Ordinary k) (hx : x ∈ F)
    (h1 : setitem E o k (.node x) w = (.ok (), w')) (hw : WF w')
    (hch : ∀ p, w'.children p = if p = o then (w.children o).set k (.node x) else w.children p)
    (hcl : ∀ p, (w'.objs p).cls = (w.objs p).cls) (hno : w'.nobj = w.nobj) :
    Holds E c nc w0 o (L.set k x) (F.erase x) w' := by
  have hx' := h.free x hx
  have hloc := c06_any_stack E o k (.node x) h.wf h1
  have hl : ∀ p, p ≠ x → w'.loc p = w.loc p := fun p hp => by
    rw [hloc p]
    have : ¬ (Val.node x = .node p) := fun e => hp (by injection e with e; exact e.symm)
    split
    · rw [if_neg this]
    · rfl
  have hne : ∀ {p}, p < w0.nobj → p ≠ x := fun hp e => by have := hx'.1; omega
  refine ⟨hw, fun p hp => (hcl p).trans (h.cls p hp), hno ▸ h.nobj,
    fun p hp => (hl p (hne hp)).trans (h.loc p hp), fun p hp hpo => ?_, ?_, fun j hj => ?_, fun y hy => ?_,
    fun hn y hy => ?_, fun y hy => ?_, h.nodup.erase x⟩
  · rw [hch p, if_neg hpo]; exact h.others p hp hpo
  · rw [hch o, if_pos rfl, h.children, kids_set]
  · rw [Od.keys_set] at hj
    split at hj
    · exact h.ord j hj
    · rcases List.mem_append.mp hj with hj | hj
      · exact h.ord j hj
      · rw [List.mem_singleton.mp hj]; exact hk
  · rw [hno]
    rcases mem_set hy with e | e
    · rw [e]; exact ⟨hx'.1, hx'.2.1⟩
    · exact h.made y e
  · rcases mem_set hy with e | e
    · have ha : Bhv.adopt ∈ (Verif.clsOf E w o).bhvs := by rw [h.theCls ho]; exact hc.adopt hn
      have := (c06_adopted E o k x h.wf ha (h.open hc ho).concrete.noAlias h1).1
      rw [e]
      exact congrArg Prod.fst this
    · have := hl y.2 (hx'.2.2.1 y e)
      exact (congrArg Prod.fst this).trans (h.named hn y e)
  · have hyF := List.mem_of_mem_erase hy
    have hyx : y ≠ x := fun e => by
      subst e
      exact (List.Nodup.mem_erase_iff h.nodup).mp hy |>.1 rfl
    obtain ⟨g1, g2, g3, g4, g5⟩ := h.free y hyF
    refine ⟨g1, hno ▸ g2, fun z hz => ?_, ?_, (hcl y).trans g5⟩
    · rcases mem_set hz with e | e
      · rw [e]; exact hyx.symm
      · exact g3 z e
    · rw [hch y, if_neg (by omega)]; exact g4

/-- The heap after a child was taken out. -/
theorem Holds.del {w w' : World} (h : Holds E c nc w0 o L F w) (hE : NoFactory E) (ho : o < w0.nobj)
    {k : Key} (h1 : delitem E o k w = (.ok (), w')) (hw : WF w')
    (hch : ∀ p, w'.children p = if p = o then (w.children o).del k else w.children p)
    (hcl : ∀ p, (w'.objs p).cls = (w.objs p).cls) (hno : w'.nobj = w.nobj) :
    Holds E c nc w0 o (L.del k) F w' := by
  have hout := delitem_out hE o k h.wf
  rw [h1] at hout
  have hloc : ∀ p, w'.loc p = w.loc p := hout.loc
  have hnd : L.keys.Nodup := by
    have := h.wf.children_nodup o
    rwa [h.children, kids_keys] at this
  refine ⟨hw, fun p hp => (hcl p).trans (h.cls p hp), hno ▸ h.nobj, fun p hp => (hloc p).trans (h.loc p hp),
    fun p hp hpo => ?_, ?_, fun j hj => ?_, fun y hy => ?_, fun hn y hy => ?_, fun y hy => ?_, h.nodup⟩
  · rw [hch p, if_neg hpo]; exact h.others p hp hpo
  · rw [hch o, if_pos rfl, h.children, kids_del]
  · rw [Od.keys_del hnd] at hj
    exact h.ord j (List.mem_filter.mp hj).1
  · rw [hno]; exact h.made y (mem_del hy)
  · exact (congrArg Prod.fst (hloc y.2)).trans (h.named hn y (mem_del hy))
  · obtain ⟨g1, g2, g3, g4, g5⟩ := h.free y hy
    refine ⟨g1, hno ▸ g2, fun z hz => g3 z (mem_del hz), ?_, (hcl y).trans g5⟩
    rw [hch y, if_neg (by omega)]; exact g4

/-- The heap after a node was made. -/
theorem Holds.new {w w' : World} (h : Holds E c nc w0 o L F w) (ho : o < w0.nobj) {name : Key}
    (hN : newNode E c name none w = (.ok w.nobj, w')) (hnobj : w'.nobj = w.nobj + 1)
    (hch : w'.children w.nobj = []) (hcl : (w'.objs w.nobj).cls = c) : Holds E c nc w0 o L (w.nobj :: F) w' := by
  have hb := newNode_builds E c name none h.wf
  rw [hN] at hb
  obtain ⟨hwf, -, hs, -⟩ := hb
  have hlt := h.nobj
  refine ⟨hwf, fun p hp => (hs.cls p (by omega)).trans (h.cls p hp), by omega,
    fun p hp => (hs.loc p (by omega)).trans (h.loc p hp), fun p hp hpo => (hs.children p (by omega)).trans (h.others p hp hpo),
    (hs.children o (by omega)).trans h.children, h.ord, fun y hy => ?_, fun hn y hy => ?_, fun y hy => ?_, ?_⟩
  · have := h.made y hy; omega
  · exact (congrArg Prod.fst (hs.loc y.2 (h.made y hy).2)).trans (h.named hn y hy)
  · rcases List.mem_cons.mp hy with rfl | hy
    · exact ⟨hlt, by omega, fun z hz => by have := (h.made z hz).2; omega, hch, hcl⟩
    · obtain ⟨g1, g2, g3, g4, g5⟩ := h.free y hy
      exact ⟨g1, by omega, g3, (hs.children y g2).trans g4, (hs.cls y g2).trans g5⟩
  · exact List.nodup_cons.mpr ⟨fun hy => by have := (h.free _ hy).2.1; omega, h.nodup⟩

/-- An existing storage is read without changing anything, however many nodes share it. -/
theorem getPipe_shared (fb : Oid → Key → Exc → M Val) {bs : List Bhv} (hb : ∀ b ∈ bs, b ∉ [Bhv.alias, .cache, .childFactory, .fallback])
    {p : Oid} {k : Key} (hk : Ordinary k) {w : World} {r : Ref} (hs : Stores (clsOf E w p))
    (hr : (w.objs p).storage = some r) : getPipe E fb bs p k w = (lookup (w.stores r) k, w) := by
  induction bs with
  | nil =>
    obtain ⟨b, hb1, _⟩ := hs.kind
    have hb1' : storageKind (bhvsOf E w p) = some b := hb1
    have hst : storageRef E p w = (.ok r, w) := by
      simp only [storageRef, hb1', hr]
    simp only [getPipe, getEnd, M.bind_apply, M.getW_apply]
    rw [show (bhvsOf E w p).contains .fixedChildren = false from hs.fixed,
      show (bhvsOf E w p).any Bhv.isStorage = true from hs.any]
    simp only [Bool.false_eq_true, if_false, if_true, M.bind_apply, hst, M.getW_apply, M.ofExcept_apply]
  | cons b t ih =>
    have ih := ih fun x h => hb x (List.mem_cons_of_mem _ h)
    have hbp := hb b List.mem_cons_self
    cases b
    case nodespaces =>
      obtain ⟨s, rfl, hs⟩ := hk
      simp only [getPipe, nodespacesGet, not_reserved hs, Bool.false_eq_true, if_false]
      exact ih
    case cache => exact absurd (by decide) hbp
    case alias => exact absurd (by decide) hbp
    case childFactory => exact absurd (by decide) hbp
    case fallback => exact absurd (by decide) hbp
    all_goals exact ih

/-- `copy` returns for classes without `UUIDAware` and `GetattrChildren`. -/
theorem copyPipe_runs {bs : List Bhv} (hu : Bhv.uuidAware ∉ bs) {p : Oid} {w : World}
    (hg : Bhv.getattrChildren ∉ bhvsOf E w p) : ∃ n w', copyPipe E bs p w = (.ok n, w') := by
  induction bs with
  | nil =>
    rcases hy : copyEnd E p w with ⟨e | n, w'⟩
    · simp only [copyEnd] at hy
      rw [if_neg (by simpa using hg)] at hy
      cases hy
    · exact ⟨n, w', hy⟩
  | cons b t ih =>
    obtain ⟨n, w', h⟩ := ih fun h => hu (List.mem_cons_of_mem _ h)
    cases b
    case uuidAware => exact absurd List.mem_cons_self hu
    case nodify =>
      rcases hy : copyPipe E (.nodify :: t) p w with ⟨e | n, w'⟩
      · simp only [copyPipe, M.bind_apply, h, nodifyCopy, getO_apply, modO_apply, M.pure_apply] at hy
        cases hy
      · exact ⟨n, w', rfl⟩
    all_goals exact ⟨n, w', h⟩

/-- The heap with another name and parent of `p`. -/
def moved (nc : Bool) (p : Oid) (name : Key) (parent : Option Oid) (w : World) : World :=
  { w with objs := upd w.objs p (if nc then { w.objs p with name := name, parent := parent } else w.objs p) }

theorem relocate_eq (nc : Bool) (p : Oid) (name : Key) (parent : Option Oid) (w : World) :
    relocate nc p name parent w = (.ok (), moved nc p name parent w) := by
  cases nc with
  | true =>
    have : ∀ (a b : Obj), upd (upd w.objs p a) p b = upd w.objs p b := fun a b => by
      funext q
      by_cases e : q = p
      · subst e; simp
      · simp [upd_other _ _ e]
    simp [relocate, moved, this]
  | false =>
    simp only [relocate, moved, Bool.false_eq_true, if_false, M.pure_apply]
    congr 1
    have : upd w.objs p (w.objs p) = w.objs := by
      funext q
      by_cases e : q = p
      · subst e; simp
      · simp [upd_other _ _ e]
    rw [this]

theorem Holds.released {w : World} (h : Holds E c nc w0 o L F w) (ho : o < w0.nobj) :
    Holds E c nc w0 o L F { w with objs := upd w.objs w.nobj {} } := by
  have hne : ∀ {p}, p < w.nobj → upd w.objs w.nobj {} p = w.objs p := fun hp => upd_other _ _ (Nat.ne_of_lt hp)
  have hch : ∀ {p}, p < w.nobj → ({ w with objs := upd w.objs w.nobj {} } : World).children p = w.children p := fun hp => by
    simp only [World.children, hne hp]
  have hloc : ∀ {p}, p < w.nobj → ({ w with objs := upd w.objs w.nobj {} } : World).loc p = w.loc p := fun hp => by
    simp only [World.loc, hne hp]
  have hn := h.nobj
  have href : ∀ {f : Obj → Option Ref} {n : Nat}, f {} = none → RefsOK (fun p => f (w.objs p)) n →
      RefsOK (fun p => f (upd w.objs w.nobj {} p)) n := by
    intro f n h0 hf
    have key : ∀ {p r}, f (upd w.objs w.nobj {} p) = some r → f (w.objs p) = some r := by
      intro p r hp
      by_cases e : p = w.nobj
      · subst e; rw [upd_same, h0] at hp; cases hp
      · rwa [upd_other _ _ e] at hp
    exact ⟨fun hp => hf.lt (key hp), fun hp hq => hf.inj (key hp) (key hq)⟩
  refine ⟨⟨href rfl h.wf.s, href rfl h.wf.c, href rfl h.wf.n, fun {p r} hp => ?_, h.wf.sNd, h.wf.cNd, h.wf.nNd, h.wf.iNd⟩,
    fun p hp => ?_, h.nobj, fun p hp => (hloc (by omega)).trans (h.loc p hp),
    fun p hp hpo => (hch (by omega)).trans (h.others p hp hpo), (hch (by omega)).trans h.children, h.ord, h.made,
    fun hnc x hx => ?_, fun x hx => ?_, h.nodup⟩
  · by_cases e : p = w.nobj
    · subst e; simp only [upd_same] at hp; cases hp
    · simp only [upd_other _ _ e] at hp; exact h.wf.iLt hp
  · show (upd w.objs w.nobj {} p).cls = _
    rw [hne (by omega)]; exact h.cls p hp
  · show (upd w.objs w.nobj {} x.2).name = _
    rw [hne (h.made x hx).2]; exact h.named hnc x hx
  · obtain ⟨g1, g2, g3, g4, g5⟩ := h.free x hx
    refine ⟨g1, g2, g3, (hch g2).trans g4, ?_⟩
    show (upd w.objs w.nobj {} x).cls = _
    rw [hne g2]; exact g5

theorem testCopy_runs {x z : Oid} {w : World} (h : Holds E c nc w0 o [(foo, x), (baz, z)] F w)
    (hc : TestClass (Verif.clsOf E w0 o) nc) (ho : o < w0.nobj) :
    testCopy E nc o w = (.ok (), { w with objs := upd w.objs w.nobj {} }) := by
  have hon : o < w.nobj := Nat.lt_of_lt_of_le ho h.nobj
  have hne : o ≠ w.nobj := Nat.ne_of_lt hon
  have hcls := h.theCls ho
  obtain ⟨r, hr⟩ : ∃ r, (w.objs o).storage = some r := by
    have hch := h.children
    unfold World.children at hch
    cases hs : (w.objs o).storage with
    | none => rw [hs] at hch; cases hch
    | some r => exact ⟨r, rfl⟩
  have hst : w.stores r = kids [(foo, x), (baz, z)] := by
    have hch := h.children
    unfold World.children at hch
    rw [hr] at hch
    exact hch
  generalize hw1 : moved nc o (.str "nametopcopy".toList) (some (w.nobj + 1)) w = w1
  have o1 : (w1.objs o).cls = (w.objs o).cls ∧ (w1.objs o).storage = some r := by
    subst hw1
    cases nc <;> simp [moved, hr]
  have n1 : w1.nobj = w.nobj := by subst hw1; rfl
  have s1 : w1.stores = w.stores := by subst hw1; rfl
  have c1 : Verif.clsOf E w1 o = Verif.clsOf E w0 o := (congrArg E.cls o1.1).trans hcls
  obtain ⟨n, w2, hcp⟩ : ∃ n w2, copyNode E o w1 = (.ok n, w2) := by
    have hnod : (bhvsOf E w1 o).contains .nodify = true := by
      have : Bhv.nodify ∈ (Verif.clsOf E w1 o).bhvs := by rw [c1]; exact hc.nodify
      exact List.contains_iff_mem.mpr this
    simp only [copyNode, hnod, if_true]
    refine copyPipe_runs ?_ ?_
    · show _ ∉ (Verif.clsOf E w1 o).bhvs
      rw [c1]; exact hc.noUuid
    · show _ ∉ (Verif.clsOf E w1 o).bhvs
      rw [c1]; exact hc.noGetattr
  obtain ⟨rfl, hw2⟩ := copyNode_ok (n1 ▸ hon) hcp
  rw [n1] at hw2
  have o2 : w2.objs o = w1.objs o := by rw [hw2]; exact upd_other _ _ hne
  have p2 : w2.objs w.nobj = w1.objs o := by rw [hw2]; exact upd_same ..
  have s2 : w2.stores = w.stores := by rw [hw2]; exact s1
  have rd : ∀ p, w2.objs p = w1.objs o → getitem E p foo w2 = (.ok (.node x), w2) := fun p hp => by
    have c2 : Verif.clsOf E w2 p = Verif.clsOf E w0 o := by
      refine Eq.trans ?_ c1
      show E.cls (w2.objs p).cls = E.cls (w1.objs o).cls
      rw [hp]
    have hb : bhvsOf E w2 p = (Verif.clsOf E w0 o).bhvs := congrArg ClassDef.bhvs c2
    have := getPipe_shared (E := E) (fbHandler E) (bs := bhvsOf E w2 p) (w := w2) (p := p) (r := r)
      (by
        rw [hb]
        intro b hm
        simp only [List.mem_cons, List.not_mem_nil, or_false, not_or]
        exact ⟨fun e => hc.concrete.noAlias (e ▸ hm), fun e => hc.noCache (e ▸ hm),
          fun e => hc.concrete.noFactory (e ▸ hm), fun e => hc.noFallback (e ▸ hm)⟩) ord_foo
      (by rw [c2]; exact hc.concrete.stores) (by rw [hp]; exact o1.2)
    refine Eq.trans this ?_
    rw [s2, hst]
    rfl
  have hcmp : compareCopy E nc o w.nobj w2 = (.ok (), w2) := by
    simp only [compareCopy, M.bind_apply, failIf, rd _ p2, rd _ o2, hne.symm, decide_false, Bool.false_eq_true, if_false,
      M.pure_apply, ne_eq, not_true_eq_false]
    cases nc with
    | false => rfl
    | true =>
      simp only [if_true, M.bind_apply, getO_apply, p2, o2, not_true_eq_false, decide_false, Bool.false_eq_true, if_false,
        M.pure_apply]
  rw [n1] at hcp
  have hobjs : upd (moved nc o (w.objs o).name (w.objs o).parent w2).objs w.nobj {} = upd w.objs w.nobj {} := by
    funext p
    by_cases e1 : p = w.nobj
    · rw [e1, upd_same, upd_same]
    · rw [upd_other _ _ e1, upd_other _ _ e1]
      by_cases e2 : p = o
      · subst e2
        simp only [moved, upd_same, o2]
        rw [← hw1]
        cases nc <;> simp only [moved, upd_same, if_true, Bool.false_eq_true, if_false]
      · simp only [moved, upd_other _ _ e2, hw2, upd_other _ _ e1]
        rw [← hw1]
        simp only [moved, upd_other _ _ e2]
  have hrel : release w.nobj (moved nc o (w.objs o).name (w.objs o).parent w2) =
      (.ok (), { w with objs := upd w.objs w.nobj {} }) := by
    simp only [release, M.modifyW_apply, hobjs]
    rw [hw2, ← hw1]
    rfl
  show testCopy E nc o w = _
  unfold testCopy
  rw [M.bind_apply, getO_apply]
  show (M.getW >>= _) w = _
  rw [M.bind_apply, M.getW_apply]
  show ((relocate _ _ _ _) >>= _) w = _
  rw [M.bind_apply, relocate_eq]
  rw [show moved nc o (.str "nametopcopy".toList) (some (w.nobj + 1)) w = w1 from hw1]
  show ((copyNode E o) >>= _) w1 = _
  rw [M.bind_apply, hcp]
  show ((compareCopy E nc o w.nobj) >>= _) w2 = _
  rw [M.bind_apply, hcmp]
  show ((relocate _ _ _ _) >>= _) w2 = _
  rw [M.bind_apply, relocate_eq]
  exact hrel

end

end Verif.FullMapping
