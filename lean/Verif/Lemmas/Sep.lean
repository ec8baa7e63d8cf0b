import Verif.Model.Api
import Verif.Lemmas.Odict

/-!
Separation: operations given objects outside a protected part of the heap neither change nor reach
the protected part, provided no reference leads into it.  With nothing protected this says that
references never lead to objects that do not exist.
-/

namespace Verif

/-! ### Values of dictionaries -/

/-- All values of a dictionary. -/
def AllV {K V : Type} (P : V → Prop) (d : Od K V) : Prop := ∀ kv ∈ d, P kv.2

section
variable {K V : Type} [DecidableEq K] {P : V → Prop}

omit [DecidableEq K] in
theorem AllV.nil : AllV P ([] : Od K V) := nofun

theorem AllV.set {d : Od K V} (h : AllV P d) {k : K} {v : V} (hv : P v) : AllV P (d.set k v) := by
  induction d with
  | nil => intro kv hkv; simp only [Od.set, List.mem_singleton] at hkv; subst hkv; exact hv
  | cons a r ih =>
    obtain ⟨k', v'⟩ := a
    have ih := ih fun kv hkv => h kv (List.mem_cons_of_mem _ hkv)
    intro kv hkv
    simp only [Od.set] at hkv
    split at hkv
    · rcases List.mem_cons.mp hkv with e | e
      · subst e; exact hv
      · exact h kv (List.mem_cons_of_mem _ e)
    · rcases List.mem_cons.mp hkv with e | e
      · subst e; exact h _ List.mem_cons_self
      · exact ih kv e

theorem AllV.del {d : Od K V} (h : AllV P d) (k : K) : AllV P (d.del k) := by
  induction d with
  | nil => exact nofun
  | cons a r ih =>
    obtain ⟨k', v'⟩ := a
    have ih := ih fun kv hkv => h kv (List.mem_cons_of_mem _ hkv)
    intro kv hkv
    simp only [Od.del] at hkv
    split at hkv
    · exact h kv (List.mem_cons_of_mem _ hkv)
    · rcases List.mem_cons.mp hkv with e | e
      · subst e; exact h _ List.mem_cons_self
      · exact ih kv e

theorem AllV.get {d : Od K V} (h : AllV P d) {k : K} {v : V} (hg : d.get? k = some v) : P v := by
  induction d with
  | nil => cases hg
  | cons a r ih =>
    obtain ⟨k', v'⟩ := a
    simp only [Od.get?] at hg
    split at hg
    · injection hg with hg; subst hg; exact h _ List.mem_cons_self
    · exact ih (fun kv hkv => h kv (List.mem_cons_of_mem _ hkv)) hg

theorem AllV.update {d e : Od K V} (h : AllV P d) (he : AllV P e) : AllV P (d.update e) := by
  unfold Od.update
  induction e generalizing d with
  | nil => exact h
  | cons a r ih =>
    exact ih (h.set (he a List.mem_cons_self)) fun kv hkv => he kv (List.mem_cons_of_mem _ hkv)

theorem AllV.insertBefore {d : Od K V} (h : AllV P d) {ref k : K} {v : V} (hv : P v) :
    AllV P (d.insertBefore ref k v) := by
  induction d with
  | nil => exact nofun
  | cons a r ih =>
    obtain ⟨k', v'⟩ := a
    have ih := ih fun kv hkv => h kv (List.mem_cons_of_mem _ hkv)
    intro kv hkv
    simp only [Od.insertBefore] at hkv
    split at hkv
    · rcases List.mem_cons.mp hkv with e | e
      · subst e; exact hv
      · exact h kv e
    · rcases List.mem_cons.mp hkv with e | e
      · subst e; exact h _ List.mem_cons_self
      · exact ih kv e

theorem AllV.insertAfter {d : Od K V} (h : AllV P d) {ref k : K} {v : V} (hv : P v) :
    AllV P (d.insertAfter ref k v) := by
  induction d with
  | nil => exact nofun
  | cons a r ih =>
    obtain ⟨k', v'⟩ := a
    have ih := ih fun kv hkv => h kv (List.mem_cons_of_mem _ hkv)
    intro kv hkv
    simp only [Od.insertAfter] at hkv
    split at hkv
    · rcases List.mem_cons.mp hkv with e | e
      · subst e; exact h _ List.mem_cons_self
      · rcases List.mem_cons.mp e with e | e
        · subst e; exact hv
        · exact h kv (List.mem_cons_of_mem _ e)
    · rcases List.mem_cons.mp hkv with e | e
      · subst e; exact h _ List.mem_cons_self
      · exact ih kv e

theorem AllV.swap {d : Od K V} (h : AllV P d) (a b : K) : AllV P (d.swap a b) := by
  unfold Od.swap
  split
  · rename_i va vb ha hb
    intro kv hkv
    obtain ⟨x, hx, rfl⟩ := List.mem_map.mp hkv
    split
    · exact h.get hb
    · split
      · exact h.get ha
      · exact h x hx
  · exact h

omit [DecidableEq K] in
theorem AllV.mono {Q : V → Prop} {d : Od K V} (h : AllV P d) (hPQ : ∀ v, P v → Q v) : AllV Q d :=
  fun kv hkv => hPQ _ (h kv hkv)
end

/-! ### The protected part -/

/-- What is protected: objects and the four kinds of dictionaries; and the heap to compare with. -/
structure Prot where
  Q : Oid → Prop
  QS : Ref → Prop
  QC : Ref → Prop
  QN : Ref → Prop
  QI : Ref → Prop
  w0 : World
  q : ∀ o, Q o → o < w0.nobj
  qs : ∀ r, QS r → r < w0.nstore
  qc : ∀ r, QC r → r < w0.ncache
  qn : ∀ r, QN r → r < w0.nnspace
  qi : ∀ r, QI r → r < w0.nidx

variable {Γ : Prot}

/-- An existing object that is not protected. -/
def Good (Γ : Prot) (n : Nat) (o : Oid) : Prop := ¬ Γ.Q o ∧ o < n

/-- The same for values. -/
def GoodV (Γ : Prot) (n : Nat) (v : Val) : Prop := ∀ c, v = .node c → Good Γ n c

theorem Good.mono {n m : Nat} {o : Oid} (h : Good Γ n o) (hnm : n ≤ m) : Good Γ m o :=
  ⟨h.1, Nat.lt_of_lt_of_le h.2 hnm⟩

theorem GoodV.mono {n m : Nat} {v : Val} (h : GoodV Γ n v) (hnm : n ≤ m) : GoodV Γ m v :=
  fun c hc => (h c hc).mono hnm

theorem goodV_data (n : Nat) (d : Data) : GoodV Γ n (.data d) := nofun

theorem Good.val {n : Nat} {o : Oid} (h : Good Γ n o) : GoodV Γ n (.node o) := fun c hc => by
  injection hc with hc; subst hc; exact h

theorem GoodV.node {n : Nat} {o : Oid} (h : GoodV Γ n (.node o)) : Good Γ n o := h o rfl

/-- All references of an object are to what is not protected. -/
structure GoodObj (Γ : Prot) (n : Nat) (ob : Obj) : Prop where
  parent : ∀ p, ob.parent = some p → Good Γ n p
  storage : ∀ r, ob.storage = some r → ¬ Γ.QS r
  cache : ∀ r, ob.cache = some r → ¬ Γ.QC r
  nodespaces : ∀ r, ob.nodespaces = some r → ¬ Γ.QN r
  index : ∀ r, ob.index = some r → ¬ Γ.QI r
  fixed : AllV (GoodV Γ n) ob.fixed

theorem GoodObj.mono {n m : Nat} {ob : Obj} (h : GoodObj Γ n ob) (hnm : n ≤ m) : GoodObj Γ m ob :=
  { h with
    parent := fun p hp => (h.parent p hp).mono hnm
    fixed := h.fixed.mono fun _ hv => hv.mono hnm }

/-- The protected part is as it was, and nothing else leads into it. What lies beyond the counters has not
been handed out yet; nothing is said of it. -/
structure Inv (Γ : Prot) (w : World) : Prop where
  nobj : Γ.w0.nobj ≤ w.nobj
  nstore : Γ.w0.nstore ≤ w.nstore
  ncache : Γ.w0.ncache ≤ w.ncache
  nnspace : Γ.w0.nnspace ≤ w.nnspace
  nidx : Γ.w0.nidx ≤ w.nidx
  obj : ∀ q, Γ.Q q → w.objs q = Γ.w0.objs q
  stores : ∀ r, Γ.QS r → w.stores r = Γ.w0.stores r
  caches : ∀ r, Γ.QC r → w.caches r = Γ.w0.caches r
  nspaces : ∀ r, Γ.QN r → w.nspaces r = Γ.w0.nspaces r
  idxs : ∀ r, Γ.QI r → w.idxs r = Γ.w0.idxs r
  refs : ∀ p, Good Γ w.nobj p → GoodObj Γ w.nobj (w.objs p)
  svals : ∀ r, ¬ Γ.QS r → r < w.nstore → AllV (GoodV Γ w.nobj) (w.stores r)
  cvals : ∀ r, ¬ Γ.QC r → r < w.ncache → AllV (GoodV Γ w.nobj) (w.caches r)
  nvals : ∀ r, ¬ Γ.QN r → r < w.nnspace → AllV (GoodV Γ w.nobj) (w.nspaces r)
  ivals : ∀ r, ¬ Γ.QI r → r < w.nidx → AllV (Good Γ w.nobj) (w.idxs r)
  sLt : ∀ p r, (w.objs p).storage = some r → r < w.nstore
  cLt : ∀ p r, (w.objs p).cache = some r → r < w.ncache
  nLt : ∀ p r, (w.objs p).nodespaces = some r → r < w.nnspace
  iLt : ∀ p r, (w.objs p).index = some r → r < w.nidx

/-- `m` respects the separation, if started with at least `n` objects; `post` holds of the result and
the number of objects then. -/
def Sep (Γ : Prot) (n : Nat) {α : Type} (m : M α) (post : Nat → α → Prop) : Prop :=
  ∀ w, Inv Γ w → n ≤ w.nobj →
    Inv Γ (m w).2 ∧ w.nobj ≤ (m w).2.nobj ∧ ∀ a, (m w).1 = .ok a → post (m w).2.nobj a

/-- Nothing is claimed of the result. -/
abbrev tt {α : Type} : Nat → α → Prop := fun _ _ => True

section rules
variable {n : Nat} {α β : Type}

theorem sep_pure {a : α} {post : Nat → α → Prop} (h : ∀ n', n ≤ n' → post n' a) : Sep Γ n (pure a : M α) post :=
  fun _ hI hn => ⟨hI, Nat.le_refl _, fun b hb => by
    injection hb with hb; subst hb; exact h _ hn⟩

theorem sep_raise {e : Exc} {post : Nat → α → Prop} : Sep Γ n (M.raise e : M α) post :=
  fun _ hI _ => ⟨hI, Nat.le_refl _, nofun⟩

theorem sep_weaken {m : M α} {p post : Nat → α → Prop} (h : Sep Γ n m p) (hp : ∀ n' a, n ≤ n' → p n' a → post n' a) :
    Sep Γ n m post := fun w hI hn =>
  ⟨(h w hI hn).1, (h w hI hn).2.1, fun a ha => hp _ a (Nat.le_trans hn (h w hI hn).2.1) ((h w hI hn).2.2 a ha)⟩

theorem sep_mono {n' : Nat} {m : M α} {post : Nat → α → Prop} (h : Sep Γ n m post) (hn : n ≤ n') :
    Sep Γ n' m post := fun w hI hw => h w hI (Nat.le_trans hn hw)

theorem sep_tt {m : M α} {p : Nat → α → Prop} (h : Sep Γ n m p) : Sep Γ n m tt :=
  sep_weaken h fun _ _ _ _ => trivial

theorem sep_bind {m : M α} {f : α → M β} {p : Nat → α → Prop} {post : Nat → β → Prop} (hm : Sep Γ n m p)
    (hf : ∀ a n', n ≤ n' → p n' a → Sep Γ n' (f a) post) : Sep Γ n (m >>= f) post := by
  intro w hI hn
  obtain ⟨h1, h2, h3⟩ := hm w hI hn
  rw [M.bind_apply]
  cases hx : m w with
  | mk r w1 =>
    rw [hx] at h1 h2 h3
    cases r with
    | error e => exact ⟨h1, h2, nofun⟩
    | ok a =>
      obtain ⟨g1, g2, g3⟩ := hf a w1.nobj (Nat.le_trans hn h2) (h3 a rfl) w1 h1 (Nat.le_refl _)
      exact ⟨g1, Nat.le_trans h2 g2, g3⟩

/-- Reading the heap. -/
theorem sep_getW {f : World → M β} {post : Nat → β → Prop}
    (hf : ∀ v, Inv Γ v → n ≤ v.nobj → Sep Γ v.nobj (f v) post) : Sep Γ n (M.getW >>= f) post :=
  fun w hI hn => hf w hI hn w hI (Nat.le_refl _)

/-- A computation that looks at the heap first. -/
theorem sep_self {f : World → M β} {post : Nat → β → Prop}
    (hf : ∀ v, Inv Γ v → n ≤ v.nobj → Sep Γ v.nobj (f v) post) : Sep Γ n (fun w => f w w) post :=
  fun w hI hn => hf w hI hn w hI (Nat.le_refl _)

theorem sep_getO {o : Oid} (ho : Good Γ n o) : Sep Γ n (getO o) fun n' ob => GoodObj Γ n' ob :=
  fun w hI hn => ⟨hI, Nat.le_refl _, fun ob hb => by
    injection hb with hb; subst hb; exact hI.refs o (ho.mono hn)⟩

theorem sep_catch {p : Exc → Bool} {m : M α} {h : Exc → M α} {post : Nat → α → Prop} (hm : Sep Γ n m post)
    (hh : ∀ e, Sep Γ n (h e) post) : Sep Γ n (M.catchIf p m h) post := by
  intro w hI hn
  obtain ⟨h1, h2, h3⟩ := hm w hI hn
  rw [M.catchIf_apply]
  cases hx : m w with
  | mk r w1 =>
    rw [hx] at h1 h2 h3
    cases r with
    | ok a => exact ⟨h1, h2, h3⟩
    | error e =>
      simp only
      split
      · obtain ⟨g1, g2, g3⟩ := hh e w1 h1 (Nat.le_trans hn h2)
        exact ⟨g1, Nat.le_trans h2 g2, g3⟩
      · exact ⟨h1, h2, nofun⟩

theorem sep_ofExcept {x : Except Exc α} {post : Nat → α → Prop} (h : ∀ a n', n ≤ n' → x = .ok a → post n' a) :
    Sep Γ n (M.ofExcept x) post :=
  fun _ hI hn => ⟨hI, Nat.le_refl _, fun a ha => h a _ hn ha⟩

theorem sep_ite {c : Prop} [Decidable c] {m m' : M α} {post : Nat → α → Prop} (h : Sep Γ n m post)
    (h' : Sep Γ n m' post) : Sep Γ n (if c then m else m') post := by
  split
  · exact h
  · exact h'

theorem sep_rekey {k : Key} {m : M α} {post : Nat → α → Prop} (h : Sep Γ n m post) : Sep Γ n (rekey k m) post :=
  sep_catch h fun _ => sep_raise

theorem sep_unaliasKey {E : Env} {o : Oid} {k : Key} : Sep Γ n (unaliasKey E o k) tt := by
  intro w hI _
  unfold unaliasKey
  split
  · exact ⟨hI, Nat.le_refl _, fun _ _ => trivial⟩
  · split
    · exact ⟨hI, Nat.le_refl _, fun _ _ => trivial⟩
    · exact ⟨hI, Nat.le_refl _, fun _ _ => trivial⟩

theorem sep_forM {β : Type} {f : α → M β} {p : Nat → β → Prop} (hp : ∀ n n' b, n ≤ n' → p n b → p n' b) (l : List α)
    (hf : ∀ a ∈ l, ∀ n', n ≤ n' → Sep Γ n' (f a) p) : Sep Γ n (forM' f l) fun n' bs => ∀ b ∈ bs, p n' b := by
  induction l generalizing n with
  | nil => exact sep_pure fun _ _ => nofun
  | cons a r ih =>
    refine sep_bind (hf a List.mem_cons_self n (Nat.le_refl _)) fun b n1 h1 hb =>
      sep_bind (ih fun x hx n' hn' => hf x (List.mem_cons_of_mem _ hx) n' (Nat.le_trans h1 hn')) fun bs n2 h2 hbs =>
      sep_pure fun n3 h3 => ?_
    intro x hx
    rcases List.mem_cons.mp hx with e | e
    · subst e; exact hp _ _ _ (Nat.le_trans h2 h3) hb
    · exact hp _ _ _ h3 (hbs x e)

theorem sep_forU {f : α → M Unit} (l : List α) (hf : ∀ a ∈ l, ∀ n', n ≤ n' → Sep Γ n' (f a) tt) :
    Sep Γ n (forU f l) tt := by
  induction l generalizing n with
  | nil => exact sep_pure fun _ _ => trivial
  | cons a r ih =>
    exact sep_bind (hf a List.mem_cons_self n (Nat.le_refl _)) fun _ n1 h1 _ =>
      ih fun x hx n' hn' => hf x (List.mem_cons_of_mem _ hx) n' (Nat.le_trans h1 hn')

theorem sep_endIter {e : Option Exc} : Sep Γ n (endIter e) tt := by
  cases e with
  | none => exact sep_pure fun _ _ => trivial
  | some e => exact sep_raise
end rules

/-! ### Writing -/

section writing
variable {n : Nat}

/-- Changes of the heap that write outside the protected part. -/
theorem Inv.modO {w : World} (hI : Inv Γ w) {o : Oid} (ho : Good Γ w.nobj o) {ob : Obj}
    (hob : GoodObj Γ w.nobj ob) (hs : ∀ r, ob.storage = some r → r < w.nstore)
    (hc : ∀ r, ob.cache = some r → r < w.ncache) (hn : ∀ r, ob.nodespaces = some r → r < w.nnspace)
    (hi : ∀ r, ob.index = some r → r < w.nidx) : Inv Γ { w with objs := upd w.objs o ob } :=
  { hI with
    sLt := fun p r hp => by
      simp only [upd] at hp
      split at hp
      · exact hs r hp
      · exact hI.sLt p r hp
    cLt := fun p r hp => by
      simp only [upd] at hp
      split at hp
      · exact hc r hp
      · exact hI.cLt p r hp
    nLt := fun p r hp => by
      simp only [upd] at hp
      split at hp
      · exact hn r hp
      · exact hI.nLt p r hp
    iLt := fun p r hp => by
      simp only [upd] at hp
      split at hp
      · exact hi r hp
      · exact hI.iLt p r hp
    obj := fun q hq => by
      have : q ≠ o := fun e => ho.1 (e ▸ hq)
      simp only [upd, if_neg this]; exact hI.obj q hq
    refs := fun p hp => by
      simp only [upd]
      split
      · exact hob
      · exact hI.refs p hp }

theorem sep_modO {o : Oid} (ho : Good Γ n o) {f : Obj → Obj}
    (hf : ∀ n' ob, n ≤ n' → GoodObj Γ n' ob → GoodObj Γ n' (f ob))
    (hs : ∀ ob, (f ob).storage = ob.storage := by intro _; rfl)
    (hc : ∀ ob, (f ob).cache = ob.cache := by intro _; rfl)
    (hns : ∀ ob, (f ob).nodespaces = ob.nodespaces := by intro _; rfl)
    (hi : ∀ ob, (f ob).index = ob.index := by intro _; rfl) : Sep Γ n (modO o f) tt :=
  fun w hI hn => ⟨hI.modO (ho.mono hn) (hf _ _ hn (hI.refs o (ho.mono hn)))
    (fun r hr => hI.sLt o r (hs (w.objs o) ▸ hr)) (fun r hr => hI.cLt o r (hc (w.objs o) ▸ hr))
    (fun r hr => hI.nLt o r (hns (w.objs o) ▸ hr)) (fun r hr => hI.iLt o r (hi (w.objs o) ▸ hr)),
    Nat.le_refl _, fun _ _ => trivial⟩

theorem Inv.setStore {w : World} (hI : Inv Γ w) {r : Ref} (hr : ¬ Γ.QS r) {d : Od Key Val}
    (hd : r < w.nstore → AllV (GoodV Γ w.nobj) d) : Inv Γ { w with stores := upd w.stores r d } :=
  { hI with
    stores := fun q hq => by
      have : q ≠ r := fun e => hr (e ▸ hq)
      simp only [upd, if_neg this]; exact hI.stores q hq
    svals := fun q hq hlt => by
      simp only [upd]
      split
      · rename_i e; exact hd (e ▸ hlt)
      · exact hI.svals q hq hlt }

theorem Inv.setCache {w : World} (hI : Inv Γ w) {r : Ref} (hr : ¬ Γ.QC r) {d : Od Key Val}
    (hd : r < w.ncache → AllV (GoodV Γ w.nobj) d) : Inv Γ { w with caches := upd w.caches r d } :=
  { hI with
    caches := fun q hq => by
      have : q ≠ r := fun e => hr (e ▸ hq)
      simp only [upd, if_neg this]; exact hI.caches q hq
    cvals := fun q hq hlt => by
      simp only [upd]
      split
      · rename_i e; exact hd (e ▸ hlt)
      · exact hI.cvals q hq hlt }

theorem Inv.setNs {w : World} (hI : Inv Γ w) {r : Ref} (hr : ¬ Γ.QN r) {d : Od Key Val}
    (hd : r < w.nnspace → AllV (GoodV Γ w.nobj) d) : Inv Γ { w with nspaces := upd w.nspaces r d } :=
  { hI with
    nspaces := fun q hq => by
      have : q ≠ r := fun e => hr (e ▸ hq)
      simp only [upd, if_neg this]; exact hI.nspaces q hq
    nvals := fun q hq hlt => by
      simp only [upd]
      split
      · rename_i e; exact hd (e ▸ hlt)
      · exact hI.nvals q hq hlt }

theorem Inv.setIdx {w : World} (hI : Inv Γ w) {r : Ref} (hr : ¬ Γ.QI r) {d : Od (Option Nat) Oid}
    (hd : r < w.nidx → AllV (Good Γ w.nobj) d) : Inv Γ { w with idxs := upd w.idxs r d } :=
  { hI with
    idxs := fun q hq => by
      have : q ≠ r := fun e => hr (e ▸ hq)
      simp only [upd, if_neg this]; exact hI.idxs q hq
    ivals := fun q hq hlt => by
      simp only [upd]
      split
      · rename_i e; exact hd (e ▸ hlt)
      · exact hI.ivals q hq hlt }

theorem sep_store {r : Ref} (hr : ¬ Γ.QS r) {g : World → Od Key Val}
    (hg : ∀ w, Inv Γ w → n ≤ w.nobj → AllV (GoodV Γ w.nobj) (w.stores r) → AllV (GoodV Γ w.nobj) (g w)) :
    Sep Γ n (M.modifyW fun w => { w with stores := upd w.stores r (g w) }) tt :=
  fun w hI hn => ⟨hI.setStore hr fun h => hg w hI hn (hI.svals r hr h), Nat.le_refl _, fun _ _ => trivial⟩

theorem sep_cache {r : Ref} (hr : ¬ Γ.QC r) {g : World → Od Key Val}
    (hg : ∀ w, Inv Γ w → n ≤ w.nobj → AllV (GoodV Γ w.nobj) (w.caches r) → AllV (GoodV Γ w.nobj) (g w)) :
    Sep Γ n (M.modifyW fun w => { w with caches := upd w.caches r (g w) }) tt :=
  fun w hI hn => ⟨hI.setCache hr fun h => hg w hI hn (hI.cvals r hr h), Nat.le_refl _, fun _ _ => trivial⟩

theorem sep_ns {r : Ref} (hr : ¬ Γ.QN r) {g : World → Od Key Val}
    (hg : ∀ w, Inv Γ w → n ≤ w.nobj → AllV (GoodV Γ w.nobj) (w.nspaces r) → AllV (GoodV Γ w.nobj) (g w)) :
    Sep Γ n (M.modifyW fun w => { w with nspaces := upd w.nspaces r (g w) }) tt :=
  fun w hI hn => ⟨hI.setNs hr fun h => hg w hI hn (hI.nvals r hr h), Nat.le_refl _, fun _ _ => trivial⟩

theorem sep_idx {r : Ref} (hr : ¬ Γ.QI r) {g : World → Od (Option Nat) Oid}
    (hg : ∀ w, Inv Γ w → n ≤ w.nobj → AllV (Good Γ w.nobj) (w.idxs r) → AllV (Good Γ w.nobj) (g w)) :
    Sep Γ n (M.modifyW fun w => { w with idxs := upd w.idxs r (g w) }) tt :=
  fun w hI hn => ⟨hI.setIdx hr fun h => hg w hI hn (hI.ivals r hr h), Nat.le_refl _, fun _ _ => trivial⟩

theorem sep_notify {e : Event} : Sep Γ n (notify e) tt :=
  fun _ hI _ => ⟨{ hI with }, Nat.le_refl _, fun _ _ => trivial⟩

theorem sep_freshUuid : Sep Γ n freshUuid tt :=
  fun _ hI _ => ⟨{ hI with }, Nat.le_refl _, fun _ _ => trivial⟩

theorem sep_alloc {c : ClassId} : Sep Γ n (alloc c) fun n' o => Good Γ n' o := by
  intro w hI hn
  have hnew : Good Γ (w.nobj + 1) w.nobj :=
    ⟨fun h => Nat.lt_irrefl _ (Nat.lt_of_lt_of_le (Γ.q _ h) hI.nobj), Nat.lt_succ_self _⟩
  refine ⟨{ hI with
    nobj := Nat.le_succ_of_le hI.nobj
    obj := fun q hq => ?_
    refs := fun p hp => ?_
    sLt := fun p r hr => ?_
    cLt := fun p r hr => ?_
    nLt := fun p r hr => ?_
    iLt := fun p r hr => ?_
    svals := fun r hr hlt => (hI.svals r hr hlt).mono fun _ h => h.mono (Nat.le_succ _)
    cvals := fun r hr hlt => (hI.cvals r hr hlt).mono fun _ h => h.mono (Nat.le_succ _)
    nvals := fun r hr hlt => (hI.nvals r hr hlt).mono fun _ h => h.mono (Nat.le_succ _)
    ivals := fun r hr hlt => (hI.ivals r hr hlt).mono fun _ h => h.mono (Nat.le_succ _) }, Nat.le_succ _, ?_⟩
  · have : q ≠ w.nobj := fun e => hnew.1 (e ▸ hq)
    simp only [alloc, upd, if_neg this]
    exact hI.obj q hq
  · simp only [alloc, upd] at hp ⊢
    split
    · exact ⟨nofun, nofun, nofun, nofun, nofun, nofun⟩
    · rename_i e
      exact (hI.refs p ⟨hp.1, Nat.lt_of_le_of_ne (Nat.le_of_lt_succ hp.2) e⟩).mono (Nat.le_succ _)
  · simp only [alloc, upd] at hr
    split at hr
    · cases hr
    · exact hI.sLt p r hr
  · simp only [alloc, upd] at hr
    split at hr
    · cases hr
    · exact hI.cLt p r hr
  · simp only [alloc, upd] at hr
    split at hr
    · cases hr
    · exact hI.nLt p r hr
  · simp only [alloc, upd] at hr
    split at hr
    · cases hr
    · exact hI.iLt p r hr
  · intro a ha
    injection ha with ha
    subst ha
    exact hnew
end writing

/-! ### The lazily created dictionaries -/

section refs
variable {E : Env} {n : Nat} {β : Type}

theorem Inv.newStore {w : World} (hI : Inv Γ w) {o : Oid} (ho : Good Γ w.nobj o) {d : Od Key Val}
    (hd : AllV (GoodV Γ w.nobj) d) : ¬ Γ.QS w.nstore ∧ Inv Γ { w with
      objs := upd w.objs o { w.objs o with storage := some w.nstore }
      stores := upd w.stores w.nstore d
      nstore := w.nstore + 1 } := by
  have hnew : ¬ Γ.QS w.nstore := fun h => Nat.lt_irrefl _ (Nat.lt_of_lt_of_le (Γ.qs _ h) hI.nstore)
  have h1 : Inv Γ { w with stores := upd w.stores w.nstore d, nstore := w.nstore + 1 } :=
    { hI with
      nstore := Nat.le_succ_of_le hI.nstore
      sLt := fun p r hr => Nat.lt_succ_of_lt (hI.sLt p r hr)
      stores := fun q hq => by
        have : q ≠ w.nstore := fun e => hnew (e ▸ hq)
        simp only [upd, if_neg this]; exact hI.stores q hq
      svals := fun q hq hlt => by
        simp only [upd]
        split
        · exact hd
        · rename_i e
          exact hI.svals q hq (Nat.lt_of_le_of_ne (Nat.le_of_lt_succ hlt) e) }
  refine ⟨hnew, h1.modO ho (ob := { w.objs o with storage := some w.nstore }) ?_ ?_ ?_ ?_ ?_⟩
  · exact { hI.refs o ho with storage := fun r hr => by injection hr with hr; subst hr; exact hnew }
  · intro r hr; injection hr with hr; subst hr; exact Nat.lt_succ_self _
  · exact fun r hr => hI.cLt o r hr
  · exact fun r hr => hI.nLt o r hr
  · exact fun r hr => hI.iLt o r hr

theorem Inv.newCache {w : World} (hI : Inv Γ w) {o : Oid} (ho : Good Γ w.nobj o) {d : Od Key Val}
    (hd : AllV (GoodV Γ w.nobj) d) : ¬ Γ.QC w.ncache ∧ Inv Γ { w with
      objs := upd w.objs o { w.objs o with cache := some w.ncache }
      caches := upd w.caches w.ncache d
      ncache := w.ncache + 1 } := by
  have hnew : ¬ Γ.QC w.ncache := fun h => Nat.lt_irrefl _ (Nat.lt_of_lt_of_le (Γ.qc _ h) hI.ncache)
  have h1 : Inv Γ { w with caches := upd w.caches w.ncache d, ncache := w.ncache + 1 } :=
    { hI with
      ncache := Nat.le_succ_of_le hI.ncache
      cLt := fun p r hr => Nat.lt_succ_of_lt (hI.cLt p r hr)
      caches := fun q hq => by
        have : q ≠ w.ncache := fun e => hnew (e ▸ hq)
        simp only [upd, if_neg this]; exact hI.caches q hq
      cvals := fun q hq hlt => by
        simp only [upd]
        split
        · exact hd
        · rename_i e
          exact hI.cvals q hq (Nat.lt_of_le_of_ne (Nat.le_of_lt_succ hlt) e) }
  refine ⟨hnew, h1.modO ho (ob := { w.objs o with cache := some w.ncache }) ?_ ?_ ?_ ?_ ?_⟩
  · exact { hI.refs o ho with cache := fun r hr => by injection hr with hr; subst hr; exact hnew }
  · exact fun r hr => hI.sLt o r hr
  · intro r hr; injection hr with hr; subst hr; exact Nat.lt_succ_self _
  · exact fun r hr => hI.nLt o r hr
  · exact fun r hr => hI.iLt o r hr

theorem Inv.newNs {w : World} (hI : Inv Γ w) {o : Oid} (ho : Good Γ w.nobj o) {d : Od Key Val}
    (hd : AllV (GoodV Γ w.nobj) d) : ¬ Γ.QN w.nnspace ∧ Inv Γ { w with
      objs := upd w.objs o { w.objs o with nodespaces := some w.nnspace }
      nspaces := upd w.nspaces w.nnspace d
      nnspace := w.nnspace + 1 } := by
  have hnew : ¬ Γ.QN w.nnspace := fun h => Nat.lt_irrefl _ (Nat.lt_of_lt_of_le (Γ.qn _ h) hI.nnspace)
  have h1 : Inv Γ { w with nspaces := upd w.nspaces w.nnspace d, nnspace := w.nnspace + 1 } :=
    { hI with
      nnspace := Nat.le_succ_of_le hI.nnspace
      nLt := fun p r hr => Nat.lt_succ_of_lt (hI.nLt p r hr)
      nspaces := fun q hq => by
        have : q ≠ w.nnspace := fun e => hnew (e ▸ hq)
        simp only [upd, if_neg this]; exact hI.nspaces q hq
      nvals := fun q hq hlt => by
        simp only [upd]
        split
        · exact hd
        · rename_i e
          exact hI.nvals q hq (Nat.lt_of_le_of_ne (Nat.le_of_lt_succ hlt) e) }
  refine ⟨hnew, h1.modO ho (ob := { w.objs o with nodespaces := some w.nnspace }) ?_ ?_ ?_ ?_ ?_⟩
  · exact { hI.refs o ho with nodespaces := fun r hr => by injection hr with hr; subst hr; exact hnew }
  · exact fun r hr => hI.sLt o r hr
  · exact fun r hr => hI.cLt o r hr
  · intro r hr; injection hr with hr; subst hr; exact Nat.lt_succ_self _
  · exact fun r hr => hI.iLt o r hr

theorem Inv.newIdx {w : World} (hI : Inv Γ w) {o : Oid} (ho : Good Γ w.nobj o) {d : Od (Option Nat) Oid}
    (hd : AllV (Good Γ w.nobj) d) : ¬ Γ.QI w.nidx ∧ Inv Γ { w with
      objs := upd w.objs o { w.objs o with index := some w.nidx }
      idxs := upd w.idxs w.nidx d
      nidx := w.nidx + 1 } := by
  have hnew : ¬ Γ.QI w.nidx := fun h => Nat.lt_irrefl _ (Nat.lt_of_lt_of_le (Γ.qi _ h) hI.nidx)
  have h1 : Inv Γ { w with idxs := upd w.idxs w.nidx d, nidx := w.nidx + 1 } :=
    { hI with
      nidx := Nat.le_succ_of_le hI.nidx
      iLt := fun p r hr => Nat.lt_succ_of_lt (hI.iLt p r hr)
      idxs := fun q hq => by
        have : q ≠ w.nidx := fun e => hnew (e ▸ hq)
        simp only [upd, if_neg this]; exact hI.idxs q hq
      ivals := fun q hq hlt => by
        simp only [upd]
        split
        · exact hd
        · rename_i e
          exact hI.ivals q hq (Nat.lt_of_le_of_ne (Nat.le_of_lt_succ hlt) e) }
  refine ⟨hnew, h1.modO ho (ob := { w.objs o with index := some w.nidx }) ?_ ?_ ?_ ?_ ?_⟩
  · exact { hI.refs o ho with index := fun r hr => by injection hr with hr; subst hr; exact hnew }
  · exact fun r hr => hI.sLt o r hr
  · exact fun r hr => hI.cLt o r hr
  · exact fun r hr => hI.nLt o r hr
  · intro r hr; injection hr with hr; subst hr; exact Nat.lt_succ_self _

theorem Inv.storageRef {w : World} (hI : Inv Γ w) {o : Oid} (ho : Good Γ w.nobj o) :
    Inv Γ (storageRef E o w).2 ∧ w.nobj ≤ (storageRef E o w).2.nobj ∧
      ∀ r, (storageRef E o w).1 = .ok r → ¬ Γ.QS r ∧ r < (storageRef E o w).2.nstore := by
  have hob := hI.refs o ho
  unfold Verif.storageRef
  split
  · exact ⟨hI, Nat.le_refl _, nofun⟩
  · exact ⟨hI, Nat.le_refl _, nofun⟩
  · split
    · rename_i r hr
      exact ⟨hI, Nat.le_refl _, fun a ha => by
        injection ha with ha; subst ha; exact ⟨hob.storage _ hr, hI.sLt o _ hr⟩⟩
    · have h := hI.newStore ho AllV.nil
      exact ⟨h.2, Nat.le_refl _, fun a ha => by
        injection ha with ha; subst ha; exact ⟨h.1, Nat.lt_succ_self _⟩⟩

theorem sep_storageRef {o : Oid} (ho : Good Γ n o) : Sep Γ n (storageRef E o) fun _ r => ¬ Γ.QS r := fun w hI hn => by
  have h := hI.storageRef (E := E) (ho.mono hn)
  exact ⟨h.1, h.2.1, fun r hr => (h.2.2 r hr).1⟩

/-- Reading the dictionary at once. -/
theorem sep_storageRead {o : Oid} (ho : Good Γ n o) {f : Ref → World → M β} {post : Nat → β → Prop}
    (hf : ∀ r v, ¬ Γ.QS r → Inv Γ v → n ≤ v.nobj → AllV (GoodV Γ v.nobj) (v.stores r) → Sep Γ v.nobj (f r v) post) :
    Sep Γ n (storageRef E o >>= fun r => M.getW >>= f r) post := by
  intro w hI hn
  obtain ⟨h1, h2, h3⟩ := hI.storageRef (E := E) (ho.mono hn)
  rw [M.bind_apply]
  cases hx : storageRef E o w with
  | mk x w1 =>
    rw [hx] at h1 h2 h3
    cases x with
    | error e => exact ⟨h1, h2, nofun⟩
    | ok r =>
      obtain ⟨h4, h5⟩ := h3 r rfl
      obtain ⟨g1, g2, g3⟩ := hf r w1 h4 h1 (Nat.le_trans hn h2) (h1.svals r h4 h5) w1 h1 (Nat.le_refl _)
      exact ⟨g1, Nat.le_trans h2 g2, g3⟩

theorem Inv.cacheRef {w : World} (hI : Inv Γ w) {o : Oid} (ho : Good Γ w.nobj o) :
    Inv Γ (cacheRef o w).2 ∧ w.nobj ≤ (cacheRef o w).2.nobj ∧
      ∀ r, (cacheRef o w).1 = .ok r → ¬ Γ.QC r ∧ r < (cacheRef o w).2.ncache := by
  have hob := hI.refs o ho
  unfold Verif.cacheRef
  split
  · rename_i r hr
    exact ⟨hI, Nat.le_refl _, fun a ha => by
      injection ha with ha; subst ha; exact ⟨hob.cache _ hr, hI.cLt o _ hr⟩⟩
  · have h := hI.newCache ho AllV.nil
    exact ⟨h.2, Nat.le_refl _, fun a ha => by
      injection ha with ha; subst ha; exact ⟨h.1, Nat.lt_succ_self _⟩⟩

theorem sep_cacheRef {o : Oid} (ho : Good Γ n o) : Sep Γ n (cacheRef o) fun _ r => ¬ Γ.QC r := fun w hI hn => by
  have h := hI.cacheRef (ho.mono hn)
  exact ⟨h.1, h.2.1, fun r hr => (h.2.2 r hr).1⟩

/-- Reading the dictionary at once. -/
theorem sep_cacheRead {o : Oid} (ho : Good Γ n o) {f : Ref → World → M β} {post : Nat → β → Prop}
    (hf : ∀ r v, ¬ Γ.QC r → Inv Γ v → n ≤ v.nobj → AllV (GoodV Γ v.nobj) (v.caches r) → Sep Γ v.nobj (f r v) post) :
    Sep Γ n (cacheRef o >>= fun r => M.getW >>= f r) post := by
  intro w hI hn
  obtain ⟨h1, h2, h3⟩ := hI.cacheRef (ho.mono hn)
  rw [M.bind_apply]
  cases hx : cacheRef o w with
  | mk x w1 =>
    rw [hx] at h1 h2 h3
    cases x with
    | error e => exact ⟨h1, h2, nofun⟩
    | ok r =>
      obtain ⟨h4, h5⟩ := h3 r rfl
      obtain ⟨g1, g2, g3⟩ := hf r w1 h4 h1 (Nat.le_trans hn h2) (h1.cvals r h4 h5) w1 h1 (Nat.le_refl _)
      exact ⟨g1, Nat.le_trans h2 g2, g3⟩

theorem Inv.nodespacesRef {w : World} (hI : Inv Γ w) {o : Oid} (ho : Good Γ w.nobj o) :
    Inv Γ (nodespacesRef o w).2 ∧ w.nobj ≤ (nodespacesRef o w).2.nobj ∧
      ∀ r, (nodespacesRef o w).1 = .ok r → ¬ Γ.QN r ∧ r < (nodespacesRef o w).2.nnspace := by
  have hob := hI.refs o ho
  unfold Verif.nodespacesRef
  split
  · rename_i r hr
    exact ⟨hI, Nat.le_refl _, fun a ha => by
      injection ha with ha; subst ha; exact ⟨hob.nodespaces _ hr, hI.nLt o _ hr⟩⟩
  · have h := hI.newNs ho (d := [(childrenKey, .node o)]) (fun kv hkv => by
      rw [List.mem_singleton] at hkv; subst hkv; exact ho.val)
    exact ⟨h.2, Nat.le_refl _, fun a ha => by
      injection ha with ha; subst ha; exact ⟨h.1, Nat.lt_succ_self _⟩⟩

theorem sep_nodespacesRef {o : Oid} (ho : Good Γ n o) : Sep Γ n (nodespacesRef o) fun _ r => ¬ Γ.QN r := fun w hI hn => by
  have h := hI.nodespacesRef (ho.mono hn)
  exact ⟨h.1, h.2.1, fun r hr => (h.2.2 r hr).1⟩

/-- Reading the dictionary at once. -/
theorem sep_nodespacesRead {o : Oid} (ho : Good Γ n o) {f : Ref → World → M β} {post : Nat → β → Prop}
    (hf : ∀ r v, ¬ Γ.QN r → Inv Γ v → n ≤ v.nobj → AllV (GoodV Γ v.nobj) (v.nspaces r) → Sep Γ v.nobj (f r v) post) :
    Sep Γ n (nodespacesRef o >>= fun r => M.getW >>= f r) post := by
  intro w hI hn
  obtain ⟨h1, h2, h3⟩ := hI.nodespacesRef (ho.mono hn)
  rw [M.bind_apply]
  cases hx : nodespacesRef o w with
  | mk x w1 =>
    rw [hx] at h1 h2 h3
    cases x with
    | error e => exact ⟨h1, h2, nofun⟩
    | ok r =>
      obtain ⟨h4, h5⟩ := h3 r rfl
      obtain ⟨g1, g2, g3⟩ := hf r w1 h4 h1 (Nat.le_trans hn h2) (h1.nvals r h4 h5) w1 h1 (Nat.le_refl _)
      exact ⟨g1, Nat.le_trans h2 g2, g3⟩

theorem sep_indexRef {o : Oid} (ho : Good Γ n o) : Sep Γ n (indexRef o) fun _ r => ¬ Γ.QI r := by
  intro w hI hn
  have hob := hI.refs o (ho.mono hn)
  unfold indexRef
  split
  · rename_i r hr
    exact ⟨hI, Nat.le_refl _, fun a ha => by injection ha with ha; subst ha; exact hob.index _ hr⟩
  · exact ⟨hI, Nat.le_refl _, nofun⟩

theorem Inv.index {w : World} (hI : Inv Γ w) {c : Oid} (hc : Good Γ w.nobj c) {i : Ref} (hi : ¬ Γ.QI i)
    (hlt : i < w.nidx) : Inv Γ { w with objs := upd w.objs c { w.objs c with index := some i } } :=
  hI.modO hc { hI.refs c hc with index := fun r hr => by injection hr with hr; subst hr; exact hi }
    (hI.sLt c) (hI.cLt c) (hI.nLt c) fun r hr => by injection hr with hr; subst hr; exact hlt

/-- Writing to the index of `o` and making it the index of `c`. -/
theorem sep_indexShare {o c : Oid} (ho : Good Γ n o) (hc : Good Γ n c) {g : Ref → World → Od (Option Nat) Oid}
    (hg : ∀ i w, Inv Γ w → n ≤ w.nobj → AllV (Good Γ w.nobj) (w.idxs i) → AllV (Good Γ w.nobj) (g i w))
    {f : M β} {post : Nat → β → Prop} (hf : ∀ n', n ≤ n' → Sep Γ n' f post) :
    Sep Γ n (do
      let i ← indexRef o
      M.modifyW fun w => { w with idxs := upd w.idxs i (g i w) }
      modO c fun ob => { ob with index := some i }
      f) post := by
  intro w hI hn
  have hob := hI.refs o (ho.mono hn)
  rw [M.bind_apply]
  unfold indexRef
  cases hi : (w.objs o).index with
  | none => exact ⟨hI, Nat.le_refl _, nofun⟩
  | some i =>
    have h1 := hI.setIdx (hob.index i hi) (d := g i w) fun h => hg i w hI hn (hI.ivals i (hob.index i hi) h)
    have h2 := h1.index (hc.mono hn) (hob.index i hi) (hI.iLt o i hi)
    exact hf n (Nat.le_refl _) _ h2 hn
end refs

end Verif
