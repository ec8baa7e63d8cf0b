import Verif.Lemmas.Remove
import Verif.Lemmas.SepApi

/-!
Reading and removing in programs with `ChildFactory`.  Reads may create nodes and assign them, but
only to nodes that exist.  A relation between heaps that is respected by the building blocks and by
"create a node and assign it to an existing one" is respected by every operation that assigns nothing
itself.
-/

namespace Verif

/-- `m` respects the separation and the relation `R`. -/
def Lay (Γ : Prot) (R : World → World → Prop) (n : Nat) {α : Type} (m : M α) (post : Nat → α → Prop) : Prop :=
  Sep Γ n m post ∧ ∀ w, Inv Γ w → n ≤ w.nobj → R w (m w).2

section rules
variable {Γ : Prot} {R : World → World → Prop} (hR : PreR R) {n : Nat} {α β : Type}

theorem lay_leaf {m : M α} {post : Nat → α → Prop} (h : Sep Γ n m post) (h' : Pres R m) : Lay Γ R n m post :=
  ⟨h, fun w _ _ => h' w⟩

include hR

theorem lay_pure {a : α} {post : Nat → α → Prop} (h : ∀ n', n ≤ n' → post n' a) : Lay Γ R n (pure a : M α) post :=
  lay_leaf (sep_pure h) (pres_pure hR _)

theorem lay_raise {e : Exc} {post : Nat → α → Prop} : Lay Γ R n (M.raise e : M α) post :=
  lay_leaf sep_raise (pres_raise hR _)

omit hR in
theorem lay_mono {n' : Nat} {m : M α} {post : Nat → α → Prop} (h : Lay Γ R n m post) (hn : n ≤ n') :
    Lay Γ R n' m post := ⟨sep_mono h.1 hn, fun w hI hw => h.2 w hI (Nat.le_trans hn hw)⟩

omit hR in
theorem lay_tt {m : M α} {p : Nat → α → Prop} (h : Lay Γ R n m p) : Lay Γ R n m tt := ⟨sep_tt h.1, h.2⟩

theorem lay_bind {m : M α} {f : α → M β} {p : Nat → α → Prop} {post : Nat → β → Prop} (hm : Lay Γ R n m p)
    (hf : ∀ a n', n ≤ n' → p n' a → Lay Γ R n' (f a) post) : Lay Γ R n (m >>= f) post := by
  refine ⟨sep_bind hm.1 fun a n' hn hp => (hf a n' hn hp).1, fun w hI hn => ?_⟩
  obtain ⟨h1, h2, h3⟩ := hm.1 w hI hn
  have h4 := hm.2 w hI hn
  rw [M.bind_apply]
  cases hx : m w with
  | mk r w1 =>
    rw [hx] at h1 h2 h3 h4
    cases r with
    | error e => exact h4
    | ok a => exact hR.trans h4 ((hf a w1.nobj (Nat.le_trans hn h2) (h3 a rfl)).2 w1 h1 (Nat.le_refl _))

omit hR in
theorem lay_getW {f : World → M β} {post : Nat → β → Prop}
    (hf : ∀ v, Inv Γ v → n ≤ v.nobj → Lay Γ R v.nobj (f v) post) : Lay Γ R n (M.getW >>= f) post :=
  ⟨sep_getW fun v hv hn => (hf v hv hn).1, fun w hI hn => (hf w hI hn).2 w hI (Nat.le_refl _)⟩

omit hR in
theorem lay_self {f : World → M β} {post : Nat → β → Prop}
    (hf : ∀ v, Inv Γ v → n ≤ v.nobj → Lay Γ R v.nobj (f v) post) : Lay Γ R n (fun w => f w w) post :=
  ⟨sep_self fun v hv hn => (hf v hv hn).1, fun w hI hn => (hf w hI hn).2 w hI (Nat.le_refl _)⟩

theorem lay_getO {o : Oid} (ho : Good Γ n o) : Lay Γ R n (getO o) fun n' ob => GoodObj Γ n' ob :=
  lay_leaf (sep_getO ho) fun w => hR.refl w

theorem lay_catch {p : Exc → Bool} {m : M α} {h : Exc → M α} {post : Nat → α → Prop} (hm : Lay Γ R n m post)
    (hh : ∀ e, Lay Γ R n (h e) post) : Lay Γ R n (M.catchIf p m h) post := by
  refine ⟨sep_catch hm.1 fun e => (hh e).1, fun w hI hn => ?_⟩
  obtain ⟨h1, h2, h3⟩ := hm.1 w hI hn
  have h4 := hm.2 w hI hn
  rw [M.catchIf_apply]
  cases hx : m w with
  | mk r w1 =>
    rw [hx] at h1 h2 h3 h4
    cases r with
    | ok a => exact h4
    | error e =>
      simp only
      split
      · exact hR.trans h4 ((hh e).2 w1 h1 (Nat.le_trans hn h2))
      · exact h4

omit hR in
theorem lay_ite {c : Prop} [Decidable c] {m m' : M α} {post : Nat → α → Prop} (h : Lay Γ R n m post)
    (h' : Lay Γ R n m' post) : Lay Γ R n (if c then m else m') post := by
  split
  · exact h
  · exact h'

theorem lay_rekey {k : Key} {m : M α} {post : Nat → α → Prop} (h : Lay Γ R n m post) : Lay Γ R n (rekey k m) post :=
  lay_catch hR h fun _ => lay_raise hR

theorem lay_unaliasKey {E : Env} {o : Oid} {k : Key} : Lay Γ R n (unaliasKey E o k) tt :=
  lay_leaf sep_unaliasKey (pres_of_id hR (unaliasKey_id E o k))

theorem lay_forM {β : Type} {f : α → M β} {p : Nat → β → Prop} (hp : ∀ n n' b, n ≤ n' → p n b → p n' b) (l : List α)
    (hf : ∀ a ∈ l, ∀ n', n ≤ n' → Lay Γ R n' (f a) p) : Lay Γ R n (forM' f l) fun n' bs => ∀ b ∈ bs, p n' b := by
  induction l generalizing n with
  | nil => exact lay_pure hR fun _ _ => nofun
  | cons a r ih =>
    refine lay_bind hR (hf a List.mem_cons_self n (Nat.le_refl _)) fun b n1 h1 hb =>
      lay_bind hR (ih fun x hx n' hn' => hf x (List.mem_cons_of_mem _ hx) n' (Nat.le_trans h1 hn')) fun bs n2 h2 hbs =>
      lay_pure hR fun n3 h3 => ?_
    intro x hx
    rcases List.mem_cons.mp hx with e | e
    · subst e; exact hp _ _ _ (Nat.le_trans h2 h3) hb
    · exact hp _ _ _ h3 (hbs x e)

theorem lay_forU {f : α → M Unit} (l : List α) (hf : ∀ a ∈ l, ∀ n', n ≤ n' → Lay Γ R n' (f a) tt) :
    Lay Γ R n (forU f l) tt := by
  induction l generalizing n with
  | nil => exact lay_pure hR fun _ _ => trivial
  | cons a r ih =>
    exact lay_bind hR (hf a List.mem_cons_self n (Nat.le_refl _)) fun _ n1 h1 _ =>
      ih fun x hx n' hn' => hf x (List.mem_cons_of_mem _ hx) n' (Nat.le_trans h1 hn')

theorem lay_endIter {e : Option Exc} : Lay Γ R n (endIter e) tt := lay_leaf sep_endIter (pres_endIter hR _)

end rules

/-- What a child factory does with a missing key. -/
def makeChild (E : Env) (c : ClassId) (o : Oid) (k : Key) : M Val := do
  let child ← newNode E c .none none
  setitem E o k (.node child)
  pure (.node child)

/-- `R` is respected by what reading and removing is made of. -/
structure LayPrims (E : Env) (Γ : Prot) (R : World → World → Prop) : Prop where
  pre : PreR R
  quiet : ∀ w w', Quiet w w' → R w w'
  hidden : ∀ w w', Hidden w w' → R w w'
  delEnd : ∀ o k, Pres R (delEnd E o k)
  nsDrop : ∀ o k, Pres R (nsDrop o k)
  swap : ∀ o a b, Pres R (swapNodes E o a b)
  volatile : ∀ o k, Pres R (invalidateVolatile E o k)
  make : ∀ c o k w, Inv Γ w → Good Γ w.nobj o → (clsOf E w o).factories.get? k = some c →
    R w (makeChild E c o k w).2

section
variable {Γ : Prot} {E : Env} {R : World → World → Prop} {n : Nat} (h : LayPrims E Γ R)
include h

theorem LayPrims.ofQuiet {α : Type} {m : M α} {p : Nat → α → Prop} (hs : Sep Γ n m p) (hm : Pres Quiet m) :
    Lay Γ R n m p := lay_leaf hs fun w => h.quiet _ _ (hm w)

theorem LayPrims.ofHidden {α : Type} {m : M α} {p : Nat → α → Prop} (hs : Sep Γ n m p) (hm : Pres Hidden m) :
    Lay Γ R n m p := lay_leaf hs fun w => h.hidden _ _ (hm w)

/-! ### Reading -/

theorem LayPrims.iter {o : Oid} (ho : Good Γ n o) : Lay Γ R n (iter E o) tt :=
  h.ofQuiet (sep_iter ho) (iter_quiet E o)

theorem LayPrims.getEnd {o : Oid} (ho : Good Γ n o) {k : Key} : Lay Γ R n (getEnd E o k) (GoodV Γ) :=
  h.ofQuiet (sep_getEnd ho) fun w => (getEnd_quietF E o k w).1

theorem LayPrims.lookup {d : Od Key Val} (hd : AllV (GoodV Γ n) d) {k : Key} :
    Lay Γ R n (M.ofExcept (lookup d k)) (GoodV Γ) := lay_leaf (sep_lookup hd) (pres_ofExcept h.pre _)

theorem LayPrims.nodespacesRef {o : Oid} (ho : Good Γ n o) : Lay Γ R n (nodespacesRef o) fun _ r => ¬ Γ.QN r :=
  h.ofQuiet (sep_nodespacesRef ho) fun w => (nodespacesRef_quietF o w).1

theorem LayPrims.cacheRef {o : Oid} (ho : Good Γ n o) : Lay Γ R n (cacheRef o) fun _ r => ¬ Γ.QC r :=
  h.ofQuiet (sep_cacheRef ho) fun w => (cacheRef_quietF o w).1

theorem LayPrims.cacheDrop {o : Oid} (ho : Good Γ n o) {k : Key} : Lay Γ R n (cacheDrop o k) tt :=
  h.ofQuiet (sep_cacheDrop ho) fun w => (cacheDrop_quietF o k w).1

theorem LayPrims.nodespacesRead {β : Type} {o : Oid} (ho : Good Γ n o) {f : Ref → World → M β} {post : Nat → β → Prop}
    (hf : ∀ r v, ¬ Γ.QN r → Inv Γ v → n ≤ v.nobj → AllV (GoodV Γ v.nobj) (v.nspaces r) →
      Lay Γ R v.nobj (f r v) post) : Lay Γ R n (Verif.nodespacesRef o >>= fun r => M.getW >>= f r) post := by
  refine ⟨sep_nodespacesRead ho fun r v h1 h2 h3 h4 => (hf r v h1 h2 h3 h4).1, fun w hI hn => ?_⟩
  obtain ⟨h1, h2, h3⟩ := hI.nodespacesRef (ho.mono hn)
  have h4 := (h.nodespacesRef ho).2 w hI hn
  rw [M.bind_apply]
  cases hx : Verif.nodespacesRef o w with
  | mk x w1 =>
    rw [hx] at h1 h2 h3 h4
    cases x with
    | error e => exact h4
    | ok r =>
      obtain ⟨h5, h6⟩ := h3 r rfl
      exact h.pre.trans h4 ((hf r w1 h5 h1 (Nat.le_trans hn h2) (h1.nvals r h5 h6)).2 w1 h1 (Nat.le_refl _))

theorem LayPrims.cacheRead {β : Type} {o : Oid} (ho : Good Γ n o) {f : Ref → World → M β} {post : Nat → β → Prop}
    (hf : ∀ r v, ¬ Γ.QC r → Inv Γ v → n ≤ v.nobj → AllV (GoodV Γ v.nobj) (v.caches r) →
      Lay Γ R v.nobj (f r v) post) : Lay Γ R n (Verif.cacheRef o >>= fun r => M.getW >>= f r) post := by
  refine ⟨sep_cacheRead ho fun r v h1 h2 h3 h4 => (hf r v h1 h2 h3 h4).1, fun w hI hn => ?_⟩
  obtain ⟨h1, h2, h3⟩ := hI.cacheRef (ho.mono hn)
  have h4 := (h.cacheRef ho).2 w hI hn
  rw [M.bind_apply]
  cases hx : Verif.cacheRef o w with
  | mk x w1 =>
    rw [hx] at h1 h2 h3 h4
    cases x with
    | error e => exact h4
    | ok r =>
      obtain ⟨h5, h6⟩ := h3 r rfl
      exact h.pre.trans h4 ((hf r w1 h5 h1 (Nat.le_trans hn h2) (h1.cvals r h5 h6)).2 w1 h1 (Nat.le_refl _))

theorem LayPrims.nodespacesGet {o : Oid} (ho : Good Γ n o) {k : Key} {next : Key → M Val}
    (hnx : Lay Γ R n (next k) (GoodV Γ)) : Lay Γ R n (nodespacesGet next o k) (GoodV Γ) := by
  unfold Verif.nodespacesGet
  split
  · refine lay_ite ?_ hnx
    exact h.nodespacesRead (by good) fun r v _ _ _ hd => h.lookup hd
  · exact hnx

theorem LayPrims.cacheGet {o : Oid} (ho : Good Γ n o) {k : Key} {next : Key → M Val}
    (hnx : Lay Γ R n (next k) (GoodV Γ)) : Lay Γ R n (cacheGet next o k) (GoodV Γ) := by
  refine h.cacheRead ho fun r v hr hv hn hd => ?_
  split
  · rename_i x hx
    exact lay_pure h.pre fun n' hn' => (hd.get hx).mono hn'
  · refine lay_bind h.pre (lay_mono hnx hn) fun x n2 h2 hx => h.ofQuiet (sep_cachePut hr hx) fun w => ?_
    rw [cachePut_apply]
    exact setCache_quiet _ _ fun hw => Od.nodup_keys_set (hw.cNd _) _ _

theorem LayPrims.childFactoryGet {o : Oid} (ho : Good Γ n o) {k : Key} {next : Key → M Val}
    (hnx : Lay Γ R n (next k) (GoodV Γ)) : Lay Γ R n (childFactoryGet E next o k) (GoodV Γ) := by
  refine lay_catch h.pre hnx fun _ => ?_
  refine ⟨sep_getW fun v hv hn => ?_, fun w hI hn => ?_⟩
  · split
    · exact sep_raise
    · refine sep_bind (sep_newNode nofun) fun child n1 h1 hc => ?_
      refine sep_bind (sep_setitem (by good) (by good)) fun _ n2 h2 _ => ?_
      exact sep_pure fun n' hn' => by good
  · simp only [M.bind_apply]
    show R w (Prod.snd ((match (clsOf E w o).factories.get? k with
      | none => M.raise (.key (.key k))
      | some c => makeChild E c o k : M Val) w))
    cases hc : (clsOf E w o).factories.get? k with
    | none => exact h.pre.refl w
    | some c => exact h.make c o k w hI (ho.mono hn) hc

theorem LayPrims.getPipe {o : Oid} (ho : Good Γ n o) {fb : Oid → Key → Exc → M Val}
    (hfb : ∀ k e n', n ≤ n' → Lay Γ R n' (fb o k e) (GoodV Γ)) (bs : List Bhv) (k : Key) :
    Lay Γ R n (getPipe E fb bs o k) (GoodV Γ) := by
  induction bs generalizing k n with
  | nil => exact h.getEnd ho
  | cons b r ih =>
    have base := ih ho hfb k
    cases b
    case nodespaces => exact h.nodespacesGet ho base
    case fallback => exact lay_catch h.pre base fun e => hfb k e n (Nat.le_refl _)
    case cache => exact h.cacheGet ho base
    case alias =>
      exact lay_bind h.pre (lay_unaliasKey h.pre) fun u n1 h1 _ =>
        lay_rekey h.pre (ih (by good) (fun k e n' hn' => hfb k e n' (by omega)) u)
    case childFactory => exact h.childFactoryGet ho base
    all_goals exact base

theorem LayPrims.fbGuard {α : Type} {body : Int → M α} {post : Nat → α → Prop} (hb : ∀ c, Lay Γ R n (body c) post) :
    Lay Γ R n (fbGuard body) post := by
  refine ⟨sep_fbGuard fun c => (hb c).1, fun w hI hn => ?_⟩
  unfold Verif.fbGuard
  split
  · exact h.pre.refl w
  · rename_i m hm
    have := (hb (m + 1)).2 { w with fb := some (m + 1) } { hI with } hn
    exact h.pre.trans (h.pre.trans (h.quiet _ _ (setFb_quiet w _)) this) (h.quiet _ _ (setFb_quiet _ _))

theorem LayPrims.getitem0 {o : Oid} (ho : Good Γ n o) {k : Key} : Lay Γ R n (getitem0 E o k) (GoodV Γ) :=
  lay_self (f := fun w => Verif.getPipe E
    (fun _ _ e => Verif.fbGuard fun count => if count > 0 then M.raise e else M.raise .unmodelled)
    (bhvsOf E w o) o k) fun v _ hn =>
    h.getPipe (ho.mono hn) (fun _ _ _ _ => h.fbGuard fun _ => lay_ite (lay_raise h.pre) (lay_raise h.pre)) _ k

theorem LayPrims.path {o : Oid} : Lay Γ R n (path o) tt := lay_leaf sep_path (pres_of_id h.pre (path_id _))

theorem LayPrims.fbChild {cur : Val} (hc : GoodV Γ n cur) {name : Key} :
    Lay Γ R n (fbChild E cur name) fun n' r => ∀ v, r = some v → GoodV Γ n' v := by
  unfold Verif.fbChild
  split
  · refine lay_catch h.pre (lay_bind h.pre (h.getitem0 hc.node) fun v n1 h1 hv =>
      lay_pure h.pre fun n' hn' x hx => ?_) fun _ => lay_pure h.pre fun _ _ => nofun
    injection hx with hx
    subst hx
    exact hv.mono hn'
  · exact lay_raise h.pre
  · exact lay_raise h.pre

theorem LayPrims.fbWalk (l : List Key) {cur : Val} (hc : GoodV Γ n cur) :
    Lay Γ R n (fbWalk E l cur) fun n' r => (∀ v, r = .inl v → GoodV Γ n' v) ∧ ∀ c, r = .inr c → Good Γ n' c := by
  induction l generalizing n cur with
  | nil =>
    exact lay_pure h.pre fun n' hn' => ⟨fun v hv => by injection hv with hv; subst hv; exact hc.mono hn', nofun⟩
  | cons a r ih =>
    refine lay_bind h.pre (h.fbChild hc) fun x n1 h1 hx => ?_
    split
    · exact ih (hx _ rfl)
    · rename_i c
      have hc := hc.node
      exact lay_pure h.pre fun n' hn' => ⟨nofun, fun x hx => by injection hx with hx; subst hx; good⟩
    · exact lay_raise h.pre

theorem LayPrims.toRoot (fuel : Nat) {node : Oid} (ho : Good Γ n node) {p : List Key} {vis : List Oid} :
    Lay Γ R n (toRoot E fuel node p vis) fun n' r => ∀ v, r = some v → GoodV Γ n' v := by
  induction fuel generalizing n node vis with
  | zero => exact lay_raise h.pre
  | succ d ih =>
    refine lay_getW fun v hv hn => ?_
    split
    · exact lay_pure h.pre fun _ _ => nofun
    · rename_i parent hpar
      have hp : Good Γ v.nobj parent := (hv.refs node (by good)).parent _ hpar
      split
      · exact lay_ite (lay_bind h.pre (h.getitem0 hp) fun _ _ _ _ => lay_raise h.pre) (ih hp)
      · refine lay_ite (ih hp) ?_
        refine lay_bind h.pre (h.getitem0 hp) fun start n1 h1 hs => ?_
        split
        · exact lay_raise h.pre
        · have hs := hs.node
          refine lay_bind h.pre h.path fun sp n2 h2 _ => ?_
          refine lay_bind h.pre (h.fbWalk _ (by good)) fun res n3 h3 hres => ?_
          split
          · exact lay_pure h.pre fun n' hn' x hx => by
              injection hx with hx; subst hx; exact (hres.1 _ rfl).mono hn'
          · exact ih (hres.2 _ rfl)

theorem LayPrims.fbHandler {o : Oid} (ho : Good Γ n o) {k : Key} {e : Exc} :
    Lay Γ R n (fbHandler E o k e) (GoodV Γ) := by
  refine h.fbGuard fun _ => lay_ite (lay_raise h.pre) ?_
  refine lay_bind h.pre h.path fun p n1 h1 _ => lay_getW fun v hv hn => ?_
  refine lay_bind h.pre (h.toRoot _ (by good)) fun x n2 h2 hx => ?_
  split
  · exact lay_pure h.pre fun n' hn' => (hx _ rfl).mono hn'
  · exact lay_raise h.pre

theorem LayPrims.getitem {o : Oid} (ho : Good Γ n o) {k : Key} : Lay Γ R n (getitem E o k) (GoodV Γ) :=
  lay_self (f := fun w => Verif.getPipe E (Verif.fbHandler E) (bhvsOf E w o) o k) fun v _ hn =>
    h.getPipe (ho.mono hn) (fun _ _ _ hn' => h.fbHandler (by good)) _ k

theorem LayPrims.mkeys {o : Oid} (ho : Good Γ n o) : Lay Γ R n (mkeys E o) tt :=
  h.ofQuiet (sep_mkeys ho) (mkeys_quiet E o)

theorem LayPrims.mvalues {o : Oid} (ho : Good Γ n o) :
    Lay Γ R n (mvalues E o) fun n' vs => ∀ v ∈ vs, GoodV Γ n' v := by
  refine lay_bind h.pre (h.iter ho) fun it n1 h1 _ => ?_
  refine lay_bind h.pre (lay_forM h.pre (p := GoodV Γ) (fun _ _ _ h hv => hv.mono h) _ fun k _ n' hn' =>
    h.getitem (by good)) fun vs n2 h2 hvs => ?_
  exact lay_bind h.pre (lay_endIter h.pre) fun _ n3 h3 _ =>
    lay_pure h.pre fun n' hn' v hv => (hvs v hv).mono (by omega)

theorem LayPrims.mitems {o : Oid} (ho : Good Γ n o) :
    Lay Γ R n (mitems E o) fun n' kvs => ∀ kv ∈ kvs, GoodV Γ n' kv.2 := by
  refine lay_bind h.pre (h.iter ho) fun it n1 h1 _ => ?_
  refine lay_bind h.pre (lay_forM h.pre (p := fun n' (kv : Key × Val) => GoodV Γ n' kv.2)
    (fun _ _ _ h hv => hv.mono h) _
    fun k _ n' hn' => lay_bind h.pre (h.getitem (by good)) fun v n2 h2 hv => lay_pure h.pre fun n3 h3 => hv.mono h3)
    fun vs n2 h2 hvs => ?_
  exact lay_bind h.pre (lay_endIter h.pre) fun _ n3 h3 _ =>
    lay_pure h.pre fun n' hn' v hv => (hvs v hv).mono (by omega)

/-! ### Deleting -/

theorem LayPrims.toDeleteLoop {o : Oid} (ho : Good Γ n o) {rec : Oid → M (List Nat)}
    (hrec : ∀ c n', n ≤ n' → Good Γ n' c → Lay Γ R n' (rec c) tt) (l : List Key) :
    Lay Γ R n (toDeleteLoop E rec o l) tt := by
  induction l generalizing n with
  | nil => exact lay_pure h.pre fun _ _ => trivial
  | cons k r ih =>
    refine lay_bind h.pre (p := tt) (lay_catch h.pre ?_ fun _ => lay_pure h.pre fun _ _ => trivial) fun here n1 h1 _ =>
      lay_bind h.pre (ih (by good) fun c n' hn' => hrec c n' (by omega)) fun _ _ _ _ =>
        lay_pure h.pre fun _ _ => trivial
    refine lay_bind h.pre (h.getitem ho) fun v n2 h2 hv => ?_
    split
    · exact lay_raise h.pre
    · exact lay_getW fun w _ hn => lay_ite (hrec _ _ (by omega) (hv.node.mono hn)) (lay_raise h.pre)

theorem LayPrims.toDelete (fuel : Nat) {o : Oid} (ho : Good Γ n o) : Lay Γ R n (toDelete E fuel o) tt := by
  induction fuel generalizing n o with
  | zero => exact lay_raise h.pre
  | succ d ih =>
    refine lay_bind h.pre (lay_getO h.pre ho) fun ob n1 h1 _ => ?_
    split
    · exact lay_raise h.pre
    · refine lay_bind h.pre (h.iter (by good)) fun it n2 h2 _ => ?_
      refine lay_bind h.pre (h.toDeleteLoop (by good) (fun c n' _ hc => ih hc) _) fun _ n3 h3 _ => ?_
      split
      · exact lay_raise h.pre
      · exact lay_pure h.pre fun _ _ => trivial

theorem LayPrims.referenceUnindex {o : Oid} (ho : Good Γ n o) {v : Val} (hv : GoodV Γ n v) :
    Lay Γ R n (referenceUnindex E o v) tt := by
  unfold Verif.referenceUnindex
  split
  · exact lay_pure h.pre fun _ _ => trivial
  · have hc := hv.node
    refine lay_getW fun w _ hn => lay_ite ?_ (lay_pure h.pre fun _ _ => trivial)
    exact lay_bind h.pre (h.toDelete _ (by good)) fun us n1 h1 _ =>
      h.ofHidden (sep_indexDelete (by good) us) (hidden_indexDelete o us)

theorem LayPrims.delPipe {o : Oid} (ho : Good Γ n o) (bs : List Bhv) (k : Key) :
    Lay Γ R n (delPipe E bs o k) tt := by
  induction bs generalizing k n with
  | nil => exact lay_leaf (sep_delEnd ho) (h.delEnd o k)
  | cons b r ih =>
    have base := ih ho k
    cases b
    case nodespaces =>
      refine ⟨sep_nodespacesDel ho base.1, fun w hI hn => ?_⟩
      show R w (nodespacesDel _ o k w).2
      unfold nodespacesDel
      split
      · split
        · exact h.nsDrop o _ w
        · exact base.2 w hI hn
      · exact h.pre.refl w
    case reference =>
      exact lay_bind h.pre (h.getitem ho) fun v n1 h1 hv =>
        lay_bind h.pre (h.referenceUnindex (by good) (by good)) fun _ n2 h2 _ => lay_mono base (by omega)
    case lifecycle =>
      exact lay_bind h.pre (h.getitem ho) fun v n1 h1 hv => lay_bind h.pre (lay_mono base h1) fun _ n2 h2 _ =>
        lay_bind h.pre (lay_getO h.pre (by good)) fun _ _ _ _ => lay_ite (lay_pure h.pre fun _ _ => trivial)
          (h.ofHidden sep_notify (hidden_notify _))
    case attributesLifecycle =>
      refine lay_bind h.pre base fun _ _ _ _ => lay_leaf sep_notifyModified ?_
      refine pres_bind h.pre (pres_getW h.pre) fun w => ?_
      split
      · exact pres_raise h.pre _
      · exact pres_ite h.pre (pres_ite h.pre (pres_pure h.pre _) fun w => h.hidden _ _ (hidden_notify _ w))
          (pres_raise h.pre _)
    case cache => exact lay_bind h.pre (h.cacheDrop ho) fun _ _ _ _ => lay_mono base (by omega)
    case alias =>
      exact lay_bind h.pre (lay_unaliasKey h.pre) fun u n1 h1 _ => lay_rekey h.pre (ih (by good) u)
    all_goals exact base

theorem LayPrims.delitem {o : Oid} (ho : Good Γ n o) {k : Key} : Lay Γ R n (delitem E o k) tt :=
  lay_self (f := fun w => Verif.delPipe E (bhvsOf E w o) o k) fun _ _ hn => h.delPipe (ho.mono hn) _ k

theorem LayPrims.mclear {o : Oid} (ho : Good Γ n o) : Lay Γ R n (mclear E o) tt :=
  lay_bind h.pre (h.mkeys ho) fun _ _ _ _ => lay_forU h.pre _ fun _ _ _ _ => h.delitem (by good)

theorem LayPrims.detachEnd {o : Oid} (ho : Good Γ n o) {k : Key} : Lay Γ R n (detachEnd E o k) (GoodV Γ) :=
  lay_bind h.pre (h.getitem ho) fun _ _ h1 hv => lay_bind h.pre (h.delitem (by good)) fun _ _ h2 _ =>
    lay_pure h.pre fun _ hn => hv.mono (Nat.le_trans h2 hn)

/-! ### Detaching and invalidating -/

theorem LayPrims.indexPut {o c : Oid} (ho : Good Γ n o) (hc : Good Γ n c) (u : Nat) {f : M Unit}
    (hf : ∀ n', n ≤ n' → Lay Γ R n' f tt) :
    Lay Γ R n (do
      let i ← indexRef o
      M.modifyW fun w => { w with idxs := upd w.idxs i ((w.idxs i).set (some u) c) }
      modO c fun ob => { ob with index := some i }
      f) tt := by
  have hs : Sep Γ n (do
      let i ← indexRef o
      M.modifyW fun w => { w with idxs := upd w.idxs i ((w.idxs i).set (some u) c) }
      modO c fun ob => { ob with index := some i }
      pure ()) tt := by
    exact sep_indexShare ho hc (fun i w hI hw hd => hd.set (by good)) fun _ _ => sep_pure fun _ _ => trivial
  have hh := hidden_indexPut hidden_pre (fun _ _ h => h) o c u (f := fun _ => (pure () : M Unit))
    (pres_pure hidden_pre ())
  refine cast (congrArg (fun m => Lay Γ R n m tt) ?_)
    (lay_bind h.pre (h.ofHidden hs hh) fun _ n' hn' _ => hf n' hn')
  funext w
  simp only [M.bind_apply, M.modifyW_apply, modO_apply]
  rcases indexRef o w with ⟨e | i, w1⟩ <;> rfl

theorem LayPrims.indexNodes (fuel : Nat) {o : Oid} (ho : Good Γ n o) : Lay Γ R n (indexNodes E fuel o) tt := by
  induction fuel generalizing n o with
  | zero => exact lay_raise h.pre
  | succ d ih =>
    refine lay_bind h.pre (h.mvalues ho) fun vs n1 h1 hvs => lay_forU h.pre _ fun v hv n' hn' => ?_
    have hv := hvs v hv
    unfold indexNodesStep
    split
    · exact lay_pure h.pre fun _ _ => trivial
    · rename_i c _
      have hc := hv.node
      refine lay_getW fun w hw hn => lay_ite ?_ (lay_pure h.pre fun _ _ => trivial)
      split
      · exact lay_raise h.pre
      · exact h.indexPut (by good) (by good) _ fun n'' hn'' => lay_ite (ih (by good)) (lay_raise h.pre)

theorem LayPrims.referenceDetach {v : Val} (hv : GoodV Γ n v) : Lay Γ R n (referenceDetach E v) tt := by
  unfold Verif.referenceDetach
  split
  · exact lay_raise h.pre
  · rename_i c
    have hc := hv.node
    refine lay_getW fun w hw hn => lay_ite ?_ (lay_raise h.pre)
    split
    · exact lay_raise h.pre
    · rename_i u _
      refine lay_bind h.pre (h.ofHidden (sep_newIndex (by good) (g := fun _ => [(some u, c)]) fun w hI hw kv hkv => ?_)
        (hidden_newIdx c (fun _ => [(some u, c)]) fun _ => by simp [Od.keys])) fun _ n1 h1 _ => ?_
      · rw [List.mem_singleton] at hkv
        subst hkv
        exact hc.mono (by omega)
      · exact lay_ite (h.indexNodes _ (by good)) (lay_raise h.pre)

theorem LayPrims.suppress {o : Oid} (ho : Good Γ n o) (b : Bool) :
    Lay Γ R n (modO o fun ob => { ob with suppress := b }) tt :=
  h.ofHidden (sep_modO ho fun _ _ _ h => { h with }) (hidden_modO o _ (fun _ => rfl) (fun _ => rfl) (fun _ => rfl)
    (fun _ => rfl) (fun _ => rfl) (fun _ => rfl) (fun _ => rfl) (fun _ => rfl))

theorem LayPrims.detachPipe {o : Oid} (ho : Good Γ n o) (bs : List Bhv) {k : Key} :
    Lay Γ R n (detachPipe E bs o k) (GoodV Γ) := by
  induction bs generalizing n with
  | nil => exact h.detachEnd ho
  | cons b r ih =>
    have base := ih ho
    cases b
    case reference =>
      exact lay_bind h.pre base fun v n1 h1 hv => lay_bind h.pre (h.referenceDetach hv) fun _ n2 h2 _ =>
        lay_pure h.pre fun _ hn => hv.mono (Nat.le_trans h2 hn)
    case lifecycle =>
      refine lay_bind h.pre (h.suppress ho _) fun _ n1 h1 _ => ?_
      refine lay_bind h.pre (ih (by good)) fun v n2 h2 hv => ?_
      refine lay_bind h.pre (h.suppress (by good) _) fun _ n3 h3 _ => ?_
      exact lay_bind h.pre (h.ofHidden sep_notify (hidden_notify _)) fun _ n4 h4 _ =>
        lay_pure h.pre fun _ hn => hv.mono (by omega)
    all_goals exact base

theorem LayPrims.detach {o : Oid} (ho : Good Γ n o) {k : Key} : Lay Γ R n (detach E o k) (GoodV Γ) :=
  lay_self (f := fun w => Verif.detachPipe E (bhvsOf E w o) o k) fun _ _ hn => h.detachPipe (ho.mono hn) _

theorem LayPrims.invalidatePipe {o : Oid} (ho : Good Γ n o) (all bs : List Bhv) {k : Key} :
    Lay Γ R n (invalidatePipe E all bs o k) tt := by
  induction bs generalizing n k with
  | nil =>
    simp only [Verif.invalidatePipe]
    split
    · exact lay_ite (h.mclear ho) (h.delitem ho)
    · exact lay_leaf (sep_invalidateVolatile ho) (h.volatile o k)
    · exact lay_raise h.pre
  | cons b r ih =>
    have base := ih (k := k) ho
    cases b
    case cache =>
      simp only [Verif.invalidatePipe]
      refine lay_ite ?_ (lay_bind h.pre (h.cacheDrop ho) fun _ _ _ _ => lay_mono base (by omega))
      refine lay_bind h.pre (h.cacheRef ho) fun c n1 h1 hc => lay_getW fun w hw hn => ?_
      exact lay_bind h.pre (h.ofQuiet (sep_cache hc fun _ _ _ => nofun) (pres_modifyW fun w =>
        setCache_quiet c [] fun _ => by simp [Od.keys])) fun _ n2 h2 _ => ih (by good)
    all_goals exact base

/-- Every operation that assigns nothing. -/
theorem LayPrims.exec {op : Op} (hop : op.removes = true) (hv : ∀ v ∈ op.vals, GoodV Γ n v) :
    Lay Γ R n (exec E op) tt := by
  have hr : ∀ {α : Type} {m : M α} {p : Nat → α → Prop} (f : α → Res), Lay Γ R n m p →
      Lay Γ R n (m >>= fun x => pure (f x)) tt := fun f h' =>
    lay_bind h.pre h' fun _ _ _ _ => lay_pure h.pre fun _ _ => trivial
  cases op
  case get o k => exact hr _ (h.getitem (hv _ List.mem_cons_self).node)
  case del o k => exact hr (fun _ => .unit) (h.delitem (hv _ List.mem_cons_self).node)
  case getD o k d =>
    exact hr _ (p := tt) (lay_catch h.pre (lay_tt (h.getitem (hv _ List.mem_cons_self).node)) fun _ =>
      lay_pure h.pre fun _ _ => trivial)
  case contains o k =>
    exact hr _ (p := tt) (lay_catch h.pre (lay_bind h.pre (h.getitem (hv _ List.mem_cons_self).node) fun _ _ _ _ =>
      lay_pure h.pre fun _ _ => trivial) fun _ => lay_pure h.pre fun _ _ => trivial)
  case keys o => exact hr _ (h.mkeys (hv _ List.mem_cons_self).node)
  case values o => exact hr _ (h.mvalues (hv _ List.mem_cons_self).node)
  case items o => exact hr _ (h.mitems (hv _ List.mem_cons_self).node)
  case len o =>
    exact hr _ (p := tt) (lay_bind h.pre (h.mkeys (hv _ List.mem_cons_self).node) fun _ _ _ _ =>
      lay_pure h.pre fun _ _ => trivial)
  case pop o k d =>
    refine hr _ (p := tt) (lay_catch h.pre (lay_tt (h.detachEnd (hv _ List.mem_cons_self).node)) fun e => ?_)
    split
    · exact lay_raise h.pre
    · exact lay_pure h.pre fun _ _ => trivial
  case popitem o =>
    have ho := (hv _ List.mem_cons_self).node
    refine hr (fun kv : Key × Val => .item kv.1 kv.2) (p := tt) (lay_bind h.pre (h.mkeys ho) fun ks n1 h1 _ => ?_)
    split
    · exact lay_raise h.pre
    · exact lay_bind h.pre (h.getitem (by good)) fun _ n2 h2 _ => lay_bind h.pre (h.delitem (by good)) fun _ _ _ _ =>
        lay_pure h.pre fun _ _ => trivial
  case clear o => exact hr (fun _ => .unit) (h.mclear (hv _ List.mem_cons_self).node)
  case detach o k => exact hr _ (h.detach (hv _ List.mem_cons_self).node)
  case invalidate o k =>
    have ho := (hv _ List.mem_cons_self).node
    exact hr (fun _ => .unit) (lay_self (f := fun w => Verif.invalidatePipe E (bhvsOf E w o) (bhvsOf E w o) o k)
      fun _ _ hn => h.invalidatePipe (ho.mono hn) _ _)
  case swap o a b =>
    exact hr (fun _ => .unit) (lay_leaf (sep_swapNodes (hv _ List.mem_cons_self).node) (h.swap o a b))
  case setUuid o u =>
    exact hr (fun _ => .unit) (h.ofHidden (sep_setUuidRef (hv _ List.mem_cons_self).node) (hidden_setUuidRef o u))
  case setFallbackKey o k =>
    exact hr (fun _ => .unit) (h.ofHidden (sep_modO (hv _ List.mem_cons_self).node fun _ _ _ h => { h with })
      (hidden_setFallbackKey o k))
  all_goals cases hop

end

end Verif
