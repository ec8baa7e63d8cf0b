import Verif.Lemmas.UncacheApi
import Verif.Props.C69

/-! Serializing and deserializing with caches. -/

namespace Verif

/-- From fresh heaps in which all nodes exist: the same without caches, again such a heap, and `post` of the result. -/
def SRel (E : Env) (n : Nat) {α : Type} (m m' : M α) (post : Nat → α → Prop) : Prop :=
  ∀ w, Fresh E w → Inv Prot.none w → n ≤ w.nobj → CRelAt E m m' w ∧ Inv Prot.none (m w).2 ∧ w.nobj ≤ (m w).2.nobj ∧
    ∀ a, (m w).1 = .ok a → post (m w).2.nobj a

section
variable {E : Env} {n : Nat} {α β : Type}

theorem srel_on {m m' : M α} {post : Nat → α → Prop} (h : CRelOn E (fun w => n ≤ w.nobj) m m') (hs : Sep Prot.none n m post) :
    SRel E n m m' post := fun w hw hI hn => ⟨h w hw hn, hs w hI hn⟩

theorem srel {m m' : M α} {post : Nat → α → Prop} (h : CRel E m m') (hs : Sep Prot.none n m post) : SRel E n m m' post :=
  srel_on h.on hs

theorem srel_pure {a : α} {post : Nat → α → Prop} (h : ∀ n', n ≤ n' → post n' a) : SRel E n (pure a : M α) (pure a) post :=
  srel (rel_pure a) (sep_pure h)

theorem srel_raise {e : Exc} {post : Nat → α → Prop} : SRel E n (M.raise e : M α) (M.raise e) post :=
  srel (rel_raise e) sep_raise

theorem srel_ofExcept {x : Except Exc α} : SRel E n (M.ofExcept x) (M.ofExcept x) tt :=
  srel (fun _ hw => ⟨rfl, hw⟩) (sep_ofExcept fun _ _ _ _ => trivial)

theorem srel_tt {m m' : M α} {p : Nat → α → Prop} (h : SRel E n m m' p) : SRel E n m m' tt := fun w hw hI hn =>
  let ⟨a, b, c, _⟩ := h w hw hI hn
  ⟨a, b, c, fun _ _ => trivial⟩

theorem srel_mono {n' : Nat} {m m' : M α} {p : Nat → α → Prop} (h : SRel E n m m' p) (hn : n ≤ n') : SRel E n' m m' p :=
  fun w hw hI hn' => h w hw hI (Nat.le_trans hn hn')

theorem srel_bind {m m' : M α} {f f' : α → M β} {p : Nat → α → Prop} {post : Nat → β → Prop} (hm : SRel E n m m' p)
    (hf : ∀ a n', n ≤ n' → p n' a → SRel E n' (f a) (f' a) post) : SRel E n (m >>= f) (m' >>= f') post :=
  fun w hw hI hn => by
    obtain ⟨h1, h2, h3, h4⟩ := hm w hw hI hn
    refine ⟨relAt_bind h1 fun a w' hx hw' => ?_, ?_⟩
    · rw [hx] at h2 h3 h4
      exact (hf a w'.nobj (Nat.le_trans hn h3) (h4 a rfl) w' hw' h2 (Nat.le_refl _)).1
    · have hF := h1.2
      simp only [M.bind_apply]
      rcases hx : m w with ⟨e | a, w'⟩
      · rw [hx] at h2 h3
        exact ⟨h2, h3, fun _ h => nomatch h⟩
      · rw [hx] at h2 h3 h4 hF
        obtain ⟨-, g2, g3, g4⟩ := hf a w'.nobj (Nat.le_trans hn h3) (h4 a rfl) w' hF h2 (Nat.le_refl _)
        exact ⟨g2, Nat.le_trans h3 g3, g4⟩

theorem srel_forM {f f' : α → M β} {p : Nat → β → Prop} (hp : ∀ n n' b, n ≤ n' → p n b → p n' b) (l : List α)
    (hf : ∀ a ∈ l, ∀ n', n ≤ n' → SRel E n' (f a) (f' a) p) :
    SRel E n (forM' f l) (forM' f' l) fun n' bs => ∀ b ∈ bs, p n' b := by
  induction l generalizing n with
  | nil => exact srel_pure fun _ _ _ h => nomatch h
  | cons a r ih =>
    refine srel_bind (hf a List.mem_cons_self n (Nat.le_refl _)) fun b n1 h1 hb => ?_
    refine srel_bind (ih fun c hc n' hn' => hf c (List.mem_cons_of_mem _ hc) n' (by omega)) fun bs n2 h2 hbs => ?_
    refine srel_pure fun n' hn' x hx => ?_
    rcases List.mem_cons.mp hx with rfl | hx
    · exact hp _ _ _ (by omega) hb
    · exact hp _ _ _ hn' (hbs x hx)

theorem srel_forU {f f' : α → M Unit} (l : List α) (hf : ∀ a ∈ l, ∀ n', n ≤ n' → SRel E n' (f a) (f' a) tt) :
    SRel E n (forU f l) (forU f' l) tt := by
  induction l generalizing n with
  | nil => exact srel_pure fun _ _ => trivial
  | cons a r ih =>
    exact srel_bind (hf a List.mem_cons_self n (Nat.le_refl _)) fun _ n1 h1 _ =>
      ih fun c hc n' hn' => hf c (List.mem_cons_of_mem _ hc) n' (by omega)

end

namespace Ser

section
variable {E : Env} {N : Codec} {n : Nat} (hE : ∀ c, CacheSafe (E.cls c))
include hE

omit hE in
theorem srel_attrs {o : Oid} (ho : Good Prot.none n o) :
    SRel E n (attrs E o) (attrs E.uncached o) (Good Prot.none) :=
  srel_on (fun w hw hn => rel_attrs o w hw (Nat.lt_of_lt_of_le ho.2 hn)) (sep_attrs ho)

theorem srel_setitem {o : Oid} (ho : Good Prot.none n o) (k : Key) {v : Val} (hv : GoodV Prot.none n v) :
    SRel E n (setitem E o k v) (setitem E.uncached o k v) tt := srel (rel_setitem hE o k v) (sep_setitem ho hv)

theorem srel_attrsItems (o : Oid) {a : Oid} (ha : Good Prot.none n a) :
    SRel E n (attrsItems E o a) (attrsItems E.uncached o a) fun n' l => ∀ kv ∈ l, GoodV Prot.none n' kv.2 := fun w hw hI hn => by
  have h1 := rel_getitem hE a (.str (lit "items")) w hw
  have h2 := sep_getitem (E := E) ha (k := .str (lit "items")) w hI hn
  have h3 := rel_mitems hE a w hw
  have h4 := sep_mitems (E := E) ha w hI hn
  unfold CRelAt attrsItems
  rw [show (clsOf E.uncached w.uncache o).attrAccess = (clsOf E w o).attrAccess from rfl]
  split
  · have hF := h1.2
    rw [h1.1]
    rcases hx : getitem E a (.str (lit "items")) w with ⟨e | v, w'⟩
    · rw [hx] at hF h2
      exact ⟨⟨rfl, hF⟩, h2.1, h2.2.1, fun _ h => nomatch h⟩
    · rw [hx] at hF h2
      dsimp only
      rcases v with c | d
      · exact ⟨⟨rfl, hF⟩, h2.1, h2.2.1, fun _ h => nomatch h⟩
      · cases d <;> exact ⟨⟨rfl, hF⟩, h2.1, h2.2.1, fun _ h => nomatch h⟩
  · exact ⟨h3, h4⟩

theorem srel_defaultAttrs {rec rec' : Val → M P} (hr : ∀ n', n ≤ n' → ∀ v, GoodV Prot.none n' v → SRel E n' (rec v) (rec' v) tt)
    {o : Oid} (ho : Good Prot.none n o) :
    SRel E n (defaultAttrs E rec o) (defaultAttrs E.uncached rec' o) tt := fun w hw hI hn => by
  have key : SRel E n (do
      let a ← attrs E o
      let items ← attrsItems E o a
      let kvs ← forM' (fun (kv : Key × Val) => do
        let p ← rec kv.2
        pure (kv.1, p)) items
      pure [(Key.str attrsName, P.obj kvs)] : M (List (Key × P))) (do
      let a ← attrs E.uncached o
      let items ← attrsItems E.uncached o a
      let kvs ← forM' (fun (kv : Key × Val) => do
        let p ← rec' kv.2
        pure (kv.1, p)) items
      pure [(Key.str attrsName, P.obj kvs)]) tt := by
    refine srel_bind (srel_attrs ho) fun a n1 h1 ha => ?_
    refine srel_bind (srel_attrsItems hE o ha) fun l n2 h2 hl => ?_
    refine srel_bind (srel_forM (p := tt) (fun _ _ _ _ _ => trivial) l fun kv hkv n' hn' => ?_) fun _ _ _ _ =>
      srel_pure fun _ _ => trivial
    exact srel_bind (hr n' (by omega) kv.2 fun c hc => (hl kv hkv c hc).mono hn') fun _ _ _ _ => srel_pure fun _ _ => trivial
  have hc : (clsOf E.uncached w.uncache o).bhvs.contains .attributes = (clsOf E w o).bhvs.contains .attributes :=
    contains_unc (by decide) _
  unfold CRelAt defaultAttrs
  rw [hc]
  split
  · exact key w hw hI hn
  · exact ⟨⟨rfl, hw⟩, hI, Nat.le_refl _, fun _ _ => trivial⟩

theorem srel_default (m : Mode) (d : Nat) {v : Val} (hv : GoodV Prot.none n v) :
    SRel E n (default E m d v) (default E.uncached m d v) tt := by
  induction d generalizing n v with
  | zero =>
    cases v
    · exact srel_raise
    · exact srel_pure fun _ _ => trivial
  | succ d ih =>
    cases v with
    | data x => exact srel_pure fun _ _ => trivial
    | node o =>
      have ho := hv o rfl
      have key : ∀ head : List (Key × P), SRel E n (do
          let vs ← mvalues E o
          let kids ← forM' (default E m d) vs
          let kidsPart := if kids.isEmpty then [] else [(Key.str kidsKey, P.list kids)]
          let attrsPart ← defaultAttrs E (default E m d) o
          let data := P.obj (head ++ kidsPart ++ attrsPart)
          pure (if m.simple then data else .obj [(.str nodeKey, data)])) (do
          let vs ← mvalues E.uncached o
          let kids ← forM' (default E.uncached m d) vs
          let kidsPart := if kids.isEmpty then [] else [(Key.str kidsKey, P.list kids)]
          let attrsPart ← defaultAttrs E.uncached (default E.uncached m d) o
          let data := P.obj (head ++ kidsPart ++ attrsPart)
          pure (if m.simple then data else .obj [(.str nodeKey, data)])) tt := fun head => by
        refine srel_bind (srel (rel_mvalues hE o) (sep_mvalues ho)) fun vs n1 h1 hvs => ?_
        refine srel_bind (srel_forM (p := tt) (fun _ _ _ _ _ => trivial) vs fun v hm n' hn' =>
          ih fun c hc => (hvs v hm c hc).mono hn') fun _ n2 h2 _ => ?_
        exact srel_bind (srel_defaultAttrs hE (fun _ _ _ h => ih h) (ho.mono (by omega))) fun _ _ _ _ =>
          srel_pure fun _ _ => trivial
      exact fun w hw hI hn => key _ w hw hI hn

omit hE in
/-- The nodes to be serialized exist. -/
inductive GoodOb (n : Nat) : Ob → Prop
  | val {v : Val} (h : GoodV Prot.none n v) : GoodOb n (.val v)
  | list {xs : List Ob} (h : ∀ x ∈ xs, GoodOb n x) : GoodOb n (.list xs)

omit hE in
theorem GoodOb.mono {m : Nat} {x : Ob} (h : GoodOb n x) (hm : n ≤ m) : GoodOb m x := by
  induction h with
  | val h => exact .val fun c hc => (h c hc).mono hm
  | list _ ih => exact .list ih

mutual
theorem srel_serialize (m : Mode) (d : Nat) (x : Ob) {n : Nat} (hx : GoodOb n x) :
    SRel E n (serialize E N m d x) (serialize E.uncached N m d x) tt := by
  match x, hx with
  | .val v, .val h =>
    simp only [serialize]
    exact srel_bind (srel_default hE m d h) fun _ _ _ _ => srel_ofExcept
  | .list xs, .list h =>
    simp only [serialize]
    exact srel_bind (srel_serializeList m d xs h) fun _ _ _ _ => srel_pure fun _ _ => trivial
theorem srel_serializeList (m : Mode) (d : Nat) (xs : List Ob) {n : Nat} (h : ∀ x ∈ xs, GoodOb n x) :
    SRel E n (serializeList E N m d xs) (serializeList E.uncached N m d xs) tt := by
  match xs, h with
  | [], _ => exact srel_pure fun _ _ => trivial
  | x :: r, h =>
    simp only [serializeList]
    exact srel_bind (srel_serialize m d x (h x List.mem_cons_self)) fun _ n1 h1 _ =>
      srel_bind (srel_serializeList m d r fun y hy => (h y (List.mem_cons_of_mem _ hy)).mono h1) fun _ _ _ _ =>
        srel_pure fun _ _ => trivial
end

omit hE in
theorem takesArgs_uncached (c : ClassId) : (E.uncached.cls c).takesArgs = (E.cls c).takesArgs := by
  unfold ClassDef.takesArgs
  rw [bhvs_uncached, contains_unc (by decide), contains_unc (by decide)]

omit hE in
theorem callArgs_uncached (c : ClassId) (x : Dec) : callArgs (E.uncached.cls c) x = callArgs (E.cls c) x := by
  unfold callArgs
  rw [takesArgs_uncached]

omit hE in
theorem srel_toVal {x : Dec} (hx : GoodD Prot.none n x) : SRel E n x.toVal x.toVal (GoodV Prot.none) := by
  refine srel (fun w hw => ?_) (sep_toVal hx)
  unfold Dec.toVal
  split
  · exact ⟨rfl, hw⟩
  · split <;> exact ⟨rfl, hw⟩

theorem srel_nodeFactory {rec rec' : J → Option Oid → M Dec} {data : List (Str × J)} {parent : Option Oid}
    (hr : ∀ j n', n ≤ n' → SRel E n' (rec j none) (rec' j none) (GoodD Prot.none))
    (hp : ∀ p, parent = some p → Good Prot.none n p) :
    SRel E n (nodeFactory E N rec data parent) (nodeFactory E.uncached N rec' data parent) (Good Prot.none) := by
  unfold nodeFactory
  refine srel_bind srel_ofExcept fun c n1 h1 _ => ?_
  refine srel_bind (p := tt) ?_ fun kw n2 h2 _ => ?_
  · unfold decKw
    split
    · exact srel_pure fun _ _ => trivial
    · exact srel_tt (hr _ n1 h1)
  refine srel_bind srel_ofExcept fun k n2' h2' _ => ?_
  rw [callArgs_uncached]
  refine srel_bind srel_ofExcept fun arg n3 h3 _ => ?_
  refine srel_bind (srel (rel_newNode c arg none) (sep_newNode nofun)) fun o n4 h4 ho => ?_
  cases parent with
  | none =>
    exact srel_bind (srel (rel_name o k) (sep_name ho)) fun _ n5 h5 _ => srel_pure fun n' hn' => ho.mono (by omega)
  | some p =>
    exact srel_bind (srel_setitem hE ((hp p rfl).mono (by omega)) k ho.val) fun _ n5 h5 _ =>
      srel_pure fun n' hn' => ho.mono (by omega)

theorem srel_decode (d : Nat) {j : J} {parent : Option Oid} (hp : ∀ p, parent = some p → Good Prot.none n p) :
    SRel E n (decode E N d j parent) (decode E.uncached N d j parent) (GoodD Prot.none) := by
  induction d generalizing n j parent with
  | zero => exact srel_raise
  | succ d ih =>
    have data : ∀ x n', GoodD Prot.none n' (.data x) := fun x n' c hc => by simp [Dec.nodes] at hc
    cases j with
    | str s => exact srel_bind srel_ofExcept fun x _ _ _ => srel_pure fun _ _ => data x _
    | list xs =>
      refine srel_bind (srel_forM (p := GoodD Prot.none) (fun _ _ _ h hb => hb.mono h) xs fun x _ n' hn' =>
        ih fun p hp' => (hp p hp').mono hn') fun ys n1 h1 hys => srel_pure fun n' hn' c hc => ?_
      obtain ⟨y, hy, hcy⟩ := mem_nodesList.mp hc
      exact (hys y hy c hcy).mono hn'
    | obj kvs =>
      simp only [decode]
      split
      · exact srel_bind srel_ofExcept fun x _ _ _ => srel_pure fun _ _ => data x _
      · split
        · rename_i rec _
          refine srel_bind (srel_nodeFactory hE (fun _ _ _ => ih nofun) hp) fun o n1 h1 ho => ?_
          refine srel_bind (p := tt) ?_ fun _ n2 h2 _ => srel_bind (p := tt) ?_ fun _ n3 h3 _ => srel_pure fun n' hn' c hc => ?_
          · unfold decKids
            split
            · exact srel_pure fun _ _ => trivial
            · exact srel_pure fun _ _ => trivial
            · exact srel_forU _ fun x _ n' hn' => srel_bind (ih (sep_some (ho.mono hn'))) fun _ _ _ _ =>
                srel_pure fun _ _ => trivial
            · exact srel_raise
          · have hloop : SRel E n2 (match Od.get? rec attrsName with
                | none => pure ()
                | some .null => pure ()
                | some (.obj kvs) => forU (fun (kv : Str × J) => do
                    let x ← decode E N d kv.2 none
                    let v ← x.toVal
                    let a ← attrs E o
                    setitem E a (.str kv.1) v) kvs
                | some _ => M.raise .unmodelled : M Unit) (match Od.get? rec attrsName with
                | none => pure ()
                | some .null => pure ()
                | some (.obj kvs) => forU (fun (kv : Str × J) => do
                    let x ← decode E.uncached N d kv.2 none
                    let v ← x.toVal
                    let a ← attrs E.uncached o
                    setitem E.uncached a (.str kv.1) v) kvs
                | some _ => M.raise .unmodelled : M Unit) tt := by
              split
              · exact srel_pure fun _ _ => trivial
              · exact srel_pure fun _ _ => trivial
              · refine srel_forU _ fun kv _ n' hn' => ?_
                refine srel_bind (ih nofun) fun x m1 g1 hx => ?_
                refine srel_bind (srel_toVal hx) fun v m2 g2 hv => ?_
                refine srel_bind (srel_attrs (ho.mono (by omega))) fun a m3 g3 ha => ?_
                exact srel_setitem hE ha _ (fun c hc => (hv c hc).mono g3)
              · exact srel_raise
            intro w hw hI hn
            have hc : (clsOf E.uncached w.uncache o).bhvs.contains .attributes = (clsOf E w o).bhvs.contains .attributes :=
              contains_unc (by decide) _
            unfold CRelAt decAttrs
            rw [hc]
            split
            · exact hloop w hw hI hn
            · exact ⟨⟨rfl, hw⟩, hI, Nat.le_refl _, fun _ _ => trivial⟩
          · rw [Dec.nodes, List.mem_singleton] at hc
            subst hc
            exact ho.mono (by omega)
        · exact srel_raise
        · exact srel_pure fun _ _ => data _ _
    | _ => exact srel_pure fun _ _ => data _ _

end
end Ser
end Verif
