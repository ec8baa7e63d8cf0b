import Verif.Spec.Fallback
import Verif.Lemmas.Chain
import Verif.Lemmas.Lookup

/-! Item access while a fallback search is running, and the search. -/

namespace Verif

variable {E : Env}

/-- Nothing but lazily created dictionaries. -/
structure Ro (w w' : World) : Prop where
  wf : WF w'
  same : Same w w'
  fb : w'.fb = w.fb

theorem Ro.refl {w : World} (h : WF w) : Ro w w := ⟨h, Same.refl w, rfl⟩

theorem Ro.trans {a b c : World} (h : Ro a b) (h' : Ro b c) : Ro a c :=
  ⟨h'.wf, h.same.trans h'.same, h'.fb.trans h.fb⟩

theorem Ro.of_quietF {w w' : World} (hw : WF w) (h : QuietF w w') : Ro w w' :=
  ⟨(h.1 hw).1, (h.1 hw).2, h.2⟩

theorem Same.clsOf {w w' : World} (h : Same w w') (p : Oid) : clsOf E w' p = clsOf E w p :=
  congrArg E.cls (h.obj p).cls

theorem Same.itemAt {w w' : World} (h : Same w w') (p : Oid) (k : Key) :
    itemAt E w' p k = itemAt E w p k := by
  simp only [Verif.itemAt, h.clsOf, World.nmap, World.omap, h.nsview, h.children]

theorem Same.locAt {w w' : World} (h : Same w w') (p : Oid) : w'.loc p = w.loc p := by
  simp only [World.loc, (h.obj p).name, (h.obj p).parent]

/-- In the middle of a search. -/
structure InSearch (m : Int) (w w' : World) : Prop where
  wf : WF w'
  same : Same w w'
  fb : w'.fb = some m

theorem InSearch.trans {m : Int} {a b c : World} (h : InSearch m a b) (h' : Ro b c) : InSearch m a c :=
  ⟨h'.wf, h.same.trans h'.same, h'.fb.trans h.fb⟩

/-- Classes whose items are read from the storage or the nodespaces. -/
structure Reads (c : ClassDef) : Prop where
  stores : Stores c
  noAlias : Bhv.alias ∉ c.bhvs
  noCache : Bhv.cache ∉ c.bhvs
  noFactory : Bhv.childFactory ∉ c.bhvs

/-- The same as `itemAt` below some of the behaviors. -/
def itemIn (w : World) (bs : List Bhv) (p : Oid) (k : Key) : Option Val :=
  if Bhv.nodespaces ∈ bs ∧ ReservedKey k then (w.nmap p).val k else (w.omap p).val k

/-- The result of item access. -/
def asResult (k : Key) : Option Val → Except Exc Val
  | some v => .ok v
  | none => .error (.key (.key k))

theorem lookup_asResult (d : Od Key Val) (k : Key) : lookup d k = asResult k (d.get? k) := by
  unfold lookup asResult; split <;> rename_i h <;> rw [h]

theorem getPipe_item (h : Oid → Key → Exc → M Val) {c : ClassDef} (hc : Reads c) {bs : List Bhv}
    (hsub : ∀ b ∈ bs, b ∈ c.bhvs) {o : Oid} {k : Key} {w : World} (hw : WF w) (hcl : clsOf E w o = c)
    (hh : itemIn w bs o k = none → Bhv.fallback ∈ bs → ∀ e w1, Ro w w1 → ∃ w2, h o k e w1 = (.error e, w2) ∧ Ro w1 w2) :
    ∃ w', getPipe E h bs o k w = (asResult k (itemIn w bs o k), w') ∧ Ro w w' := by
  induction bs with
  | nil =>
    obtain ⟨w', h1, h2⟩ := getEnd_pt (E := E) (S := fun _ => False) (o := o) (k := k) hw
      (fun _ h => h.elim) (by rw [hcl]; exact hc.stores)
    refine ⟨w', ?_, ?_⟩
    · simp only [itemIn, List.not_mem_nil, false_and, if_false]
      exact h1.trans (by rw [lookup_asResult]; rfl)
    · have := getEnd_quietF E o k w
      rw [h1] at this
      exact .of_quietF hw this
  | cons b r ih =>
    have hpass : b ≠ .nodespaces → itemIn w (b :: r) o k = itemIn w r o k := fun hb => by
      simp only [itemIn, List.mem_cons, show (Bhv.nodespaces = b) = False from
        eq_false fun e => hb e.symm, false_or]
    have ih := fun (e : itemIn w (b :: r) o k = itemIn w r o k) => ih (fun x hx => hsub x (List.mem_cons_of_mem _ hx))
      (fun hi hx => hh (e.trans hi) (List.mem_cons_of_mem _ hx))
    cases b
    case nodespaces =>
      by_cases hres : ReservedKey k
      · cases k with
        | str s =>
          have hr : reserved s = true := (reserved_iff s).mpr hres
          obtain ⟨r', w', h1⟩ := nodespacesRef_isOk o w
          have h2 := nodespacesRef_quietF o w
          simp only [getPipe, nodespacesGet, hr, if_true, M.bind_apply, h1, M.getW_apply]
          rw [h1] at h2
          have h3 := Ro.of_quietF hw h2
          refine ⟨w', ?_, h3⟩
          simp only [itemIn, List.mem_cons, true_or, true_and, hres, if_true, World.nmap,
            ← h3.same.nsview o, nsview_eq (nodespacesRef_ok h1), M.ofExcept]
          rw [lookup_asResult]; rfl
        | _ => exact hres.elim
      · have e : getPipe E h (.nodespaces :: r) o k = getPipe E h r o k := by
          cases k with
          | str s =>
            have : reserved s ≠ true := fun x => hres ((reserved_iff s).mp x)
            simp only [getPipe, nodespacesGet, this, if_false]; rfl
          | _ => rfl
        rw [e]
        have : itemIn w (.nodespaces :: r) o k = itemIn w r o k := by
          simp only [itemIn, hres, and_false]
        rw [this]
        exact ih this
    case fallback =>
      rw [hpass (by decide)]
      have e := hpass (by decide)
      obtain ⟨w', h1, h2⟩ := ih e
      simp only [getPipe, M.catchIf_apply, h1]
      cases hi : itemIn w r o k with
      | some v => exact ⟨w', rfl, h2⟩
      | none =>
        simp only [asResult, Exc.isKey, if_true]
        obtain ⟨w2, h3, h4⟩ := hh (e.trans hi) List.mem_cons_self (.key (.key k)) w' h2
        exact ⟨w2, h3, h2.trans h4⟩
    case cache => exact absurd (hsub _ List.mem_cons_self) hc.noCache
    case alias => exact absurd (hsub _ List.mem_cons_self) hc.noAlias
    case childFactory => exact absurd (hsub _ List.mem_cons_self) hc.noFactory
    all_goals
      rw [hpass (by decide)]
      exact ih (hpass (by decide))

/-- Item access during a search finds what the node itself has. -/
theorem getitem0_item {o : Oid} {w : World} (hc : Reads (clsOf E w o)) (k : Key) (hw : WF w) {n : Int}
    (hn : w.fb = some n) (h0 : 0 ≤ n) :
    ∃ w', getitem0 E o k w = (asResult k (itemAt E w o k), w') ∧ Ro w w' := by
  refine getPipe_item (E := E) _ hc (fun _ h => h) hw rfl fun _ _ e w1 h1 => ?_
  refine ⟨w1, ?_, .refl h1.wf⟩
  have hn1 : w1.fb = some n := h1.fb.trans hn
  simp only [fbGuard, hn1]
  rw [if_pos (by omega)]
  show (Except.error e, _) = _
  simp only [M.raise_apply, Option.map_some, Prod.mk.injEq, true_and]
  have : n + 1 - 1 = n := by omega
  rw [this, ← hn1]

theorem fbChild_item {p : Oid} {w : World} (hc : Reads (clsOf E w p)) (k : Key) (hw : WF w) {n : Int}
    (hn : w.fb = some n) (h0 : 0 ≤ n) :
    ∃ w', fbChild E (.node p) k w = (.ok (itemAt E w p k), w') ∧ Ro w w' := by
  obtain ⟨w', h1, h2⟩ := getitem0_item hc k hw hn h0
  refine ⟨w', ?_, h2⟩
  simp only [fbChild, M.catchIf_apply, M.bind_apply, h1]
  cases itemAt E w p k with
  | some v => rfl
  | none => simp [asResult, Exc.isKey]

/-- A plain value stands where an item is expected. -/
def Blocked (E : Env) (w : World) (ks : List Key) (e : Exc) : Prop :=
  (e = .attr ∨ e = .unmodelled) ∧ ∃ p k d, (k ∈ ks ∨ Declares E w p k) ∧ itemAt E w p k = some (.data d)

/-- The nodes a search may come across exist, have parents that end at a root and are
read without aliases, caches or factories; none of them answers the question for
`fallback_key` with an item. -/
structure FallTree (E : Env) (w : World) : Prop where
  sound : Sound w
  reads : ∀ p, p < w.nobj → Reads (clsOf E w p)
  exist : ∀ p k c, p < w.nobj → itemAt E w p k = some (.node c) → c < w.nobj
  plain : ∀ p, p < w.nobj → Bhv.getattrChildren ∈ (clsOf E w p).bhvs → Bhv.fallback ∈ (clsOf E w p).bhvs

theorem FallTree.asks {w : World} (h : FallTree E w) {p : Oid} (hp : p < w.nobj) :
    asksChildren E w p = false := by
  have h1 := h.plain p hp
  have e : bhvsOf E w p = (clsOf E w p).bhvs := rfl
  rw [Bool.eq_false_iff]
  intro hx
  simp only [asksChildren, e, Bool.and_eq_true, Bool.not_eq_true', List.contains_iff_mem] at hx
  have := h1 hx.1.1
  rw [← List.contains_iff_mem, hx.1.2] at this
  cases this

/-- The walk of `_to_leaf`. -/
theorem fbWalk_item {w0 : World} (ht : FallTree E w0) (ks : List Key) (v : Val) {ks' : List Key}
    {w : World} {n : Int} (hw : InSearch n w0 w) (h0 : 0 ≤ n)
    (hx : ∀ p, v = .node p → p < w0.nobj)
    (hv : v.isNode = false → ∃ p k d, k ∈ ks' ∧ itemAt E w0 p k = some (.data d))
    (hks : ∀ k ∈ ks, k ∈ ks') :
    ∃ x w', fbWalk E ks v w = (x, w') ∧ InSearch n w0 w' ∧
      ((∃ u, x = .ok (.inl u) ∧ Leads E w0 v ks u) ∨ (∃ c, x = .ok (.inr c) ∧ Stuck E w0 v ks c ∧ c < w0.nobj) ∨
       (∃ e, x = .error e ∧ Blocked E w0 ks' e)) := by
  induction ks generalizing v w with
  | nil => exact ⟨_, w, rfl, hw, .inl ⟨v, rfl, .here v⟩⟩
  | cons k r ih =>
    have hb : v.isNode = false → ∀ e, e = .attr ∨ e = .unmodelled → Blocked E w0 ks' e := by
      intro hf e he
      obtain ⟨p, j, d, h1, h2⟩ := hv hf
      exact ⟨he, p, j, d, .inl h1, h2⟩
    cases v with
    | data d =>
      cases d <;> first
        | exact ⟨_, w, rfl, hw, .inr (.inr ⟨_, rfl, hb rfl _ (.inl rfl)⟩)⟩
        | exact ⟨_, w, rfl, hw, .inr (.inr ⟨_, rfl, hb rfl _ (.inr rfl)⟩)⟩
    | node p =>
      obtain ⟨w1, h1, h2⟩ := fbChild_item (E := E) (p := p) (by rw [hw.same.clsOf]; exact ht.reads p (hx p rfl)) k hw.wf
        hw.fb h0
      rw [hw.same.itemAt] at h1
      simp only [fbWalk, M.bind_apply, h1]
      cases hi : itemAt E w0 p k with
      | none => exact ⟨_, w1, rfl, hw.trans h2, .inr (.inl ⟨p, rfl, .here hi, hx p rfl⟩)⟩
      | some u =>
        obtain ⟨x, w2, h3, h4, h5⟩ := ih u (hw.trans h2)
          (fun c hc => ht.exist p k c (hx p rfl) (by rw [hi, hc]))
          (fun hu => by
            cases u with
            | node c => cases hu
            | data d => exact ⟨p, k, d, hks k List.mem_cons_self, hi⟩)
          fun j hj => hks j (List.mem_cons_of_mem _ hj)
        refine ⟨x, w2, h3, h4, ?_⟩
        rcases h5 with ⟨u', e, hl⟩ | ⟨c, e, hl, hc⟩ | h5
        · exact .inl ⟨u', e, .step hi hl⟩
        · exact .inr (.inl ⟨c, e, .step hi hl, hc⟩)
        · exact .inr (.inr h5)

theorem activeFallback_iff {w : World} {p : Oid} {k : Key} :
    activeFallback E w p = some k ↔ Declares E w p k := by
  have ht : ∀ k : Key, keyTruthy k = true ↔ k ≠ .none ∧ k ≠ .str [] ∧ k ≠ .int 0 ∧ k ≠ .bytes [] := by
    intro k
    cases k with
    | none => simp [keyTruthy]
    | str s => cases s <;> simp [keyTruthy]
    | int i => simp [keyTruthy]
    | bytes b => cases b <;> simp [keyTruthy]
  unfold activeFallback Declares
  cases h1 : (w.objs p).fallbackKey with
  | some j =>
    simp only [Option.orElse_eq_orElse, Option.orElse_some]
    rw [← ht]
    by_cases hj : keyTruthy j
    · simp only [hj, if_true, Option.some.injEq]
      constructor
      · rintro rfl; exact ⟨.inl rfl, hj⟩
      · rintro ⟨h | h, -⟩
        · exact h
        · exact nomatch h.1
    · simp only [hj]
      constructor
      · intro h; cases h
      · rintro ⟨h | h, h'⟩
        · rw [← Option.some.inj h] at h'; exact absurd h' hj
        · exact nomatch h.1
  | none =>
    cases h2 : (clsOf E w p).fallbackKey with
    | none => simp
    | some j =>
      simp only [Option.orElse_eq_orElse, Option.orElse_none]
      rw [← ht]
      by_cases hj : keyTruthy j
      · simp only [hj, if_true, Option.some.injEq]
        constructor
        · rintro rfl; exact ⟨.inr ⟨trivial, rfl⟩, hj⟩
        · rintro ⟨h | h, -⟩
          · exact nomatch h
          · exact h.2
      · simp only [hj]
        constructor
        · intro h; cases h
        · rintro ⟨h | h, h'⟩
          · exact nomatch h
          · rw [← Option.some.inj h.2] at h'; exact absurd h' hj

theorem Same.activeFallback {w w' : World} (h : Same w w') (p : Oid) :
    activeFallback E w' p = activeFallback E w p := by
  simp only [Verif.activeFallback, (h.obj p).fallbackKey, h.clsOf]

theorem Same.asksChildren {w w' : World} (h : Same w w') (p : Oid) :
    asksChildren E w' p = asksChildren E w p := by
  simp only [Verif.asksChildren, Verif.bhvsOf, (h.obj p).fallbackKey, (h.obj p).cls, h.clsOf]

theorem Same.chain {w w' : World} (h : Same w w') {o : Oid} {l : List Oid} (hc : Chain w o l) :
    Chain w' o l := hc.congr fun p _ => by rw [h.locAt]

theorem path_chain {w : World} (hs : Sound w) {o : Oid} {l : List Oid} (ho : o < w.nobj)
    (hc : Chain w o l) : pathOf w o = some ((o :: l).map fun p => (w.loc p).1).reverse := by
  have := hs.length hc ho
  rw [pathOf, hc.namesUp (by omega)]; rfl

theorem Same.pathOf {w w' : World} (h : Same w w') (hs : Sound w) {o : Oid} {l : List Oid}
    (ho : o < w.nobj) (hc : Chain w o l) :
    pathOf w' o = some ((o :: l).map fun p => (w.loc p).1).reverse := by
  have := hs.length hc ho
  have h' := h.chain hc
  have hn : l.length < w'.nobj + 1 := by rw [h.nobj]; omega
  rw [Verif.pathOf, h'.namesUp hn]
  simp only [h.locAt, Option.map_some]

/-- The fallback `p` declares was looked at and lacks the path. -/
def Tried (E : Env) (w : World) (full : List Key) (p : Oid) : Prop :=
  ∃ s ks c, FallsTo E w full p s ks ∧ Stuck E w (.node s) ks c

/-- What `_to_root` returns. -/
def RootOut (E : Env) (w : World) (full : List Key) (node : Oid) (visited : List Oid) :
    Except Exc (Option Val) → Prop
  | .ok (some v) => Found E w full node v
  | .ok none => (∀ p k c, (k ∈ full ∨ Declares E w p k) → itemAt E w p k = some (.node c) →
        (w.loc c).2 = some p) →
      (∀ x ∈ visited, ∀ p fk, (w.loc x).2 = some p → Declares E w p fk → Tried E w full p) →
      ∀ a p fk, a = node ∨ Ancestor w a node → (w.loc a).2 = some p → Declares E w p fk →
        Tried E w full p
  | .error e => (∃ p fk, e = .key (.key fk) ∧ Declares E w p fk ∧ itemAt E w p fk = none) ∨
      Blocked E w full e

theorem Found.climb {w : World} {full : List Key} {n p : Oid} {v : Val} (hp : (w.loc n).2 = some p)
    (h : Found E w full p v) : Found E w full n v := by
  have up : ∀ {a}, a = p ∨ Ancestor w a p → a = n ∨ Ancestor w a n := by
    rintro a (rfl | h)
    · exact .inr (.parent hp)
    · exact .inr (.up hp h)
  cases h with
  | hit ha h1 h2 h3 => exact .hit (up ha) h1 h2 h3
  | more ha h1 h2 h3 h4 => exact .more (up ha) h1 h2 h3 h4

theorem Stuck.ancestor {w : World} {full : List Key}
    (hl : ∀ p k c, (k ∈ full ∨ Declares E w p k) → itemAt E w p k = some (.node c) →
        (w.loc c).2 = some p) {v : Val} {ks : List Key} {c : Oid} (h : Stuck E w v ks c)
    (hks : ∀ k ∈ ks, k ∈ full) {a q : Oid} (ha : v = .node q) (haq : Ancestor w a q) :
    Ancestor w a c := by
  induction h generalizing q with
  | here _ => cases ha; exact haq
  | @step p c k u ks hi hs ih =>
    cases ha
    cases hs with
    | @here q k' ks' h' =>
      exact .up (hl _ _ _ (.inl (hks _ List.mem_cons_self)) hi) haq
    | @step q c k' u' ks' hi' hs' =>
      exact ih (fun j hj => hks j (List.mem_cons_of_mem _ hj)) rfl
        (.up (hl _ _ _ (.inl (hks _ List.mem_cons_self)) hi) haq)

theorem climbs {w : World} {a n p : Oid} (hp : (w.loc n).2 = some p) (h : Ancestor w a n) :
    a = p ∨ Ancestor w a p := by
  cases h with
  | parent h' => rw [hp] at h'; exact .inl (Option.some.inj h').symm
  | up h' h'' => rw [hp] at h'; rw [Option.some.inj h']; exact .inr h''

/-- The search ends and what it returns is justified. -/
theorem toRoot_out {w0 : World} (ht : FallTree E w0) (full : List Key) {m : Int} (h0 : 0 ≤ m) (n : Nat) (node : Oid) (visited l : List Oid) (w : World) (hw : InSearch m w0 w)
    (hv : visited.Nodup) (hvl : ∀ x ∈ visited, x < w0.nobj) (hno : node < w0.nobj)
    (hc : Chain w0 node l) (hf : (w0.nobj - visited.length) * (w0.nobj + 1) + l.length < n) :
    ∃ x w', toRoot E n node full visited w = (x, w') ∧ InSearch m w0 w' ∧ RootOut E w0 full node visited x := by
  induction n generalizing node visited l w with
  | zero => omega
  | succ n ih =>
    have hpar : (w.objs node).parent = (w0.loc node).2 := congrArg Prod.snd (hw.same.locAt node)
    unfold toRoot
    simp only [M.bind_apply, M.getW_apply, hpar]
    cases hc with
    | root hp =>
      rw [hp]
      refine ⟨_, w, rfl, hw, fun _ _ a p fk ha hap => ?_⟩
      rcases ha with rfl | ha
      · rw [hp] at hap; cases hap
      · cases ha with
        | parent h' => rw [hp] at h'; cases h'
        | up h' _ => rw [hp] at h'; cases h'
    | @up _ p l hp hcp =>
      rw [hp]
      have hpl : p < w0.nobj := ht.sound.lt (.up hp hcp) hno p (by simp)
      simp only [hw.same.activeFallback p]
      have climb : (∀ fk, Declares E w0 p fk → node ∈ visited) →
          ∃ x w', toRoot E n p full visited w = (x, w') ∧ InSearch m w0 w' ∧
            RootOut E w0 full node visited x := by
        intro hskip
        obtain ⟨x, w', h1, h2, h3⟩ := ih p visited l w hw hv hvl hpl hcp
          (by simp only [List.length_cons] at hf; omega)
        refine ⟨x, w', h1, h2, ?_⟩
        match x, h3 with
        | .ok (some v), h3 => exact Found.climb hp h3
        | .error e, h3 => exact h3
        | .ok none, h3 =>
          intro hloc hvis a q fk ha hq hd
          rcases ha with rfl | ha
          · rw [hp] at hq
            cases hq
            exact hvis _ (hskip fk hd) p fk hp hd
          · exact h3 hloc hvis a q fk (climbs hp ha) hq hd
      cases hfk : activeFallback E w0 p with
      | none =>
        simp only [hw.same.asksChildren p, ht.asks hpl, Bool.false_eq_true, if_false]
        refine climb fun fk hd => ?_
        rw [activeFallback_iff.mpr hd] at hfk
        cases hfk
      | some fk =>
        have hd := activeFallback_iff.mp hfk
        by_cases hvis : node ∈ visited
        · have : visited.contains node = true := by simpa using hvis
          simp only [this, if_true]
          exact climb fun _ _ => hvis
        · have : visited.contains node = false := by simpa using hvis
          simp only [this, Bool.false_eq_true, if_false, M.bind_apply]
          obtain ⟨w1, h1, h2⟩ := getitem0_item (E := E) (o := p)
            (by rw [hw.same.clsOf]; exact ht.reads p hpl) fk hw.wf hw.fb h0
          rw [hw.same.itemAt] at h1
          simp only [h1]
          have hw1 := hw.trans h2
          cases hi : itemAt E w0 p fk with
          | none => exact ⟨_, w1, rfl, hw1, .inl ⟨p, fk, rfl, hd, hi⟩⟩
          | some u =>
            cases u with
            | data d => exact ⟨_, w1, rfl, hw1, .inr ⟨.inl rfl, p, fk, d, .inr hd, hi⟩⟩
            | node s =>
              have hs := ht.exist p fk s hpl hi
              obtain ⟨ls, hls⟩ := (ht.sound s hs).2
              simp only [asResult, M.bind_apply, path, hw1.same.pathOf ht.sound hs hls]
              have hlen : ((s :: ls).map fun p => (w0.loc p).1).reverse.length = ls.length + 1 := by
                simp
              rw [hlen]
              have hto : FallsTo E w0 full p s (full.drop (ls.length + 1)) := ⟨fk, ls, hd, hi, hls, rfl⟩
              obtain ⟨x, w2, h3, h4, h5⟩ := fbWalk_item ht (full.drop (ls.length + 1)) (.node s)
                (ks' := full) hw1 h0 (fun q hq => by cases hq; exact hs)
                (fun h => by cases h) (fun k hk => List.mem_of_mem_drop hk)
              simp only [h3]
              rcases h5 with ⟨u, rfl, hl⟩ | ⟨c, rfl, hst, hcn⟩ | ⟨e, rfl, hb⟩
              · exact ⟨_, w2, rfl, h4, .hit (.inl rfl) hp hto hl⟩
              · obtain ⟨lc, hlc⟩ := (ht.sound c hcn).2
                have hlclen := ht.sound.length hlc hcn
                have hlt : visited.length < w0.nobj := by
                  have := nodup_length_le (l := node :: visited) (List.nodup_cons.mpr ⟨hvis, hv⟩)
                    (n := w0.nobj) (by
                      intro x hx
                      rcases List.mem_cons.mp hx with rfl | hx
                      · exact hno
                      · exact hvl x hx)
                  simp only [List.length_cons] at this
                  omega
                obtain ⟨x, w3, h6, h7, h8⟩ := ih c (node :: visited) lc w2 h4
                  (List.nodup_cons.mpr ⟨hvis, hv⟩)
                  (by
                    intro x hx
                    rcases List.mem_cons.mp hx with rfl | hx
                    · exact hno
                    · exact hvl x hx) hcn hlc
                  (by
                    have e : w0.nobj - visited.length = (w0.nobj - (visited.length + 1)) + 1 := by omega
                    rw [e, Nat.add_mul] at hf
                    simp only [List.length_cons] at hf ⊢
                    omega)
                refine ⟨x, w3, h6, h7, ?_⟩
                match x, h8 with
                | .ok (some v), h8 => exact .more (.inl rfl) hp hto hst h8
                | .error e, h8 => exact h8
                | .ok none, h8 =>
                  intro hloc hvs a q fk' ha hq hdq
                  have htr : Tried E w0 full p := ⟨s, _, c, hto, hst⟩
                  rcases ha with rfl | ha
                  · rw [hp] at hq; cases hq; exact htr
                  · refine h8 hloc ?_ a q fk' (.inr ?_) hq hdq
                    · intro x hx
                      rcases List.mem_cons.mp hx with rfl | hx
                      · intro q' fk'' hq' _
                        rw [hp] at hq'; cases hq'; exact htr
                      · exact hvs x hx
                    · have hsp := hloc p fk s (.inr hd) hi
                      refine hst.ancestor hloc (fun k hk => List.mem_of_mem_drop hk) rfl ?_
                      rcases climbs hp ha with rfl | ha
                      · exact .parent hsp
                      · exact .up hsp ha
              · exact ⟨_, w2, rfl, h4, .inr hb⟩

end Verif
