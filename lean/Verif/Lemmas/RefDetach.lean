import Verif.Lemmas.RefInv

/-! Detaching subtrees of `Reference` trees, and setting uuids. -/

namespace Verif

variable {E : Env}

/-- The same nodes, children and uuids. -/
structure StTree (w0 a : World) : Prop where
  wf : WF a
  children : ∀ p, a.children p = w0.children p
  cls : ∀ p, (a.objs p).cls = (w0.objs p).cls
  uuid : ∀ p, (a.objs p).uuid = (w0.objs p).uuid
  nobj : a.nobj = w0.nobj

theorem StTree.puts {w0 a b : World} {i : Ref} {P : Oid → Prop} (h : StTree w0 a)
    (h' : Puts w0 i P a b) : StTree w0 b :=
  ⟨h'.wf, fun p => (h'.children p).trans (h.children p), fun p => (h'.cls p).trans (h.cls p),
    fun p => (h'.uuid p).trans (h.uuid p), h'.nobj.trans h.nobj⟩

theorem StTree.clsOf {w0 a : World} (h : StTree w0 a) (p : Oid) :
    Verif.clsOf E a p = Verif.clsOf E w0 p := congrArg E.cls (h.cls p)

/-- Putting one node into the index. -/
theorem puts_one {w0 a : World} {i : Ref} {d : Oid} {u : Nat} (ha : StTree w0 a) (hi : i < a.nidx)
    (hu : HasUuid w0 d u) :
    Puts w0 i (· = d) a (modO d (fun ob => { ob with index := some i })
      { a with idxs := upd a.idxs i ((a.idxs i).set (some u) d) }).2 where
  wf := (ha.wf.setIdx i (Od.nodup_keys_set (ha.wf.iNd i) _ _)).modO d
    (fun ob => { ob with index := some i }) rfl rfl rfl (fun r hr => by cases hr; exact hi)
  children := children_modO d (fun ob => { ob with index := some i }) rfl
  cls := proj_upd Obj.cls a.objs d _ (by rfl)
  uuid := proj_upd Obj.uuid a.objs d _ (by rfl)
  nidx := rfl
  nobj := rfl
  nuuid := rfl
  others r hr := upd_other _ _ hr
  put x u' hx hu' := by
    subst hx
    have : u' = u := Option.some.inj (hu'.symm.trans hu)
    subst this
    simp only [modO_apply, upd_same]
    rw [Od.get?_set, if_pos rfl]
  kept v hv := by
    simp only [modO_apply, upd_same]
    rw [Od.get?_set, if_neg (hv d u rfl hu)]
  indexed x hx := by
    subst hx
    simp only [modO_apply, upd_same]
  left x hx := by
    simp only [modO_apply]
    rw [upd_other _ _ hx]

/-- The nodes among the values, and everything below. -/
def Under (w0 : World) (vs : List Val) (x : Oid) : Prop := ∃ d, Val.node d ∈ vs ∧ InTree w0 d x

theorem indexLoop_spec {w0 : World} {n c : Oid} {i : Ref} (ht : RefTree E w0 n) (hc : InTree w0 n c)
    {rec : Oid → M Unit}
    (hrec : ∀ d k a, Contains w0 c k d → StTree w0 a → (a.objs d).index = some i →
      ∃ b, rec d a = (.ok (), b) ∧
        Puts w0 i (fun x => ∃ k e, Contains w0 d k e ∧ InTree w0 e x) a b)
    (vs : List Val) (hvs : ∀ d, Val.node d ∈ vs → ∃ k, Contains w0 c k d) {a : World}
    (ha : StTree w0 a) (hi : (a.objs c).index = some i) :
    ∃ b, forU (indexNodesStep E rec c) vs a = (.ok (), b) ∧ Puts w0 i (Under w0 vs) a b := by
  induction vs generalizing a with
  | nil =>
    exact ⟨a, rfl, (Puts.none (.refl ha.wf)).congr fun x => ⟨False.elim, by
      rintro ⟨d, h, -⟩; cases h⟩⟩
  | cons v r ih =>
    have hvs' : ∀ d, Val.node d ∈ r → ∃ k, Contains w0 c k d := fun d h => hvs d (List.mem_cons_of_mem _ h)
    cases v with
    | data x =>
      obtain ⟨b, e1, e2⟩ := ih hvs' ha hi
      refine ⟨b, ?_, e2.congr fun y => ?_⟩
      · simp only [forU, M.bind_apply, indexNodesStep, M.pure_apply, e1]
      · simp only [Under, List.mem_cons, reduceCtorEq, false_or]
    | node d =>
      obtain ⟨k, hd⟩ := hvs d List.mem_cons_self
      have hdt := hc.child hd
      obtain ⟨u, hu⟩ := ht.uuid d hdt
      have hb : (bhvsOf E a d).contains .reference = true := by
        show (clsOf E a d).bhvs.contains _ = _
        rw [ha.clsOf]; exact (ht.cls d hdt).contains
      have hua : (a.objs d).uuid = some u := (ha.uuid d).trans hu
      have p1 := puts_one ha (ha.wf.iLt hi) hu
      have a1 := ha.puts p1
      obtain ⟨b1, f1, f2⟩ := hrec d k _ hd a1 (p1.indexed d rfl)
      have hinj : ∀ x y u, InTree w0 n x → InTree w0 n y → HasUuid w0 x u → HasUuid w0 y u → x = y := ht.inj
      have p2 : Puts w0 i (InTree w0 d) a b1 :=
        (p1.trans f2 (fun x y u hx hy => hinj x y u (by rw [hx]; exact hdt) (by
          obtain ⟨k, e, he, hy⟩ := hy
          exact (hdt.child he).trans hy))).congr fun x => ⟨fun h => by
            rcases h with rfl | ⟨k, e, he, hx⟩
            · exact .refl _
            · exact ((InTree.refl d).child he).trans hx, fun h => h.down⟩
      have a2 := ha.puts p2
      have hi2 : (b1.objs c).index = some i := by
        by_cases hdc : InTree w0 d c
        · exact p2.indexed c hdc
        · rw [p2.left c hdc]; exact hi
      obtain ⟨b, e1, e2⟩ := ih hvs' a2 hi2
      refine ⟨b, ?_, (p2.trans e2 fun x y u hx hy => hinj x y u (hdt.trans hx) ?_).congr fun x => ?_⟩
      · simp only [forU, M.bind_apply, indexNodesStep, M.getW_apply, hb, Bool.true_or, if_true, hua,
          indexRef, hi, M.modifyW_apply]
        simp only [modO_apply] at f1 ⊢
        simp only [f1, e1]
      · obtain ⟨e, he, hy⟩ := hy
        obtain ⟨j, hj⟩ := hvs' e he
        exact (hc.child hj).trans hy
      · constructor
        · rintro (h | ⟨e, he, h⟩)
          · exact ⟨d, List.mem_cons_self, h⟩
          · exact ⟨e, List.mem_cons_of_mem _ he, h⟩
        · rintro ⟨e, he, h⟩
          rcases List.mem_cons.mp he with e' | he
          · cases e'; exact .inl h
          · exact .inr ⟨e, he, h⟩

theorem mem_values_iff {w : World} (o d : Oid) :
    Val.node d ∈ (w.omap o).values ↔ ∃ k, Contains w o k d := by
  show _ ∈ (w.children o).keys.filterMap (w.children o).get? ↔ _
  rw [List.mem_filterMap]
  exact ⟨fun ⟨k, _, h⟩ => ⟨k, h⟩, fun ⟨k, h⟩ => ⟨k, Od.mem_keys_of_get? h, h⟩⟩

/-- `_index_nodes` puts everything strictly below into the index. -/
theorem indexNodes_spec {w0 : World} {n : Oid} {i : Ref} (ht : RefTree E w0 n) (m : Nat) {c : Oid}
    {ks : List Key} (hb : Below w0 n ks c) (hm : w0.nobj < m + ks.length + 1) {a : World}
    (ha : StTree w0 a) (hi : (a.objs c).index = some i) :
    ∃ b, indexNodes E m c a = (.ok (), b) ∧
      Puts w0 i (fun x => ∃ k d, Contains w0 c k d ∧ InTree w0 d x) a b := by
  induction m generalizing c ks a with
  | zero =>
    have := hb.length ht.sole ht.top ht.bound ht.bounds
    omega
  | succ m ih =>
    have hc : InTree w0 n c := ⟨ks, hb⟩
    obtain ⟨a1, g1, g2⟩ := mvalues_ref (E := E) (o := c) ha.wf (by rw [ha.clsOf]; exact ht.cls c hc)
      (by rw [ha.clsOf, ha.children]; exact ht.keys c hc)
    have p0 : Puts w0 i (fun _ => False) a a1 := .none g2.calm
    have ho : a.omap c = w0.omap c := by simp only [World.omap, ha.children]
    have hw0 : ∀ d, Val.node d ∈ (w0.omap c).values ↔ ∃ k, Contains w0 c k d := fun d => by
      rw [← ho, mem_values_iff c d]
      simp only [Contains, ho]
    obtain ⟨b, e1, e2⟩ := indexLoop_spec ht hc (rec := indexNodes E m)
      (fun d k a hd ha hi => ih (hb.child hd) (by simp; omega) ha hi) (w0.omap c).values
      (fun d hd => (hw0 d).mp hd) (ha.puts p0) ((g2.same.obj c).index.trans hi)
    refine ⟨b, ?_, (p0.trans e2 (fun _ _ _ h => h.elim)).congr fun x => ?_⟩
    · rw [ho] at g1
      simp only [indexNodes, M.bind_apply, g1, e1]
    · simp only [false_or, Under, hw0]
      exact ⟨fun ⟨d, ⟨k, h⟩, hx⟩ => ⟨k, d, h, hx⟩, fun ⟨k, d, h, hx⟩ => ⟨d, ⟨k, h⟩, hx⟩⟩

/-- Re-indexing a tree that hangs nowhere. -/
theorem Forest.split {w : World} {Rs : List Oid} (hf : Forest E w Rs) {n : Oid} (ht : RefTree E w n)
    (hdis : ∀ A ∈ Rs, ∀ x, InTree w A x → ¬ InTree w n x)
    (hinj : ∀ A ∈ Rs, ∀ x y u, InTree w A x → InTree w n y → HasUuid w x u → HasUuid w y u → x = y)
    (hreal : ∀ x u, InTree w n x → HasUuid w x u → 0 < u) :
    ∃ b, referenceDetach E (.node n) w = (.ok (), b) ∧ Forest E b (n :: Rs) ∧
      (∀ p, b.children p = w.children p) ∧ (∀ p, (b.objs p).uuid = (w.objs p).uuid) ∧
      (∀ p, (b.objs p).cls = (w.objs p).cls) ∧ b.nobj = w.nobj ∧ b.nuuid = w.nuuid := by
  obtain ⟨u, hu⟩ := ht.uuid n (.refl n)
  have hb : (bhvsOf E w n).contains .reference = true := (ht.cls n (.refl n)).contains
  have hww : WF { w with
      objs := upd w.objs n { w.objs n with index := some w.nidx }
      idxs := upd w.idxs w.nidx [(some u, n)]
      nidx := w.nidx + 1 } := by
    refine ⟨hf.wf.s.congr (proj_upd Obj.storage w.objs n _ (by rfl)),
      hf.wf.c.congr (proj_upd Obj.cache w.objs n _ (by rfl)),
      hf.wf.n.congr (proj_upd Obj.nodespaces w.objs n _ (by rfl)), ?_, hf.wf.sNd, hf.wf.cNd, hf.wf.nNd,
      nodup_upd hf.wf.iNd _ (by simp [Od.keys])⟩
    intro o r hr
    simp only [upd] at hr
    split at hr
    · cases hr; exact Nat.lt_succ_self _
    · exact Nat.lt_succ_of_lt (hf.wf.iLt hr)
  have hst : StTree w _ := ⟨hww, children_modO n (fun ob => { ob with index := some w.nidx }) rfl,
    proj_upd Obj.cls w.objs n _ (by rfl), proj_upd Obj.uuid w.objs n _ (by rfl), rfl⟩
  obtain ⟨b, e1, e2⟩ := indexNodes_spec ht (i := w.nidx) (w.nobj + 1) (c := n) .root
    (by simp only [List.length_nil]; omega) hst (by simp only [upd_same])
  have hsb := hst.puts e2
  have hcon : ∀ p j c, Contains b p j c ↔ Contains w p j c := fun p j c => by
    show (b.children p).get? j = _ ↔ (w.children p).get? j = _
    rw [hsb.children]
  have hin : ∀ {A x}, InTree b A x ↔ InTree w A x := InTree.congr hcon
  have hhu : ∀ {x u}, HasUuid b x u ↔ HasUuid w x u := fun {x u} => by
    simp only [HasUuid, hsb.uuid]
  have htree : ∀ {A}, RefTree E w A → RefTree E b A := fun {A} h =>
    h.shrink (fun p j c => (hcon p j c).mp) hsb.nobj hsb.cls hsb.uuid (fun p j hj => hsb.children p ▸ hj)
  have hnn : ¬ ∃ k d, Contains w n k d ∧ InTree w d n := fun ⟨k, d, hd, hx⟩ =>
    (InTree.refl n).acyclic ht.sole ht.top hd hx
  have hixn : (b.objs n).index = some w.nidx := by
    rw [e2.left n hnn]; simp only [upd_same]
  have hout : ∀ A ∈ Rs, ∀ x, InTree w A x → (b.objs x).index = (w.objs x).index := by
    intro A hA x hx
    have hx' := hdis A hA x hx
    rw [e2.left x fun ⟨k, d, hd, h⟩ => hx' (((InTree.refl n).child hd).trans h)]
    have : x ≠ n := fun e => hx' (by rw [e]; exact .refl n)
    simp only [upd_other _ _ this]
  have hlt : ∀ A ∈ Rs, ∀ a, (w.objs A).index = some a → a ≠ w.nidx := fun A _ a h =>
    Nat.ne_of_lt (hf.wf.iLt h)
  refine ⟨b, ?_, ⟨hsb.wf, ?_, ?_, ?_, ?_, ?_, ?_, ?_⟩, hsb.children, hsb.uuid, hsb.cls, hsb.nobj, e2.nuuid⟩
  · simp only [referenceDetach, M.bind_apply, M.getW_apply, hb, Bool.true_or, if_true,
      show (w.objs n).uuid = some u from hu, M.modifyW_apply]
    simp only [show (w.objs n).uuid = some u from hu] at e1
    exact e1
  · rw [e2.nuuid]; exact hf.pos
  · exact fun p j p' j' c h1 h2 => hf.sole p j p' j' c ((hcon _ _ _).mp h1) ((hcon _ _ _).mp h2)
  · exact fun p j c h => by rw [hsb.nobj]; exact hf.bounds p j c ((hcon _ _ _).mp h)
  · exact List.nodup_cons.mpr ⟨fun h => hdis n h n (.refl n) (.refl n), hf.nodup⟩
  · intro A hA
    rcases List.mem_cons.mp hA with rfl | hA
    · refine ⟨w.nidx, htree ht, fun x hx => ?_, fun v x => ?_, fun x u' hx hu' =>
        hreal x u' (hin.mp hx) (hhu.mp hu')⟩
      · rcases (hin.mp hx).down with rfl | h
        · exact hixn
        · exact e2.indexed x h
      · by_cases hv : ∃ y u', (∃ k d, Contains w A k d ∧ InTree w d y) ∧ HasUuid w y u' ∧ v = some u'
        · obtain ⟨y, u', hy, hyu, rfl⟩ := hv
          rw [e2.put y u' hy hyu]
          have hyA : InTree w A y := by
            obtain ⟨k, d, hd, h⟩ := hy
            exact ((InTree.refl A).child hd).trans h
          constructor
          · intro e
            cases e
            exact ⟨u', rfl, hin.mpr hyA, hhu.mpr hyu⟩
          · rintro ⟨u2, e, hx, hxu⟩
            cases e
            rw [ht.inj x y u' (hin.mp hx) hyA (hhu.mp hxu) hyu]
        · rw [e2.kept v fun x u' hx hxu e => hv ⟨x, u', hx, hxu, e⟩]
          simp only [upd_same, Od.get?]
          constructor
          · intro h
            split at h
            · rename_i e
              cases h
              exact ⟨u, e.symm, .refl _, hhu.mpr hu⟩
            · cases h
          · rintro ⟨u', rfl, hx, hxu⟩
            rcases (hin.mp hx).down with rfl | h
            · have : some u' = some u := (hhu.mp hxu).symm.trans hu
              rw [if_pos this.symm]
            · exact absurd ⟨x, u', h, hhu.mp hxu, rfl⟩ hv
    · obtain ⟨a, ha⟩ := hf.live A hA
      have han := hlt A hA a (ha.shared A (.refl A))
      refine ⟨a, htree ha.tree, fun x hx => (hout A hA x (hin.mp hx)).trans (ha.shared x (hin.mp hx)),
        fun v x => ?_, fun x u' hx hu' => ha.real x u' (hin.mp hx) (hhu.mp hu')⟩
      rw [e2.others a han]
      simp only [upd_other _ _ han, ha.exact v x, hin, hhu]
  · have key : ∀ A ∈ Rs, (b.objs A).index ≠ (b.objs n).index := by
      intro A hA e
      obtain ⟨a, ha⟩ := hf.live A hA
      rw [hout A hA A (.refl A), hixn] at e
      exact hlt A hA _ e rfl
    intro A hA B hB e
    rcases List.mem_cons.mp hA with a1 | hA <;> rcases List.mem_cons.mp hB with b1 | hB
    · rw [a1, b1]
    · exact absurd (a1 ▸ e.symm) (key B hB)
    · exact absurd (b1 ▸ e) (key A hA)
    · rw [hout A hA A (.refl A), hout B hB B (.refl B)] at e
      exact hf.apart A hA B hB e
  · intro A hA B hB x y u hx hy h1 h2
    rw [hin] at hx hy
    rw [hhu] at h1 h2
    rcases List.mem_cons.mp hA with a1 | hA <;> rcases List.mem_cons.mp hB with b1 | hB
    · exact ht.inj x y u (a1 ▸ hx) (b1 ▸ hy) h1 h2
    · exact (hinj B hB y x u hy (a1 ▸ hx) h2 h1).symm
    · exact hinj A hA x y u hx (b1 ▸ hy) h1 h2
    · exact hf.inj A hA B hB x y u hx hy h1 h2

/-- `detach` up to `Lifecycle`, for results that do not depend on it. -/
theorem detachPipe_below {P : World → Prop} (hP : ∀ a b, P a → Calm a b → P b) (hwf : ∀ a, P a → WF a)
    {bs : List Bhv} {o : Oid} {k : Key} {v : Val} {w0 w : World} (h0 : Calm w0 w)
    (hr : Bhv.reference ∉ bs)
    (h : ∀ w1, Calm w0 w1 → ∃ b, detachEnd E o k w1 = (.ok v, b) ∧ P b) :
    ∃ b, detachPipe E bs o k w = (.ok v, b) ∧ P b := by
  induction bs generalizing w with
  | nil => exact h w h0
  | cons b r ih =>
    have ih' : ∀ {w1}, Calm w0 w1 → _ := fun {w1} h1 => ih h1 (fun h => hr (List.mem_cons_of_mem _ h))
    have base := ih' h0
    cases b
    case lifecycle =>
      have c1 : Calm w (modO o (fun ob => { ob with suppress := true }) w).2 :=
        calm_modO _ h0.wf (fun _ => rfl) (fun _ => rfl) (fun _ => rfl) (fun _ => rfl) (fun _ => rfl)
          (fun _ => rfl)
      obtain ⟨b, e1, e2⟩ := ih' (h0.trans c1)
      have c2 : Calm b (modO o (fun ob => { ob with suppress := false }) b).2 :=
        calm_modO _ (hwf _ e2) (fun _ => rfl) (fun _ => rfl) (fun _ => rfl) (fun _ => rfl) (fun _ => rfl)
          (fun _ => rfl)
      refine ⟨_, ?_, hP _ _ e2 (c2.trans (calm_notify (.detached v o k) c2.wf))⟩
      simp only [modO_apply] at e1
      simp only [detachPipe, M.bind_apply, modO_apply, e1]
      rfl
    all_goals first
      | exact base
      | exact absurd List.mem_cons_self hr

theorem detachPipe_ref {P Q : World → Prop} (hP : ∀ a b, P a → Calm a b → P b) (hwf : ∀ a, P a → WF a)
    (hQ : ∀ a b, Q a → Calm a b → Q b) (hwf' : ∀ a, Q a → WF a)
    {l r : List Bhv} {o : Oid} {k : Key} {v : Val} {w0 w : World} (h0 : Calm w0 w)
    (hl : Bhv.reference ∉ l) (hr : Bhv.reference ∉ r)
    (h : ∀ w1, Calm w0 w1 → ∃ b, detachEnd E o k w1 = (.ok v, b) ∧ P b)
    (h' : ∀ a, P a → ∃ b, referenceDetach E v a = (.ok (), b) ∧ Q b) :
    ∃ b, detachPipe E (l ++ .reference :: r) o k w = (.ok v, b) ∧ Q b := by
  induction l generalizing w with
  | nil =>
    obtain ⟨a, e1, e2⟩ := detachPipe_below hP hwf h0 hr h
    obtain ⟨b, f1, f2⟩ := h' a e2
    refine ⟨b, ?_, f2⟩
    simp only [List.nil_append, detachPipe, M.bind_apply, e1, f1]
    rfl
  | cons b l ih =>
    have ih' : ∀ {w1}, Calm w0 w1 → _ := fun {w1} h1 => ih h1 (fun h => hl (List.mem_cons_of_mem _ h))
    have base := ih' h0
    rw [List.cons_append]
    cases b
    case lifecycle =>
      have c1 : Calm w (modO o (fun ob => { ob with suppress := true }) w).2 :=
        calm_modO _ h0.wf (fun _ => rfl) (fun _ => rfl) (fun _ => rfl) (fun _ => rfl) (fun _ => rfl)
          (fun _ => rfl)
      obtain ⟨b, e1, e2⟩ := ih' (h0.trans c1)
      have c2 : Calm b (modO o (fun ob => { ob with suppress := false }) b).2 :=
        calm_modO _ (hwf' _ e2) (fun _ => rfl) (fun _ => rfl) (fun _ => rfl) (fun _ => rfl) (fun _ => rfl)
          (fun _ => rfl)
      refine ⟨_, ?_, hQ _ _ e2 (c2.trans (calm_notify (.detached v o k) c2.wf))⟩
      simp only [modO_apply] at e1
      simp only [detachPipe, M.bind_apply, modO_apply, e1]
      rfl
    all_goals first
      | exact base
      | exact absurd List.mem_cons_self hl

/-- The heap after detaching or deleting `k` from `o`, as far as trees are concerned. -/
structure Cut (w w' : World) (o : Oid) (k : Key) : Prop where
  children : ∀ p, w'.children p = chDel w o k p
  uuid : ∀ p, (w'.objs p).uuid = (w.objs p).uuid
  cls : ∀ p, (w'.objs p).cls = (w.objs p).cls
  nobj : w'.nobj = w.nobj
  nuuid : w'.nuuid = w.nuuid

theorem Cut.calm {w a b : World} {o : Oid} {k : Key} (h : Cut w a o k) (h' : Calm a b) : Cut w b o k :=
  ⟨fun p => (h'.children p).trans (h.children p), fun p => (h'.uuid p).trans (h.uuid p),
    fun p => (h'.cls p).trans (h.cls p), h'.nobj.trans h.nobj, h'.nuuid.trans h.nuuid⟩

/-- Detaching a subtree makes it a tree of its own. -/
theorem Forest.detach {w : World} {Rs : List Oid} (hf : Forest E w Rs) {R o n : Oid} {k : Key}
    (hR : R ∈ Rs) (ho : InTree w R o) (hc : Contains w o k n) :
    ∃ w', Verif.detach E o k w = (.ok (.node n), w') ∧ Forest E w' (n :: Rs) ∧ Cut w w' o k := by
  obtain ⟨r, hr⟩ := hf.live R hR
  have hno : ¬ InTree w n o := fun h => ho.acyclic hf.sole hr.tree.top hc h
  obtain ⟨l, q, e, hl, hq⟩ := (hr.tree.cls o ho).once
  obtain ⟨w', e1, e2, e3⟩ := detachPipe_ref (E := E) (l := l) (r := q) (v := .node n) (o := o) (k := k)
    (w0 := w) (w := w) (P := fun a => Forest E a Rs ∧ Cut w a o k)
    (Q := fun a => Forest E a (n :: Rs) ∧ Cut w a o k)
    (fun a b h h' => ⟨h.1.calm h', h.2.calm h'⟩) (fun a h => h.1.wf)
    (fun a b h h' => ⟨h.1.calm h', h.2.calm h'⟩) (fun a h => h.1.wf) (.refl hf.wf) hl hq
    (fun w1 h1 => by
      have hf1 := hf.calm h1
      have ho1 := h1.inTree.mpr ho
      have hv1 : (w1.children o).get? k = some (.node n) := by rw [h1.children]; exact hc
      obtain ⟨w2, g1, g2⟩ := getitem_ref (E := E) (o := o) (k := k) h1.wf
        (by rw [h1.clsOf]; exact hr.tree.cls o ho)
        (by rw [h1.clsOf]; exact hr.tree.keys o ho k (Od.mem_keys_of_get? hc))
      rw [lookup, hv1] at g1
      obtain ⟨b, f1, f2, f3, f4, f5, f6, f7⟩ := (hf1.calm g2.calm).delitem hR (g2.calm.inTree.mpr ho1)
        (k := k) (v := .node n) (by rw [g2.same.children]; exact hv1)
      have hh := h1.trans g2.calm
      refine ⟨b, ?_, f2, fun p => (f3 p).trans (by rw [chDel_calm hh]), fun p => (f4 p).trans (hh.uuid p),
        fun p => (f5 p).trans (hh.cls p), f6.trans hh.nobj, f7.trans hh.nuuid⟩
      simp only [detachEnd, M.bind_apply, g1, f1]
      rfl)
    (fun a ⟨ha, hcut⟩ => by
      have hcon := contains_chDel hf.wf hcut.children
      have hn : ∀ {x}, InTree a n x ↔ InTree w n x := InTree.rest hcon hno
      have hRn : InTree w R n := ho.child hc
      have hmono : ∀ {A x}, InTree a A x → InTree w A x := fun {A x} hx =>
        hx.induct (P := InTree w A) (.refl A) fun p k c _ h ih => ih.child ((hcon p k c).mp h).1
      have hcl : ∀ x, clsOf E a x = clsOf E w x := fun x => congrArg E.cls (hcut.cls x)
      have hhu : ∀ {x u}, HasUuid a x u ↔ HasUuid w x u := fun {x u} => by
        simp only [HasUuid, hcut.uuid]
      have ht : RefTree E a n := {
        sole := ha.sole
        top := fun p j h => by
          obtain ⟨h1, h2⟩ := (hcon p j n).mp h
          exact h2 (hf.sole _ _ _ _ _ h1 hc)
        bound := by rw [hcut.nobj]; exact hf.bounds _ _ _ hc
        bounds := ha.bounds
        cls := fun x hx => by rw [hcl]; exact hr.tree.cls x (hRn.trans (hn.mp hx))
        keys := fun x hx j hj => by
          rw [hcl]
          refine hr.tree.keys x (hRn.trans (hn.mp hx)) j ?_
          rw [hcut.children x] at hj
          simp only [chDel] at hj
          split at hj
          · rename_i e'
            subst e'
            exact absurd (hn.mp hx) hno
          · exact hj
        uuid := fun x hx => by
          obtain ⟨u, hu⟩ := hr.tree.uuid x (hRn.trans (hn.mp hx))
          exact ⟨u, hhu.mpr hu⟩
        inj := fun x y u hx hy h1 h2 => hr.tree.inj x y u (hRn.trans (hn.mp hx)) (hRn.trans (hn.mp hy))
          (hhu.mp h1) (hhu.mp h2) }
      obtain ⟨b, f1, f2, f3, f4, f5, f6, f7⟩ := ha.split ht (fun A hA x hx hnx => by
          have h1 := hmono hx
          have h2 := hn.mp hnx
          have := hf.disjoint hA hR h1 (hRn.trans h2)
          subst this
          exact ((InTree.removed hf.sole hc hcon hr.tree.top ho).mp hx).2 h2)
        (fun A hA x y u hx hy h1 h2 => hf.inj A hA R hR x y u (hmono hx) (hRn.trans (hn.mp hy))
          (hhu.mp h1) (hhu.mp h2))
        (fun x u hx hu => hr.real x u (hRn.trans (hn.mp hx)) (hhu.mp hu))
      exact ⟨b, f1, f2, fun p => (f3 p).trans (hcut.children p), fun p => (f4 p).trans (hcut.uuid p),
        fun p => (f5 p).trans (hcut.cls p), f6.trans hcut.nobj, f7.trans hcut.nuuid⟩)
  refine ⟨w', ?_, e2, e3⟩
  show detachPipe E (clsOf E w o).bhvs o k w = _
  rw [e]; exact e1

/-! ### Setting a uuid -/

theorem iuuid_pos {u : Nat} (h : 0 < u) : iuuid (some u) = some u := by
  cases u with
  | zero => omega
  | succ n => rfl

/-- Setting an unused uuid keeps the forest. -/
theorem Forest.setUuid {w : World} {Rs : List Oid} (hf : Forest E w Rs) {R o : Oid} {u : Nat}
    (hR : R ∈ Rs) (ho : InTree w R o) (hu : 0 < u) (hun : Unused w Rs u ∨ HasUuid w o u) :
    ∃ w', setUuidRef o (some u) w = (.ok (), w') ∧ Forest E w' Rs ∧
      (∀ p, w'.children p = w.children p) ∧
      (∀ p, (w'.objs p).uuid = if p = o then some u else (w.objs p).uuid) ∧
      (∀ p, (w'.objs p).cls = (w.objs p).cls) ∧ w'.nobj = w.nobj ∧ w'.nuuid = w.nuuid := by
  obtain ⟨r, hr⟩ := hf.live R hR
  obtain ⟨u0, hu0⟩ := hr.tree.uuid o ho
  have hp0 := hr.real o u0 ho hu0
  have hfree : ∀ A ∈ Rs, ∀ x, InTree w A x → HasUuid w x u → x = o := by
    intro A hA x hx hxu
    rcases hun with h | h
    · exact absurd hxu (h A hA x hx)
    · exact hf.inj A hA R hR x o u hx ho hxu h
  have hany : (((w.idxs r).get? (some u)).any fun x => x ≠ o) = false := by
    cases hg : (w.idxs r).get? (some u) with
    | none => rfl
    | some x =>
      obtain ⟨u', e, hx, hxu⟩ := (hr.exact _ x).mp hg
      cases e
      simp [hfree R hR x hx hxu]
  let d := ((w.idxs r).del (some u0)).set (some u) o
  let w' : World := (modO o (fun ob => { ob with uuid := some u }) { w with idxs := upd w.idxs r d }).2
  have hw' : WF w' := (hf.wf.setIdx r (Od.nodup_keys_set (Od.nodup_keys_del (hf.wf.iNd r) _) _ _)).modO o
    (fun ob => { ob with uuid := some u }) rfl rfl rfl (fun q hq => hf.wf.iLt hq)
  have hch : ∀ p, w'.children p = w.children p := children_modO o (fun ob => { ob with uuid := some u }) rfl
  have hcls : ∀ p, (w'.objs p).cls = (w.objs p).cls := proj_upd Obj.cls w.objs o _ (by rfl)
  have hidx : ∀ p, (w'.objs p).index = (w.objs p).index := proj_upd Obj.index w.objs o _ (by rfl)
  have huu : ∀ p, (w'.objs p).uuid = if p = o then some u else (w.objs p).uuid := fun p => by
    show (upd w.objs o _ p).uuid = _
    simp only [upd]
    split <;> rfl
  have hcon : ∀ p j c, Contains w' p j c ↔ Contains w p j c := fun p j c => by
    show (w'.children p).get? j = _ ↔ (w.children p).get? j = _
    rw [hch]
  have hin : ∀ {A x}, InTree w' A x ↔ InTree w A x := InTree.congr hcon
  have hho : ∀ {v}, HasUuid w' o v ↔ v = u := fun {v} => by
    simp only [HasUuid, huu, if_true, Option.some.injEq, eq_comm]
  have hhx : ∀ {x v}, x ≠ o → (HasUuid w' x v ↔ HasUuid w x v) := fun {x v} hx => by
    simp only [HasUuid, huu, if_neg hx]
  have hcl : ∀ x, clsOf E w' x = clsOf E w x := fun x => congrArg E.cls (hcls x)
  have hinj : ∀ A ∈ Rs, ∀ B ∈ Rs, ∀ x y v, InTree w A x → InTree w B y → HasUuid w' x v →
      HasUuid w' y v → x = y := by
    intro A hA B hB x y v hx hy h1 h2
    by_cases hxo : x = o <;> by_cases hyo : y = o
    · rw [hxo, hyo]
    · rw [hxo, hho] at h1
      rw [hhx hyo, h1] at h2
      exact absurd (hfree B hB y hy h2) hyo
    · rw [hyo, hho] at h2
      rw [hhx hxo, h2] at h1
      exact absurd (hfree A hA x hx h1) hxo
    · exact hf.inj A hA B hB x y v hx hy ((hhx hxo).mp h1) ((hhx hyo).mp h2)
  refine ⟨w', ?_, ?_, hch, huu, hcls, rfl, rfl⟩
  · simp only [setUuidRef, M.bind_apply, indexRef, hr.shared o ho, M.getW_apply, iuuid_pos hu, hany,
      Bool.false_eq_true, if_false, M.modifyW_apply, show (w.objs o).uuid = some u0 from hu0,
      iuuid_pos hp0]
    rfl
  refine ⟨hw', hf.pos, fun p j p' j' c h1 h2 =>
    hf.sole p j p' j' c ((hcon _ _ _).mp h1) ((hcon _ _ _).mp h2), fun p j c h =>
      hf.bounds p j c ((hcon _ _ _).mp h), hf.nodup, fun A hA => ?_, fun A hA B hB e =>
    hf.apart A hA B hB (by rw [← hidx A, ← hidx B, e]), fun A hA B hB x y v hx hy =>
      hinj A hA B hB x y v (hin.mp hx) (hin.mp hy)⟩
  obtain ⟨a, ha⟩ := hf.live A hA
  refine ⟨a, ⟨fun p j p' j' c h1 h2 => hf.sole p j p' j' c ((hcon _ _ _).mp h1) ((hcon _ _ _).mp h2),
    fun p j h => ha.tree.top p j ((hcon _ _ _).mp h), ha.tree.bound,
    fun p j c h => hf.bounds p j c ((hcon _ _ _).mp h),
    fun x hx => by rw [hcl]; exact ha.tree.cls x (hin.mp hx),
    fun x hx j hj => by rw [hcl]; exact ha.tree.keys x (hin.mp hx) j (hch x ▸ hj), fun x hx => ?_,
    fun x y v hx hy => hinj A hA A hA x y v (hin.mp hx) (hin.mp hy)⟩,
    fun x hx => (hidx x).trans (ha.shared x (hin.mp hx)), fun v x => ?_, fun x v hx hv => ?_⟩
  · by_cases hxo : x = o
    · exact ⟨u, by rw [hxo]; exact hho.mpr rfl⟩
    · obtain ⟨v, hv⟩ := ha.tree.uuid x (hin.mp hx)
      exact ⟨v, (hhx hxo).mpr hv⟩
  · simp only [hin]
    by_cases hAR : A = R
    · subst hAR
      have har : a = r := Option.some.inj ((ha.shared A (.refl A)).symm.trans (hr.shared A (.refl A)))
      subst har
      show (upd w.idxs a d a).get? v = some x ↔ _
      rw [upd_same, Od.get?_set]
      by_cases hv : v = some u
      · subst hv
        rw [if_pos rfl]
        constructor
        · intro e; cases e; exact ⟨u, rfl, ho, hho.mpr rfl⟩
        · rintro ⟨u', e, hx, hxu⟩
          cases e
          rw [hinj A hA A hA x o u hx ho hxu (hho.mpr rfl)]
      · rw [if_neg hv, Od.get?_del (hf.wf.iNd a)]
        by_cases hv0 : v = some u0
        · rw [if_pos hv0]
          refine ⟨fun h => (nomatch h), ?_⟩
          rintro ⟨u', rfl, hx, hxu⟩
          cases hv0
          by_cases hxo : x = o
          · rw [hxo, hho] at hxu
            exact absurd (congrArg some hxu) hv
          · rw [hhx hxo] at hxu
            exact absurd (ha.tree.inj x o u0 hx ho hxu hu0) hxo
        · rw [if_neg hv0, ha.exact v x]
          constructor
          · rintro ⟨u', rfl, hx, hxu⟩
            have hxo : x ≠ o := by
              rintro rfl
              exact hv0 (hxu.symm.trans hu0)
            exact ⟨u', rfl, hx, (hhx hxo).mpr hxu⟩
          · rintro ⟨u', rfl, hx, hxu⟩
            have hxo : x ≠ o := by
              rintro rfl
              exact hv (congrArg some (hho.mp hxu))
            exact ⟨u', rfl, hx, (hhx hxo).mp hxu⟩
    · have har : a ≠ r := fun e => hAR (hf.apart A hA R hR (by
        rw [ha.shared A (.refl A), hr.shared R (.refl R), e]))
      show (upd w.idxs r d a).get? v = some x ↔ _
      rw [upd_other _ _ har, ha.exact v x]
      have hxo : InTree w A x → x ≠ o := fun hx e => hAR (hf.disjoint hA hR (e ▸ hx) ho)
      constructor
      · rintro ⟨u', rfl, hx, hxu⟩; exact ⟨u', rfl, hx, (hhx (hxo hx)).mpr hxu⟩
      · rintro ⟨u', rfl, hx, hxu⟩; exact ⟨u', rfl, hx, (hhx (hxo hx)).mp hxu⟩
  · by_cases hxo : x = o
    · rw [hxo, hho] at hv
      omega
    · exact ha.real x v (hin.mp hx) ((hhx hxo).mp hv)

end Verif
