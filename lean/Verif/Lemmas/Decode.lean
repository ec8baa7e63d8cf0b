import Verif.Lemmas.Encode

/-! Reading trees. -/

namespace Verif.Ser

variable {E : Env} {N : Codec}

theorem Od.set_append {d : Od Key Val} {k : Key} {v : Val} (h : k ∉ d.keys) : d.set k v = d ++ [(k, v)] := by
  induction d with
  | nil => rfl
  | cons a r ih =>
    simp only [Od.keys, List.map_cons, List.mem_cons, not_or] at h
    simp only [Od.set]
    rw [if_neg (fun e => h.1 e.symm), ih h.2]
    rfl

/-! ### The members of the object -/

/-- The members `jNode` writes. -/
def members (E : Env) (f : Data → J) (c : ClassId) (name : Key) (at' : List (Str × Data)) (kids : List NTree) :
    List (Str × J) :=
  ("class".toList, J.str (E.cls c).dotted) :: ("name".toList, jKey name) ::
    ((if kids.isEmpty then [] else [("children".toList, J.list (jNodes E f {} kids))]) ++
      if Bhv.attributes ∈ (E.cls c).bhvs then
        [("attrs".toList, J.obj (at'.map fun kv => (kv.1, f kv.2)))] else [])

theorem jNode_members (f : Data → J) (c : ClassId) (name : Key) (at' : List (Str × Data)) (kids : List NTree) :
    jNode E f {} (.mk c name at' kids) = .obj [("__node__".toList, .obj (members E f c name at' kids))] := by
  unfold jNode members
  rfl

theorem get?_cons {k : Str} {v : J} {l : List (Str × J)} (k' : Str) :
    Od.get? ((k, v) :: l) k' = if k = k' then some v else Od.get? l k' := rfl

theorem tail_get? {k3 k4 : Str} (b2 b3 : Prop) [Decidable b2] [Decidable b3] (x3 x4 : J) (k : Str) :
    Od.get? ((if b2 then [] else [(k3, x3)]) ++ if b3 then [(k4, x4)] else []) k =
      if ¬ b2 ∧ k3 = k then some x3 else if b3 ∧ k4 = k then some x4 else none := by
  by_cases h2 : b2 <;> by_cases h3 : b3 <;> by_cases e3 : k3 = k <;> by_cases e4 : k4 = k <;>
    simp [h2, h3, e3, e4, Od.get?]

theorem members_get? (f : Data → J) (c : ClassId) (name : Key) (at' : List (Str × Data)) (kids : List NTree)
    (k : Str) : Od.get? (members E f c name at' kids) k =
      if "class".toList = k then some (.str (E.cls c).dotted) else if "name".toList = k then some (jKey name)
      else if ¬ (kids.isEmpty = true) ∧ "children".toList = k then some (.list (jNodes E f {} kids))
      else if Bhv.attributes ∈ (E.cls c).bhvs ∧ "attrs".toList = k then
        some (.obj (at'.map fun kv => (kv.1, f kv.2))) else none := by
  unfold members
  rw [get?_cons, get?_cons, tail_get?]

theorem members_class {f : Data → J} {c : ClassId} {name : Key} {at' : List (Str × Data)} {kids : List NTree}
    (h : N.findCls (E.cls c).dotted = some c) : decClass N (members E f c name at' kids) = .ok c := by
  unfold decClass
  rw [members_get?, if_pos (by decide)]
  simp only [h]

theorem members_kw {rec : J → Option Oid → M Dec} {f : Data → J} {c : ClassId} {name : Key}
    {at' : List (Str × Data)} {kids : List NTree} :
    decKw rec (members E f c name at' kids) = pure (.data (.dict [])) := by
  unfold decKw
  rw [members_get?, if_neg (by decide), if_neg (by decide), if_neg (fun h => absurd h.2 (by decide)),
    if_neg (fun h => absurd h.2 (by decide))]

theorem members_name {f : Data → J} {c : ClassId} {name : Key} {at' : List (Str × Data)} {kids : List NTree}
    (h : ∀ b, name ≠ .bytes b) : decName (members E f c name at' kids) = .ok name := by
  unfold decName
  rw [members_get?, if_neg (by decide), if_pos (by decide)]
  cases name with
  | bytes b => exact absurd rfl (h b)
  | _ => rfl

/-! ### Attributes -/

theorem decode_value {f : Data → J} {A : Data → Prop}
    (hA : ∀ d, A d → Proper d ∧ Safe N d ∧ encData N {} d = .ok (f d)) {d : Data} (hd : A d) {n : Nat}
    (hn : height d < n) (w : World) : ∃ x, decode E N n (f d) none w = (.ok x, w) ∧
      ∀ w, x.toVal w = (.ok (.data d), w) := by
  obtain ⟨h1, h2, h3⟩ := hA d hd
  obtain ⟨j, h4, h5⟩ := safe_comes (E := E) d h1 h2
  rw [h3] at h4
  cases h4
  obtain ⟨x, h6, h7⟩ := h5 n hn none w
  refine ⟨x, h6, fun w => ?_⟩
  cases x with
  | node o => cases h7
  | data d' => cases h7; rfl
  | list xs => simp only [Dec.toVal, h7, M.pure_apply]

/-- The loop over the attributes. -/
theorem attrs_loop {f : Data → J} {A : Data → Prop}
    (hA : ∀ d, A d → Proper d ∧ Safe N d ∧ encData N {} d = .ok (f d)) (hE : 0 < E.depth) {c : ClassId}
    {o b n : Nat} (ho : o < b) (ht : Bhv.attributes ∈ (E.cls c).bhvs)
    (hn : Bhv.nodespaces ∈ (E.cls c).bhvs) (hc : ReadClass (E.cls (E.cls c).attrsFactory))
    (hl : (E.cls (E.cls c).attrsFactory).Located) :
    ∀ (rest done : List (Str × Data)) (w : World), WF w → b ≤ w.nobj → (w.objs o).cls = c →
    HasAttrs E (fun p => b ≤ p ∧ p < w.nobj) w o done → ((done ++ rest).map Prod.fst).Nodup →
    (∀ kv ∈ rest, KeyFor (E.cls (E.cls c).attrsFactory) (.str kv.1) ∧
      refuses (E.cls (E.cls c).attrsFactory) (.data kv.2) = none ∧ A kv.2) → attrsHeight rest < n →
    ∃ w', forU (fun (kv : Str × J) => do
        let x ← decode E N n kv.2 none
        let v ← x.toVal
        let a ← attrs E o
        setitem E a (.str kv.1) v) (rest.map fun kv => (kv.1, f kv.2)) w = (.ok (), w') ∧ WF w' ∧
      IxKeep w w' ∧ HasAttrs E (fun p => b ≤ p ∧ p < w'.nobj) w' o (done ++ rest) ∧
      (∀ p, p < b → p ≠ o → Agree w w' p) ∧ w'.children o = w.children o ∧
      (w'.objs o).cls = (w.objs o).cls ∧ w'.loc o = w.loc o
  | [], done, w, hw, _, _, hat, _, _, _ => ⟨w, rfl, hw, .refl w, by rw [List.append_nil]; exact hat,
      fun _ _ _ => .refl w _, rfl, rfl, rfl⟩
  | (k, d) :: rest, done, w, hw, hb, hcl, hat, hnd, hr, hh => by
    have how : o < w.nobj := Nat.lt_of_lt_of_le ho hb
    have hco : clsOf E w o = E.cls c := congrArg E.cls hcl
    simp only [attrsHeight] at hh
    obtain ⟨hk, hrf, hAd⟩ := hr (k, d) List.mem_cons_self
    obtain ⟨x, hx1, hx2⟩ := decode_value (E := E) hA hAd (n := n) (show height d < n by omega) w
    obtain ⟨a, w1, h1, h2, h3, h4, h5, -⟩ := attrs_tree (E := E) (o := o) hw how hE (by rw [hco]; exact ht) (by rw [hco]; exact hn)
      (by rw [hco]; exact hl)
      (by rw [hco]; exact hc.not (by decide))
      (fun d hd => by
        unfold HasAttrs at hat
        rw [show (w.nmap o).val attrsKey = some (.data d) from hd] at hat
        exact hat)
      (fun a ha => by
        unfold HasAttrs at hat
        rw [show (w.nmap o).val attrsKey = some (.node a) from ha] at hat
        exact hat.1.2)
    have hat1 := hat.grows_from h2 how hb
    unfold HasAttrs at hat1
    rw [show (w1.nmap o).val attrsKey = some (.node a) from h3] at hat1
    obtain ⟨⟨h6, -⟩, h7, h8⟩ := hat1
    rw [h2.clsOf how, hco] at h7
    rw [items_eq h2.wf] at h8
    have hca : clsOf E w1 a = E.cls (E.cls c).attrsFactory := congrArg E.cls h7
    obtain ⟨w2, e1, e2, -⟩ := setitem_tree (E := E) (o := a) (k := .str k) (v := .data d) h2.wf
      (by rw [hca]; exact hc.store.take) (by rw [hca]; exact hk) (by rw [hca]; exact hrf) h4 (fun _ e => by cases e)
    have hao : o ≠ a := by omega
    have hnew : Key.str k ∉ (w1.children a).keys := by
      rw [h8]
      simp only [Od.keys, List.map_map, List.mem_map, Function.comp_def, not_exists, not_and]
      intro kv hkv e
      simp only [Key.str.injEq] at e
      simp only [List.map_append, List.map_cons, List.nodup_append] at hnd
      exact hnd.2.2 kv.1 (List.mem_map.mpr ⟨kv, hkv, rfl⟩) k List.mem_cons_self e
    have hch2 : w2.children a = (done ++ [(k, d)]).map fun kv => (Key.str kv.1, Val.data kv.2) := by
      rw [e2.children, if_pos rfl, Od.set_append hnew, h8, List.map_append]
      rfl
    have hle : w.nobj ≤ w2.nobj := by rw [e2.nobj]; exact h2.index.le
    have hat2 : HasAttrs E (fun p => b ≤ p ∧ p < w2.nobj) w2 o (done ++ [(k, d)]) := by
      unfold HasAttrs
      rw [show (w2.nmap o).val attrsKey = some (.node a) from by
        show (w2.nsview o).get? attrsKey = _
        rw [e2.nsview]; exact h3]
      refine ⟨⟨h6, by rw [e2.nobj]; exact h4⟩, ?_, ?_⟩
      · rw [e2.cls, h7, show clsOf E w2 o = clsOf E w1 o from congrArg E.cls (e2.cls o), h2.clsOf how, hco]
      · rw [items_eq e2.wf]; exact hch2
    have hcl2 : (w2.objs o).cls = (w.objs o).cls := (e2.cls o).trans (h2.cls o how)
    obtain ⟨w3, f1, f2, f3, f4, f5, f6, f7, f8⟩ := attrs_loop hA hE ho ht hn hc hl rest (done ++ [(k, d)]) w2 e2.wf
      (Nat.le_trans hb hle) (hcl2.trans hcl) hat2 (by simpa using hnd)
      (fun kv hkv => hr kv (List.mem_cons_of_mem _ hkv)) (show attrsHeight rest < n by omega)
    refine ⟨w3, ?_, f2, (h2.index.trans e2.index).trans f3, by simpa using f4, fun p hp hpo => ?_, ?_, ?_, ?_⟩
    · simp only [List.map_cons, forU, M.bind_apply, hx1, hx2, h1, e1]
      exact f1
    · have g1 := h5 p (Nat.lt_of_lt_of_le hp hb) hpo
      have g2 : Agree w1 w2 p := ⟨by rw [e2.children, if_neg (Nat.ne_of_lt (Nat.lt_of_lt_of_le hp h6))], by rw [e2.nsview], e2.cls p,
        e2.loc p (by intro e; cases e)⟩
      exact (g1.trans g2).trans (f5 p hp hpo)
    · rw [f6, e2.children, if_neg hao, h2.children o how]
    · exact f7.trans hcl2
    · rw [f8, e2.loc o (by intro e; cases e), h2.loc o how]

/-! ### Nodes -/

/-- A tree was built: of new nodes, and nothing else changed but the children of the parent. -/
structure Built (E : Env) (parent : Option Oid) (t : NTree) (w w' : World) : Prop where
  wf : WF w'
  index : IxKeep w w'
  lt : w.nobj < w'.nobj
  old : ∀ p, p < w.nobj → some p ≠ parent → Agree w w' p
  par : ∀ p, parent = some p → w'.children p = (w.children p).set t.name (.node w.nobj) ∧
    (w'.nsview p).get? attrsKey = (w.nsview p).get? attrsKey ∧ (w'.objs p).cls = (w.objs p).cls ∧
    w'.loc p = w.loc p
  shape : Shape E (fun p => w.nobj ≤ p ∧ p < w'.nobj) w' t w.nobj
  root : parent = none → Bhv.defaultInit ∈ (E.cls t.cls).bhvs → (w'.objs w.nobj).parent = none
  inner : ∀ p, parent = some p → (w'.objs w.nobj).parent = some p

/-- A node was made and put where it belongs. -/
structure Placed (E : Env) (parent : Option Oid) (c : ClassId) (name : Key) (w w' : World) : Prop where
  wf : WF w'
  index : IxKeep w w'
  lt : w.nobj < w'.nobj
  old : ∀ p, p < w.nobj → some p ≠ parent → Agree w w' p
  par : ∀ p, parent = some p → w'.children p = (w.children p).set name (.node w.nobj) ∧
    (w'.nsview p).get? attrsKey = (w.nsview p).get? attrsKey ∧ (w'.objs p).cls = (w.objs p).cls ∧
    w'.loc p = w.loc p
  empty : w'.children w.nobj = []
  attr : (w'.nsview w.nobj).get? attrsKey = none
  cls : (w'.objs w.nobj).cls = c
  name : (w'.objs w.nobj).name = name
  indexed : Bhv.reference ∈ (E.cls c).bhvs → (w'.objs w.nobj).index.isSome = true
  root : parent = none → Bhv.defaultInit ∈ (E.cls c).bhvs → (w'.objs w.nobj).parent = none
  inner : ∀ p, parent = some p → (w'.objs w.nobj).parent = some p

theorem nodeFactory_tree {rec : J → Option Oid → M Dec} {f : Data → J} (hE : 0 < E.depth) {c : ClassId} {name : Key}
    {at' : List (Str × Data)} {kids : List NTree} {parent : Option Oid} {w : World} (hw : WF w)
    (hc : ReadClass (E.cls c)) (hb : ∀ b, name ≠ .bytes b) (hf : N.findCls (E.cls c).dotted = some c)
    (hp : ∀ p, parent = some p → Par E (.mk c name at' kids) w p) :
    ∃ w', nodeFactory E N rec (members E f c name at' kids) parent w = (.ok w.nobj, w') ∧
      Placed E parent c name w w' := by
  obtain ⟨w1, h1, hm⟩ := newNode_tree (E := E) (c := c) (name := .none) (parent := none) hE
    (.inl ⟨rfl, rfl⟩) (hc.not (by decide)) hw
  have hattr : (w1.nsview w.nobj).get? attrsKey = none := by rw [hm.nsview]; rfl
  unfold nodeFactory
  simp only [M.bind_apply, M.ofExcept_apply, members_class hf, members_kw, M.pure_apply, members_name hb,
    callArgs, h1]
  cases parent with
  | none =>
    have hn := near_modO (c := w.nobj) (fun ob => { ob with name := name }) hm.wf (fun _ => rfl) (fun _ => rfl)
      (fun _ => rfl) (fun _ => rfl) (fun _ => rfl)
    have hnm : ((modO w.nobj (fun ob => { ob with name := name }) w1).2.objs w.nobj).name = name := by simp
    have hpm : ((modO w.nobj (fun ob => { ob with name := name }) w1).2.objs w.nobj).parent =
      (w1.objs w.nobj).parent := by simp
    obtain ⟨w2, hw2⟩ : ∃ w2, w2 = (modO w.nobj (fun ob => { ob with name := name }) w1).2 := ⟨_, rfl⟩
    rw [← hw2] at hn hnm hpm
    refine ⟨w2, by rw [hw2]; rfl, hn.wf, hm.index.trans hn.index, by rw [hn.nobj]; exact hm.lt, fun p hp _ => ?_, nofun, ?_, ?_,
      ?_, ?_, ?_, ?_, nofun⟩
    · have := hm.old p hp
      exact this.trans ⟨hn.children p, by rw [hn.nsview], hn.cls p, hn.loc p (by
        intro e; cases e; exact Nat.lt_irrefl _ hp)⟩
    · rw [hn.children]; exact hm.empty
    · rw [hn.nsview]; exact hattr
    · rw [hn.cls]; exact hm.cls
    · exact hnm
    · intro h
      exact hn.index.keep _ hm.lt (hm.indexed h)
    · intro _ hd
      have := congrArg Prod.snd (hm.loc hd)
      exact hpm.trans this
  | some p =>
    have hP := hp p rfl
    have hag := hm.old p hP.lt
    have hcl : clsOf E w1 p = clsOf E w p := hag.clsOf
    obtain ⟨w2, e1, e2, e3⟩ := setitem_tree (E := E) (o := p) (k := name) (v := .node w.nobj) hm.wf
      (by rw [hcl]; exact hP.read.store.take) (by rw [hcl]; exact hP.key) rfl (Nat.lt_trans hP.lt hm.lt) (by
        intro x hx hr
        cases hx
        rw [hcl] at hr
        obtain ⟨r1, r2⟩ := hP.ref hr
        exact ⟨hm.index.keep p hP.lt r1, hm.lt, hm.indexed r2, by
          rw [show clsOf E w1 w.nobj = E.cls c from congrArg E.cls hm.cls]; exact hc.concrete, hm.empty⟩)
    have hne : p ≠ w.nobj := fun e => Nat.lt_irrefl _ (e ▸ hP.lt)
    have hloc := e3 (by rw [hcl]; exact hP.adopt) w.nobj rfl
    refine ⟨w2, by simp only [M.bind_apply, e1, M.pure_apply], e2.wf, hm.index.trans e2.index, by rw [e2.nobj]; exact hm.lt,
      fun q hq hqp => ?_, fun q hq => ?_, ?_, ?_, ?_, ?_, ?_, nofun, ?_⟩
    · exact (hm.old q hq).trans ⟨by rw [e2.children, if_neg (fun e => hqp (by rw [e]))], by rw [e2.nsview], e2.cls q,
        e2.loc q (by intro e; cases e; exact Nat.lt_irrefl _ hq)⟩
    · cases hq
      refine ⟨by rw [e2.children, if_pos rfl, hag.children], by rw [e2.nsview]; exact hag.attr,
        (e2.cls p).trans hag.cls, (e2.loc p (by intro e; cases e; exact hne rfl)).trans hag.loc⟩
    · rw [e2.children, if_neg (fun e => hne e.symm)]; exact hm.empty
    · rw [e2.nsview]; exact hattr
    · rw [e2.cls]; exact hm.cls
    · exact congrArg Prod.fst hloc
    · intro h
      exact e2.index.keep _ hm.lt (hm.indexed h)
    · intro q hq
      cases hq
      exact congrArg Prod.snd hloc

/-- What the loop over the children did. -/
structure Kids (E : Env) (o : Oid) (ts : List NTree) (w w' : World) : Prop where
  wf : WF w'
  index : IxKeep w w'
  old : ∀ p, p < w.nobj → p ≠ o → Agree w w' p
  attr : (w'.nsview o).get? attrsKey = (w.nsview o).get? attrsKey
  cls : (w'.objs o).cls = (w.objs o).cls
  loc : w'.loc o = w.loc o
  kids : ∃ l, w'.children o = w.children o ++ l ∧ Shapes E (fun p => w.nobj ≤ p ∧ p < w'.nobj) w' o ts l

/-- Kids can be put below `o`. -/
structure Above (E : Env) (ts : List NTree) (w : World) (o : Oid) : Prop where
  lt : o < w.nobj
  read : ReadClass (clsOf E w o)
  names : (ts.map NTree.name).Nodup
  fresh : ∀ t ∈ ts, t.name ∉ (w.children o).keys
  each : ∀ t ∈ ts, Bhv.adopt ∈ (clsOf E w o).bhvs ∧ KeyFor (clsOf E w o) t.name ∧
    (Bhv.reference ∈ (clsOf E w o).bhvs → Bhv.reference ∈ (E.cls t.cls).bhvs)
  ref : Bhv.reference ∈ (clsOf E w o).bhvs → (w.objs o).index.isSome = true

mutual
/-- Reading a tree. -/
theorem decode_tree {f : Data → J} {A : Data → Prop}
    (hA : ∀ d, A d → Proper d ∧ Safe N d ∧ encData N {} d = .ok (f d)) (hE : 0 < E.depth) :
    ∀ (t : NTree) (n : Nat) (parent : Option Oid) (w : World), WF w → Buildable E N A t → tall t < n →
    (∀ p, parent = some p → Par E t w p) →
    ∃ w', decode E N n (jNode E f {} t) parent w = (.ok (.node w.nobj), w') ∧ Built E parent t w w'
  | .mk c name at' kids, n, parent, w, hw, hb, hn, hp => by
    obtain ⟨b1, b2, b3, b4, b5, b6, b7⟩ := hb
    cases n with
    | zero => cases hn
    | succ n =>
      simp only [tall] at hn
      obtain ⟨w1, h1, hpl⟩ := nodeFactory_tree (rec := decode E N n) (f := f) (N := N) hE hw b1 b2 b3 hp
      have hcl1 : clsOf E w1 w.nobj = E.cls c := congrArg E.cls hpl.cls
      have hk : ∃ w2, decKids (decode E N n) w.nobj (members E f c name at' kids) w1 = (.ok (), w2) ∧
          Kids E w.nobj kids w1 w2 := by
        unfold decKids
        rw [members_get?, if_neg (by decide), if_neg (by decide)]
        by_cases he : kids.isEmpty = true
        · rw [if_neg (fun h => h.1 he), if_neg (fun h => absurd h.2 (by decide))]
          have : kids = [] := List.isEmpty_iff.mp he
          subst this
          exact ⟨w1, rfl, hpl.wf, .refl w1, fun _ _ _ => .refl w1 _, rfl, rfl, rfl, [],
            (List.append_nil _).symm, rfl⟩
        · rw [if_pos ⟨he, by decide⟩]
          exact decode_kids hA hE kids n w.nobj w1 hpl.wf b7 (by omega) ⟨hpl.lt, by rw [hcl1]; exact b1, b5,
            fun t _ => by rw [hpl.empty]; nofun, by rw [hcl1]; exact b6, by rw [hcl1]; exact hpl.indexed⟩
      obtain ⟨w2, h2, hk⟩ := hk
      have hle : w1.nobj ≤ w2.nobj := hk.index.le
      have ho2 : w.nobj < w2.nobj := Nat.lt_of_lt_of_le hpl.lt hle
      have hcl2 : (w2.objs w.nobj).cls = c := hk.cls.trans hpl.cls
      have ha : ∃ w3, decAttrs E (decode E N n) w.nobj (members E f c name at' kids) w2 = (.ok (), w3) ∧ WF w3 ∧
          IxKeep w2 w3 ∧ (if Bhv.attributes ∈ (E.cls c).bhvs then
            HasAttrs E (fun p => w2.nobj ≤ p ∧ p < w3.nobj) w3 w.nobj at' else at' = []) ∧
          (∀ p, p < w2.nobj → p ≠ w.nobj → Agree w2 w3 p) ∧ w3.children w.nobj = w2.children w.nobj ∧
          (w3.objs w.nobj).cls = (w2.objs w.nobj).cls ∧ w3.loc w.nobj = w2.loc w.nobj := by
        unfold decAttrs
        by_cases hat : Bhv.attributes ∈ (E.cls c).bhvs
        · rw [if_pos hat] at b4
          obtain ⟨c1, c2, c5, c3, c4⟩ := b4
          rw [if_pos (by rw [show clsOf E w2 w.nobj = E.cls c from congrArg E.cls hcl2]; exact List.contains_iff_mem.mpr hat),
            members_get?, if_neg (by decide), if_neg (by decide), if_neg (fun h => absurd h.2 (by decide)),
            if_pos ⟨hat, by decide⟩]
          obtain ⟨w3, g1, g2, g3, g4, g5⟩ := attrs_loop hA hE ho2 hat c1 c2 c5 at' [] w2 hk.wf (Nat.le_refl _) hcl2 (by
            unfold HasAttrs
            rw [show (w2.nmap w.nobj).val attrsKey = none from hk.attr.trans hpl.attr]) c3 c4
            (show attrsHeight at' < n by omega)
          exact ⟨w3, g1, g2, g3, by rw [if_pos hat]; exact g4, g5⟩
        · rw [if_neg hat] at b4
          rw [if_neg (by rw [show clsOf E w2 w.nobj = E.cls c from congrArg E.cls hcl2, List.contains_iff_mem]; exact hat)]
          exact ⟨w2, rfl, hk.wf, .refl w2, by rw [if_neg hat]; exact b4, fun _ _ _ => .refl w2 _, rfl, rfl, rfl⟩
      obtain ⟨w3, h3, a1, a2, a3, a4, a5, a6, a7⟩ := ha
      have hag : ∀ p, p < w1.nobj → p ≠ w.nobj → Agree w1 w3 p := fun p hp hne =>
        (hk.old p hp hne).trans (a4 p (Nat.lt_of_lt_of_le hp hle) hne)
      have hloc : w3.loc w.nobj = w1.loc w.nobj := a7.trans hk.loc
      obtain ⟨l, l1, l2⟩ := hk.kids
      rw [hpl.empty, List.nil_append] at l1
      refine ⟨w3, ?_, a1, (hpl.index.trans hk.index).trans a2, Nat.lt_of_lt_of_le ho2 a2.le, fun p hp hne =>
        (hpl.old p hp hne).trans (hag p (Nat.lt_trans hp hpl.lt) (Nat.ne_of_lt hp)), fun p hpp => ?_, ?_, ?_, ?_⟩
      · rw [jNode_members]
        have g1 : Od.get? [("__node__".toList, J.obj (members E f c name at' kids))] obKey = none := rfl
        have g2 : Od.get? [("__node__".toList, J.obj (members E f c name at' kids))] nodeKey =
          some (J.obj (members E f c name at' kids)) := rfl
        simp only [decode, g1, g2, M.bind_apply, h1, h2, h3, M.pure_apply]
      · obtain ⟨p1, p2, p3, p4⟩ := hpl.par p hpp
        have hlt := (hp p hpp).lt
        have := hag p (Nat.lt_trans hlt hpl.lt) (Nat.ne_of_lt hlt)
        exact ⟨this.children.trans p1, this.attr.trans p2, this.cls.trans p3, this.loc.trans p4⟩
      · refine ⟨⟨Nat.le_refl _, Nat.lt_of_lt_of_le ho2 a2.le⟩, a6.trans hcl2,
          (congrArg Prod.fst hloc).trans hpl.name, ?_, ?_⟩
        · split
          · rename_i hat
            rw [if_pos hat] at a3
            exact a3.mono fun p hp => ⟨Nat.le_trans (Nat.le_of_lt ho2) hp.1, hp.2⟩
          · rename_i hat
            rw [if_neg hat] at a3
            exact a3
        · rw [items_eq a1, a5, l1]
          have := Shapes.agree (fun p hp => a4 p hp.2 (Nat.ne_of_gt (Nat.lt_of_lt_of_le hpl.lt hp.1))) kids w.nobj l l2
          exact Shapes.mono (fun p hp => ⟨Nat.le_trans (Nat.le_of_lt hpl.lt) hp.1,
            Nat.lt_of_lt_of_le hp.2 a2.le⟩) kids w.nobj l this
      · intro hr hd
        exact (congrArg Prod.snd hloc).trans (hpl.root hr hd)
      · intro p hpp
        exact (congrArg Prod.snd hloc).trans (hpl.inner p hpp)
/-- Reading the children of a node. -/
theorem decode_kids {f : Data → J} {A : Data → Prop}
    (hA : ∀ d, A d → Proper d ∧ Safe N d ∧ encData N {} d = .ok (f d)) (hE : 0 < E.depth) :
    ∀ (ts : List NTree) (n : Nat) (o : Oid) (w : World), WF w → Buildables E N A ts → talls ts < n →
    Above E ts w o →
    ∃ w', forU (fun j => do let _ ← decode E N n j (some o); pure ()) (jNodes E f {} ts) w = (.ok (), w') ∧
      Kids E o ts w w'
  | [], n, o, w, hw, _, _, _ => ⟨w, rfl, hw, .refl w, fun _ _ _ => .refl w _, rfl, rfl, rfl, [],
      (List.append_nil _).symm, rfl⟩
  | t :: ts, n, o, w, hw, hb, hn, hab => by
    simp only [talls] at hn
    obtain ⟨e1, e2, e3⟩ := hab.each t List.mem_cons_self
    obtain ⟨w1, h1, hbt⟩ := decode_tree hA hE t n (some o) w hw hb.1 (by omega) (by
      intro p hp
      cases hp
      exact ⟨hab.lt, hab.read, e1, e2, fun hr => ⟨hab.ref hr, e3 hr⟩⟩)
    obtain ⟨p1, p2, p3, p4⟩ := hbt.par o rfl
    have hcl : clsOf E w1 o = clsOf E w o := congrArg E.cls p3
    rw [Od.set_append (hab.fresh t List.mem_cons_self)] at p1
    have hnd := hab.names
    simp only [List.map_cons, List.nodup_cons] at hnd
    obtain ⟨w2, h2, hk⟩ := decode_kids hA hE ts n o w1 hbt.wf hb.2 (by omega)
      ⟨Nat.lt_trans hab.lt hbt.lt, by rw [hcl]; exact hab.read, hnd.2, fun t' ht' => by
        rw [p1]
        simp only [Od.keys, List.map_append, List.map_cons, List.map_nil, List.mem_append, List.mem_cons,
          List.not_mem_nil, or_false, not_or]
        exact ⟨hab.fresh t' (List.mem_cons_of_mem _ ht'), fun e => hnd.1 (List.mem_map.mpr ⟨t', ht', e⟩)⟩,
        fun t' ht' => by rw [hcl]; exact hab.each t' (List.mem_cons_of_mem _ ht'), fun hr =>
          hbt.index.keep o hab.lt (hab.ref (hcl ▸ hr))⟩
    obtain ⟨l, l1, l2⟩ := hk.kids
    have hne : w.nobj ≠ o := Nat.ne_of_gt hab.lt
    refine ⟨w2, ?_, hk.wf, hbt.index.trans hk.index, fun p hp hpo =>
      (hbt.old p hp (fun e => hpo (by cases e; rfl))).trans (hk.old p (Nat.lt_trans hp hbt.lt) hpo),
      hk.attr.trans p2, hk.cls.trans p3, hk.loc.trans p4, (t.name, .node w.nobj) :: l, ?_, w.nobj, l, rfl, ?_, ?_, ?_⟩
    · simp only [jNodes, forU, M.bind_apply, h1, M.pure_apply]
      exact h2
    · rw [l1, p1, List.append_assoc]; rfl
    · have := hk.old w.nobj hbt.lt hne
      exact this.parent.trans (hbt.inner o rfl)
    · have := Shape.agree (fun p hp => hk.old p hp.2 (Nat.ne_of_gt (Nat.lt_of_lt_of_le hab.lt hp.1))) t w.nobj hbt.shape
      exact Shape.mono (fun p hp => ⟨hp.1, Nat.lt_of_lt_of_le hp.2 hk.index.le⟩) t w.nobj this
    · exact Shapes.mono (fun p hp => ⟨Nat.le_trans (Nat.le_of_lt hbt.lt) hp.1, hp.2⟩) ts o l l2
end

end Verif.Ser
