import Verif.Props.C47
import Verif.Lemmas.Shape

/-! Writing trees. -/

namespace Verif.Ser

variable {E : Env} {N : Codec}

mutual
/-- Writing a value. -/
theorem enc_shown (m : Mode) : ∀ (d : Data), Writable d → encData N m d = .ok (shown N m d)
  | .none, _ => rfl
  | .bool _, _ => rfl
  | .int _, _ => rfl
  | .str _, _ => rfl
  | .bytes _, h => h.elim
  | .opaque _, h => h.elim
  | .unset, _ => rfl
  | .uuid _, _ => rfl
  | .cls _, _ => rfl
  | .func _, _ => rfl
  | .list xs, h => by simp only [encData, enc_showns m xs h, shown]
  | .tuple xs, h => by simp only [encData, enc_showns m xs h, shown]
  | .dict kvs, h => by
    have e := enc_shownDict m kvs h.2
    simp only [encData, e, shown]
    rw [jobj_nodup (by rw [encDict_keys e]; exact h.1)]
theorem enc_showns (m : Mode) : ∀ (xs : List Data), Writables xs → encList N m xs = .ok (showns N m xs)
  | [], _ => rfl
  | x :: r, h => by simp only [encList, enc_shown m x h.1, enc_showns m r h.2, showns]
theorem enc_shownDict (m : Mode) : ∀ (kvs : List (Str × Data)), WritableDict kvs →
    encDict N m kvs = .ok (shownDict N m kvs)
  | [], _ => rfl
  | (k, x) :: r, h => by simp only [encDict, enc_shown m x h.1, enc_shownDict m r h.2, shownDict]
end

mutual
theorem raw_writable : ∀ (d : Data), Proper d → Raw d → Writable d
  | .none, _, _ => trivial
  | .bool _, _, _ => trivial
  | .int _, _, _ => trivial
  | .str _, _, _ => trivial
  | .list xs, hp, hr => raws_writable xs hp hr
  | .dict kvs, hp, hr => ⟨hp.1, rawDict_writable kvs hp.2 hr⟩
  | .bytes _, _, h => h.elim
  | .unset, _, h => h.elim
  | .uuid _, _, h => h.elim
  | .cls _, _, h => h.elim
  | .func _, _, h => h.elim
  | .opaque _, _, h => h.elim
  | .tuple _, _, h => h.elim
theorem raws_writable : ∀ (xs : List Data), ProperList xs → RawList xs → Writables xs
  | [], _, _ => trivial
  | x :: r, hp, hr => ⟨raw_writable x hp.1 hr.1, raws_writable r hp.2 hr.2⟩
theorem rawDict_writable : ∀ (kvs : List (Str × Data)), ProperDict kvs → RawDict kvs → WritableDict kvs
  | [], _, _ => trivial
  | (_, x) :: r, hp, hr => ⟨raw_writable x hp.1 hr.1, rawDict_writable r hp.2 hr.2⟩
end

mutual
/-- Values that survive can be written. -/
theorem safe_writable : ∀ (d : Data), Proper d → Safe N d → Writable d
  | .none, _, _ => trivial
  | .bool _, _, _ => trivial
  | .int _, _, _ => trivial
  | .str _, _, _ => trivial
  | .unset, _, _ => trivial
  | .uuid _, _, _ => trivial
  | .cls _, _, _ => trivial
  | .func _, _, _ => trivial
  | .list xs, hp, hs => safes_writable xs hp hs
  | .dict kvs, hp, hs => ⟨hp.1, rawDict_writable kvs hp.2 hs.2.2⟩
  | .bytes _, _, h => h.elim
  | .opaque _, _, h => h.elim
  | .tuple _, _, h => h.elim
theorem safes_writable : ∀ (xs : List Data), ProperList xs → SafeList N xs → Writables xs
  | [], _, _ => trivial
  | x :: r, hp, hs => ⟨safe_writable x hp.1 hs.1, safes_writable r hp.2 hs.2⟩
end

theorem default_data (m : Mode) (n : Nat) (d : Data) (w : World) :
    default E m n (.data d) w = (.ok (.data d), w) := by
  cases n <;> simp [default]

theorem dumpsObj_append {m : Mode} {a b : List (Key × P)} {ja jb : List (Str × J)}
    (ha : dumpsObj N m a = .ok ja) (hb : dumpsObj N m b = .ok jb) : dumpsObj N m (a ++ b) = .ok (ja ++ jb) := by
  induction a generalizing ja with
  | nil => cases ha; exact hb
  | cons x r ih =>
    obtain ⟨k, p⟩ := x
    simp only [dumpsObj] at ha
    simp only [List.cons_append, dumpsObj]
    cases h1 : memberName k with
    | error e => simp only [h1] at ha; cases ha
    | ok s =>
      simp only [h1] at ha ⊢
      cases h2 : dumps N m p with
      | error e => simp only [h2] at ha; cases ha
      | ok j =>
        simp only [h2] at ha ⊢
        cases h3 : dumpsObj N m r with
        | error e => simp only [h3] at ha; cases ha
        | ok js =>
          simp only [h3] at ha
          cases ha
          simp only [ih h3, List.cons_append]

theorem dumpsObj_single {m : Mode} {s : Str} {p : P} {j : J} (h : dumps N m p = .ok j) :
    dumpsObj N m [(.str s, p)] = .ok [(s, j)] := by simp only [dumpsObj, memberName, h]

theorem dumps_obj {m : Mode} {kvs : List (Key × P)} {js : List (Str × J)} {j : J}
    (h : dumpsObj N m kvs = .ok js) (hj : jobj js = j) : dumps N m (.obj kvs) = .ok j := by
  simp only [dumps, h, hj]

theorem encKey_ok {k : Key} (h : ∀ b, k ≠ .bytes b) : encKey k = .ok (jKey k) := by
  cases k with
  | bytes b => exact absurd rfl (h b)
  | _ => rfl

theorem dumpsList_length {m : Mode} : ∀ {ps : List P} {js : List J}, dumpsList N m ps = .ok js →
    js.length = ps.length
  | [], _, h => by cases h; rfl
  | p :: r, js, h => by
    simp only [dumpsList] at h
    cases h1 : dumps N m p with
    | error e => simp only [h1] at h; cases h
    | ok j =>
      simp only [h1] at h
      cases h2 : dumpsList N m r with
      | error e => simp only [h2] at h; cases h
      | ok js' =>
        simp only [h2] at h
        cases h
        simp only [List.length_cons, dumpsList_length h2]

theorem jNodes_length (f : Data → J) (m : Mode) : ∀ ts, (jNodes E f m ts).length = ts.length
  | [] => rfl
  | _ :: ts => by simp only [jNodes, List.length_cons, jNodes_length f m ts]

/-- The keys of the attributes differ, as keys. -/
theorem nodup_strs {at' : List (Str × Data)} (h : (at'.map fun kv => Key.str kv.1).Nodup) :
    (at'.map Prod.fst).Nodup := by
  have : (at'.map fun kv => Key.str kv.1) = (at'.map Prod.fst).map Key.str := by simp
  rw [this] at h
  exact (List.pairwise_map.mp h).imp fun hne e => hne (by rw [e])

theorem items_eq {w : World} (hw : WF w) (o : Oid) : (w.omap o).items = w.children o :=
  toMap_items (hw.children_nodup o)

theorem values_eq {w : World} (hw : WF w) (o : Oid) : (w.omap o).values = (w.omap o).items.map Prod.snd := by
  rw [items_eq hw, show (w.omap o).values = _ from toMap_values (hw.children_nodup o)]
  rfl

theorem keys_eq (w : World) (o : Oid) : (w.omap o).keys = (w.children o).map Prod.fst := rfl

/-- The attributes part. -/
theorem encodeAttrs {f : Data → J} {m : Mode} {A : Data → Prop} (hA : ∀ d, A d → encData N m d = .ok (f d))
    (hE : 0 < E.depth) {c : ClassId} {at' : List (Str × Data)} {o : Oid} {n : Nat} {w : World} (hw : WF w)
    (ho : o < w.nobj) (hc : (w.objs o).cls = c)
    (hat : if Bhv.attributes ∈ (E.cls c).bhvs then HasAttrs E (· < w.nobj) w o at' else at' = [])
    (hr : Bhv.attributes ∈ (E.cls c).bhvs → Bhv.nodespaces ∈ (E.cls c).bhvs ∧
        (E.cls c).attrAccess = false ∧ ReadClass (E.cls (E.cls c).attrsFactory) ∧
        (E.cls (E.cls c).attrsFactory).Located ∧
        ∀ kv ∈ at', KeyFor (E.cls (E.cls c).attrsFactory) (.str kv.1) ∧ A kv.2) :
    ∃ ps w', defaultAttrs E (default E m n) o w = (.ok ps, w') ∧ dumpsObj N m ps = .ok
      (if Bhv.attributes ∈ (E.cls c).bhvs then
        [("attrs".toList, J.obj (at'.map fun kv => (kv.1, f kv.2)))] else []) ∧ Grows E w w' := by
  have hcl : clsOf E w o = E.cls c := congrArg E.cls hc
  by_cases hb : Bhv.attributes ∈ (E.cls c).bhvs
  · rw [if_pos hb] at hat
    obtain ⟨r1, r4, r2, r5, r3⟩ := hr hb
    obtain ⟨a, w1, h1, h2, h3, h4, -⟩ := attrs_tree (E := E) (o := o) hw ho hE (by rw [hcl]; exact hb) (by rw [hcl]; exact r1)
      (by rw [hcl]; exact r5)
      (by rw [hcl]; exact r2.not (by decide))
      (fun d hd => by
        unfold HasAttrs at hat
        rw [show (w.nmap o).val attrsKey = some (.data d) from hd] at hat
        exact hat)
      (fun a ha => by
        unfold HasAttrs at hat
        rw [show (w.nmap o).val attrsKey = some (.node a) from ha] at hat
        exact hat.1)
    have hat1 := hat.grows h2 ho
    unfold HasAttrs at hat1
    rw [show (w1.nmap o).val attrsKey = some (.node a) from h3] at hat1
    obtain ⟨-, h5, h6⟩ := hat1
    rw [h2.clsOf ho, hcl] at h5
    have hca : clsOf E w1 a = E.cls (E.cls c).attrsFactory := congrArg E.cls h5
    have hch : w1.children a = at'.map fun kv => (Key.str kv.1, Val.data kv.2) := by
      rw [← items_eq h2.wf]; exact h6
    have hkeys : (w1.omap a).keys = at'.map fun kv => Key.str kv.1 := by
      rw [keys_eq, hch]; simp
    have hopen : Open E w1 a := ⟨by rw [hca]; exact r2.concrete, fun k hk => by
        rw [hkeys, List.mem_map] at hk
        obtain ⟨kv, hkv, rfl⟩ := hk
        rw [hca]; exact (r3 kv hkv).1, fun hcc => absurd hcc (by rw [hca]; exact r2.not (by decide))⟩
    obtain ⟨w2, h7, h8⟩ := mitems_open (E := E) (S := (· = a)) hopen h2.wf hopen.coh rfl
    have hloop : ∀ (l : List (Str × Data)) (w : World), forM' (fun (kv : Key × Val) => do
          let p ← default E m n kv.2
          pure (kv.1, p)) (l.map fun kv => (Key.str kv.1, Val.data kv.2)) w =
        (.ok (l.map fun kv => (Key.str kv.1, P.data kv.2)), w) := by
      intro l
      induction l with
      | nil => intro w; rfl
      | cons x r ih =>
        intro w
        simp only [List.map_cons, forM', M.bind_apply, default_data, M.pure_apply, ih]
    refine ⟨[(Key.str attrsName, P.obj (at'.map fun kv => (Key.str kv.1, P.data kv.2)))], w2, ?_, ?_,
      h2.trans (.same h8.wf h8.same)⟩
    · unfold defaultAttrs
      rw [if_pos (by rw [hcl]; exact List.contains_iff_mem.mpr hb)]
      have h9 : attrsItems E o a w1 = mitems E a w1 := by
        unfold attrsItems
        rw [if_neg (by rw [h2.clsOf ho, hcl, r4]; decide)]
      simp only [M.bind_apply, h1, h9, h7, h6, hloop, M.pure_apply]
    · rw [if_pos hb]
      refine dumpsObj_single ?_
      have hobj : ∀ (l : List (Str × Data)), (∀ kv ∈ l, A kv.2) →
          dumpsObj N m (l.map fun kv => (Key.str kv.1, P.data kv.2)) = .ok (l.map fun kv => (kv.1, f kv.2)) := by
        intro l
        induction l with
        | nil => intro _; rfl
        | cons x r ih =>
          intro hl
          simp only [List.map_cons, dumpsObj, memberName, dumps, hA _ (hl x List.mem_cons_self),
            ih fun kv hkv => hl kv (List.mem_cons_of_mem _ hkv)]
      simp only [dumps, hobj at' fun kv hkv => (r3 kv hkv).2]
      rw [jobj_nodup]
      have := h2.wf.children_nodup a
      rw [show (w1.children a).keys = _ from hkeys] at this
      simpa [Function.comp_def] using nodup_strs this
  · refine ⟨[], w, ?_, ?_, .same hw (.refl w)⟩
    · unfold defaultAttrs
      rw [if_neg (by rw [hcl, List.contains_iff_mem]; exact hb)]
    · rw [if_neg hb]; rfl

theorem members_nodup {k1 k2 k3 k4 : Str} (h : [k1, k2, k3, k4].Nodup) (b1 b2 b3 : Prop) [Decidable b1]
    [Decidable b2] [Decidable b3] (x1 x2 x3 x4 : J) :
    jobj ((if b1 then [(k1, x1)] else []) ++ [(k2, x2)] ++ (if b2 then [] else [(k3, x3)]) ++
      (if b3 then [(k4, x4)] else [])) =
    .obj ((if b1 then [(k1, x1)] else []) ++ (k2, x2) :: ((if b2 then [] else [(k3, x3)]) ++
      (if b3 then [(k4, x4)] else []))) := by
  rw [jobj_nodup]
  · simp
  · by_cases h1 : b1 <;> by_cases h2 : b2 <;> by_cases h3 : b3 <;> simp_all

theorem jobj_members (b1 b2 b3 : Prop) [Decidable b1] [Decidable b2] [Decidable b3] (x1 x2 x3 x4 : J) :
    jobj ((if b1 then [("class".toList, x1)] else []) ++ [("name".toList, x2)] ++
      (if b2 then [] else [("children".toList, x3)]) ++ (if b3 then [("attrs".toList, x4)] else [])) =
    .obj ((if b1 then [("class".toList, x1)] else []) ++ ("name".toList, x2) ::
      ((if b2 then [] else [("children".toList, x3)]) ++ (if b3 then [("attrs".toList, x4)] else []))) :=
  members_nodup (by decide) b1 b2 b3 x1 x2 x3 x4

mutual
/-- Writing a tree. -/
theorem encode {f : Data → J} {m : Mode} {A : Data → Prop} (hA : ∀ d, A d → encData N m d = .ok (f d))
    (hE : 0 < E.depth) : ∀ (t : NTree) (o : Oid) (n : Nat) (w : World), WF w →
    Shape E (· < w.nobj) w t o → Readable E A t → tall t < n →
    ∃ p w', default E m n (.node o) w = (.ok p, w') ∧ dumps N m p = .ok (jNode E f m t) ∧ Grows E w w'
  | .mk c name at' kids, o, n, w, hw, hs, hr, hn => by
    obtain ⟨s1, s2, s3, s4, s5⟩ := hs
    obtain ⟨r1, r2, r3, r4, r5⟩ := hr
    cases n with
    | zero => cases hn
    | succ n =>
      simp only [tall] at hn
      have hcl : clsOf E w o = E.cls c := congrArg E.cls s2
      have hkn : ∀ (ts : List NTree) (l : List (Key × Val)), Shapes E (· < w.nobj) w o ts l →
          l.map Prod.fst = ts.map NTree.name := by
        intro ts
        induction ts with
        | nil => rintro l rfl; rfl
        | cons t r ih =>
          rintro l ⟨x, r', rfl, -, -, h⟩
          simp only [List.map_cons, ih _ h]
      have hopen : Open E w o := ⟨by rw [hcl]; exact r1.concrete, fun k hk => by
        rw [keys_eq, ← items_eq hw, hkn kids _ s5, List.mem_map] at hk
        obtain ⟨t, ht, rfl⟩ := hk
        rw [hcl]; exact r4 t ht, fun hcc => absurd hcc (by rw [hcl]; exact r1.not (by decide))⟩
      obtain ⟨w1, h1, h2⟩ := mvalues_open (E := E) (S := (· = o)) hopen hw hopen.coh rfl
      have hg1 : Grows E w w1 := .same h2.wf h2.same
      obtain ⟨ps, w2, h3, h4, h5⟩ := encodes hA hE kids o (w.omap o).items n w1 h2.wf
        (Shapes.grows hg1 kids o _ s5) r5 (by omega)
      have hg2 := hg1.trans h5
      have ho2 : o < w2.nobj := Nat.lt_of_lt_of_le s1 hg2.index.le
      obtain ⟨as, w3, h6, h7, h8⟩ := encodeAttrs (N := N) (at' := at') (n := n) hA hE h5.wf ho2
        ((hg2.cls o s1).trans s2) (by
          split
          · rename_i hb
            rw [if_pos hb] at s4
            exact s4.grows hg2 s1
          · rename_i hb
            rw [if_neg hb] at s4
            exact s4) r3
      have hemp : ps.isEmpty = kids.isEmpty := by
        have := dumpsList_length h4
        rw [jNodes_length] at this
        cases ps <;> cases kids <;> simp_all
      refine ⟨(if m.simple then id else fun d => P.obj [(Key.str nodeKey, d)]) (P.obj (((if !m.simple || m.includeClass then
          [(Key.str classKey, P.str (clsOf E w o).dotted)] else []) ++ [(Key.str nameKey, P.name (w.objs o).name)]) ++
          (if ps.isEmpty then [] else [(Key.str kidsKey, P.list ps)]) ++ as)), w3, ?_, ?_, hg2.trans h8⟩
      · simp only [default, M.bind_apply, M.getW_apply, h1, values_eq hw, h3, h6, M.pure_apply]
        cases m.simple <;> rfl
      · have e1 : dumpsObj N m (if ps.isEmpty then [] else [(Key.str kidsKey, P.list ps)]) =
            .ok (if kids.isEmpty then [] else [("children".toList, J.list (jNodes E f m kids))]) := by
          rw [hemp]
          split
          · rfl
          · exact dumpsObj_single (by simp only [dumps, h4])
        have e2 : dumpsObj N m ((if !m.simple || m.includeClass then
              [(Key.str classKey, P.str (clsOf E w o).dotted)] else []) ++ [(Key.str nameKey, P.name (w.objs o).name)]) =
            .ok ((if m.simple = false ∨ m.includeClass = true then
              [("class".toList, J.str (E.cls c).dotted)] else []) ++ [("name".toList, jKey name)]) := by
          refine dumpsObj_append ?_ (dumpsObj_single (by simp only [dumps, s3, encKey_ok r2]))
          by_cases hm : m.simple = false ∨ m.includeClass = true
          · rw [if_pos hm, if_pos (by simpa using hm)]
            exact dumpsObj_single (by simp only [dumps, hcl])
          · rw [if_neg hm, if_neg (by simpa using hm)]
            rfl
        have e3 := dumpsObj_append (dumpsObj_append e2 e1) h7
        have e5 := jobj_members (m.simple = false ∨ m.includeClass = true) (kids.isEmpty = true)
          (Bhv.attributes ∈ (E.cls c).bhvs) (J.str (E.cls c).dotted) (jKey name)
          (J.list (jNodes E f m kids)) (J.obj (at'.map fun kv => (kv.1, f kv.2)))
        have e6 := dumps_obj e3 e5
        unfold jNode
        by_cases hm : m.simple = true
        · rw [if_pos hm, if_pos hm]
          exact e6
        · rw [if_neg hm, if_neg hm]
          exact dumps_obj (dumpsObj_single e6) rfl
theorem encodes {f : Data → J} {m : Mode} {A : Data → Prop} (hA : ∀ d, A d → encData N m d = .ok (f d))
    (hE : 0 < E.depth) : ∀ (ts : List NTree) (o : Oid) (l : List (Key × Val)) (n : Nat) (w : World), WF w →
    Shapes E (· < w.nobj) w o ts l → Readables E A ts → talls ts < n →
    ∃ ps w', forM' (default E m n) (l.map Prod.snd) w = (.ok ps, w') ∧
      dumpsList N m ps = .ok (jNodes E f m ts) ∧ Grows E w w'
  | [], o, l, n, w, hw, hs, _, _ => by
    cases hs
    exact ⟨[], w, rfl, rfl, .same hw (.refl w)⟩
  | t :: ts, o, _, n, w, hw, ⟨c, r, rfl, h2, h3, h4⟩, hr, hn => by
    simp only [talls] at hn
    obtain ⟨p, w1, e1, e2, e3⟩ := encode hA hE t c n w hw h3 hr.1 (by omega)
    obtain ⟨ps, w2, f1, f2, f3⟩ := encodes hA hE ts o r n w1 e3.wf (Shapes.grows e3 ts o r h4) hr.2 (by omega)
    refine ⟨p :: ps, w2, ?_, ?_, e3.trans f3⟩
    · simp only [List.map_cons, forM', M.bind_apply, e1, f1, M.pure_apply]
    · simp only [dumpsList, e2, f2, jNodes]
end

end Verif.Ser
