import Verif.Spec.Json
import Verif.Lemmas.Odict

/-!
# C47: attribute values survive serialization

The claim is false: json keeps dictionaries as they are, so markers inside of dictionaries are
not decoded again, strings that look like markers are, and tuples come back as lists.
`c47_iff_partial` says exactly which values survive.
-/

namespace Verif.Ser

variable {E : Env} {N : Codec}

mutual
/-- Values json itself gives back: nothing but JSON values inside. -/
def Raw : Data → Prop
  | .none => True
  | .bool _ => True
  | .int _ => True
  | .str _ => True
  | .list xs => RawList xs
  | .dict kvs => RawDict kvs
  | _ => False
/-- All elements. -/
def RawList : List Data → Prop
  | [] => True
  | x :: r => Raw x ∧ RawList r
/-- All values. -/
def RawDict : List (Str × Data) → Prop
  | [] => True
  | (_, x) :: r => Raw x ∧ RawDict r
end

mutual
/-- A Python value: the keys of dictionaries differ. -/
def Proper : Data → Prop
  | .list xs => ProperList xs
  | .tuple xs => ProperList xs
  | .dict kvs => (kvs.map Prod.fst).Nodup ∧ ProperDict kvs
  | _ => True
/-- All elements. -/
def ProperList : List Data → Prop
  | [] => True
  | x :: r => Proper x ∧ ProperList r
/-- All values. -/
def ProperDict : List (Str × Data) → Prop
  | [] => True
  | (_, x) :: r => Proper x ∧ ProperDict r
end

mutual
/-- The values that survive: lists of survivors, strings that look like no marker, classes and
functions that can be found by their name, and dictionaries of JSON values without the two
reserved keys. -/
def Safe (N : Codec) : Data → Prop
  | .none => True
  | .bool _ => True
  | .int _ => True
  | .str s => s ≠ "<UNSET>".toList ∧ ¬ "<UUID>:".toList <+: s
  | .unset => True
  | .uuid _ => True
  | .cls s => N.findOb s = some (.cls s)
  | .func s => N.findOb s = some (.func s)
  | .list xs => SafeList N xs
  | .dict kvs => "__ob__".toList ∉ kvs.map Prod.fst ∧ "__node__".toList ∉ kvs.map Prod.fst ∧ RawDict kvs
  | .bytes _ => False
  | .opaque _ => False
  | .tuple _ => False
/-- All elements. -/
def SafeList (N : Codec) : List Data → Prop
  | [] => True
  | x :: r => Safe N x ∧ SafeList N r
end

/-- Decoding the encoded value gives back the value. -/
def Survives (E : Env) (N : Codec) (n : Nat) (d : Data) (w : World) : Prop :=
  ∃ j x w', serialize E N {} n (.val (.data d)) w = (.ok j, w) ∧
    deserialize E N n j none w = (.ok x, w') ∧ x.toData = some d

/-! ### What survives -/

theorem get?_of_not_mem {V : Type} {kvs : List (Str × V)} {k : Str} (h : k ∉ kvs.map Prod.fst) :
    Od.get? kvs k = none := by
  induction kvs with
  | nil => rfl
  | cons a r ih =>
    simp only [List.map_cons, List.mem_cons, not_or] at h
    simp only [Od.get?]
    rw [if_neg (fun e => h.1 e.symm)]
    exact ih h.2

theorem get?_of_mem {V : Type} {kvs : List (Str × V)} {k : Str} (h : k ∈ kvs.map Prod.fst) :
    ∃ v, Od.get? kvs k = some v := by
  induction kvs with
  | nil => cases h
  | cons a r ih =>
    simp only [Od.get?]
    by_cases e : a.1 = k
    · exact ⟨_, if_pos e⟩
    · rw [if_neg e]
      simp only [List.map_cons, List.mem_cons] at h
      exact ih (h.resolve_left fun x => e x.symm)

theorem set_new {V : Type} {d : List (Str × V)} {k : Str} {v : V} (h : k ∉ d.map Prod.fst) :
    Od.set d k v = d ++ [(k, v)] := by
  induction d with
  | nil => rfl
  | cons a r ih =>
    simp only [List.map_cons, List.mem_cons, not_or] at h
    simp only [Od.set]
    rw [if_neg (fun e => h.1 e.symm), ih h.2]
    rfl

theorem fold_set_nodup {V : Type} (kvs d : List (Str × V)) (h : ((d ++ kvs).map Prod.fst).Nodup) :
    kvs.foldl (fun d kv => Od.set d kv.1 kv.2) d = d ++ kvs := by
  induction kvs generalizing d with
  | nil => simp
  | cons a r ih =>
    have hk : a.1 ∉ d.map Prod.fst := by
      simp only [List.map_append, List.map_cons, List.nodup_append] at h
      intro hm
      exact h.2.2 _ hm _ List.mem_cons_self rfl
    simp only [List.foldl_cons]
    rw [set_new hk, ih]
    · simp
    · simpa using h

theorem jobj_nodup {kvs : List (Str × J)} (h : (kvs.map Prod.fst).Nodup) : jobj kvs = .obj kvs := by
  unfold jobj
  rw [fold_set_nodup kvs [] (by simpa using h)]
  rfl

theorem encDict_keys {m : Mode} : ∀ {kvs : List (Str × Data)} {js : List (Str × J)},
    encDict N m kvs = .ok js → js.map Prod.fst = kvs.map Prod.fst
  | [], js, h => by
    simp only [encDict, Except.ok.injEq] at h
    subst h; rfl
  | (k, x) :: r, js, h => by
    simp only [encDict] at h
    split at h
    · cases h
    · split at h
      · cases h
      · rename_i js' hjs
        simp only [Except.ok.injEq] at h
        subst h
        simp only [List.map_cons, encDict_keys hjs]

mutual
theorem raw_enc {m : Mode} : ∀ (d : Data), Proper d → Raw d → ∃ j, encData N m d = .ok j ∧ raw j = d
  | .none, _, _ => ⟨_, rfl, rfl⟩
  | .bool _, _, _ => ⟨_, rfl, rfl⟩
  | .int _, _, _ => ⟨_, rfl, rfl⟩
  | .str _, _, _ => ⟨_, rfl, rfl⟩
  | .list xs, hp, hr => by
    obtain ⟨js, h1, h2⟩ := raw_encList (m := m) xs hp hr
    exact ⟨.list js, by simp only [encData, h1], by simp only [raw, h2]⟩
  | .dict kvs, hp, hr => by
    obtain ⟨js, h1, h2⟩ := raw_encDict (m := m) kvs hp.2 hr
    refine ⟨.obj js, ?_, by simp only [raw, h2]⟩
    have hk := encDict_keys h1
    simp only [encData, h1]
    rw [jobj_nodup (by rw [hk]; exact hp.1)]
  | .bytes _, _, h => h.elim
  | .unset, _, h => h.elim
  | .uuid _, _, h => h.elim
  | .cls _, _, h => h.elim
  | .func _, _, h => h.elim
  | .opaque _, _, h => h.elim
  | .tuple _, _, h => h.elim
theorem raw_encList {m : Mode} : ∀ (xs : List Data), ProperList xs → RawList xs →
    ∃ js, encList N m xs = .ok js ∧ rawList js = xs
  | [], _, _ => ⟨[], rfl, rfl⟩
  | x :: r, hp, hr => by
    obtain ⟨j, h1, h2⟩ := raw_enc (m := m) x hp.1 hr.1
    obtain ⟨js, h3, h4⟩ := raw_encList (m := m) r hp.2 hr.2
    exact ⟨j :: js, by simp only [encList, h1, h3], by simp only [rawList, h2, h4]⟩
theorem raw_encDict {m : Mode} : ∀ (kvs : List (Str × Data)), ProperDict kvs → RawDict kvs →
    ∃ js, encDict N m kvs = .ok js ∧ rawDict js = kvs
  | [], _, _ => ⟨[], rfl, rfl⟩
  | (k, x) :: r, hp, hr => by
    obtain ⟨j, h1, h2⟩ := raw_enc (m := m) x hp.1 hr.1
    obtain ⟨js, h3, h4⟩ := raw_encDict (m := m) r hp.2 hr.2
    exact ⟨(k, j) :: js, by simp only [encDict, h1, h3], by simp only [rawDict, h2, h4]⟩
end

theorem decStr_plain {s : Str} (h1 : s ≠ unsetMark) (h2 : ¬ uuidMark <+: s) : decStr N s = .ok (.str s) := by
  unfold decStr
  rw [if_neg h1, if_neg (by rw [List.isPrefixOf_iff_prefix]; exact h2)]

theorem decStr_uuid (u : Nat) : decStr N (uuidMark ++ N.uuidStr u) = .ok (.uuid u) := by
  unfold decStr
  rw [if_neg (fun h => by
    have e : List.take 3 (uuidMark ++ N.uuidStr u) = "<UU".toList := rfl
    rw [h] at e
    exact absurd e (by decide)), if_pos (by
    rw [List.isPrefixOf_iff_prefix]; exact List.prefix_append _ _), List.drop_left, N.parse_ok]

/-- One decoding. -/
def Comes (E : Env) (N : Codec) (d : Data) (n : Nat) (j : J) : Prop := ∀ r w, ∃ x,
  decode E N n j r w = (.ok x, w) ∧ x.toData = some d

mutual
/-- A safe value survives. -/
theorem safe_comes : ∀ (d : Data), Proper d → Safe N d → ∃ j, encData N {} d = .ok j ∧
    ∀ n, height d < n → Comes E N d n j
  | .none, _, _ => ⟨_, rfl, fun n hn r w => by
    cases n with
    | zero => cases hn
    | succ n => exact ⟨.data .none, rfl, rfl⟩⟩
  | .bool b, _, _ => ⟨_, rfl, fun n hn r w => by
    cases n with
    | zero => cases hn
    | succ n => exact ⟨.data (.bool b), rfl, rfl⟩⟩
  | .int i, _, _ => ⟨_, rfl, fun n hn r w => by
    cases n with
    | zero => cases hn
    | succ n => exact ⟨.data (.int i), rfl, rfl⟩⟩
  | .str s, _, h => ⟨_, rfl, fun n hn r w => by
    cases n with
    | zero => cases hn
    | succ n =>
      refine ⟨.data (.str s), ?_, rfl⟩
      simp only [decode, M.bind_apply, M.ofExcept_apply, decStr_plain h.1 h.2, M.pure_apply]⟩
  | .unset, _, _ => ⟨_, rfl, fun n hn r w => by
    cases n with
    | zero => cases hn
    | succ n => exact ⟨.data .unset, rfl, rfl⟩⟩
  | .uuid u, _, _ => ⟨_, rfl, fun n hn r w => by
    cases n with
    | zero => cases hn
    | succ n =>
      refine ⟨.data (.uuid u), ?_, rfl⟩
      simp only [decode, M.bind_apply, M.ofExcept_apply, decStr_uuid, M.pure_apply]⟩
  | .cls s, _, h => ⟨_, rfl, fun n hn r w => by
    have h : N.findOb s = some (.cls s) := h
    cases n with
    | zero => cases hn
    | succ n =>
      refine ⟨.data (.cls s), ?_, rfl⟩
      simp [decode, decOb, h, Od.get?]⟩
  | .func s, _, h => ⟨_, rfl, fun n hn r w => by
    have h : N.findOb s = some (.func s) := h
    cases n with
    | zero => cases hn
    | succ n =>
      refine ⟨.data (.func s), ?_, rfl⟩
      simp [decode, decOb, h, Od.get?]⟩
  | .list xs, hp, h => by
    obtain ⟨js, h1, h2⟩ := safe_comesList xs hp h
    refine ⟨.list js, by simp only [encData, h1], fun n hn r w => ?_⟩
    cases n with
    | zero => cases hn
    | succ n =>
      obtain ⟨ys, h3, h4⟩ := h2 n (by simpa [height] using hn) r w
      exact ⟨.list ys, by simp only [decode, M.bind_apply, h3, M.pure_apply], by
        simp only [Dec.toData, h4, Option.map_some]⟩
  | .dict kvs, hp, h => by
    obtain ⟨js, h1, h2⟩ := raw_encDict (m := {}) (N := N) kvs hp.2 h.2.2
    have hk := encDict_keys h1
    refine ⟨.obj js, ?_, fun n hn r w => ?_⟩
    · simp only [encData, h1]
      rw [jobj_nodup (by rw [hk]; exact hp.1)]
    · cases n with
      | zero => cases hn
      | succ n =>
        have e1 : Od.get? js obKey = none := get?_of_not_mem (by rw [hk]; exact h.1)
        have e2 : Od.get? js nodeKey = none := get?_of_not_mem (by rw [hk]; exact h.2.1)
        exact ⟨.data (.dict kvs), by simp only [decode, e1, e2, raw, h2, M.pure_apply], rfl⟩
  | .bytes _, _, h => h.elim
  | .opaque _, _, h => h.elim
  | .tuple _, _, h => h.elim
theorem safe_comesList : ∀ (xs : List Data), ProperList xs → SafeList N xs →
    ∃ js, encList N {} xs = .ok js ∧ ∀ n, heights xs < n → ∀ r w, ∃ ys,
      forM' (fun x => decode E N n x r) js w = (.ok ys, w) ∧ Dec.listData ys = some xs
  | [], _, _ => ⟨[], rfl, fun _ _ _ _ => ⟨[], rfl, rfl⟩⟩
  | x :: t, hp, h => by
    obtain ⟨j, h1, h2⟩ := safe_comes x hp.1 h.1
    obtain ⟨js, h3, h4⟩ := safe_comesList t hp.2 h.2
    refine ⟨j :: js, by simp only [encList, h1, h3], fun n hn r w => ?_⟩
    simp only [heights] at hn
    obtain ⟨y, h5, h6⟩ := h2 n (by omega) r w
    obtain ⟨ys, h7, h8⟩ := h4 n (by omega) r w
    exact ⟨y :: ys, by simp only [forM', M.bind_apply, h5, h7, M.pure_apply], by
      simp only [Dec.listData, h6, h8]⟩
end

/-! ### What does not -/

mutual
theorem raw_of_enc {m : Mode} : ∀ (d : Data) (j : J), Proper d → encData N m d = .ok j → raw j = d → Raw d
  | .none, _, _, _, _ => trivial
  | .bool _, _, _, _, _ => trivial
  | .int _, _, _, _, _ => trivial
  | .str _, _, _, _, _ => trivial
  | .list xs, j, hp, h, e => by
    simp only [encData] at h
    split at h
    · rename_i js hjs
      cases h
      simp only [raw, Data.list.injEq] at e
      exact rawList_of_enc xs js hp hjs e
    · cases h
  | .dict kvs, j, hp, h, e => by
    simp only [encData] at h
    split at h
    · rename_i js hjs
      have hk := encDict_keys hjs
      rw [jobj_nodup (by rw [hk]; exact hp.1)] at h
      cases h
      simp only [raw, Data.dict.injEq] at e
      exact rawDict_of_enc kvs js hp.2 hjs e
    · cases h
  | .bytes _, _, _, h, _ => by cases h
  | .opaque _, _, _, h, _ => by cases h
  | .unset, _, _, h, e => by cases h; cases e
  | .uuid _, _, _, h, e => by cases h; cases e
  | .cls _, _, _, h, e => by
    simp only [encData, Except.ok.injEq] at h
    split at h <;> subst h <;> cases e
  | .func _, _, _, h, e => by
    simp only [encData, Except.ok.injEq] at h
    split at h <;> subst h <;> cases e
  | .tuple xs, j, _, h, e => by
    simp only [encData] at h
    split at h
    · cases h; cases e
    · cases h
theorem rawList_of_enc {m : Mode} : ∀ (xs : List Data) (js : List J), ProperList xs →
    encList N m xs = .ok js → rawList js = xs → RawList xs
  | [], _, _, _, _ => trivial
  | x :: r, js, hp, h, e => by
    simp only [encList] at h
    split at h
    · cases h
    · rename_i j hj
      split at h
      · cases h
      · rename_i js' hjs
        cases h
        simp only [rawList, List.cons.injEq] at e
        exact ⟨raw_of_enc x j hp.1 hj e.1, rawList_of_enc r js' hp.2 hjs e.2⟩
theorem rawDict_of_enc {m : Mode} : ∀ (kvs : List (Str × Data)) (js : List (Str × J)), ProperDict kvs →
    encDict N m kvs = .ok js → rawDict js = kvs → RawDict kvs
  | [], _, _, _, _ => trivial
  | (k, x) :: r, js, hp, h, e => by
    simp only [encDict] at h
    split at h
    · cases h
    · rename_i j hj
      split at h
      · cases h
      · rename_i js' hjs
        cases h
        simp only [rawDict, List.cons.injEq, Prod.mk.injEq, true_and] at e
        exact ⟨raw_of_enc x j hp.1 hj e.1, rawDict_of_enc r js' hp.2 hjs e.2⟩
end

theorem decStr_str {s t : Str} (h : decStr N s = .ok (.str t)) : s ≠ unsetMark ∧ ¬ uuidMark <+: s := by
  unfold decStr at h
  split at h
  · cases h
  · rename_i h1
    split at h
    · split at h <;> cases h
    · rename_i h2
      rw [List.isPrefixOf_iff_prefix] at h2
      exact ⟨h1, h2⟩

mutual
/-- What comes back was safe. -/
theorem comes_safe (hN : ∀ s d, N.findOb s = some d → ∃ t, d = .cls t ∨ d = .func t) :
    ∀ (d : Data) (j : J) (n : Nat) (r : Option Oid) (w w' : World) (x : Dec), Proper d →
    encData N {} d = .ok j → decode E N n j r w = (.ok x, w') → x.toData = some d → Safe N d
  | .none, _, _, _, _, _, _, _, _, _, _ => trivial
  | .bool _, _, _, _, _, _, _, _, _, _, _ => trivial
  | .int _, _, _, _, _, _, _, _, _, _, _ => trivial
  | .unset, _, _, _, _, _, _, _, _, _, _ => trivial
  | .uuid _, _, _, _, _, _, _, _, _, _, _ => trivial
  | .str s, j, n, r, w, w', x, _, he, hd, hx => by
    cases he
    cases n with
    | zero => cases hd
    | succ n =>
      simp only [decode, M.bind_apply, M.ofExcept_apply] at hd
      cases hs : decStr N s with
      | error e => rw [hs] at hd; cases hd
      | ok d =>
        rw [hs] at hd
        cases hd
        cases hx
        exact decStr_str hs
  | .cls s, j, n, r, w, w', x, _, he, hd, hx => by
    cases he
    cases n with
    | zero => cases hd
    | succ n =>
      cases hs : N.findOb s with
      | none => simp [decode, decOb, hs, Od.get?] at hd
      | some d =>
        simp [decode, decOb, hs, Od.get?] at hd
        rw [← hd.1] at hx
        cases hx
        exact hs
  | .func s, j, n, r, w, w', x, _, he, hd, hx => by
    cases he
    cases n with
    | zero => cases hd
    | succ n =>
      cases hs : N.findOb s with
      | none => simp [decode, decOb, hs, Od.get?] at hd
      | some d =>
        simp [decode, decOb, hs, Od.get?] at hd
        rw [← hd.1] at hx
        cases hx
        exact hs
  | .bytes _, _, _, _, _, _, _, _, he, _, _ => by cases he
  | .opaque _, _, _, _, _, _, _, _, he, _, _ => by cases he
  | .tuple xs, j, n, r, w, w', x, _, he, hd, hx => by
    simp only [encData] at he
    split at he
    · cases he
      cases n with
      | zero => cases hd
      | succ n =>
        simp only [decode, M.bind_apply] at hd
        split at hd
        · cases hd
          simp only [Dec.toData, Option.map_eq_some_iff] at hx
          obtain ⟨ds, -, h⟩ := hx
          cases h
        · cases hd
    · cases he
  | .list xs, j, n, r, w, w', x, hp, he, hd, hx => by
    simp only [encData] at he
    split at he
    · rename_i js hjs
      cases he
      cases n with
      | zero => cases hd
      | succ n =>
        simp only [decode, M.bind_apply] at hd
        split at hd
        · rename_i ys w1 hys
          cases hd
          simp only [Dec.toData, Option.map_eq_some_iff, Data.list.injEq] at hx
          obtain ⟨ds, h1, rfl⟩ := hx
          exact comes_safeList hN ds js n r w w' ys hp hjs hys h1
        · cases hd
    · cases he
  | .dict kvs, j, n, r, w, w', x, hp, he, hd, hx => by
    simp only [encData] at he
    split at he
    · rename_i js hjs
      have hk := encDict_keys hjs
      rw [jobj_nodup (by rw [hk]; exact hp.1)] at he
      cases he
      cases n with
      | zero => cases hd
      | succ n =>
        cases hob : Od.get? js obKey with
        | some j' =>
          simp only [decode, hob, M.bind_apply, M.ofExcept_apply] at hd
          cases hs : decOb N j' with
          | error e => rw [hs] at hd; cases hd
          | ok d =>
            rw [hs] at hd
            cases hd
            cases hx
            cases j' with
            | str s =>
              simp only [decOb] at hs
              cases hf : N.findOb s with
              | none => rw [hf] at hs; cases hs
              | some d =>
                rw [hf] at hs
                cases hs
                obtain ⟨t, h | h⟩ := hN s _ hf <;> cases h
            | _ => cases hs
        | none =>
          cases hnd : Od.get? js nodeKey with
          | some j' =>
            cases j' with
            | obj data =>
              simp only [decode, hob, hnd, M.bind_apply] at hd
              split at hd
              · split at hd
                · split at hd
                  · cases hd
                    cases hx
                  · cases hd
                · cases hd
              · cases hd
            | _ =>
              simp only [decode, hob, hnd] at hd
              cases hd
          | none =>
            simp only [decode, hob, hnd] at hd
            cases hd
            simp only [Dec.toData, Option.some.injEq, raw, Data.dict.injEq] at hx
            refine ⟨fun h => ?_, fun h => ?_, rawDict_of_enc kvs js hp.2 hjs hx⟩
            · obtain ⟨v, hv⟩ := get?_of_mem (hk ▸ h)
              rw [hob] at hv; cases hv
            · obtain ⟨v, hv⟩ := get?_of_mem (hk ▸ h)
              rw [hnd] at hv; cases hv
    · cases he
theorem comes_safeList (hN : ∀ s d, N.findOb s = some d → ∃ t, d = .cls t ∨ d = .func t) :
    ∀ (xs : List Data) (js : List J) (n : Nat) (r : Option Oid) (w w' : World) (ys : List Dec),
    ProperList xs → encList N {} xs = .ok js →
    forM' (fun x => decode E N n x r) js w = (.ok ys, w') → Dec.listData ys = some xs → SafeList N xs
  | [], _, _, _, _, _, _, _, _, _, _ => trivial
  | x :: t, js, n, r, w, w', ys, hp, he, hd, hx => by
    simp only [encList] at he
    split at he
    · cases he
    · rename_i j hj
      split at he
      · cases he
      · rename_i js' hjs
        cases he
        simp only [forM', M.bind_apply] at hd
        rcases hy : decode E N n j r w with ⟨e | y, w1⟩
        · rw [hy] at hd; cases hd
        · rw [hy] at hd
          simp only at hd
          rcases hys : forM' (fun x => decode E N n x r) js' w1 with ⟨e | ys', w2⟩
          · rw [hys] at hd; cases hd
          · rw [hys] at hd
            cases hd
            simp only [Dec.listData] at hx
            cases h1 : y.toData with
            | none => simp only [h1] at hx; cases hx
            | some d =>
              cases h2 : Dec.listData ys' with
              | none => simp only [h1, h2] at hx; cases hx
              | some ds =>
                simp only [h1, h2] at hx
                cases hx
                exact ⟨comes_safe hN x j n r w w1 y hp.1 hj hy h1,
                  comes_safeList hN t js' n r w1 w' ys' hp.2 hjs hys h2⟩
end

theorem serialize_data (n : Nat) (d : Data) (w : World) :
    serialize E N {} n (.val (.data d)) w = (encData N {} d, w) := by
  cases n <;> simp [serialize, default, dumps]

/-- C47, what is true of it: exactly the safe values survive. -/
theorem c47_iff_partial (hN : ∀ s d, N.findOb s = some d → ∃ t, d = .cls t ∨ d = .func t)
    {d : Data} (hp : Proper d) {n : Nat} (hn : height d < n) (w : World) :
    Survives E N n d w ↔ Safe N d := by
  constructor
  · rintro ⟨j, x, w', h1, h2, h3⟩
    rw [serialize_data] at h1
    simp only [Prod.mk.injEq, and_true] at h1
    exact comes_safe hN d j n none w w' x hp h1 h2 h3
  · intro h
    obtain ⟨j, h1, h2⟩ := safe_comes (E := E) d hp h
    obtain ⟨x, h3, h4⟩ := h2 n hn none w
    exact ⟨j, x, w, by rw [serialize_data, h1], h3, h4⟩

/-- Encoding and decoding values does not touch the heap. -/
theorem c47_pure {d : Data} (hp : Proper d) (hs : Safe N d) {n : Nat} (hn : height d < n)
    (r : Option Oid) (w : World) : ∃ j x, serialize E N {} n (.val (.data d)) w = (.ok j, w) ∧
      deserialize E N n j r w = (.ok x, w) ∧ x.toData = some d := by
  obtain ⟨j, h1, h2⟩ := safe_comes (E := E) d hp hs
  obtain ⟨x, h3, h4⟩ := h2 n hn r w
  exact ⟨j, x, by rw [serialize_data, h1], h3, h4⟩

/-! ### Concrete cases -/

/-- A codec: uuids as words of `x`, one class and one function that can be found. -/
def sampleCodec : Codec where
  uuidStr u := List.replicate u 'x'
  parseUuid s := some s.length
  parse_ok u := by simp
  findCls s := if s = "node.base.BaseNode".toList then some 0
    else if s = "node.base.OrderedNode".toList then some 1
    else if s = "node.base.AttributedNode".toList then some 2 else none
  findOb s := if s = "node.base.BaseNode".toList then some (.cls s)
    else if s = "node.utils.debug".toList then some (.func s) else none

theorem sampleCodec_finds : ∀ s d, sampleCodec.findOb s = some d → ∃ t, d = .cls t ∨ d = .func t := by
  intro s d h
  simp only [sampleCodec] at h
  split at h
  · cases h; exact ⟨_, .inl rfl⟩
  · split at h
    · cases h; exact ⟨_, .inr rfl⟩
    · cases h

/-- A value with everything that survives. -/
def sampleData : Data := .list [.unset, .uuid 3, .str "<UUID>".toList, .cls "node.base.BaseNode".toList,
  .func "node.utils.debug".toList, .list [.int (-5), .none],
  .dict [("a".toList, .list [.bool true]), ("b".toList, .str "<UNSET>".toList)]]

example : Proper sampleData ∧ Safe sampleCodec sampleData ∧ height sampleData = 2 := by
  refine ⟨?_, ?_, by decide⟩
  · simp only [sampleData, Proper, ProperList, ProperDict]
    decide
  · simp only [sampleData, Safe, SafeList, RawDict, Raw, RawList]
    decide

/-- C47 is false: a dictionary with `UNSET` inside, a string that is the marker of `UNSET`, and
a string that starts like a uuid, do not survive. -/
theorem c47_refuted (n : Nat) (w : World) :
    ¬ Survives E sampleCodec n (.dict [("a".toList, .unset)]) w ∧
    ¬ Survives E sampleCodec n (.str "<UNSET>".toList) w ∧
    ¬ Survives E sampleCodec n (.str "<UUID>:1".toList) w ∧
    ¬ Survives E sampleCodec n (.dict [("__ob__".toList, .none)]) w ∧
    ¬ Survives E sampleCodec n (.dict [("c".toList, .cls "node.base.BaseNode".toList)]) w := by
  have key : ∀ d, Proper d → ¬ Safe sampleCodec d → ¬ Survives E sampleCodec n d w := by
    rintro d hp hs ⟨j, x, w', h1, h2, h3⟩
    rw [serialize_data] at h1
    simp only [Prod.mk.injEq, and_true] at h1
    exact hs (comes_safe sampleCodec_finds d j n none w w' x hp h1 h2 h3)
  refine ⟨key _ ?_ ?_, key _ ?_ ?_, key _ ?_ ?_, key _ ?_ ?_, key _ ?_ ?_⟩
  all_goals first
    | (simp only [Proper, ProperDict]; decide)
    | (simp only [Proper])
    | (simp only [Safe, RawDict, Raw]; decide)

end Verif.Ser
