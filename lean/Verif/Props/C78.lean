import Mathlib.Data.List.Induction
import Verif.Model.Registry
import Verif.Props.C77

/-!
# C78: registered serializers and deserializers

`node.serializer.serializer` and `deserializer` (serializer.py:48-71), and what the encoder and the decoder do with the
registered callbacks (serializer.py:125-129, 188-192).
-/

namespace Verif.Ser

variable {E : Env} {prov : Provides} {N : Codec} {m : Mode}

/-! ### The package itself -/

theorem assigned_none {data : List (Key × P)} {k : Key} (h : k ∉ data.map Prod.fst) : assigned data k = none := by
  unfold assigned
  rw [List.find?_eq_none.mpr]
  · rfl
  · intro kv hkv
    have : kv.1 ≠ k := fun e => h (List.mem_map.mpr ⟨kv, List.mem_reverse.mp hkv, e⟩)
    simpa using this

theorem shipped_calls (hf : Faithful E prov) (rec : Val → M P) (o : Oid) {head : List (Key × P)}
    (hh : Key.str attrsName ∉ head.map Prod.fst) :
    runCalls prov (fun cb => cb rec o) o (shippedSer E) head = (do
      let vs ← mvalues E o
      let kids ← forM' rec vs
      let attrsPart ← defaultAttrs E rec o
      pure (head ++ (if kids.isEmpty then [] else [(Key.str kidsKey, P.list kids)]) ++ attrsPart)) := by
  funext w
  have hreg : shippedSer E = [(0, serializeNode E), (1, serializeAttrs E)] := by rfl
  rw [hreg]
  simp only [runCalls, hf.node, if_true, serializeNode, M.bind_apply, M.getW_apply]
  rcases mvalues E o w with ⟨_ | vs, w1⟩
  · rfl
  dsimp only
  rcases forM' rec vs w1 with ⟨_ | kids, w2⟩
  · rfl
  dsimp only [M.pure_apply]
  unfold defaultAttrs
  rw [hf.attributes]
  by_cases hc : (clsOf E w2 o).bhvs.contains .attributes = true
  · rw [if_pos hc, if_pos (show (E.cls (w2.objs o).cls).bhvs.contains .attributes = true from hc)]
    simp only [serializeAttrs, M.bind_apply]
    rcases attrs E o w2 with ⟨_ | a, w3⟩
    · rfl
    dsimp only
    rcases attrsItems E o a w3 with ⟨_ | items, w4⟩
    · rfl
    dsimp only
    rcases forM' (fun (kv : Key × Val) => do
        let p ← rec kv.2
        pure (kv.1, p)) items w4 with ⟨_ | kvs, w5⟩
    · rfl
    dsimp only
    rw [assigned_none]
    · simp only [M.pure_apply]
      split <;> simp
    · split
      · exact hh
      · simp only [List.map_append, List.mem_append, not_or]
        exact ⟨hh, by simp only [List.map_cons, List.map_nil]; decide⟩
  · rw [if_neg hc, if_neg (show ¬ (E.cls (w2.objs o).cls).bhvs.contains .attributes = true from hc)]
    simp only [M.pure_apply]
    split <;> simp

/-- With what the package registers itself the encoder is the one of `Verif.Model.Serializer`. -/
theorem shipped_default (hf : Faithful E prov) (n : Nat) (v : Val) :
    defaultR E prov (shippedSer E) m n v = default E m n v := by
  induction n generalizing v with
  | zero => cases v <;> unfold defaultR default <;> rfl
  | succ n ih =>
    cases v with
    | data d => unfold defaultR default; rfl
    | node o =>
      have hrec : defaultR E prov (shippedSer E) m n = default E m n := funext ih
      funext w
      simp only [defaultR, default, hrec]
      rw [M.bind_apply, M.bind_apply, M.getW_apply]
      dsimp only
      rw [shipped_calls hf]
      · simp only [M.bind_apply]
        rcases mvalues E o w with ⟨_ | vs, w1⟩
        · rfl
        dsimp only
        rcases forM' (default E m n) vs w1 with ⟨_ | kids, w2⟩
        · rfl
        dsimp only
        rcases defaultAttrs E (default E m n) o w2 with ⟨_ | at', w3⟩ <;> rfl
      · split <;> simp <;> decide

/-- And the decoder is. -/
theorem shipped_decode (hf : Faithful E prov) (n : Nat) (j : J) (parent : Option Oid) :
    decodeR E prov (shippedDes E) N n j parent = decode E N n j parent := by
  induction n generalizing j parent with
  | zero => unfold decodeR decode; rfl
  | succ n ih =>
    have hrec : decodeR E prov (shippedDes E) N n = decode E N n := funext fun j => funext fun p => ih j p
    cases j with
    | obj kvs =>
      simp only [decodeR, decode, hrec]
      cases h1 : Od.get? kvs obKey with
      | some j => rfl
      | none =>
        cases h2 : Od.get? kvs nodeKey with
        | none => rfl
        | some r =>
          cases r with
          | null => rfl
          | bool _ => rfl
          | int _ => rfl
          | str _ => rfl
          | list _ => rfl
          | obj data =>
          dsimp only
          funext w
          simp only [M.bind_apply]
          rcases nodeFactory E N (decode E N n) data parent w with ⟨_ | o, w1⟩
          · rfl
          dsimp only
          have hreg : shippedDes E = [(0, deserializeNode), (1, deserializeAttrs E)] := by rfl
          rw [hreg]
          simp only [runCalls, hf.node, if_true, deserializeNode, M.bind_apply, M.getW_apply]
          rcases decKids (decode E N n) o data w1 with ⟨_ | _, w2⟩
          · rfl
          dsimp only [M.pure_apply]
          unfold decAttrs
          rw [hf.attributes]
          by_cases hc : (clsOf E w2 o).bhvs.contains .attributes = true
          · rw [if_pos hc, if_pos (show (E.cls (w2.objs o).cls).bhvs.contains .attributes = true from hc)]
            simp only [deserializeAttrs, M.bind_apply]
            cases ha : Od.get? data attrsName with
            | none => rfl
            | some r =>
              cases r with
              | null => rfl
              | bool _ => rfl
              | int _ => rfl
              | str _ => rfl
              | list _ => rfl
              | obj kvs' =>
                dsimp only
                generalize forU (fun (kv : Str × J) => do
                  let x ← decode E N n kv.2 none
                  let v ← x.toVal
                  let a ← attrs E o
                  setitem E a (.str kv.1) v) kvs' = body
                rcases body w2 with ⟨_ | _, w3⟩ <;> rfl
          · rw [if_neg hc, if_neg (show ¬ (E.cls (w2.objs o).cls).bhvs.contains .attributes = true from hc)]
            rfl
    | list xs => simp only [decodeR, decode, hrec]
    | str s => simp only [decodeR, decode]
    | null => simp only [decodeR, decode]
    | bool b => simp only [decodeR, decode]
    | int i => simp only [decodeR, decode]

/-! ### What is registered -/

section
variable {α : Type}

theorem registerAll_snoc (reg : Od Sel α) (l : List (Sel × α)) (x : Sel × α) :
    registerAll reg (l ++ [x]) = Od.set (registerAll reg l) x.1 x.2 := by
  simp only [registerAll, register, List.foldl_append, List.foldl_cons, List.foldl_nil]

/-- After any decorators the registry holds one callback for each interface or class: the one registered last for it;
they are in the order in which something was first registered for these. -/
theorem c78_registry (l : List (Sel × α)) :
    let reg := registerAll [] l
    (reg.map Prod.fst).Nodup ∧
    (∀ s cb, (s, cb) ∈ reg ↔ ∃ before after, l = before ++ (s, cb) :: after ∧ s ∉ after.map Prod.fst) ∧
    (reg.map Prod.fst).Pairwise fun s t => (l.map Prod.fst).idxOf s < (l.map Prod.fst).idxOf t := by
  suffices ∀ l : List (Sel × α), let reg := registerAll [] l
      (reg.map Prod.fst).Nodup ∧ (∀ s, s ∈ reg.map Prod.fst ↔ s ∈ l.map Prod.fst) ∧
      (∀ s cb, Od.get? reg s = some cb ↔ ∃ before after, l = before ++ (s, cb) :: after ∧ s ∉ after.map Prod.fst) ∧
      (reg.map Prod.fst).Pairwise fun s t => (l.map Prod.fst).idxOf s < (l.map Prod.fst).idxOf t by
    obtain ⟨h1, _, h3, h4⟩ := this l
    exact ⟨h1, fun s cb => (Iff.intro (Od.get?_of_mem h1) Od.get?_some_mem).trans (h3 s cb), h4⟩
  intro l
  induction l using List.reverseRecOn with
  | nil => exact ⟨.nil, fun _ => Iff.rfl, fun s cb => ⟨nofun, fun ⟨b, a, e, _⟩ => by simp at e⟩, .nil⟩
  | append_singleton l x ih =>
    obtain ⟨h1, h2, h3, h4⟩ := ih
    obtain ⟨s0, cb0⟩ := x
    intro reg
    have hreg : reg = Od.set (registerAll [] l) s0 cb0 := registerAll_snoc [] l (s0, cb0)
    have hk : reg.map Prod.fst = if s0 ∈ (registerAll [] l).map Prod.fst then (registerAll [] l).map Prod.fst
        else (registerAll [] l).map Prod.fst ++ [s0] := by rw [hreg]; exact Od.keys_set _ _ _
    have hidx : ∀ s ∈ l.map Prod.fst, ((l ++ [(s0, cb0)]).map Prod.fst).idxOf s = (l.map Prod.fst).idxOf s := by
      intro s hs
      rw [List.map_append, List.idxOf_append_of_mem hs]
    have h4' : ((registerAll [] l).map Prod.fst).Pairwise fun s t =>
        ((l ++ [(s0, cb0)]).map Prod.fst).idxOf s < ((l ++ [(s0, cb0)]).map Prod.fst).idxOf t :=
      h4.imp_of_mem fun hs ht h => by rw [hidx _ ((h2 _).mp hs), hidx _ ((h2 _).mp ht)]; exact h
    refine ⟨?_, ?_, ?_, ?_⟩
    · rw [hk]
      split
      · exact h1
      · rename_i hn
        exact List.nodup_append.mpr ⟨h1, by simp, fun a ha b hb => by
          rw [List.mem_singleton.mp hb]; rintro rfl; exact hn ha⟩
    · intro s
      rw [hk, List.map_append, List.mem_append, List.map_cons, List.map_nil, List.mem_singleton]
      split
      · rename_i hm
        rw [h2]
        exact ⟨.inl, fun h => h.elim id fun e => e ▸ (h2 _).mp hm⟩
      · rw [List.mem_append, h2, List.mem_singleton]
    · intro s cb
      rw [hreg, Od.get?_set]
      constructor
      · intro h
        by_cases e : s = s0
        · rw [if_pos e] at h
          cases h
          exact ⟨l, [], by rw [e], by simp⟩
        · rw [if_neg e] at h
          obtain ⟨b, a, e1, e2⟩ := (h3 s cb).mp h
          exact ⟨b, a ++ [(s0, cb0)], by rw [e1]; simp, by simp only [List.map_append, List.mem_append, not_or]; exact ⟨e2, by simpa using e⟩⟩
      · rintro ⟨b, a, e1, e2⟩
        rcases List.eq_nil_or_concat a with rfl | ⟨a', y, rfl⟩
        · obtain ⟨rfl, e⟩ := List.append_inj' e1 rfl
          cases e
          rw [if_pos rfl]
        · rw [List.concat_eq_append, ← List.cons_append, ← List.append_assoc] at e1
          obtain ⟨rfl, e⟩ := List.append_inj' e1 rfl
          cases e
          simp only [List.concat_eq_append, List.map_append, List.mem_append, not_or, List.map_cons, List.map_nil,
            List.mem_singleton] at e2
          rw [if_neg e2.2]
          exact (h3 s cb).mpr ⟨b, a', rfl, e2.1⟩
    · rw [hk]
      split
      · exact h4'
      · rename_i hn
        refine List.pairwise_append.mpr ⟨h4', List.pairwise_singleton _ _, fun s hs t ht => ?_⟩
        rw [List.mem_singleton.mp ht, hidx s ((h2 s).mp hs), List.map_append,
          List.idxOf_append_of_notMem fun h => hn ((h2 _).mpr h)]
        exact Nat.lt_of_lt_of_le (List.idxOf_lt_length_of_mem ((h2 s).mp hs)) (Nat.le_add_right _ _)

/-- The callbacks called for a node, for callbacks that return: each one registered for something the node provides is
called once, in the order of the registry. -/
theorem c78_calls {δ : Type} (call : α → δ → M δ) (step : α → δ → δ) (h : ∀ cb d w, call cb d w = (.ok (step cb d), w))
    (o : Oid) (reg : Od Sel α) (d : δ) (w : World) : runCalls prov call o reg d w =
      (.ok ((reg.filter fun x => prov (w.objs o).cls x.1).foldl (fun d x => step x.2 d) d), w) := by
  induction reg generalizing d with
  | nil => rfl
  | cons x r ih =>
    simp only [runCalls, M.bind_apply, M.getW_apply, List.filter_cons]
    by_cases hp : prov (w.objs o).cls x.1 = true
    · simp only [if_pos hp, M.bind_apply, h, ih, List.foldl_cons]
    · simp only [if_neg hp, ih]
end

/-! ### Serializers that add to the records -/

/-- A serializer that only adds members to the record, whose names the package does not use and whose values json can
write. -/
def Adds (N : Codec) (m : Mode) (cb : SerCall) : Prop := ∀ rec o data w, ∃ extra : List (Key × P),
  cb rec o data w = (.ok (data ++ extra), w) ∧ ∀ kv ∈ extra, ∃ s j, kv.1 = .str s ∧
    s ∉ ["class", "name", "kw", "children", "attrs"].map String.toList ∧ dumps N m kv.2 = .ok j

/-- What json makes of the one is alike what it makes of the other. -/
def WrittenAlike (N : Codec) (m : Mode) (p p' : P) : Prop :=
  match dumps N m p with
  | .ok j => ∃ j', dumps N m p' = .ok j' ∧ ReadAlike j j'
  | .error e => dumps N m p' = .error e

theorem WrittenAlike.refl (p : P) : WrittenAlike N m p p := by
  unfold WrittenAlike
  cases h : dumps N m p with
  | ok j => exact ⟨j, rfl, .same j⟩
  | error e => rfl

theorem dumpsList_alike {ps qs : List P} (h : List.Forall₂ (WrittenAlike N m) ps qs) :
    match dumpsList N m ps with
    | .ok js => ∃ js', dumpsList N m qs = .ok js' ∧ List.Forall₂ ReadAlike js js'
    | .error e => dumpsList N m qs = .error e := by
  induction h with
  | nil => exact ⟨[], rfl, .nil⟩
  | @cons p q ps qs h _ ih =>
    unfold WrittenAlike at h
    simp only [dumpsList]
    cases h1 : dumps N m p with
    | error e => rw [h1] at h; simp only at h ⊢; rw [h]
    | ok j =>
      rw [h1] at h
      obtain ⟨j', e1, e2⟩ := h
      simp only [e1]
      cases h2 : dumpsList N m ps with
      | error e => rw [h2] at ih; simp only at ih ⊢; rw [ih]
      | ok js =>
        rw [h2] at ih
        obtain ⟨js', e3, e4⟩ := ih
        simp only [e3]
        exact ⟨_, rfl, .cons e2 e4⟩

theorem dumpsObj_alike {ps qs : List (Key × P)}
    (h : List.Forall₂ (fun a b => a.1 = b.1 ∧ WrittenAlike N m a.2 b.2) ps qs) :
    match dumpsObj N m ps with
    | .ok js => ∃ js', dumpsObj N m qs = .ok js' ∧ List.Forall₂ (fun a b => a.1 = b.1 ∧ ReadAlike a.2 b.2) js js'
    | .error e => dumpsObj N m qs = .error e := by
  induction h with
  | nil => exact ⟨[], rfl, .nil⟩
  | @cons p q ps qs h _ ih =>
    obtain ⟨k, p⟩ := p
    obtain ⟨k', q⟩ := q
    obtain ⟨hk, h⟩ := h
    cases hk
    unfold WrittenAlike at h
    simp only [dumpsObj] at h ⊢
    cases h0 : memberName k with
    | error e => rfl
    | ok s =>
      dsimp only
      cases h1 : dumps N m p with
      | error e => rw [h1] at h; simp only at h ⊢; rw [h]
      | ok j =>
        rw [h1] at h
        obtain ⟨j', e1, e2⟩ := h
        simp only [e1]
        cases h2 : dumpsObj N m ps with
        | error e => rw [h2] at ih; simp only at ih ⊢; rw [ih]
        | ok js =>
          rw [h2] at ih
          obtain ⟨js', e3, e4⟩ := ih
          simp only [e3]
          exact ⟨_, rfl, .cons ⟨rfl, e2⟩ e4⟩

theorem dumpsObj_concat (ps qs : List (Key × P)) : dumpsObj N m (ps ++ qs) =
    match dumpsObj N m ps with
    | .error e => .error e
    | .ok js => match dumpsObj N m qs with
      | .error e => .error e
      | .ok js' => .ok (js ++ js') := by
  induction ps with
  | nil => simp only [List.nil_append, dumpsObj]; split <;> simp_all
  | cons p ps ih =>
    simp only [List.cons_append, dumpsObj, ih]
    cases memberName p.1 with
    | error e => rfl
    | ok s =>
      dsimp only
      cases dumps N m p.2 with
      | error e => rfl
      | ok j =>
        dsimp only
        cases dumpsObj N m ps with
        | error e => rfl
        | ok js =>
          dsimp only
          cases dumpsObj N m qs <;> rfl

theorem dumpsObj_extra {extra : List (Key × P)} (h : ∀ kv ∈ extra, ∃ s j, kv.1 = Key.str s ∧
      s ∉ ["class", "name", "kw", "children", "attrs"].map String.toList ∧ dumps N m kv.2 = .ok j) :
    ∃ js, dumpsObj N m extra = .ok js ∧ ∀ kv ∈ js, kv.1 ∉ ["class", "name", "kw", "children", "attrs"].map String.toList := by
  induction extra with
  | nil => exact ⟨[], rfl, fun _ h => nomatch h⟩
  | cons x r ih =>
    obtain ⟨js, e1, e2⟩ := ih fun kv hkv => h kv (List.mem_cons_of_mem _ hkv)
    obtain ⟨s, j, h1, h2, h3⟩ := h x List.mem_cons_self
    refine ⟨(s, j) :: js, ?_, ?_⟩
    · simp only [dumpsObj, h1, memberName, h3, e1]
    · intro kv hkv
      rcases List.mem_cons.mp hkv with rfl | hkv
      · exact h2
      · exact e2 kv hkv

theorem set_alike {as bs : List (Str × J)} (h : List.Forall₂ (fun a b => a.1 = b.1 ∧ ReadAlike a.2 b.2) as bs) (k : Str)
    {x y : J} (hxy : ReadAlike x y) :
    List.Forall₂ (fun a b => a.1 = b.1 ∧ ReadAlike a.2 b.2) (Od.set as k x) (Od.set bs k y) := by
  induction h with
  | nil => exact .cons ⟨rfl, hxy⟩ .nil
  | @cons a b as bs h hr ih =>
    obtain ⟨k', x'⟩ := a
    obtain ⟨k'', y'⟩ := b
    obtain ⟨hk, h⟩ := h
    cases hk
    simp only [Od.set]
    split
    · exact .cons ⟨rfl, hxy⟩ hr
    · exact .cons ⟨rfl, h⟩ ih

theorem jobj_alike {as bs : List (Str × J)} (h : List.Forall₂ (fun a b => a.1 = b.1 ∧ ReadAlike a.2 b.2) as bs) :
    ∃ as' bs', jobj as = .obj as' ∧ jobj bs = .obj bs' ∧
      List.Forall₂ (fun a b => a.1 = b.1 ∧ ReadAlike a.2 b.2) as' bs' := by
  refine ⟨_, _, rfl, rfl, ?_⟩
  suffices ∀ d d', List.Forall₂ (fun a b => a.1 = b.1 ∧ ReadAlike a.2 b.2) d d' →
      List.Forall₂ (fun a b => a.1 = b.1 ∧ ReadAlike a.2 b.2)
        (as.foldl (fun d kv => Od.set d kv.1 kv.2) d) (bs.foldl (fun d kv => Od.set d kv.1 kv.2) d') from
    this [] [] .nil
  induction h with
  | nil => exact fun _ _ h => h
  | @cons a b as bs h _ ih =>
    intro d d' hd
    simp only [List.foldl_cons]
    rw [h.1]
    exact ih _ _ (set_alike hd b.1 h.2)

theorem get?_foldl_set (d : List (Str × J)) (l : List (Str × J)) {k : Str} (hk : ∀ kv ∈ l, kv.1 ≠ k) :
    Od.get? (l.foldl (fun d kv => Od.set d kv.1 kv.2) d) k = Od.get? d k := by
  induction l generalizing d with
  | nil => rfl
  | cons x r ih =>
    rw [List.foldl_cons, ih _ fun kv hkv => hk kv (List.mem_cons_of_mem _ hkv), Od.get?_set,
      if_neg fun e => hk x List.mem_cons_self e.symm]

/-- The callbacks that add, one after the other. -/
theorem runCalls_adds {reg : Od Sel SerCall} (h : ∀ x ∈ reg, Adds N m x.2) (rec : Val → M P) (o : Oid)
    (data : List (Key × P)) (w : World) : ∃ extra, runCalls prov (fun cb => cb rec o) o reg data w = (.ok (data ++ extra), w) ∧
      ∀ kv ∈ extra, ∃ s j, kv.1 = Key.str s ∧
        s ∉ ["class", "name", "kw", "children", "attrs"].map String.toList ∧ dumps N m kv.2 = .ok j := by
  induction reg generalizing data with
  | nil => exact ⟨[], by simp [runCalls, M.pure_apply], fun _ h => nomatch h⟩
  | cons x r ih =>
    simp only [runCalls, M.bind_apply, M.getW_apply]
    have ih := fun data => ih (fun y hy => h y (List.mem_cons_of_mem _ hy)) data
    by_cases hp : prov (w.objs o).cls x.1 = true
    · obtain ⟨e1, h1, h2⟩ := h x List.mem_cons_self rec o data w
      obtain ⟨e2, h3, h4⟩ := ih (data ++ e1)
      refine ⟨e1 ++ e2, ?_, ?_⟩
      · simp only [if_pos hp, M.bind_apply, h1, h3, List.append_assoc]
      · intro kv hkv
        rcases List.mem_append.mp hkv with hkv | hkv
        · exact h2 kv hkv
        · exact h4 kv hkv
    · obtain ⟨e2, h3, h4⟩ := ih data
      exact ⟨e2, by simp only [if_neg hp, h3], h4⟩

theorem runCalls_append {α δ : Type} (call : α → δ → M δ) (o : Oid) (r1 r2 : Od Sel α) (d : δ) (w : World) :
    runCalls prov call o (r1 ++ r2) d w = (runCalls prov call o r1 d >>= runCalls prov call o r2) w := by
  induction r1 generalizing d w with
  | nil => rfl
  | cons x r ih =>
    simp only [List.cons_append, runCalls, M.bind_apply, M.getW_apply]
    by_cases hp : prov (w.objs o).cls x.1 = true
    · simp only [if_pos hp, M.bind_apply]
      rcases call x.2 d w with ⟨_ | d', w'⟩
      · rfl
      · simp only [ih, M.bind_apply]
    · simp only [if_neg hp, ih, M.bind_apply]

theorem pairs_names {r : J → J → Prop} {la lb : List (Str × J)}
    (h : List.Forall₂ (fun a b => a.1 = b.1 ∧ r a.2 b.2) la lb) : la.map Prod.fst = lb.map Prod.fst := by
  induction h with
  | nil => rfl
  | cons h _ ih => rw [List.map_cons, List.map_cons, h.1, ih]

theorem pairs_values {r : J → J → Prop} {la lb : List (Str × J)}
    (h : List.Forall₂ (fun a b => a.1 = b.1 ∧ r a.2 b.2) la lb) :
    List.Forall₂ r (la.map Prod.snd) (lb.map Prod.snd) := by
  induction h with
  | nil => exact .nil
  | cons h _ ih => exact .cons h.2 ih

/-- A record read by its members, beside which there may be others. -/
theorem record_alike {ms ms' extra : List (Str × J)} {js js' : List J} {la lb : List (Str × J)}
    (he : ∀ kv ∈ extra, kv.1 ∉ ["class", "name", "kw", "children", "attrs"].map String.toList)
    (plain : ∀ k ∈ ["class", "name", "kw"], Od.get? (ms'.foldl (fun d kv => Od.set d kv.1 kv.2) []) (String.toList k) =
      Od.get? (ms.foldl (fun d kv => Od.set d kv.1 kv.2) []) (String.toList k))
    (kids : Children (ms.foldl (fun d kv => Od.set d kv.1 kv.2) []) js)
    (kids' : Children (ms'.foldl (fun d kv => Od.set d kv.1 kv.2) []) js') (hk : List.Forall₂ ReadAlike js js')
    (attrs : Attrs (ms.foldl (fun d kv => Od.set d kv.1 kv.2) []) la)
    (attrs' : Attrs (ms'.foldl (fun d kv => Od.set d kv.1 kv.2) []) lb)
    (ha : List.Forall₂ (fun a b => a.1 = b.1 ∧ ReadAlike a.2 b.2) la lb) :
    ReadAlike (jobj [(nodeKey, jobj ms)]) (jobj [(nodeKey, jobj (ms' ++ extra))]) := by
  have keep : ∀ k ∈ ["class", "name", "kw", "children", "attrs"],
      Od.get? ((ms' ++ extra).foldl (fun d kv => Od.set d kv.1 kv.2) []) (String.toList k) =
        Od.get? (ms'.foldl (fun d kv => Od.set d kv.1 kv.2) []) (String.toList k) := by
    intro k hk
    rw [List.foldl_append, get?_foldl_set]
    rintro kv hkv e
    exact he kv hkv (List.mem_map.mpr ⟨k, hk, e.symm⟩)
  refine .node (by rfl) (by rfl) (d := ms.foldl (fun d kv => Od.set d kv.1 kv.2) [])
    (d' := (ms' ++ extra).foldl (fun d kv => Od.set d kv.1 kv.2) []) (by rfl) (by rfl) ?_ kids ?_ hk attrs ?_ ?_ ?_
    (ys := js') (bs := lb)
  · intro k hk
    rw [keep k (by simp only [List.mem_cons, List.not_mem_nil, or_false] at hk ⊢; tauto), plain k hk]
  · have := keep "children" (by simp)
    cases kids' with
    | absent h => exact .absent (this.trans h)
    | null h => exact .null (this.trans h)
    | listed h => exact .listed (this.trans h)
  · have := keep "attrs" (by simp)
    cases attrs' with
    | absent h => exact .absent (this.trans h)
    | null h => exact .null (this.trans h)
    | listed h => exact .listed (this.trans h)
  · exact pairs_names ha
  · exact pairs_values ha

theorem written_kids {ks ks' : List P} (hk : List.Forall₂ (WrittenAlike N m) ks ks') :
    match dumpsObj N m (if ks.isEmpty then [] else [(Key.str kidsKey, P.list ks)]) with
    | .error e => dumpsObj N m (if ks'.isEmpty then [] else [(Key.str kidsKey, P.list ks')]) = .error e
    | .ok mk => ∃ mk' js js', dumpsObj N m (if ks'.isEmpty then [] else [(Key.str kidsKey, P.list ks')]) = .ok mk' ∧
      List.Forall₂ ReadAlike js js' ∧ ((mk = [] ∧ mk' = [] ∧ js = [] ∧ js' = []) ∨
        mk = [(kidsKey, .list js)] ∧ mk' = [(kidsKey, .list js')]) := by
  have h := dumpsList_alike hk
  cases hk with
  | nil => exact ⟨[], [], [], rfl, .nil, .inl ⟨rfl, rfl, rfl, rfl⟩⟩
  | @cons p q ps qs _ _ =>
    simp only [List.isEmpty_cons, Bool.false_eq_true, if_false, dumpsObj, memberName, dumps]
    generalize dumpsList N m (p :: ps) = r at h ⊢
    cases r with
    | error e => simp only at h ⊢; rw [h]
    | ok js =>
      obtain ⟨js', h1, h2⟩ := h
      simp only [h1]
      exact ⟨_, js, js', rfl, h2, .inr ⟨rfl, rfl⟩⟩

theorem written_attrs {as bs : List (Key × P)}
    (ha : List.Forall₂ (fun a b => a.1 = b.1 ∧ WrittenAlike N m a.2 b.2) as bs) (hasAttrs : Bool) :
    match dumpsObj N m (if hasAttrs then [(Key.str attrsName, P.obj as)] else []) with
    | .error e => dumpsObj N m (if hasAttrs then [(Key.str attrsName, P.obj bs)] else []) = .error e
    | .ok ma => ∃ ma' la lb, dumpsObj N m (if hasAttrs then [(Key.str attrsName, P.obj bs)] else []) = .ok ma' ∧
      List.Forall₂ (fun a b => a.1 = b.1 ∧ ReadAlike a.2 b.2) la lb ∧ ((ma = [] ∧ ma' = [] ∧ la = [] ∧ lb = []) ∨
        ma = [(attrsName, .obj la)] ∧ ma' = [(attrsName, .obj lb)]) := by
  have h := dumpsObj_alike ha
  cases hasAttrs with
  | false => exact ⟨[], [], [], rfl, .nil, .inl ⟨rfl, rfl, rfl, rfl⟩⟩
  | true =>
    simp only [if_true, dumpsObj, memberName, dumps]
    generalize dumpsObj N m as = r at h ⊢
    cases r with
    | error e => simp only at h ⊢; rw [h]
    | ok js =>
      obtain ⟨js', h1, h2⟩ := h
      simp only [h1]
      obtain ⟨la, lb, h3, h4, h5⟩ := jobj_alike h2
      rw [h3, h4]
      exact ⟨_, la, lb, rfl, h5, .inr ⟨rfl, rfl⟩⟩

/-- What json makes of a record. -/
theorem written_record {c : Str} {k : Key} {ks ks' : List P} (hk : List.Forall₂ (WrittenAlike N m) ks ks')
    {as bs : List (Key × P)} (ha : List.Forall₂ (fun a b => a.1 = b.1 ∧ WrittenAlike N m a.2 b.2) as bs) (hasAttrs : Bool)
    {extra : List (Key × P)} (he : ∀ kv ∈ extra, ∃ s j, kv.1 = Key.str s ∧
      s ∉ ["class", "name", "kw", "children", "attrs"].map String.toList ∧ dumps N m kv.2 = .ok j) :
    WrittenAlike N m
      (.obj [(.str nodeKey, .obj ([(Key.str classKey, P.str c)] ++ [(Key.str nameKey, P.name k)] ++
        (if ks.isEmpty then [] else [(Key.str kidsKey, P.list ks)]) ++
        (if hasAttrs then [(Key.str attrsName, P.obj as)] else [])))])
      (.obj [(.str nodeKey, .obj ([(Key.str classKey, P.str c)] ++ [(Key.str nameKey, P.name k)] ++
        (if ks'.isEmpty then [] else [(Key.str kidsKey, P.list ks')]) ++
        (if hasAttrs then [(Key.str attrsName, P.obj bs)] else []) ++ extra))]) := by
  obtain ⟨je, e1, e2⟩ := dumpsObj_extra he
  have h1 := written_kids hk
  have h2 := written_attrs ha hasAttrs
  unfold WrittenAlike
  simp only [dumps, dumpsObj, memberName, dumpsObj_concat, e1]
  cases encKey k with
  | error e => rfl
  | ok jn =>
    dsimp only
    generalize dumpsObj N m (if ks.isEmpty then [] else [(Key.str kidsKey, P.list ks)]) = r at h1 ⊢
    cases r with
    | error e => simp only at h1 ⊢; rw [h1]
    | ok mk =>
      obtain ⟨mk', js, js', h3, h4, h5⟩ := h1
      simp only [h3]
      generalize dumpsObj N m (if hasAttrs then [(Key.str attrsName, P.obj as)] else []) = r at h2 ⊢
      cases r with
      | error e => simp only at h2 ⊢; rw [h2]
      | ok ma =>
        obtain ⟨ma', la, lb, h6, h7, h8⟩ := h2
        simp only [h6]
        refine ⟨_, rfl, record_alike e2 (js := js) (js' := js') (la := la) (lb := lb) ?_ ?_ ?_ h4 ?_ ?_ h7⟩
        · intro k hk
          simp only [List.mem_cons, List.not_mem_nil, or_false] at hk
          rcases h5 with ⟨rfl, rfl, _⟩ | ⟨rfl, rfl⟩ <;> rcases h8 with ⟨rfl, rfl, _⟩ | ⟨rfl, rfl⟩ <;>
            rcases hk with rfl | rfl | rfl <;> rfl
        · rcases h5 with ⟨rfl, rfl, rfl, rfl⟩ | ⟨rfl, rfl⟩ <;> rcases h8 with ⟨rfl, rfl, _⟩ | ⟨rfl, rfl⟩ <;>
            first | exact .absent (by rfl) | exact .listed (by rfl)
        · rcases h5 with ⟨rfl, rfl, rfl, rfl⟩ | ⟨rfl, rfl⟩ <;> rcases h8 with ⟨rfl, rfl, _⟩ | ⟨rfl, rfl⟩ <;>
            first | exact .absent (by rfl) | exact .listed (by rfl)
        · rcases h5 with ⟨rfl, rfl, rfl, rfl⟩ | ⟨rfl, rfl⟩ <;> rcases h8 with ⟨rfl, rfl, rfl, rfl⟩ | ⟨rfl, rfl⟩ <;>
            first | exact .absent (by rfl) | exact .listed (by rfl)
        · rcases h5 with ⟨rfl, rfl, rfl, rfl⟩ | ⟨rfl, rfl⟩ <;> rcases h8 with ⟨rfl, rfl, rfl, rfl⟩ | ⟨rfl, rfl⟩ <;>
            first | exact .absent (by rfl) | exact .listed (by rfl)

/-- The second run ends as the first one: with the same exception, or with a related value. -/
def Agree {β : Type} (r : β → β → Prop) (x y : Except Exc β × World) : Prop :=
  match x with
  | (.ok b, w1) => ∃ b', y = (.ok b', w1) ∧ r b b'
  | (.error e, w1) => y = (.error e, w1)

/-- Related steps give related lists. -/
theorem forM_related {α β : Type} {f g : α → M β} {r : β → β → Prop} (h : ∀ a w, Agree r (f a w) (g a w)) (xs : List α) (w : World) :
    Agree (List.Forall₂ r) (forM' f xs w) (forM' g xs w) := by
  unfold Agree at h ⊢
  induction xs generalizing w with
  | nil => exact ⟨[], rfl, .nil⟩
  | cons x xs ih =>
    have hx := h x w
    simp only [forM', M.bind_apply]
    generalize f x w = z at hx ⊢
    obtain ⟨_ | b, w1⟩ := z
    · simp only at hx ⊢; rw [hx]
    · obtain ⟨b', h1, h2⟩ := hx
      simp only [h1]
      have hr := ih w1
      generalize forM' f xs w1 = z at hr ⊢
      obtain ⟨_ | bs, w2⟩ := z
      · simp only at hr ⊢; rw [hr]
      · obtain ⟨bs', h3, h4⟩ := hr
        simp only [h3, M.pure_apply]
        exact ⟨_, rfl, .cons h2 h4⟩

theorem attrs_related {f g : Val → M P}
    (h : ∀ v w, Agree (WrittenAlike N m) (f v w) (g v w)) (o : Oid) (w : World) :
    match defaultAttrs E f o w with
    | (.ok ps, w1) => ∃ (b : Bool) (as bs : List (Key × P)),
      ps = (if b then [(Key.str attrsName, P.obj as)] else []) ∧
      defaultAttrs E g o w = (.ok (if b then [(Key.str attrsName, P.obj bs)] else []), w1) ∧
      List.Forall₂ (fun a b => a.1 = b.1 ∧ WrittenAlike N m a.2 b.2) as bs
    | (.error e, w1) => defaultAttrs E g o w = (.error e, w1) := by
  unfold defaultAttrs
  unfold Agree at h
  by_cases hc : (clsOf E w o).bhvs.contains .attributes = true
  · simp only [if_pos hc, M.bind_apply]
    rcases attrs E o w with ⟨_ | a, w1⟩
    · rfl
    dsimp only
    rcases attrsItems E o a w1 with ⟨_ | items, w2⟩
    · rfl
    dsimp only
    have hr := forM_related (f := fun (kv : Key × Val) => (do
        let p ← f kv.2
        pure (kv.1, p) : M (Key × P))) (g := fun (kv : Key × Val) => (do
        let p ← g kv.2
        pure (kv.1, p) : M (Key × P))) (r := fun a b => a.1 = b.1 ∧ WrittenAlike N m a.2 b.2) (fun kv w => by
          have := h kv.2 w
          unfold Agree
          simp only [M.bind_apply]
          generalize f kv.2 w = z at this ⊢
          obtain ⟨_ | p, w1⟩ := z
          · simp only at this ⊢; rw [this]
          · obtain ⟨p', h1, h2⟩ := this
            simp only [h1, M.pure_apply]
            exact ⟨_, rfl, rfl, h2⟩) items w2
    unfold Agree at hr
    generalize forM' (fun (kv : Key × Val) => (do
        let p ← f kv.2
        pure (kv.1, p) : M (Key × P))) items w2 = z at hr ⊢
    obtain ⟨_ | kvs, w3⟩ := z
    · simp only at hr ⊢; rw [hr]
    · obtain ⟨kvs', h1, h2⟩ := hr
      simp only [h1, M.pure_apply]
      exact ⟨true, kvs, kvs', rfl, rfl, h2⟩
  · simp only [if_neg hc]
    exact ⟨false, [], [], rfl, rfl, .nil⟩

/-- What is registered later comes after what the package registers. -/
theorem registerAll_shipped {l : List (Sel × SerCall)} (hl : ∀ x ∈ l, x.1 ≠ 0 ∧ x.1 ≠ 1 ∧ Adds N m x.2) :
    ∃ own, registerAll (shippedSer E) l = shippedSer E ++ own ∧ ∀ x ∈ own, Adds N m x.2 := by
  induction l using List.reverseRecOn with
  | nil => exact ⟨[], by simp [registerAll], fun _ h => nomatch h⟩
  | append_singleton l x ih =>
    obtain ⟨own, h1, h2⟩ := ih fun y hy => hl y (List.mem_append_left _ hy)
    obtain ⟨g1, g2, g3⟩ := hl x (by simp)
    refine ⟨Od.set own x.1 x.2, ?_, ?_⟩
    · rw [registerAll_snoc, h1]
      show Od.set ((0, serializeNode E) :: (1, serializeAttrs E) :: own) x.1 x.2 =
        (0, serializeNode E) :: (1, serializeAttrs E) :: Od.set own x.1 x.2
      simp only [Od.set, if_neg g1.symm, if_neg g2.symm]
    · intro y hy
      have : ∀ (d : Od Sel SerCall), y ∈ Od.set d x.1 x.2 → y ∈ d ∨ y.2 = x.2 := by
        intro d
        induction d with
        | nil => intro hy; exact .inr (by rw [List.mem_singleton.mp hy])
        | cons z d ihd =>
          intro hy
          simp only [Od.set] at hy
          split at hy
          · rcases List.mem_cons.mp hy with rfl | hy
            · exact .inr rfl
            · exact .inl (List.mem_cons_of_mem _ hy)
          · rcases List.mem_cons.mp hy with rfl | hy
            · exact .inl List.mem_cons_self
            · exact (ihd hy).imp_left (List.mem_cons_of_mem _)
      rcases this own hy with h | h
      · exact h2 y h
      · rw [h]; exact g3

theorem default_adds (hf : Faithful E prov) (hm : m.simple = false) {l : List (Sel × SerCall)}
    (hl : ∀ x ∈ l, x.1 ≠ 0 ∧ x.1 ≠ 1 ∧ Adds N m x.2) (n : Nat) (v : Val) (w : World) :
    Agree (WrittenAlike N m) (default E m n v w) (defaultR E prov (registerAll (shippedSer E) l) m n v w) := by
  obtain ⟨own, hreg, hown⟩ := registerAll_shipped (E := E) hl
  rw [hreg]
  induction n generalizing v w with
  | zero =>
    cases v with
    | data d => unfold default defaultR; exact ⟨_, rfl, .refl _⟩
    | node o => unfold default defaultR; rfl
  | succ n ih =>
    cases v with
    | data d => unfold default defaultR; exact ⟨_, rfl, .refl _⟩
    | node o =>
      simp only [default, defaultR, hm, Bool.not_false, Bool.true_or, if_true, Bool.false_eq_true, if_false]
      rw [M.bind_apply, M.bind_apply, M.getW_apply]
      dsimp only
      rw [M.bind_apply, M.bind_apply, runCalls_append, shipped_calls hf _ _ (by simp; decide)]
      simp only [M.bind_apply]
      rcases mvalues E o w with ⟨_ | vs, w1⟩
      · rfl
      dsimp only
      have hk := forM_related (f := default E m n) (g := defaultR E prov (shippedSer E ++ own) m n) (r := WrittenAlike N m)
        ih vs w1
      unfold Agree at hk ⊢
      generalize forM' (default E m n) vs w1 = z at hk ⊢
      obtain ⟨_ | ks, w2⟩ := z
      · simp only at hk ⊢; rw [hk]
      obtain ⟨ks', h1, h2⟩ := hk
      simp only [h1]
      have ha := attrs_related (E := E) (N := N) (m := m) (f := default E m n)
        (g := defaultR E prov (shippedSer E ++ own) m n) ih o w2
      generalize defaultAttrs E (default E m n) o w2 = z at ha ⊢
      obtain ⟨_ | ps, w3⟩ := z
      · simp only at ha ⊢; rw [ha]
      obtain ⟨b, as, bs, rfl, h4, h5⟩ := ha
      simp only [h4, M.pure_apply]
      obtain ⟨extra, h6, h7⟩ := runCalls_adds (prov := prov) hown
        (defaultR E prov (shippedSer E ++ own) m n) o
        ([(Key.str classKey, P.str (clsOf E w o).dotted)] ++ [(Key.str nameKey, P.name (w.objs o).name)] ++
          (if ks'.isEmpty then [] else [(Key.str kidsKey, P.list ks')]) ++
          (if b then [(Key.str attrsName, P.obj bs)] else [])) w3
      simp only [h6]
      exact ⟨_, rfl, written_record h2 h5 b h7⟩

mutual
theorem serialize_adds (hf : Faithful E prov) (hm : m.simple = false) {l : List (Sel × SerCall)}
    (hl : ∀ x ∈ l, x.1 ≠ 0 ∧ x.1 ≠ 1 ∧ Adds N m x.2) (n : Nat) : ∀ (ob : Ob) (w : World),
    match serialize E N m n ob w with
    | (.ok j, w1) => ∃ j', serializeR E prov (registerAll (shippedSer E) l) N m n ob w = (.ok j', w1) ∧ ReadAlike j j'
    | (.error e, w1) => serializeR E prov (registerAll (shippedSer E) l) N m n ob w = (.error e, w1)
  | .val v, w => by
    have h := default_adds (l := l) hf hm hl n v w
    unfold Agree at h
    simp only [serialize, serializeR, M.bind_apply]
    generalize default E m n v w = z at h ⊢
    obtain ⟨_ | p, w1⟩ := z
    · simp only at h ⊢; rw [h]
    · obtain ⟨p', h1, h2⟩ := h
      simp only [h1]
      unfold WrittenAlike at h2
      cases hd : dumps N m p with
      | error e => rw [hd] at h2; simp only at h2; rw [h2]; rfl
      | ok j =>
        rw [hd] at h2
        obtain ⟨j', h3, h4⟩ := h2
        rw [h3]
        exact ⟨j', rfl, h4⟩
  | .list xs, w => by
    have h := serializeList_adds hf hm hl n xs w
    simp only [serialize, serializeR, M.bind_apply]
    generalize serializeList E N m n xs w = z at h ⊢
    obtain ⟨_ | js, w1⟩ := z
    · simp only at h ⊢; rw [h]
    · obtain ⟨js', h1, h2⟩ := h
      simp only [h1, M.pure_apply]
      exact ⟨_, rfl, .list h2⟩
theorem serializeList_adds (hf : Faithful E prov) (hm : m.simple = false) {l : List (Sel × SerCall)}
    (hl : ∀ x ∈ l, x.1 ≠ 0 ∧ x.1 ≠ 1 ∧ Adds N m x.2) (n : Nat) : ∀ (xs : List Ob) (w : World),
    match serializeList E N m n xs w with
    | (.ok js, w1) => ∃ js', serializeListR E prov (registerAll (shippedSer E) l) N m n xs w = (.ok js', w1) ∧
      List.Forall₂ ReadAlike js js'
    | (.error e, w1) => serializeListR E prov (registerAll (shippedSer E) l) N m n xs w = (.error e, w1)
  | [], w => ⟨[], rfl, .nil⟩
  | x :: xs, w => by
    have h := serialize_adds hf hm hl n x w
    simp only [serializeList, serializeListR, M.bind_apply]
    generalize serialize E N m n x w = z at h ⊢
    obtain ⟨_ | j, w1⟩ := z
    · simp only at h ⊢; rw [h]
    · obtain ⟨j', h1, h2⟩ := h
      simp only [h1]
      have hr := serializeList_adds hf hm hl n xs w1
      generalize serializeList E N m n xs w1 = z at hr ⊢
      obtain ⟨_ | js, w2⟩ := z
      · simp only at hr ⊢; rw [hr]
      · obtain ⟨js', h3, h4⟩ := hr
        simp only [h3, M.pure_apply]
        exact ⟨_, rfl, .cons h2 h4⟩
end

/-- **C78.** Registering serializers that only add members to the records: `serialize` raises what it raised before, or
writes data that everybody who does not know about the additions reads as before, in every state and below every
root. -/
theorem c78_added (hf : Faithful E prov) (hm : m.simple = false) {l : List (Sel × SerCall)}
    (hl : ∀ x ∈ l, x.1 ≠ 0 ∧ x.1 ≠ 1 ∧ Adds N m x.2) (n : Nat) (ob : Ob) (w w1 : World) :
    (∀ e, serialize E N m n ob w = (.error e, w1) →
      serializeR E prov (registerAll (shippedSer E) l) N m n ob w = (.error e, w1)) ∧
    (∀ j, serialize E N m n ob w = (.ok j, w1) →
      ∃ j', serializeR E prov (registerAll (shippedSer E) l) N m n ob w = (.ok j', w1) ∧
        ∀ n' root w', deserialize E N n' j' root w' = deserialize E N n' j root w') := by
  have h := serialize_adds (prov := prov) hf hm hl n ob w
  constructor
  · intro e he
    rw [he] at h
    exact h
  · intro j hj
    rw [hj] at h
    obtain ⟨j', h1, h2⟩ := h
    exact ⟨j', h1, fun n' root w' => c77_alike h2 n' root w'⟩

/-! ### Callbacks for nodes that are not there -/

theorem runCalls_unprovided {α δ : Type} (call : α → δ → M δ) (o : Oid) {s : Sel} (hs : ∀ c, prov c s = false)
    (reg : Od Sel α) (cb : α) : runCalls prov call o (Od.set reg s cb) = runCalls prov call o reg := by
  induction reg with
  | nil =>
    funext d w
    simp only [Od.set, runCalls, M.bind_apply, M.getW_apply, hs, Bool.false_eq_true, if_false]
  | cons x r ih =>
    funext d w
    by_cases e : x.1 = s
    · have hs' : ∀ c, prov c x.1 = false := fun c => by rw [e]; exact hs c
      simp only [Od.set, if_pos e, runCalls, M.bind_apply, M.getW_apply, hs', Bool.false_eq_true, if_false]
    · simp only [Od.set, if_neg e, runCalls, M.bind_apply, M.getW_apply, ih]

theorem runCalls_registerAll {α δ : Type} (call : α → δ → M δ) (o : Oid) {l : List (Sel × α)}
    (hl : ∀ x ∈ l, ∀ c, prov c x.1 = false) (reg : Od Sel α) :
    runCalls prov call o (registerAll reg l) = runCalls prov call o reg := by
  induction l using List.reverseRecOn with
  | nil => rfl
  | append_singleton l x ih =>
    rw [registerAll_snoc, runCalls_unprovided call o (hl x (by simp)), ih fun y hy => hl y (List.mem_append_left _ hy)]

theorem defaultR_unprovided {reg : Od Sel SerCall} {l : List (Sel × SerCall)} (hl : ∀ x ∈ l, ∀ c, prov c x.1 = false)
    (n : Nat) (v : Val) : defaultR E prov (registerAll reg l) m n v = defaultR E prov reg m n v := by
  induction n generalizing v with
  | zero => cases v <;> unfold defaultR <;> rfl
  | succ n ih =>
    have hrec : defaultR E prov (registerAll reg l) m n = defaultR E prov reg m n := funext ih
    cases v with
    | data d => unfold defaultR; rfl
    | node o => simp only [defaultR, hrec, runCalls_registerAll _ o hl]

/-- Callbacks registered for what no class has make no difference, whatever they do: `serialize` and `deserialize`
behave as those of the package. -/
theorem c78_unprovided (hf : Faithful E prov) {l : List (Sel × SerCall)} {l' : List (Sel × DesCall)}
    (hl : ∀ x ∈ l, ∀ c, prov c x.1 = false) (hl' : ∀ x ∈ l', ∀ c, prov c x.1 = false) (n : Nat) :
    (∀ v, serializeR E prov (registerAll (shippedSer E) l) N m n (.val v) = serialize E N m n (.val v)) ∧
    (∀ j root, deserializeR E prov (registerAll (shippedDes E) l') N n j root = deserialize E N n j root) := by
  constructor
  · intro v
    unfold serializeR serialize
    rw [defaultR_unprovided hl, shipped_default hf]
  · intro j root
    unfold deserializeR deserialize
    rw [← shipped_decode hf]
    induction n generalizing j root with
    | zero => unfold decodeR; rfl
    | succ n ih =>
      have hrec : decodeR E prov (registerAll (shippedDes E) l') N n = decodeR E prov (shippedDes E) N n :=
        funext fun j => funext fun p => ih j p
      cases j with
      | obj kvs => simp only [decodeR, hrec, runCalls_registerAll _ _ hl']
      | list xs => simp only [decodeR, hrec]
      | str s => simp only [decodeR]
      | null => simp only [decodeR]
      | bool b => simp only [decodeR]
      | int i => simp only [decodeR]

/-! ### Attributes another callback has begun -/

theorem assigned_append (data : List (Key × P)) (k j : Key) (p : P) :
    assigned (data ++ [(k, p)]) j = if k = j then some p else assigned data j := by
  unfold assigned
  rw [List.reverse_append, List.reverse_singleton, List.singleton_append, List.find?_cons]
  by_cases e : k = j
  · simp [e]
  · simp [e]

/-- The serializer of attributes adds to what another callback has put under `attrs`: it raises exactly when it does on
empty data, with the same effects, and otherwise writes the same assignments behind the ones that are there.  Nothing
else in the record changes. -/
theorem c78_attrs (rec : Val → M P) (o : Oid) (data old : List (Key × P))
    (h : assigned data (.str "attrs".toList) = some (.obj old)) (w : World) :
    match serializeAttrs E rec o [] w with
    | (.error e, w') => serializeAttrs E rec o data w = (.error e, w')
    | (.ok fresh, w') => ∃ kvs data', fresh = [(.str "attrs".toList, .obj kvs)] ∧
        serializeAttrs E rec o data w = (.ok data', w') ∧
        assigned data' (.str "attrs".toList) = some (.obj (old ++ kvs)) ∧
        ∀ k, k ≠ .str "attrs".toList → assigned data' k = assigned data k := by
  have h' : assigned data (.str attrsName) = some (.obj old) := h
  have h0 : assigned [] (.str attrsName) = none := rfl
  simp only [serializeAttrs, M.bind_apply, h', h0]
  generalize attrs E o w = x
  rcases x with ⟨_ | a, w1⟩
  · rfl
  · simp only
    generalize attrsItems E o a w1 = x
    rcases x with ⟨_ | items, w2⟩
    · rfl
    · simp only
      generalize forM' _ items w2 = x
      rcases x with ⟨_ | kvs, w3⟩
      · rfl
      · refine ⟨kvs, _, rfl, rfl, ?_, fun k hk => ?_⟩
        · exact (assigned_append ..).trans (if_pos rfl)
        · exact (assigned_append ..).trans (if_neg fun e => hk e.symm)

/-! ### A concrete case -/

/-- 2 is the class `OrderedNode` (class 1 of `serEnv`). -/
def c78Prov : Provides := fun c s => s == 0 || (s == 1 && (serEnv.cls c).bhvs.contains .attributes) || (s == 2 && c == 1)

theorem c78Faithful : Faithful serEnv c78Prov :=
  ⟨fun _ => rfl, fun c => by simp [c78Prov]⟩

/-- `@serializer(OrderedNode)`: `data['version'] = 3`. -/
def c78Version : SerCall := fun _ _ data => pure (data ++ [(Key.str "version".toList, P.data (.int 3))])

theorem c78Adds : Adds sampleCodec {} c78Version := fun _ _ data w =>
  ⟨[(Key.str "version".toList, P.data (.int 3))], rfl, fun kv hkv => by
    rw [List.mem_singleton.mp hkv]
    exact ⟨_, .int 3, rfl, by decide, rfl⟩⟩

/-- A `BaseNode` with an `OrderedNode` below. -/
def c78Ops : List Op := [.new 0 (.str ['r']) none, .new 1 .none none, .set 0 ka (.node 1)]

/-- The version is written for the `OrderedNode` and not for the `BaseNode`. -/
example : (serializeR serEnv c78Prov (registerAll (shippedSer serEnv) [(2, c78Version)]) sampleCodec {} 9
      (.val (.node 0)) (after serEnv c78Ops)).1 = .ok (.obj [(nodeKey, .obj [(classKey, .str "node.base.BaseNode".toList),
        (nameKey, .str ['r']), (kidsKey, .list [.obj [(nodeKey, .obj [(classKey, .str "node.base.OrderedNode".toList),
          (nameKey, .str ['a']), ("version".toList, .int 3)])]])])]) := by rfl

example := c78_added (m := {}) c78Faithful rfl (l := [(2, c78Version)]) (fun x hx => by
  rw [List.mem_singleton.mp hx]; exact ⟨by decide, by decide, c78Adds⟩) 9 (.val (.node 0)) (after serEnv c78Ops)

/-- `@serializer(INode)` that begins the attributes with `{'x': 1}`. -/
def c78Begin : SerCall := fun _ _ data =>
  pure (data ++ [(Key.str attrsName, P.obj [(Key.str ['x'], P.data (.int 1))])])

/-- In the place of the shipped callback for `INode` it runs first; the attributes of the node come behind. -/
example : (serializeR serEnv c78Prov (registerAll (shippedSer serEnv) [(0, c78Begin)]) sampleCodec {} 9
      (.val (.node 0)) (after serEnv [.new 2 (.str ['r']) none, .attrs 0, .set 1 ka (.data (.int 2))])).1 =
    .ok (.obj [(nodeKey, .obj [(classKey, .str (serEnv.cls 2).dotted), (nameKey, .str ['r']),
      (attrsName, .obj [(['x'], .int 1), (['a'], .int 2)])])]) := by rfl

/-- Registering a second time replaces the callback and keeps its place. -/
example : (registerAll [] [(0, 'a'), (1, 'b'), (2, 'c'), (1, 'd')] : Od Sel Char) = [(0, 'a'), (1, 'd'), (2, 'c')] := by
  rfl

end Verif.Ser
