import Verif.Model.Utils
import Verif.Lemmas.Odict

/-!
# C52: text codec laws

For every encoding in which decoding undoes encoding and decoded text can be encoded (UTF-8 and
all the usual ones), and for every nested value.  Dictionaries are compared with their order,
which is more than `==` asks.  Text an encoding cannot express (lone surrogates in UTF-8) makes
`encode` raise, so the laws speak of the result of `encode`.
-/

namespace Verif.Utils

/-- Decoding undoes encoding; decoded text can be encoded. -/
structure Encoding.Lawful {T B : Type} (e : Encoding T B) : Prop where
  round : ∀ t b, e.enc t = some b → e.dec b = some t
  again : ∀ b t, e.dec b = some t → ∃ b', e.enc t = some b'

section
variable {T B : Type} [DecidableEq T] [DecidableEq B]

/-! ### Specification: values as they occur in Python -/

/-- Values that can be the key of a dictionary: no lists, no dictionaries, and no tuples with one of
these inside. -/
inductive Hashable : Val T B → Prop where
  | text (t : T) : Hashable (.text t)
  | bytes (b : B) : Hashable (.bytes b)
  | other (n : Nat) : Hashable (.other n)
  | node (l : List (Val T B × Val T B)) : Hashable (.node l)
  | tuple {l : List (Val T B)} : (∀ x ∈ l, Hashable x) → Hashable (.tuple l)

mutual
/-- The keys of each dictionary are distinct and hashable. -/
def WFV : Val T B → Prop
  | .list l => WFVs l
  | .tuple l => WFVs l
  | .dict l => WFVp l ∧ (l.map (·.1)).Nodup ∧ ∀ p ∈ l, Hashable p.1
  | .node l => WFVp l ∧ (l.map (·.1)).Nodup ∧ ∀ p ∈ l, Hashable p.1
  | _ => True
/-- All of a list. -/
def WFVs : List (Val T B) → Prop
  | [] => True
  | x :: xs => WFV x ∧ WFVs xs
/-- All of the items. -/
def WFVp : List (Val T B × Val T B) → Prop
  | [] => True
  | (k, x) :: xs => WFV k ∧ WFV x ∧ WFVp xs
end

mutual
/-- Every leaf satisfies `P`; no nodes. -/
def Leaves (P : Val T B → Prop) : Val T B → Prop
  | .list l => Leavess P l
  | .tuple l => Leavess P l
  | .dict l => Leavesp P l
  | .node _ => False
  | .text t => P (.text t)
  | .bytes b => P (.bytes b)
  | .other n => P (.other n)
/-- All of a list. -/
def Leavess (P : Val T B → Prop) : List (Val T B) → Prop
  | [] => True
  | x :: xs => Leaves P x ∧ Leavess P xs
/-- All of the items. -/
def Leavesp (P : Val T B → Prop) : List (Val T B × Val T B) → Prop
  | [] => True
  | (k, x) :: xs => Leaves P k ∧ Leaves P x ∧ Leavesp P xs
end

omit [DecidableEq T] [DecidableEq B] in
mutual
theorem hashable_iff : (x : Val T B) → (hashable x = true ↔ Hashable x)
  | .text t => ⟨fun _ => .text t, fun _ => by unfold hashable; rfl⟩
  | .bytes b => ⟨fun _ => .bytes b, fun _ => by unfold hashable; rfl⟩
  | .other n => ⟨fun _ => .other n, fun _ => by unfold hashable; rfl⟩
  | .node l => ⟨fun _ => .node l, fun _ => by unfold hashable; rfl⟩
  | .list l => ⟨fun h => (by unfold hashable at h; cases h), fun h => (nomatch h)⟩
  | .dict l => ⟨fun h => (by unfold hashable at h; cases h), fun h => (nomatch h)⟩
  | .tuple l => by
    unfold hashable
    exact ⟨fun h => .tuple ((hashables_iff l).mp h), fun h => (hashables_iff l).mpr (by cases h with | tuple h => exact h)⟩
theorem hashables_iff : (l : List (Val T B)) → (hashables l = true ↔ ∀ x ∈ l, Hashable x)
  | [] => ⟨fun _ _ h => (nomatch h), fun _ => by unfold hashables; rfl⟩
  | x :: l => by
    unfold hashables
    rw [Bool.and_eq_true, hashable_iff x, hashables_iff l]
    exact ⟨fun h y hy => (List.mem_cons.mp hy).elim (fun e => e ▸ h.1) (h.2 y),
      fun h => ⟨h x List.mem_cons_self, fun y hy => h y (List.mem_cons_of_mem _ hy)⟩⟩
end

omit [DecidableEq T] [DecidableEq B] in
theorem all_hashable {l : List (Val T B × Val T B)} : (l.all fun p => hashable p.1) = true ↔ ∀ p ∈ l, Hashable p.1 :=
  List.all_eq_true.trans ⟨fun h p hp => (hashable_iff _).mp (h p hp), fun h p hp => (hashable_iff _).mpr (h p hp)⟩

/-! ### Building dictionaries -/

/-- Item lists related entry by entry. -/
inductive Rel (R : Val T B → Val T B → Prop) : List (Val T B × Val T B) → List (Val T B × Val T B) → Prop
  | nil : Rel R [] []
  | cons {k x j y : Val T B} {ps qs : List (Val T B × Val T B)} : R k j → R x y → Rel R ps qs → Rel R ((k, x) :: ps) ((j, y) :: qs)

omit [DecidableEq T] [DecidableEq B] in
theorem Rel.key {R : Val T B → Val T B → Prop} {ps qs : List (Val T B × Val T B)} (h : Rel R ps qs) :
    ∀ p ∈ ps, ∃ j, R p.1 j := by
  induction h with
  | nil => exact fun p hp => (nomatch hp)
  | cons h1 _ _ ih =>
    intro p hp
    rcases List.mem_cons.mp hp with rfl | hp
    · exact ⟨_, h1⟩
    · exact ih p hp

/-- Setting related entries, if the relation is one to one on keys. -/
theorem Rel.set {R : Val T B → Val T B → Prop} (hf : ∀ a b b', R a b → R a b' → b = b')
    (hi : ∀ a a' b, R a b → R a' b → a = a') {ps qs : List (Val T B × Val T B)} (h : Rel R ps qs)
    {k j x y : Val T B} (hk : R k j) (hx : R x y) : Rel R (Od.set ps k x) (Od.set qs j y) := by
  induction h with
  | nil => exact .cons hk hx .nil
  | @cons k' x' j' y' ps qs h1 h2 h3 ih =>
    unfold Od.set
    by_cases e : k' = k
    · subst e
      have : j' = j := hf _ _ _ h1 hk
      rw [if_pos rfl, if_pos this]
      exact .cons h1 hx h3
    · have : j' ≠ j := fun e' => e (hi _ _ _ h1 (e' ▸ hk))
      rw [if_neg e, if_neg this]
      exact .cons h1 h2 ih

theorem Rel.update {R : Val T B → Val T B → Prop} (hf : ∀ a b b', R a b → R a b' → b = b')
    (hi : ∀ a a' b, R a b → R a' b → a = a') {ps qs : List (Val T B × Val T B)} (h : Rel R ps qs) :
    ∀ {ps₀ qs₀ : List (Val T B × Val T B)}, Rel R ps₀ qs₀ → Rel R (Od.update ps₀ ps) (Od.update qs₀ qs) := by
  induction h with
  | nil => exact fun h0 => h0
  | cons h1 h2 _ ih => exact fun h0 => ih (h0.set hf hi h1 h2)

theorem mem_keys_set {d : Od (Val T B) (Val T B)} {k x j : Val T B} (h : j ∈ (Od.set d k x).keys) :
    j ∈ d.keys ∨ j = k := by
  rw [Od.keys_set] at h
  split at h
  · exact .inl h
  · rcases List.mem_append.mp h with h | h
    · exact .inl h
    · exact .inr (List.mem_singleton.mp h)

/-- `dict(pairs)` has no other keys than the pairs. -/
theorem mem_keys_update {l : List (Val T B × Val T B)} : ∀ {d : Od (Val T B) (Val T B)} {j : Val T B},
    j ∈ (Od.update d l).keys → j ∈ d.keys ∨ j ∈ Od.keys l := by
  induction l with
  | nil => exact fun h => .inl h
  | cons p l ih =>
    intro d j h
    rcases ih (d := Od.set d p.1 p.2) h with h | h
    · rcases mem_keys_set h with h | h
      · exact .inl h
      · exact .inr (h ▸ List.mem_cons_self)
    · exact .inr (List.mem_cons_of_mem _ h)

theorem hash_update {l : List (Val T B × Val T B)} (h : (l.all fun p => hashable p.1) = true) :
    ((Od.update [] l).all fun p => hashable p.1) = true := by
  rw [List.all_eq_true] at h ⊢
  intro p hp
  rcases mem_keys_update (List.mem_map.mpr ⟨p, hp, rfl⟩) with h' | h'
  · cases h'
  · obtain ⟨q, hq, e⟩ := List.mem_map.mp h'
    have := h q hq
    rw [e] at this
    exact this

theorem set_new {d : Od (Val T B) (Val T B)} {k x : Val T B} (h : k ∉ d.keys) : Od.set d k x = d ++ [(k, x)] := by
  induction d with
  | nil => rfl
  | cons p d ih =>
    have h1 : p.1 ≠ k := fun e => h (e ▸ List.mem_cons_self)
    unfold Od.set
    rw [if_neg h1, ih fun hm => h (List.mem_cons_of_mem _ hm)]
    rfl

theorem update_nodup {l : List (Val T B × Val T B)} : ∀ {d : Od (Val T B) (Val T B)},
    (Od.keys (d ++ l)).Nodup → Od.update d l = d ++ l := by
  induction l with
  | nil => exact fun {d} _ => (List.append_nil d).symm
  | cons p l ih =>
    intro d h
    have hk : p.1 ∉ d.keys := by
      intro hm
      unfold Od.keys at h hm
      rw [List.map_append, List.nodup_append] at h
      exact h.2.2 _ hm _ List.mem_cons_self rfl
    show Od.update (Od.set d p.1 p.2) l = _
    rw [set_new hk, ih (by rw [List.append_assoc]; exact h), List.append_assoc]
    rfl

/-- `dict` of the items of a dictionary is that dictionary. -/
theorem mkDict_self {l : List (Val T B × Val T B)} (h : (Od.keys l).Nodup) (hh : (l.all fun p => hashable p.1) = true) :
    mkDict l = .ok (.dict l) := by
  unfold mkDict
  rw [if_pos hh, update_nodup (d := []) h]
  rfl

theorem mkDict_ok {l : List (Val T B × Val T B)} {y : Val T B} (h : mkDict l = .ok y) :
    (l.all fun p => hashable p.1) = true ∧ y = .dict (Od.update [] l) := by
  unfold mkDict at h
  split at h
  · rename_i hh; cases h; exact ⟨hh, rfl⟩
  · cases h

/-! ### Reading the results -/

theorem decodep_rel {e : Encoding T B} {s : Bool} {l : List (Val T B × Val T B)} {l' : List (Val T B × Val T B)} :
    decodep e s l = .ok l' ↔ Rel (fun a b => decode e s a = .ok b) l l' := by
  constructor
  · intro h
    induction l generalizing l' with
    | nil => cases h; exact .nil
    | cons p l ih =>
      obtain ⟨k, x⟩ := p
      unfold decodep at h
      cases hk : decode e s k with
      | error _ => simp [hk, Except.bind] at h
      | ok j =>
        cases hx : decode e s x with
        | error _ => simp [hk, hx, Except.bind] at h
        | ok y =>
          cases hl : decodep e s l with
          | error _ => simp [hk, hx, hl, Except.bind, Except.map] at h
          | ok l2 =>
            simp only [hk, hx, hl, Except.bind, Except.map, Except.ok.injEq] at h
            subst h
            exact .cons hk hx (ih hl)
  · intro h
    induction h with
    | nil => rfl
    | cons h1 h2 _ ih => unfold decodep; simp only [h1, h2, ih, Except.bind, Except.map]

theorem encodep_rel {e : Encoding T B} {s : Bool} {l : List (Val T B × Val T B)} {l' : List (Val T B × Val T B)} :
    encodep e s l = .ok l' ↔ Rel (fun a b => encode e s a = .ok b) l l' := by
  constructor
  · intro h
    induction l generalizing l' with
    | nil => cases h; exact .nil
    | cons p l ih =>
      obtain ⟨k, x⟩ := p
      unfold encodep at h
      cases hk : encode e s k with
      | error _ => simp [hk, Except.bind] at h
      | ok j =>
        cases hx : encode e s x with
        | error _ => simp [hk, hx, Except.bind] at h
        | ok y =>
          cases hl : encodep e s l with
          | error _ => simp [hk, hx, hl, Except.bind, Except.map] at h
          | ok l2 =>
            simp only [hk, hx, hl, Except.bind, Except.map, Except.ok.injEq] at h
            subst h
            exact .cons hk hx (ih hl)
  · intro h
    induction h with
    | nil => rfl
    | cons h1 h2 _ ih => unfold encodep; simp only [h1, h2, ih, Except.bind, Except.map]

/-! ### The laws, for one value -/

/-- What is claimed of a value with encoded form `y` and decoded form `z`. -/
structure Laws (e : Encoding T B) (s : Bool) (x y z : Val T B) : Prop where
  dec : decode e s x = .ok z
  decEnc : decode e s y = .ok z
  encEnc : encode e s y = .ok y
  encDec : encode e s z = .ok y
  decDec : decode e s z = .ok z
  hash : hashable y = hashable z

/-- Item lists with all the laws, entry by entry. -/
inductive LawsP (e : Encoding T B) (s : Bool) :
    List (Val T B × Val T B) → List (Val T B × Val T B) → List (Val T B × Val T B) → Prop
  | nil : LawsP e s [] [] []
  | cons {k x k1 x1 k2 x2 : Val T B} {l l1 l2 : List (Val T B × Val T B)} : Laws e s k k1 k2 → Laws e s x x1 x2 → LawsP e s l l1 l2 →
      LawsP e s ((k, x) :: l) ((k1, x1) :: l1) ((k2, x2) :: l2)

/-- Two results: of encoding and of decoding the same value. -/
def Pair (e : Encoding T B) (s : Bool) (y z : Val T B) : Prop :=
  decode e s y = .ok z ∧ encode e s y = .ok y ∧ encode e s z = .ok y ∧ decode e s z = .ok z ∧ hashable y = hashable z

theorem LawsP.pair {e : Encoding T B} {s : Bool} {l l1 l2 : List (Val T B × Val T B)} (h : LawsP e s l l1 l2) : Rel (Pair e s) l1 l2 := by
  induction h with
  | nil => exact .nil
  | cons h1 h2 _ ih => exact .cons ⟨h1.decEnc, h1.encEnc, h1.encDec, h1.decDec, h1.hash⟩ ⟨h2.decEnc, h2.encEnc, h2.encDec, h2.decDec, h2.hash⟩ ih

theorem LawsP.dec {e : Encoding T B} {s : Bool} {l l1 l2 : List (Val T B × Val T B)} (h : LawsP e s l l1 l2) : decodep e s l = .ok l2 := by
  rw [decodep_rel]
  induction h with
  | nil => exact .nil
  | cons h1 h2 _ ih => exact .cons h1.dec h2.dec ih

theorem Pair.left {e : Encoding T B} {s : Bool} {l l' : List (Val T B × Val T B)} (h : Rel (Pair e s) l l') :
    decodep e s l = .ok l' ∧ encodep e s l = .ok l ∧ encodep e s l' = .ok l ∧ decodep e s l' = .ok l' ∧
    (l.all fun p => hashable p.1) = l'.all fun p => hashable p.1 := by
  simp only [decodep_rel, encodep_rel]
  induction h with
  | nil => exact ⟨.nil, .nil, .nil, .nil, rfl⟩
  | cons h1 h2 _ ih =>
    refine ⟨.cons h1.1 h2.1 ih.1, .cons h1.2.1 h2.2.1 ih.2.1, .cons h1.2.2.1 h2.2.2.1 ih.2.2.1,
      .cons h1.2.2.2.1 h2.2.2.2.1 ih.2.2.2.1, ?_⟩
    rw [List.all_cons, List.all_cons, ih.2.2.2.2, h1.2.2.2.2]

theorem keys_nil_nodup : (Od.keys ([] : Od (Val T B) (Val T B))).Nodup := List.nodup_nil

/-- The laws for dictionaries, from those for the items. -/
theorem laws_dict {e : Encoding T B} {s : Bool} {l l1 l2 : List (Val T B × Val T B)} {y x : Val T B} (h : LawsP e s l l1 l2) (hy : mkDict l1 = .ok y)
    (hx : decode e s x = (decodep e s l).bind mkDict) : ∃ z, Laws e s x y z := by
  obtain ⟨hh, rfl⟩ := mkDict_ok hy
  have hr := (Rel.update (R := Pair e s) (fun a b b' h h' => Except.ok.inj (h.1.symm.trans h'.1))
    (fun a a' b h h' => Except.ok.inj (h.2.2.1.symm.trans h'.2.2.1)) h.pair .nil)
  obtain ⟨q1, q2, q3, q4, q5⟩ := Pair.left hr
  have hh2 : (l2.all fun p => hashable p.1) = true := by rw [← (Pair.left h.pair).2.2.2.2]; exact hh
  have n1 := Od.nodup_keys_update (e := l1) keys_nil_nodup
  have n2 := Od.nodup_keys_update (e := l2) keys_nil_nodup
  have m1 := mkDict_self n1 (hash_update hh)
  have m2 := mkDict_self n2 (hash_update hh2)
  refine ⟨.dict (Od.update [] l2), ?_, ?_, ?_, ?_, ?_, rfl⟩
  · rw [hx, h.dec]; simp only [Except.bind, mkDict, hh2, if_true]
  · unfold decode; rw [q1]; exact m2
  · unfold encode; rw [q2]; exact m1
  · unfold encode; rw [q3]; exact m1
  · unfold decode; rw [q4]; exact m2

theorem hash_bytes (b : B) : hashable (.bytes b : Val T B) = true := rfl

mutual
/-- The laws hold for every value that can be encoded. -/
theorem laws {e : Encoding T B} (he : e.Lawful) {s : Bool} : (x : Val T B) → ∀ {y : Val T B}, encode e s x = .ok y → ∃ z, Laws e s x y z
  | .text t, y, h => by
    unfold encode encodeText at h
    cases hb : e.enc t with
    | none => rw [hb] at h; cases h
    | some b =>
      rw [hb] at h; cases h
      have hd := he.round t b hb
      have d1 : decode e s (.bytes b : Val T B) = .ok (.text t) := by unfold decode decodeBytes; rw [hd]
      have e1 : encode e s (.text t : Val T B) = .ok (.bytes b) := by unfold encode encodeText; rw [hb]
      have e2 : encode e s (.bytes b : Val T B) = .ok (.bytes b) := by
        unfold encode decodeBytes; rw [hd]; simp only [Except.bind, encodeText, hb]
      exact ⟨.text t, rfl, d1, e2, e1, rfl, rfl⟩
  | .bytes b, y, h => by
    unfold encode decodeBytes at h
    cases hd : e.dec b with
    | none =>
      rw [hd] at h
      cases s with
      | false => cases h
      | true =>
        cases h
        have d1 : decode e true (.bytes b : Val T B) = .ok (.bytes b) := by unfold decode decodeBytes; rw [hd]; rfl
        have e1 : encode e true (.bytes b : Val T B) = .ok (.bytes b) := by unfold encode decodeBytes; rw [hd]; rfl
        exact ⟨.bytes b, d1, d1, e1, e1, d1, rfl⟩
    | some t =>
      rw [hd] at h
      simp only [Except.bind, encodeText] at h
      cases hb : e.enc t with
      | none => rw [hb] at h; cases h
      | some b' =>
        rw [hb] at h; cases h
        have hd' := he.round t b' hb
        have d0 : decode e s (.bytes b : Val T B) = .ok (.text t) := by unfold decode decodeBytes; rw [hd]
        have d1 : decode e s (.bytes b' : Val T B) = .ok (.text t) := by unfold decode decodeBytes; rw [hd']
        have e1 : encode e s (.text t : Val T B) = .ok (.bytes b') := by unfold encode encodeText; rw [hb]
        have e2 : encode e s (.bytes b' : Val T B) = .ok (.bytes b') := by
          unfold encode decodeBytes; rw [hd']; simp only [Except.bind, encodeText, hb]
        exact ⟨.text t, d0, d1, e2, e1, rfl, rfl⟩
  | .other n, y, h => by
    unfold encode at h; cases h
    exact ⟨.other n, rfl, rfl, by unfold encode; rfl, by unfold encode; rfl, rfl, rfl⟩
  | .list l, y, h => by
    unfold encode at h
    cases hl : encodes e s l with
    | error _ => rw [hl] at h; cases h
    | ok l1 =>
      rw [hl] at h; cases h
      obtain ⟨l2, q1, q2, q3, q4, q5, -⟩ := lawss he l hl
      refine ⟨.list l2, ?_, ?_, ?_, ?_, ?_, rfl⟩
      · unfold decode; rw [q1]; rfl
      · unfold decode; rw [q2]; rfl
      · unfold encode; rw [q3]; rfl
      · unfold encode; rw [q4]; rfl
      · unfold decode; rw [q5]; rfl
  | .tuple l, y, h => by
    unfold encode at h
    cases hl : encodes e s l with
    | error _ => rw [hl] at h; cases h
    | ok l1 =>
      rw [hl] at h; cases h
      obtain ⟨l2, q1, q2, q3, q4, q5, q6⟩ := lawss he l hl
      refine ⟨.tuple l2, ?_, ?_, ?_, ?_, ?_, q6⟩
      · unfold decode; rw [q1]; rfl
      · unfold decode; rw [q2]; rfl
      · unfold encode; rw [q3]; rfl
      · unfold encode; rw [q4]; rfl
      · unfold decode; rw [q5]; rfl
  | .dict l, y, h => by
    unfold encode at h
    cases hl : encodep e s l with
    | error _ => rw [hl] at h; cases h
    | ok l1 =>
      rw [hl] at h
      obtain ⟨l2, hl2⟩ := lawsp he l hl
      exact laws_dict hl2 h (by unfold decode; rfl)
  | .node l, y, h => by
    unfold encode at h
    cases hl : encodep e s l with
    | error _ => rw [hl] at h; cases h
    | ok l1 =>
      rw [hl] at h
      obtain ⟨l2, hl2⟩ := lawsp he l hl
      exact laws_dict hl2 h (by unfold decode; rfl)
/-- Likewise for lists. -/
theorem lawss {e : Encoding T B} (he : e.Lawful) {s : Bool} : (l : List (Val T B)) → ∀ {l1 : List (Val T B)}, encodes e s l = .ok l1 →
    ∃ l2, decodes e s l = .ok l2 ∧ decodes e s l1 = .ok l2 ∧ encodes e s l1 = .ok l1 ∧ encodes e s l2 = .ok l1 ∧
      decodes e s l2 = .ok l2 ∧ hashables l1 = hashables l2
  | [], l1, h => by unfold encodes at h; cases h; exact ⟨[], rfl, rfl, rfl, rfl, rfl, rfl⟩
  | x :: l, l1, h => by
    unfold encodes at h
    cases hx : encode e s x with
    | error _ => rw [hx] at h; cases h
    | ok y =>
      cases hl : encodes e s l with
      | error _ => rw [hx, hl] at h; cases h
      | ok l1 =>
        rw [hx, hl] at h; cases h
        obtain ⟨z, p1, p2, p3, p4, p5, p6⟩ := laws he x hx
        obtain ⟨l2, q1, q2, q3, q4, q5, q6⟩ := lawss he l hl
        refine ⟨z :: l2, ?_, ?_, ?_, ?_, ?_, ?_⟩
        · unfold decodes; rw [p1, q1]; rfl
        · unfold decodes; rw [p2, q2]; rfl
        · unfold encodes; rw [p3, q3]; rfl
        · unfold encodes; rw [p4, q4]; rfl
        · unfold decodes; rw [p5, q5]; rfl
        · unfold hashables; rw [p6, q6]
/-- Likewise for items. -/
theorem lawsp {e : Encoding T B} (he : e.Lawful) {s : Bool} : (l : List (Val T B × Val T B)) → ∀ {l1 : List (Val T B × Val T B)},
    encodep e s l = .ok l1 → ∃ l2, LawsP e s l l1 l2
  | [], l1, h => by unfold encodep at h; cases h; exact ⟨[], .nil⟩
  | (k, x) :: l, l1, h => by
    unfold encodep at h
    cases hk : encode e s k with
    | error _ => rw [hk] at h; cases h
    | ok j =>
      cases hx : encode e s x with
      | error _ => rw [hk, hx] at h; cases h
      | ok y =>
        cases hl : encodep e s l with
        | error _ => rw [hk, hx, hl] at h; cases h
        | ok l1 =>
          rw [hk, hx, hl] at h; cases h
          obtain ⟨k2, p⟩ := laws he k hk
          obtain ⟨x2, q⟩ := laws he x hx
          obtain ⟨l2, r⟩ := lawsp he l hl
          exact ⟨(k2, x2) :: l2, .cons p q r⟩
end

/-! ### C52 -/

/-- `decode(encode(x)) == decode(x)`, and decoding succeeds if encoding does. -/
theorem c52_decode_encode {e : Encoding T B} (he : e.Lawful) {s : Bool} {x y : Val T B} (h : encode e s x = .ok y) :
    decode e s y = decode e s x ∧ ∃ z, decode e s x = .ok z := by
  obtain ⟨z, hz⟩ := laws he x h
  exact ⟨hz.decEnc.trans hz.dec.symm, z, hz.dec⟩

/-- `encode` is idempotent. -/
theorem c52_encode_idem {e : Encoding T B} (he : e.Lawful) {s : Bool} {x y : Val T B} (h : encode e s x = .ok y) :
    encode e s y = .ok y := by
  obtain ⟨z, hz⟩ := laws he x h
  exact hz.encEnc

/-- `encode(decode(x)) == encode(x)`. -/
theorem c52_encode_decode {e : Encoding T B} (he : e.Lawful) {s : Bool} {x y z : Val T B} (h : encode e s x = .ok y)
    (hz : decode e s x = .ok z) : encode e s z = .ok y := by
  obtain ⟨z', h'⟩ := laws he x h
  rw [Except.ok.inj (hz.symm.trans h'.dec)]
  exact h'.encDec

theorem rel_self {e : Encoding T B} {s : Bool} {l : List (Val T B × Val T B)} (h : decodep e s l = .ok l) :
    Rel (fun a b => a = b ∧ decode e s a = .ok a) l l := by
  rw [decodep_rel] at h
  have : ∀ {l l' : List (Val T B × Val T B)}, Rel (fun a b => decode e s a = .ok b) l l' → l = l' →
      Rel (fun a b => a = b ∧ decode e s a = .ok a) l l' := by
    intro l l' h
    induction h with
    | nil => exact fun _ => .nil
    | cons h1 h2 _ ih =>
      intro he
      injection he with he1 he2
      injection he1 with he3 he4
      subst he3 he4
      exact .cons ⟨rfl, h1⟩ ⟨rfl, h2⟩ (ih he2)
  exact this h rfl

theorem dec_dict_again {e : Encoding T B} {s : Bool} {l : List (Val T B × Val T B)} {z : Val T B}
    (h : decodep e s l = .ok l) (hz : mkDict l = .ok z) : decode e s z = .ok z := by
  obtain ⟨hh, rfl⟩ := mkDict_ok hz
  have hr := (rel_self h).update (fun a b b' h h' => h.1.symm.trans h'.1) (fun a a' b h h' => h.1.trans h'.1.symm) .nil
  have : decodep e s (Od.update [] l) = .ok (Od.update [] l) := by
    rw [decodep_rel]
    have key : ∀ {l l' : List (Val T B × Val T B)}, Rel (fun a b => a = b ∧ decode e s a = .ok a) l l' →
        Rel (fun a b => decode e s a = .ok b) l l' := by
      intro l l' h
      induction h with
      | nil => exact .nil
      | cons h1 h2 _ ih => exact .cons (h1.1 ▸ h1.2) (h2.1 ▸ h2.2) ih
    exact key hr
  unfold decode
  rw [this]
  exact mkDict_self (Od.nodup_keys_update keys_nil_nodup) (hash_update hh)

mutual
/-- `decode` is idempotent, on everything it accepts. -/
theorem c52_decode_idem {e : Encoding T B} {s : Bool} : (x : Val T B) → ∀ {z : Val T B}, decode e s x = .ok z →
    decode e s z = .ok z
  | .text t, z, h => by unfold decode at h; cases h; unfold decode; rfl
  | .other n, z, h => by unfold decode at h; cases h; unfold decode; rfl
  | .bytes b, z, h => by
    have h0 := h
    unfold decode decodeBytes at h
    cases hd : e.dec b with
    | some t => rw [hd] at h; cases h; unfold decode; rfl
    | none =>
      rw [hd] at h
      cases s with
      | false => cases h
      | true => cases h; exact h0
  | .list l, z, h => by
    unfold decode at h
    cases hl : decodes e s l with
    | error _ => rw [hl] at h; cases h
    | ok l1 => rw [hl] at h; cases h; unfold decode; rw [decodes_idem l hl]; rfl
  | .tuple l, z, h => by
    unfold decode at h
    cases hl : decodes e s l with
    | error _ => rw [hl] at h; cases h
    | ok l1 => rw [hl] at h; cases h; unfold decode; rw [decodes_idem l hl]; rfl
  | .dict l, z, h => by
    unfold decode at h
    cases hl : decodep e s l with
    | error _ => rw [hl] at h; cases h
    | ok l1 => rw [hl] at h; exact dec_dict_again (decodep_idem l hl) h
  | .node l, z, h => by
    unfold decode at h
    cases hl : decodep e s l with
    | error _ => rw [hl] at h; cases h
    | ok l1 => rw [hl] at h; exact dec_dict_again (decodep_idem l hl) h
/-- Likewise for lists. -/
theorem decodes_idem {e : Encoding T B} {s : Bool} : (l : List (Val T B)) → ∀ {l1 : List (Val T B)},
    decodes e s l = .ok l1 → decodes e s l1 = .ok l1
  | [], l1, h => by unfold decodes at h; cases h; rfl
  | x :: l, l1, h => by
    unfold decodes at h
    cases hx : decode e s x with
    | error _ => rw [hx] at h; cases h
    | ok y =>
      cases hl : decodes e s l with
      | error _ => rw [hx, hl] at h; cases h
      | ok l2 =>
        rw [hx, hl] at h; cases h
        unfold decodes
        rw [c52_decode_idem x hx, decodes_idem l hl]; rfl
/-- Likewise for items. -/
theorem decodep_idem {e : Encoding T B} {s : Bool} : (l : List (Val T B × Val T B)) →
    ∀ {l1 : List (Val T B × Val T B)}, decodep e s l = .ok l1 → decodep e s l1 = .ok l1
  | [], l1, h => by unfold decodep at h; cases h; rfl
  | (k, x) :: l, l1, h => by
    unfold decodep at h
    cases hk : decode e s k with
    | error _ => rw [hk] at h; cases h
    | ok j =>
      cases hx : decode e s x with
      | error _ => rw [hk, hx] at h; cases h
      | ok y =>
        cases hl : decodep e s l with
        | error _ => rw [hk, hx, hl] at h; cases h
        | ok l2 =>
          rw [hk, hx, hl] at h; cases h
          unfold decodep
          rw [c52_decode_idem k hk, c52_decode_idem x hx, decodep_idem l hl]; rfl
end

/-! ### Which values pass, and unchanged values -/

/-- No bytes. -/
def IsText : Val T B → Prop
  | .bytes _ => False
  | _ => True

mutual
/-- Decoding leaves values without bytes alone. -/
theorem decode_text {e : Encoding T B} {s : Bool} : (x : Val T B) → WFV x → Leaves IsText x → decode e s x = .ok x
  | .text _, _, _ => by unfold decode; rfl
  | .other _, _, _ => by unfold decode; rfl
  | .bytes _, _, h => by unfold Leaves at h; exact h.elim
  | .node _, _, h => by unfold Leaves at h; exact h.elim
  | .list l, hw, h => by
    unfold WFV at hw; unfold Leaves at h; unfold decode
    rw [decodes_text l hw h]; rfl
  | .tuple l, hw, h => by
    unfold WFV at hw; unfold Leaves at h; unfold decode
    rw [decodes_text l hw h]; rfl
  | .dict l, hw, h => by
    unfold WFV at hw; unfold Leaves at h; unfold decode
    rw [decodep_text l hw.1 h]
    exact mkDict_self hw.2.1 (all_hashable.mpr hw.2.2)
/-- Likewise for lists. -/
theorem decodes_text {e : Encoding T B} {s : Bool} : (l : List (Val T B)) → WFVs l → Leavess IsText l → decodes e s l = .ok l
  | [], _, _ => by unfold decodes; rfl
  | x :: l, hw, h => by
    unfold WFVs at hw; unfold Leavess at h; unfold decodes
    rw [decode_text x hw.1 h.1, decodes_text l hw.2 h.2]; rfl
/-- Likewise for items. -/
theorem decodep_text {e : Encoding T B} {s : Bool} : (l : List (Val T B × Val T B)) → WFVp l → Leavesp IsText l → decodep e s l = .ok l
  | [], _, _ => by unfold decodep; rfl
  | (k, x) :: l, hw, h => by
    unfold WFVp at hw; unfold Leavesp at h; unfold decodep
    rw [decode_text k hw.1 h.1, decode_text x hw.2.1 h.2.1, decodep_text l hw.2.2 h.2.2]; rfl
end

/-- `decode(encode(x)) == x` if `x` contains only text. -/
theorem c52_text {e : Encoding T B} (he : e.Lawful) {s : Bool} {x y : Val T B} (hw : WFV x) (ht : Leaves IsText x)
    (h : encode e s x = .ok y) : decode e s y = .ok x := by
  rw [(c52_decode_encode he h).1, decode_text x hw ht]

/-- Bytes that can be decoded. -/
def Decodable (e : Encoding T B) : Val T B → Prop
  | .bytes b => (e.dec b).isSome
  | _ => True

/-- Bytes that pass `decode`. -/
def Passes (e : Encoding T B) (s : Bool) (v : Val T B) : Prop := s = true ∨ Decodable e v

mutual
theorem decode_hash {e : Encoding T B} {s : Bool} {P : Val T B → Prop} : (x : Val T B) → Leaves P x → ∀ {z : Val T B}, decode e s x = .ok z →
    hashable z = hashable x
  | .text _, _, z, h => by unfold decode at h; cases h; rfl
  | .other _, _, z, h => by unfold decode at h; cases h; rfl
  | .node _, hl, _, _ => by unfold Leaves at hl; exact hl.elim
  | .bytes b, _, z, h => by
    unfold decode decodeBytes at h
    cases hd : e.dec b with
    | some t => rw [hd] at h; cases h; rfl
    | none =>
      rw [hd] at h
      cases s with
      | false => cases h
      | true => cases h; rfl
  | .list l, _, z, h => by
    unfold decode at h
    cases hl : decodes e s l with
    | error _ => rw [hl] at h; cases h
    | ok l1 => rw [hl] at h; cases h; rfl
  | .tuple l, hp, z, h => by
    unfold decode at h; unfold Leaves at hp
    cases hl : decodes e s l with
    | error _ => rw [hl] at h; cases h
    | ok l1 => rw [hl] at h; cases h; exact decodes_hash l hp hl
  | .dict l, _, z, h => by
    unfold decode at h
    cases hl : decodep e s l with
    | error _ => rw [hl] at h; cases h
    | ok l1 => rw [hl] at h; rw [(mkDict_ok h).2]; rfl
theorem decodes_hash {e : Encoding T B} {s : Bool} {P : Val T B → Prop} : (l : List (Val T B)) → Leavess P l → ∀ {l1 : List (Val T B)},
    decodes e s l = .ok l1 → hashables l1 = hashables l
  | [], _, l1, h => by unfold decodes at h; cases h; rfl
  | x :: l, hp, l1, h => by
    unfold decodes at h; unfold Leavess at hp
    cases hx : decode e s x with
    | error _ => rw [hx] at h; cases h
    | ok y =>
      cases hl : decodes e s l with
      | error _ => rw [hx, hl] at h; cases h
      | ok l2 =>
        rw [hx, hl] at h; cases h
        unfold hashables
        rw [decode_hash x hp.1 hx, decodes_hash l hp.2 hl]
end

theorem rel_hash {e : Encoding T B} {s : Bool} {P : Val T B → Prop} {l l1 : List (Val T B × Val T B)}
    (h : Rel (fun a b => decode e s a = .ok b) l l1) (hp : Leavesp P l) :
    (l1.all fun p => hashable p.1) = l.all fun p => hashable p.1 := by
  induction h with
  | nil => rfl
  | cons h1 _ _ ih =>
    unfold Leavesp at hp
    rw [List.all_cons, List.all_cons, ih hp.2.2, decode_hash _ hp.1 h1]

mutual
/-- `decode` accepts a value exactly if all its bytes pass; otherwise it is `UnicodeDecodeError`. -/
theorem decode_accepts {e : Encoding T B} {s : Bool} : (x : Val T B) → WFV x → Leaves (fun _ => True) x →
    (Leaves (Passes e s) x → ∃ z, decode e s x = .ok z) ∧ (¬ Leaves (Passes e s) x → decode e s x = .error .decode)
  | .text _, _, _ => ⟨fun _ => ⟨_, by unfold decode; rfl⟩, fun h => absurd (by unfold Leaves; exact .inr trivial) h⟩
  | .other _, _, _ => ⟨fun _ => ⟨_, by unfold decode; rfl⟩, fun h => absurd (by unfold Leaves; exact .inr trivial) h⟩
  | .node _, _, h => by unfold Leaves at h; exact h.elim
  | .bytes b, _, _ => by
    unfold Leaves decode decodeBytes
    cases hd : e.dec b with
    | some t => exact ⟨fun _ => ⟨_, rfl⟩, fun h => absurd (.inr (by show (e.dec b).isSome = true; rw [hd]; rfl)) h⟩
    | none =>
      cases s with
      | false =>
        refine ⟨fun h => ?_, fun _ => rfl⟩
        rcases h with h | h
        · cases h
        · have h : (e.dec b).isSome = true := h
          rw [hd] at h; cases h
      | true => exact ⟨fun _ => ⟨_, rfl⟩, fun h => absurd (.inl rfl) h⟩
  | .list l, hw, hl => by
    unfold WFV at hw; unfold Leaves at hl; unfold Leaves decode
    obtain ⟨h1, h2⟩ := decodes_accepts (e := e) (s := s) l hw hl
    exact ⟨fun h => let ⟨z, hz⟩ := h1 h; ⟨.list z, by rw [hz]; rfl⟩, fun h => by rw [h2 h]; rfl⟩
  | .tuple l, hw, hl => by
    unfold WFV at hw; unfold Leaves at hl; unfold Leaves decode
    obtain ⟨h1, h2⟩ := decodes_accepts (e := e) (s := s) l hw hl
    exact ⟨fun h => let ⟨z, hz⟩ := h1 h; ⟨.tuple z, by rw [hz]; rfl⟩, fun h => by rw [h2 h]; rfl⟩
  | .dict l, hw, hl => by
    unfold WFV at hw; unfold Leaves at hl; unfold Leaves decode
    obtain ⟨h1, h2⟩ := decodep_accepts (e := e) (s := s) l hw.1 hl
    refine ⟨fun h => ?_, fun h => by rw [h2 h]; rfl⟩
    obtain ⟨z, hz⟩ := h1 h
    have := rel_hash (decodep_rel.mp hz) hl
    rw [hz]
    refine ⟨.dict (Od.update [] z), ?_⟩
    simp only [Except.bind, mkDict, this, all_hashable.mpr hw.2.2, if_true]
/-- Likewise for lists. -/
theorem decodes_accepts {e : Encoding T B} {s : Bool} : (l : List (Val T B)) → WFVs l → Leavess (fun _ => True) l →
    (Leavess (Passes e s) l → ∃ z, decodes e s l = .ok z) ∧ (¬ Leavess (Passes e s) l → decodes e s l = .error .decode)
  | [], _, _ => ⟨fun _ => ⟨[], rfl⟩, fun h => absurd (by unfold Leavess; trivial) h⟩
  | x :: l, hw, hl => by
    unfold WFVs at hw; unfold Leavess at hl; unfold Leavess decodes
    obtain ⟨h1, h2⟩ := decode_accepts (e := e) (s := s) x hw.1 hl.1
    obtain ⟨h3, h4⟩ := decodes_accepts (e := e) (s := s) l hw.2 hl.2
    refine ⟨fun h => ?_, fun h => ?_⟩
    · obtain ⟨z, hz⟩ := h1 h.1
      obtain ⟨zs, hzs⟩ := h3 h.2
      exact ⟨z :: zs, by rw [hz, hzs]; rfl⟩
    · by_cases hx : Leaves (Passes e s) x
      · obtain ⟨z, hz⟩ := h1 hx
        rw [hz, h4 fun hh => h ⟨hx, hh⟩]; rfl
      · rw [h2 hx]; rfl
/-- Likewise for items. -/
theorem decodep_accepts {e : Encoding T B} {s : Bool} : (l : List (Val T B × Val T B)) → WFVp l → Leavesp (fun _ => True) l →
    (Leavesp (Passes e s) l → ∃ z, decodep e s l = .ok z) ∧ (¬ Leavesp (Passes e s) l → decodep e s l = .error .decode)
  | [], _, _ => ⟨fun _ => ⟨[], rfl⟩, fun h => absurd (by unfold Leavesp; trivial) h⟩
  | (k, x) :: l, hw, hl => by
    unfold WFVp at hw; unfold Leavesp at hl; unfold Leavesp decodep
    obtain ⟨h1, h2⟩ := decode_accepts (e := e) (s := s) k hw.1 hl.1
    obtain ⟨h3, h4⟩ := decode_accepts (e := e) (s := s) x hw.2.1 hl.2.1
    obtain ⟨h5, h6⟩ := decodep_accepts (e := e) (s := s) l hw.2.2 hl.2.2
    refine ⟨fun h => ?_, fun h => ?_⟩
    · obtain ⟨j, hj⟩ := h1 h.1
      obtain ⟨z, hz⟩ := h3 h.2.1
      obtain ⟨zs, hzs⟩ := h5 h.2.2
      exact ⟨(j, z) :: zs, by rw [hj, hz, hzs]; rfl⟩
    · by_cases hk : Leaves (Passes e s) k
      · obtain ⟨j, hj⟩ := h1 hk
        by_cases hx : Leaves (Passes e s) x
        · obtain ⟨z, hz⟩ := h3 hx
          rw [hj, hz, h6 fun hh => h ⟨hk, hx, hh⟩]; rfl
        · rw [hj, h4 hx]; rfl
      · rw [h2 hk]; rfl
end

omit [DecidableEq T] [DecidableEq B] in
mutual
theorem leaves_mono {P Q : Val T B → Prop} (hpq : ∀ v, P v → Q v) : (x : Val T B) → Leaves P x → Leaves Q x
  | .text _, h => by unfold Leaves at h ⊢; exact hpq _ h
  | .other _, h => by unfold Leaves at h ⊢; exact hpq _ h
  | .bytes _, h => by unfold Leaves at h ⊢; exact hpq _ h
  | .node _, h => by unfold Leaves at h; exact h.elim
  | .list l, h => by unfold Leaves at h ⊢; exact leavess_mono hpq l h
  | .tuple l, h => by unfold Leaves at h ⊢; exact leavess_mono hpq l h
  | .dict l, h => by unfold Leaves at h ⊢; exact leavesp_mono hpq l h
theorem leavess_mono {P Q : Val T B → Prop} (hpq : ∀ v, P v → Q v) : (l : List (Val T B)) → Leavess P l → Leavess Q l
  | [], _ => by unfold Leavess; trivial
  | x :: l, h => by unfold Leavess at h ⊢; exact ⟨leaves_mono hpq x h.1, leavess_mono hpq l h.2⟩
theorem leavesp_mono {P Q : Val T B → Prop} (hpq : ∀ v, P v → Q v) : (l : List (Val T B × Val T B)) → Leavesp P l → Leavesp Q l
  | [], _ => by unfold Leavesp; trivial
  | (k, x) :: l, h => by
    unfold Leavesp at h ⊢; exact ⟨leaves_mono hpq k h.1, leaves_mono hpq x h.2.1, leavesp_mono hpq l h.2.2⟩
end

/-- A leaf `encode` accepts. -/
def Encodable (e : Encoding T B) (s : Bool) : Val T B → Prop
  | .text t => (e.enc t).isSome
  | .bytes b => s = true ∨ (e.dec b).isSome
  | _ => True

mutual
theorem encode_hash {e : Encoding T B} {s : Bool} {P : Val T B → Prop} : (x : Val T B) → Leaves P x → ∀ {z : Val T B}, encode e s x = .ok z →
    hashable z = hashable x
  | .text t, _, z, h => by
    unfold encode encodeText at h
    cases hb : e.enc t with
    | none => rw [hb] at h; cases h
    | some b => rw [hb] at h; cases h; rfl
  | .other _, _, z, h => by unfold encode at h; cases h; rfl
  | .node _, hl, _, _ => by unfold Leaves at hl; exact hl.elim
  | .bytes b, _, z, h => by
    unfold encode decodeBytes at h
    cases hd : e.dec b with
    | some t =>
      rw [hd] at h
      simp only [Except.bind, encodeText] at h
      cases hb : e.enc t with
      | none => rw [hb] at h; cases h
      | some b' => rw [hb] at h; cases h; rfl
    | none =>
      rw [hd] at h
      cases s with
      | false => cases h
      | true => cases h; rfl
  | .list l, _, z, h => by
    unfold encode at h
    cases hl : encodes e s l with
    | error _ => rw [hl] at h; cases h
    | ok l1 => rw [hl] at h; cases h; rfl
  | .tuple l, hp, z, h => by
    unfold encode at h; unfold Leaves at hp
    cases hl : encodes e s l with
    | error _ => rw [hl] at h; cases h
    | ok l1 => rw [hl] at h; cases h; exact encodes_hash l hp hl
  | .dict l, _, z, h => by
    unfold encode at h
    cases hl : encodep e s l with
    | error _ => rw [hl] at h; cases h
    | ok l1 => rw [hl] at h; rw [(mkDict_ok h).2]; rfl
theorem encodes_hash {e : Encoding T B} {s : Bool} {P : Val T B → Prop} : (l : List (Val T B)) → Leavess P l → ∀ {l1 : List (Val T B)},
    encodes e s l = .ok l1 → hashables l1 = hashables l
  | [], _, l1, h => by unfold encodes at h; cases h; rfl
  | x :: l, hp, l1, h => by
    unfold encodes at h; unfold Leavess at hp
    cases hx : encode e s x with
    | error _ => rw [hx] at h; cases h
    | ok y =>
      cases hl : encodes e s l with
      | error _ => rw [hx, hl] at h; cases h
      | ok l2 =>
        rw [hx, hl] at h; cases h
        unfold hashables
        rw [encode_hash x hp.1 hx, encodes_hash l hp.2 hl]
end

theorem rel_hash' {e : Encoding T B} {s : Bool} {P : Val T B → Prop} {l l1 : List (Val T B × Val T B)}
    (h : Rel (fun a b => encode e s a = .ok b) l l1) (hp : Leavesp P l) :
    (l1.all fun p => hashable p.1) = l.all fun p => hashable p.1 := by
  induction h with
  | nil => rfl
  | cons h1 _ _ ih =>
    unfold Leavesp at hp
    rw [List.all_cons, List.all_cons, ih hp.2.2, encode_hash _ hp.1 h1]

mutual
/-- `encode` returns on every value whose text can be encoded (and, unless soft, whose bytes can be
decoded). -/
theorem c52_encodes {e : Encoding T B} (he : e.Lawful) {s : Bool} : (x : Val T B) → WFV x → Leaves (Encodable e s) x →
    ∃ y, encode e s x = .ok y
  | .text t, _, h => by
    unfold Leaves at h; unfold encode encodeText
    obtain ⟨b, hb⟩ := Option.isSome_iff_exists.mp h
    rw [hb]; exact ⟨_, rfl⟩
  | .other _, _, _ => ⟨_, by unfold encode; rfl⟩
  | .node _, _, h => by unfold Leaves at h; exact h.elim
  | .bytes b, _, h => by
    unfold Leaves at h; unfold encode decodeBytes
    cases hd : e.dec b with
    | some t =>
      obtain ⟨b', hb⟩ := he.again b t hd
      simp only [Except.bind, encodeText, hb]; exact ⟨_, rfl⟩
    | none =>
      rcases h with h | h
      · subst h; exact ⟨_, rfl⟩
      · rw [hd] at h; cases h
  | .list l, hw, h => by
    unfold WFV at hw; unfold Leaves at h; unfold encode
    obtain ⟨z, hz⟩ := encodes_encodes he l hw h
    rw [hz]; exact ⟨_, rfl⟩
  | .tuple l, hw, h => by
    unfold WFV at hw; unfold Leaves at h; unfold encode
    obtain ⟨z, hz⟩ := encodes_encodes he l hw h
    rw [hz]; exact ⟨_, rfl⟩
  | .dict l, hw, h => by
    unfold WFV at hw; unfold Leaves at h; unfold encode
    obtain ⟨z, hz⟩ := encodep_encodes he l hw.1 h
    have := rel_hash' (encodep_rel.mp hz) h
    rw [hz]
    refine ⟨.dict (Od.update [] z), ?_⟩
    simp only [Except.bind, mkDict, this, all_hashable.mpr hw.2.2, if_true]
/-- Likewise for lists. -/
theorem encodes_encodes {e : Encoding T B} (he : e.Lawful) {s : Bool} : (l : List (Val T B)) → WFVs l → Leavess (Encodable e s) l →
    ∃ y, encodes e s l = .ok y
  | [], _, _ => ⟨[], rfl⟩
  | x :: l, hw, h => by
    unfold WFVs at hw; unfold Leavess at h; unfold encodes
    obtain ⟨z, hz⟩ := c52_encodes he x hw.1 h.1
    obtain ⟨zs, hzs⟩ := encodes_encodes he l hw.2 h.2
    rw [hz, hzs]; exact ⟨_, rfl⟩
/-- Likewise for items. -/
theorem encodep_encodes {e : Encoding T B} (he : e.Lawful) {s : Bool} : (l : List (Val T B × Val T B)) → WFVp l →
    Leavesp (Encodable e s) l → ∃ y, encodep e s l = .ok y
  | [], _, _ => ⟨[], rfl⟩
  | (k, x) :: l, hw, h => by
    unfold WFVp at hw; unfold Leavesp at h; unfold encodep
    obtain ⟨j, hj⟩ := c52_encodes he k hw.1 h.1
    obtain ⟨z, hz⟩ := c52_encodes he x hw.2.1 h.2.1
    obtain ⟨zs, hzs⟩ := encodep_encodes he l hw.2.2 h.2.2
    rw [hj, hz, hzs]; exact ⟨_, rfl⟩
end

omit [DecidableEq T] [DecidableEq B] in
theorem wfvp_iff {l : List (Val T B × Val T B)} : WFVp l ↔ ∀ p ∈ l, WFV p.1 ∧ WFV p.2 := by
  induction l with
  | nil => exact ⟨fun _ _ h => (nomatch h), fun _ => by unfold WFVp; trivial⟩
  | cons p l ih =>
    unfold WFVp
    rw [ih]
    exact ⟨fun h q hq => (List.mem_cons.mp hq).elim (fun e => e ▸ ⟨h.1, h.2.1⟩) (h.2.2 q),
      fun h => ⟨(h p List.mem_cons_self).1, (h p List.mem_cons_self).2, fun q hq => h q (List.mem_cons_of_mem _ hq)⟩⟩

theorem mem_set {d : Od (Val T B) (Val T B)} {k x : Val T B} {p : Val T B × Val T B} (h : p ∈ Od.set d k x) :
    p ∈ d ∨ p = (k, x) := by
  induction d with
  | nil => exact .inr (List.mem_singleton.mp h)
  | cons q d ih =>
    unfold Od.set at h
    split at h
    · rename_i e
      rcases List.mem_cons.mp h with h | h
      · exact .inr (by rw [h, e])
      · exact .inl (List.mem_cons_of_mem _ h)
    · rcases List.mem_cons.mp h with h | h
      · exact .inl (h ▸ List.mem_cons_self)
      · exact (ih h).imp_left (List.mem_cons_of_mem _)

theorem mem_update {l : List (Val T B × Val T B)} {p : Val T B × Val T B} :
    ∀ {d : Od (Val T B) (Val T B)}, p ∈ Od.update d l → p ∈ d ∨ p ∈ l := by
  induction l with
  | nil => exact fun h => .inl h
  | cons q l ih =>
    intro d h
    rcases ih (d := Od.set d q.1 q.2) h with h | h
    · exact (mem_set h).imp_right fun (e : p = q) => by rw [e]; exact List.mem_cons_self
    · exact .inr (List.mem_cons_of_mem _ h)

/-- `dict(pairs)` is a dictionary. -/
theorem mkDict_wfv {l : List (Val T B × Val T B)} {z : Val T B} (hl : WFVp l) (h : mkDict l = .ok z) : WFV z := by
  obtain ⟨h1, rfl⟩ := mkDict_ok h
  unfold WFV
  refine ⟨wfvp_iff.mpr fun p hp => ?_, ?_, fun p hp => ?_⟩
  · exact (mem_update hp).elim (fun h => nomatch h) (wfvp_iff.mp hl p)
  · exact Od.nodup_keys_update (d := []) (e := l) List.nodup_nil
  · exact (mem_update hp).elim (fun h => nomatch h) (all_hashable.mp h1 p)

mutual
/-- What `decode` returns is a value as it occurs in Python. -/
theorem c52_decode_proper {e : Encoding T B} {s : Bool} : (x : Val T B) → {z : Val T B} → decode e s x = .ok z → WFV z
  | .text _, z, h => by unfold decode at h; cases h; unfold WFV; trivial
  | .other _, z, h => by unfold decode at h; cases h; unfold WFV; trivial
  | .bytes b, z, h => by
    unfold decode decodeBytes at h
    split at h
    · cases h; unfold WFV; trivial
    · split at h
      · cases h; unfold WFV; trivial
      · cases h
  | .list l, z, h => by
    unfold decode at h
    cases hd : decodes e s l with
    | error x => rw [hd] at h; cases h
    | ok y => rw [hd] at h; cases h; unfold WFV; exact decodes_proper l hd
  | .tuple l, z, h => by
    unfold decode at h
    cases hd : decodes e s l with
    | error x => rw [hd] at h; cases h
    | ok y => rw [hd] at h; cases h; unfold WFV; exact decodes_proper l hd
  | .dict l, z, h => by
    unfold decode at h
    cases hd : decodep e s l with
    | error x => rw [hd] at h; cases h
    | ok y => rw [hd] at h; exact mkDict_wfv (decodep_proper l hd) h
  | .node l, z, h => by
    unfold decode at h
    cases hd : decodep e s l with
    | error x => rw [hd] at h; cases h
    | ok y => rw [hd] at h; exact mkDict_wfv (decodep_proper l hd) h
theorem decodes_proper {e : Encoding T B} {s : Bool} : (l : List (Val T B)) → {z : List (Val T B)} → decodes e s l = .ok z → WFVs z
  | [], z, h => by unfold decodes at h; cases h; unfold WFVs; trivial
  | x :: l, z, h => by
    unfold decodes at h
    cases hx : decode e s x with
    | error _ => rw [hx] at h; cases h
    | ok y =>
      cases hd : decodes e s l with
      | error _ => rw [hx, hd] at h; cases h
      | ok ys => rw [hx, hd] at h; cases h; unfold WFVs; exact ⟨c52_decode_proper x hx, decodes_proper l hd⟩
theorem decodep_proper {e : Encoding T B} {s : Bool} : (l : List (Val T B × Val T B)) → {z : List (Val T B × Val T B)} →
    decodep e s l = .ok z → WFVp z
  | [], z, h => by unfold decodep at h; cases h; unfold WFVp; trivial
  | (k, x) :: l, z, h => by
    unfold decodep at h
    cases hk : decode e s k with
    | error _ => rw [hk] at h; cases h
    | ok j =>
      cases hx : decode e s x with
      | error _ => rw [hk, hx] at h; cases h
      | ok y =>
        cases hd : decodep e s l with
        | error _ => rw [hk, hx, hd] at h; cases h
        | ok ys =>
          rw [hk, hx, hd] at h; cases h; unfold WFVp
          exact ⟨c52_decode_proper k hk, c52_decode_proper x hx, decodep_proper l hd⟩
end

mutual
/-- What `encode` returns is a value as it occurs in Python. -/
theorem c52_encode_proper {e : Encoding T B} {s : Bool} : (x : Val T B) → {z : Val T B} → encode e s x = .ok z → WFV z
  | .text t, z, h => by
    unfold encode encodeText at h
    split at h <;> cases h
    unfold WFV; trivial
  | .other _, z, h => by unfold encode at h; cases h; unfold WFV; trivial
  | .bytes b, z, h => by
    unfold encode decodeBytes at h
    split at h
    · unfold encodeText at h
      simp only [Except.bind] at h
      split at h <;> cases h
      unfold WFV; trivial
    · split at h
      · cases h; unfold WFV; trivial
      · cases h
  | .list l, z, h => by
    unfold encode at h
    cases hd : encodes e s l with
    | error x => rw [hd] at h; cases h
    | ok y => rw [hd] at h; cases h; unfold WFV; exact encodes_proper l hd
  | .tuple l, z, h => by
    unfold encode at h
    cases hd : encodes e s l with
    | error x => rw [hd] at h; cases h
    | ok y => rw [hd] at h; cases h; unfold WFV; exact encodes_proper l hd
  | .dict l, z, h => by
    unfold encode at h
    cases hd : encodep e s l with
    | error x => rw [hd] at h; cases h
    | ok y => rw [hd] at h; exact mkDict_wfv (encodep_proper l hd) h
  | .node l, z, h => by
    unfold encode at h
    cases hd : encodep e s l with
    | error x => rw [hd] at h; cases h
    | ok y => rw [hd] at h; exact mkDict_wfv (encodep_proper l hd) h
theorem encodes_proper {e : Encoding T B} {s : Bool} : (l : List (Val T B)) → {z : List (Val T B)} → encodes e s l = .ok z → WFVs z
  | [], z, h => by unfold encodes at h; cases h; unfold WFVs; trivial
  | x :: l, z, h => by
    unfold encodes at h
    cases hx : encode e s x with
    | error _ => rw [hx] at h; cases h
    | ok y =>
      cases hd : encodes e s l with
      | error _ => rw [hx, hd] at h; cases h
      | ok ys => rw [hx, hd] at h; cases h; unfold WFVs; exact ⟨c52_encode_proper x hx, encodes_proper l hd⟩
theorem encodep_proper {e : Encoding T B} {s : Bool} : (l : List (Val T B × Val T B)) → {z : List (Val T B × Val T B)} →
    encodep e s l = .ok z → WFVp z
  | [], z, h => by unfold encodep at h; cases h; unfold WFVp; trivial
  | (k, x) :: l, z, h => by
    unfold encodep at h
    cases hk : encode e s k with
    | error _ => rw [hk] at h; cases h
    | ok j =>
      cases hx : encode e s x with
      | error _ => rw [hk, hx] at h; cases h
      | ok y =>
        cases hd : encodep e s l with
        | error _ => rw [hk, hx, hd] at h; cases h
        | ok ys =>
          rw [hk, hx, hd] at h; cases h; unfold WFVp
          exact ⟨c52_encode_proper k hk, c52_encode_proper x hx, encodep_proper l hd⟩
end

/-- In soft mode `decode` never raises, whatever bytes the value contains. -/
theorem c52_soft {e : Encoding T B} {x : Val T B} (hw : WFV x) (hn : Leaves (fun _ => True) x) : ∃ z, decode e true x = .ok z :=
  (decode_accepts x hw hn).1 (leaves_mono (fun _ _ => .inl rfl) x hn)

/-- Otherwise it raises `UnicodeDecodeError` exactly if some bytes in the value are undecodable,
at whatever depth, and returns otherwise. -/
theorem c52_strict {e : Encoding T B} {x : Val T B} (hw : WFV x) (hn : Leaves (fun _ => True) x) :
    (Leaves (Decodable e) x → ∃ z, decode e false x = .ok z) ∧
    (¬ Leaves (Decodable e) x → decode e false x = .error .decode) := by
  obtain ⟨h1, h2⟩ := decode_accepts (e := e) (s := false) x hw hn
  refine ⟨fun h => h1 (leaves_mono (fun _ h => .inr h) x h), fun h => h2 fun hh => h (leaves_mono (fun v hv => ?_) x hh)⟩
  rcases hv with hv | hv
  · cases hv
  · exact hv

/-- Undecodable bytes are returned unchanged in soft mode, by both functions, and raise otherwise. -/
theorem c52_undecodable {e : Encoding T B} {b : B} (h : e.dec b = none) :
    decode e true (.bytes b : Val T B) = .ok (.bytes b) ∧ encode e true (.bytes b : Val T B) = .ok (.bytes b) ∧
    decode e false (.bytes b : Val T B) = .error .decode ∧ encode e false (.bytes b : Val T B) = .error .decode := by
  unfold decode encode decodeBytes
  rw [h]
  exact ⟨rfl, rfl, rfl, rfl⟩

end

/-! ### Encodings that satisfy the laws -/

/-- UTF-8, for text without lone surrogates. -/
def utf8 : Encoding String ByteArray where
  enc t := some t.toUTF8
  dec b := String.fromUTF8? b

theorem utf8_lawful : utf8.Lawful where
  round t b h := by
    cases h
    show String.fromUTF8? t.toByteArray = some t
    unfold String.fromUTF8?
    rw [dif_pos t.isValidUTF8]
    rfl
  again b t _ := ⟨_, rfl⟩

/-- ASCII. -/
def ascii : Encoding (List Nat) (List Nat) where
  enc t := if t.all (· < 128) then some t else none
  dec b := if b.all (· < 128) then some b else none

theorem ascii_lawful : ascii.Lawful where
  round t b h := by
    unfold ascii at h ⊢
    simp only at h ⊢
    split at h
    · rename_i hh; cases h; rw [if_pos hh]
    · cases h
  again b t h := by
    unfold ascii at h ⊢
    simp only at h ⊢
    split at h
    · rename_i hh; cases h; exact ⟨b, if_pos hh⟩
    · cases h

/-- Text and bytes keys that fall together, undecodable bytes, nesting. -/
def sampleVal : Val (List Nat) (List Nat) :=
  .list [.dict [(.text [65], .bytes [200]), (.bytes [65], .tuple [.text [66], .other 7])], .bytes [67]]

example : WFV sampleVal ∧ Leaves (fun _ => True) sampleVal ∧
    encode ascii true sampleVal = .ok (.list [.dict [(.bytes [65], .tuple [.bytes [66], .other 7])], .bytes [67]]) ∧
    decode ascii true sampleVal = .ok (.list [.dict [(.text [65], .tuple [.text [66], .other 7])], .text [67]]) ∧
    decode ascii false sampleVal = .error .decode := by
  refine ⟨?_, ?_, rfl, rfl, rfl⟩
  · refine ⟨⟨?_, by decide, fun p hp => ?_⟩, trivial, trivial⟩
    · exact ⟨trivial, trivial, trivial, ⟨trivial, trivial, trivial⟩, trivial⟩
    · rcases List.mem_cons.mp hp with rfl | hp
      · exact .text _
      · rw [List.mem_singleton.mp hp]; exact .bytes _
  · simp [sampleVal, Leaves, Leavess, Leavesp]

/-- A node as a key would become a dictionary, which is no key. -/
example : decode ascii true (.dict [(.tuple [.node []], .other 1)] : Val (List Nat) (List Nat)) = .error .type := rfl

/-- Text `encode` cannot express. -/
example : encode ascii true (.text [200] : Val (List Nat) (List Nat)) = .error .encode := rfl

end Verif.Utils
