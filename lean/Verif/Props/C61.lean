import Verif.Model.Repr
import Verif.Lemmas.Lookup
import Verif.Lemmas.Tree
import Verif.Sample

/-!
# C61: `treerepr`

The specification: rows, one per place in the tree.  A place is a path of keys with the value
found there.  `treerepr` prints one row per place, each with two prefixes more than its parent,
in document order.  Rows of unordered nodes come in the order of the text of their keys.

False as stated when two keys of an unordered node have the same text, as `1` and `'1'`
(`c61_refuted`): then the order of insertion shows.
-/

namespace Verif

/-! ### Specification -/

/-- `v` is found in `o` along a path. -/
inductive At (w : World) : Oid → List Key → Val → Prop
  | here {o : Oid} : At w o [] (.node o)
  | data {o : Oid} {k : Key} {d : Data} : (w.omap o).val k = some (.data d) → At w o [k] (.data d)
  | down {o c : Oid} {k : Key} {ks : List Key} {v : Val} : Contains w o k c → At w c ks v → At w o (k :: ks) v

/-- A row: path and value. -/
abbrev Row := List Key × Val

/-- What is written for a row, without indentation. -/
def rowLabel (P : Printer) (w : World) : Row → Str
  | (_, .node c) => noderepr P w c
  | (ks, .data d) => keyStr P (ks.getLastD .none) ++ [':', ' '] ++ P.data d

/-- A line: two prefixes per step of the path. -/
def rowText (P : Printer) (w : World) (pre : Str) (indent : Nat) (r : Row) : Str :=
  timesStr (indent + 2 * r.1.length) pre ++ rowLabel P w r ++ ['\n']

/-- `a` comes before `b` in document order, if the keys of each node are ordered by `shown`: parents
before what is below them, and whole subtrees in the order of their keys. -/
def DocLt (w : World) (shown : Oid → List Key) (o : Oid) (a b : List Key) : Prop :=
  (∃ k ks, b = a ++ k :: ks) ∨
  ∃ ks k k' x y p, a = ks ++ k :: x ∧ b = ks ++ k' :: y ∧ At w o ks (.node p) ∧ [k, k'].Sublist (shown p)

/-- The keys of a node in the order they are shown. -/
structure Shown (P : Printer) (c : ClassDef) (keys shown : List Key) : Prop where
  perm : shown.Perm keys
  ordered : Bhv.odictStorage ∈ c.bhvs → shown = keys
  sorted : Bhv.odictStorage ∉ c.bhvs → shown.Pairwise fun a b => strLe (keyStr P a) (keyStr P b) = true

/-- All nodes below `o` can be read. -/
def OpenBelow (E : Env) (w : World) (o : Oid) : Prop := ∀ x, InTree w o x → Open E w x

/-- No path below `o` is as long as `n`. -/
def Shallow (w : World) (o : Oid) (n : Nat) : Prop := ∀ ks x, Below w o ks x → ks.length < n

/-! ### Sorting -/

theorem strLe_total (a b : Str) : strLe a b = true ∨ strLe b a = true := by
  induction a generalizing b with
  | nil => exact .inl rfl
  | cons x a ih =>
    cases b with
    | nil => exact .inr rfl
    | cons y b =>
      unfold strLe
      by_cases h : x = y
      · subst h; simpa using ih b
      · rw [if_neg h, if_neg (Ne.symm h)]
        have : x.val ≠ y.val := fun e => h (Char.ext e)
        rcases UInt32.lt_or_lt_of_ne this with h | h
        · exact .inl (by simpa using h)
        · exact .inr (by simpa using h)

theorem strLe_trans {a b c : Str} (h : strLe a b = true) (h' : strLe b c = true) : strLe a c = true := by
  induction a generalizing b c with
  | nil => rfl
  | cons x a ih =>
    cases b with
    | nil => cases h
    | cons y b =>
      cases c with
      | nil => cases h'
      | cons z c =>
        unfold strLe at h h' ⊢
        by_cases hxy : x = y
        · subst hxy
          rw [if_pos rfl] at h
          by_cases hxz : x = z
          · rw [if_pos hxz] at h' ⊢; exact ih h h'
          · rw [if_neg hxz] at h' ⊢; exact h'
        · rw [if_neg hxy] at h
          have h := of_decide_eq_true h
          by_cases hyz : y = z
          · subst hyz
            rw [if_neg hxy]; exact decide_eq_true h
          · rw [if_neg hyz] at h'
            have h' := of_decide_eq_true h'
            have hlt := UInt32.lt_trans h h'
            rw [if_neg (fun e => by rw [e] at hlt; exact UInt32.lt_irrefl _ hlt)]
            exact decide_eq_true hlt

theorem strLe_antisymm {a b : Str} (h : strLe a b = true) (h' : strLe b a = true) : a = b := by
  induction a generalizing b with
  | nil => cases b with
    | nil => rfl
    | cons y b => cases h'
  | cons x a ih =>
    cases b with
    | nil => cases h
    | cons y b =>
      unfold strLe at h h'
      by_cases hxy : x = y
      · subst hxy
        rw [if_pos rfl] at h h'
        rw [ih h h']
      · rw [if_neg hxy] at h
        rw [if_neg (Ne.symm hxy)] at h'
        exact absurd (of_decide_eq_true h') (UInt32.lt_asymm (of_decide_eq_true h))

section sorting
variable {α : Type} {f : α → Str}

theorem insertBy_perm (x : α) (l : List α) : (insertBy f x l).Perm (x :: l) := by
  induction l with
  | nil => exact .refl _
  | cons y r ih =>
    unfold insertBy
    split
    · exact .refl _
    · exact (ih.cons y).trans (.swap x y r)

theorem sortBy_perm (l : List α) : (sortBy f l).Perm l := by
  induction l with
  | nil => exact .refl _
  | cons x r ih => exact (insertBy_perm x _).trans (ih.cons x)

theorem insertBy_sorted (x : α) {l : List α} (h : l.Pairwise fun a b => strLe (f a) (f b) = true) :
    (insertBy f x l).Pairwise fun a b => strLe (f a) (f b) = true := by
  induction l with
  | nil => exact List.pairwise_singleton _ _
  | cons y r ih =>
    unfold insertBy
    split
    · rename_i hxy
      refine List.Pairwise.cons (fun z hz => ?_) h
      rcases List.mem_cons.mp hz with rfl | hz
      · exact hxy
      · exact strLe_trans hxy (List.rel_of_pairwise_cons h hz)
    · rename_i hxy
      refine List.Pairwise.cons (fun z hz => ?_) (ih h.of_cons)
      rcases List.mem_cons.mp ((insertBy_perm x r).mem_iff.mp hz) with rfl | hz
      · exact (strLe_total (f z) (f y)).resolve_left hxy
      · exact List.rel_of_pairwise_cons h hz

theorem sortBy_sorted (l : List α) : (sortBy f l).Pairwise fun a b => strLe (f a) (f b) = true := by
  induction l with
  | nil => exact .nil
  | cons x r ih => exact insertBy_sorted x ih

theorem insertBy_map {β : Type} (g : β → α) (x : β) (l : List β) :
    (insertBy (fun b => f (g b)) x l).map g = insertBy f (g x) (l.map g) := by
  induction l with
  | nil => rfl
  | cons y r ih =>
    show List.map g (if strLe (f (g x)) (f (g y)) = true then x :: y :: r else y :: insertBy (fun b => f (g b)) x r) =
      if strLe (f (g x)) (f (g y)) = true then g x :: g y :: r.map g else g y :: insertBy f (g x) (r.map g)
    split
    · rfl
    · rw [List.map_cons, ih]

theorem sortBy_map {β : Type} (g : β → α) (l : List β) :
    (sortBy (fun b => f (g b)) l).map g = sortBy f (l.map g) := by
  induction l with
  | nil => rfl
  | cons x r ih =>
    show (insertBy (fun b => f (g b)) x (sortBy (fun b => f (g b)) r)).map g = insertBy f (g x) (sortBy f (r.map g))
    rw [insertBy_map, ih]

/-- Sorting forgets the order, if the sort keys differ. -/
theorem sorted_unique {l m : List α} (hp : l.Perm m) (hl : l.Pairwise fun a b => strLe (f a) (f b) = true)
    (hm : m.Pairwise fun a b => strLe (f a) (f b) = true) (hf : ∀ a ∈ l, ∀ b ∈ l, f a = f b → a = b) : l = m := by
  induction l generalizing m with
  | nil => exact hp.nil_eq
  | cons x l ih =>
    cases m with
    | nil => exact absurd hp.symm.nil_eq (by simp)
    | cons y m =>
      have e : x = y := by
        have hx : x ∈ y :: m := hp.mem_iff.mp List.mem_cons_self
        have hy : y ∈ x :: l := hp.mem_iff.mpr List.mem_cons_self
        rcases List.mem_cons.mp hx with h | hx
        · exact h
        · rcases List.mem_cons.mp hy with h | hy
          · exact h.symm
          · exact hf x List.mem_cons_self y (List.mem_cons_of_mem _ hy)
              (strLe_antisymm (List.rel_of_pairwise_cons hl hy) (List.rel_of_pairwise_cons hm hx))
      subst e
      rw [ih hp.cons_inv hl.of_cons hm.of_cons fun a ha b hb =>
        hf a (List.mem_cons_of_mem _ ha) b (List.mem_cons_of_mem _ hb)]

end sorting

/-! ### The rows -/

/-- The order of the keys of a node. -/
def shownKeys (E : Env) (P : Printer) (w : World) (o : Oid) : List Key :=
  if ordered (clsOf E w o) then (w.children o).keys else sortBy (keyStr P) (w.children o).keys

theorem shownKeys_shown (E : Env) (P : Printer) (w : World) (o : Oid) :
    Shown P (clsOf E w o) (w.omap o).keys (shownKeys E P w o) := by
  unfold shownKeys
  by_cases h : Bhv.odictStorage ∈ (clsOf E w o).bhvs
  · have e : ordered (clsOf E w o) = true := List.contains_iff_mem.mpr h
    rw [if_pos e]
    exact ⟨.refl _, fun _ => rfl, fun h' => absurd h h'⟩
  · have e : ¬ ordered (clsOf E w o) = true := fun hh => h (List.contains_iff_mem.mp hh)
    rw [if_neg e]
    exact ⟨sortBy_perm _, fun h' => absurd h' h, fun _ => sortBy_sorted _⟩

/-- Rows of the value of one key. -/
def rowsOf (rec : Oid → List Row) (k : Key) : Option Val → List Row
  | some (.node c) => (rec c).map fun r => (k :: r.1, r.2)
  | some (.data d) => [([k], .data d)]
  | none => []

/-- All rows below a node. -/
def rowsN (w : World) (shown : Oid → List Key) : Nat → Oid → List Row
  | 0, _ => []
  | n + 1, o => ([], .node o) :: (shown o).flatMap fun k => rowsOf (rowsN w shown n) k ((w.children o).get? k)

theorem InTree.head {w : World} {o c x : Oid} {k : Key} (h : Contains w o k c) (h' : InTree w c x) : InTree w o x :=
  InTree.trans (InTree.child (InTree.refl o) h) h'

theorem Shallow.child {w : World} {o c : Oid} {k : Key} {n : Nat} (h : Shallow w o (n + 1)) (hc : Contains w o k c) :
    Shallow w c n := fun ks x hb => by
  have := h ([k] ++ ks) x (Below.append (Below.child (ks := []) .root hc) hb)
  rw [List.length_append, List.length_singleton] at this
  omega

theorem rowsN_mem {w : World} {shown : Oid → List Key} (hs : ∀ p k, k ∈ shown p ↔ k ∈ (w.children p).keys) (n : Nat) :
    ∀ o, Shallow w o n → ∀ ks v, (ks, v) ∈ rowsN w shown n o ↔ At w o ks v := by
  induction n with
  | zero => exact fun o h => absurd (h [] o .root) (Nat.not_lt_zero _)
  | succ n ih =>
    intro o h ks v
    unfold rowsN
    rw [List.mem_cons, List.mem_flatMap]
    constructor
    · rintro (e | ⟨k, hk, hm⟩)
      · injection e with e1 e2; subst e1; subst e2; exact .here
      · cases hg : (w.children o).get? k with
        | none => rw [hg] at hm; cases hm
        | some x =>
          rw [hg] at hm
          cases x with
          | node c =>
            obtain ⟨r, hr, e⟩ := List.mem_map.mp hm
            injection e with e1 e2
            subst e1; subst e2
            exact .down hg ((ih c (h.child hg) r.1 r.2).mp hr)
          | data d =>
            have e := List.mem_singleton.mp hm
            injection e with e1 e2
            subst e1; subst e2
            exact .data hg
    · intro ha
      cases ha with
      | here => exact .inl rfl
      | data hv =>
        rename_i k d
        replace hv : (w.children o).get? k = some (.data d) := hv
        refine .inr ⟨k, (hs o k).mpr (Od.mem_keys_of_get? hv), ?_⟩
        rw [hv]; exact List.mem_singleton.mpr rfl
      | down hc ha =>
        rename_i c k ks
        replace hc : (w.children o).get? k = some (.node c) := hc
        refine .inr ⟨k, (hs o k).mpr (Od.mem_keys_of_get? hc), ?_⟩
        rw [hc]
        exact List.mem_map.mpr ⟨(ks, v), (ih c (h.child hc) ks v).mpr ha, rfl⟩

theorem rowsOf_head {rec : Oid → List Row} {k : Key} {x : Option Val} {r : Row} (h : r ∈ rowsOf rec k x) : ∃ ks, r.1 = k :: ks := by
  match x, h with
  | some (.node c), h => obtain ⟨s, _, e⟩ := List.mem_map.mp h; exact ⟨s.1, by rw [← e]⟩
  | some (.data d), h => exact ⟨[], by rw [List.mem_singleton.mp h]⟩
  | none, h => cases h

theorem DocLt.cons {w : World} {shown : Oid → List Key} {o c : Oid} {k : Key} (hc : Contains w o k c) {a b : List Key}
    (h : DocLt w shown c a b) : DocLt w shown o (k :: a) (k :: b) := by
  rcases h with ⟨j, js, rfl⟩ | ⟨ks, j, j', x, y, p, rfl, rfl, h1, h2⟩
  · exact .inl ⟨j, js, rfl⟩
  · exact .inr ⟨k :: ks, j, j', x, y, p, rfl, rfl, .down hc h1, h2⟩

theorem rowsN_sorted {w : World} {shown : Oid → List Key} (n : Nat) :
    ∀ o, (rowsN w shown n o).Pairwise fun r s => DocLt w shown o r.1 s.1 := by
  induction n with
  | zero => exact fun o => .nil
  | succ n ih =>
    intro o
    unfold rowsN
    refine List.Pairwise.cons (fun r hr => ?_) ?_
    · obtain ⟨k, -, hm⟩ := List.mem_flatMap.mp hr
      obtain ⟨ks, e⟩ := rowsOf_head hm
      exact .inl ⟨k, ks, e⟩
    · have key : ∀ l : List Key, l.Sublist (shown o) →
          (l.flatMap fun k => rowsOf (rowsN w shown n) k ((w.children o).get? k)).Pairwise
            fun r s => DocLt w shown o r.1 s.1 := by
        intro l
        induction l with
        | nil => exact fun _ => .nil
        | cons k l ihl =>
          intro hl
          rw [List.flatMap_cons, List.pairwise_append]
          refine ⟨?_, ihl ((List.sublist_cons_self k l).trans hl), fun r hr s hs => ?_⟩
          · cases hg : (w.children o).get? k with
            | none => exact .nil
            | some x =>
              cases x with
              | node c => exact List.pairwise_map.mpr ((ih c).imp fun h => h.cons hg)
              | data d => exact List.pairwise_singleton _ _
          · obtain ⟨x, ex⟩ := rowsOf_head hr
            obtain ⟨k', hk', hm⟩ := List.mem_flatMap.mp hs
            obtain ⟨y, ey⟩ := rowsOf_head hm
            exact .inr ⟨[], k, k', x, y, o, ex, ey, .here,
              (List.Sublist.cons_cons k (List.singleton_sublist.mpr hk')).trans hl⟩
      exact key _ (List.Sublist.refl _)

/-! ### What is printed -/

theorem mem_items {w : World} {o : Oid} {k : Key} {v : Val} : (k, v) ∈ (w.omap o).items ↔ (w.children o).get? k = some v := by
  unfold OMap.items
  rw [List.mem_filterMap]
  constructor
  · rintro ⟨j, -, h⟩
    cases hg : (w.omap o).val j with
    | none => rw [hg] at h; cases h
    | some x =>
      rw [hg] at h
      injection h with h; injection h with h1 h2
      subst h1; subst h2; exact hg
  · intro h
    exact ⟨k, Od.mem_keys_of_get? h, by rw [show (w.omap o).val k = some v from h]; rfl⟩

theorem items_keys (w : World) (o : Oid) : (w.omap o).items.map (·.1) = (w.children o).keys := by
  show ((w.children o).keys.filterMap fun k => ((w.children o).get? k).map fun v => (k, v)).map (·.1) = _
  have : ∀ l : List Key, (∀ k ∈ l, k ∈ (w.children o).keys) →
      (l.filterMap fun k => ((w.children o).get? k).map fun v => (k, v)).map (·.1) = l := by
    intro l
    induction l with
    | nil => exact fun _ => rfl
    | cons k l ih =>
      intro h
      obtain ⟨v, hv⟩ := Od.get?_of_mem_keys (h k List.mem_cons_self)
      rw [List.filterMap_cons]
      simp only [hv, Option.map_some, List.map_cons]
      rw [ih fun j hj => h j (List.mem_cons_of_mem _ hj)]
  exact this _ fun _ h => h

theorem shownItems_keys (E : Env) (P : Printer) (w : World) (o : Oid) :
    (shownItems P (clsOf E w o) (w.omap o).items).map (·.1) = shownKeys E P w o := by
  unfold shownItems shownKeys
  split
  · exact items_keys w o
  · rw [sortBy_map (f := keyStr P) (fun kv : Key × Val => kv.1), items_keys]

theorem shownItems_mem {P : Printer} {c : ClassDef} {l : List (Key × Val)} {x : Key × Val} : x ∈ shownItems P c l ↔ x ∈ l := by
  unfold shownItems
  split
  · exact Iff.rfl
  · exact (sortBy_perm l).mem_iff

/-- Names and classes, as far as rows show them. -/
theorem rowText_congr {P : Printer} {w w' : World} (h : ∀ o, (w'.objs o).cls = (w.objs o).cls ∧ (w'.objs o).name = (w.objs o).name)
    (pre : Str) (indent : Nat) (r : Row) : rowText P w' pre indent r = rowText P w pre indent r := by
  obtain ⟨ks, v⟩ := r
  cases v with
  | node c => simp only [rowText, rowLabel, noderepr, (h c).1, (h c).2]
  | data d => rfl

theorem Same.objs2 {w w' : World} (h : Same w w') (o : Oid) : (w'.objs o).cls = (w.objs o).cls ∧ (w'.objs o).name = (w.objs o).name :=
  ⟨(h.obj o).cls, (h.obj o).name⟩

theorem rowText_cons (P : Printer) (w : World) (pre : Str) (indent n : Nat) (shown : Oid → List Key) (k : Key) (c : Oid) :
    ((rowsN w shown n c).map fun r => (k :: r.1, r.2)).flatMap (rowText P w pre indent) =
      (rowsN w shown n c).flatMap (rowText P w pre (indent + 2)) := by
  rw [List.flatMap_map]
  have hdata : ∀ n c ks d, (ks, Val.data d) ∈ rowsN w shown n c → ks ≠ [] := by
    intro n c ks d h e
    subst e
    cases n with
    | zero => cases h
    | succ n =>
      rcases List.mem_cons.mp h with h | h
      · injection h with _ h; cases h
      · obtain ⟨j, -, hm⟩ := List.mem_flatMap.mp h
        obtain ⟨ks, e⟩ := rowsOf_head hm
        cases e
  have : ∀ l : List Row, (∀ ks d, (ks, Val.data d) ∈ l → ks ≠ []) →
      (l.flatMap fun r => rowText P w pre indent (k :: r.1, r.2)) = l.flatMap (rowText P w pre (indent + 2)) := by
    intro l
    induction l with
    | nil => exact fun _ => rfl
    | cons r l ih =>
      intro h
      rw [List.flatMap_cons, List.flatMap_cons, ih fun ks d hm => h ks d (List.mem_cons_of_mem _ hm)]
      congr 1
      obtain ⟨ks, v⟩ := r
      have el : indent + 2 * (k :: ks).length = indent + 2 + 2 * ks.length := by
        rw [List.length_cons]; omega
      cases v with
      | node x => simp only [rowText, rowLabel, el]
      | data d =>
        have : ks ≠ [] := h ks d List.mem_cons_self
        cases ks with
        | nil => exact absurd rfl this
        | cons j js => simp only [rowText, rowLabel, el, List.getLastD_cons]
  exact this _ fun ks d h => hdata n c ks d h

theorem rowsN_congr {w w' : World} (hc : ∀ o, w'.children o = w.children o) (shown : Oid → List Key) (n : Nat) (o : Oid) :
    rowsN w' shown n o = rowsN w shown n o := by
  have : rowsN w' shown n = rowsN w shown n := by
    induction n with
    | zero => rfl
    | succ n ih => funext o; unfold rowsN; rw [ih, hc]
  rw [this]

theorem contains_same {w w' : World} (h : Same w w') (p : Oid) (k : Key) (c : Oid) : Contains w' p k c ↔ Contains w p k c := by
  unfold Contains World.omap
  rw [h.children]

theorem below_same {w w' : World} (h : Same w w') {o x : Oid} {ks : List Key} (hb : Below w' o ks x) : Below w o ks x := by
  induction hb with
  | root => exact .root
  | child _ hc ih => exact .child ih ((contains_same h _ _ _).mp hc)

theorem Open.same {E : Env} {w w' : World} {o : Oid} {S : Oid → Prop} (h : Open E w o) (hr : ReadOut E S w w') (hS : S o) : Open E w' o := by
  refine ⟨by rw [hr.clsOf]; exact h.concrete, fun k hk => ?_, fun hc j v hv => hr.coh o hS hc j v hv⟩
  rw [hr.clsOf]
  refine h.keys k ?_
  have : (w'.omap o).keys = (w.omap o).keys := by unfold World.omap; rw [hr.same.children]
  rwa [← this]

/-- The text of a tree is the text of its rows. -/
theorem treerepr_rows {E : Env} {P : Printer} {pre : Str} {root : Oid} (n : Nat) : ∀ {w : World} {o : Oid} (indent : Nat), WF w →
    (∀ x, InTree w root x → Open E w x) → Coh E (InTree w root) w → InTree w root o → Shallow w o n →
    ∃ w', treerepr E P pre n indent o w =
      (.ok ((rowsN w (shownKeys E P w) n o).flatMap (rowText P w pre indent)), w') ∧ ReadOut E (InTree w root) w w' := by
  induction n with
  | zero => exact fun {w o} indent _ _ _ _ h => absurd (h [] o .root) (Nat.not_lt_zero _)
  | succ n ih =>
    intro w o indent hw hopen hcoh ho hs
    obtain ⟨w1, h1, h2⟩ := mitems_open (E := E) (S := InTree w root) (hopen o ho) hw hcoh ho
    -- the loop over the items
    have loop : ∀ (l : List (Key × Val)), (∀ x ∈ l, x ∈ (w.omap o).items) → ∀ {a : World}, ReadOut E (InTree w root) w a →
        ∃ b, forM' (treereprItem P indent pre (treerepr E P pre n (indent + 2))) l a =
          (.ok (l.map fun kv => (rowsOf (rowsN w (shownKeys E P w) n) kv.1 (some kv.2)).flatMap (rowText P w pre indent)), b) ∧
          ReadOut E (InTree w root) w b := by
      intro l
      induction l with
      | nil => exact fun _ {a} ha => ⟨a, rfl, ha⟩
      | cons x l ihl =>
        intro hl a ha
        obtain ⟨k, v⟩ := x
        have hx := mem_items.mp (hl (k, v) List.mem_cons_self)
        have hitem : ∃ b, treereprItem P indent pre (treerepr E P pre n (indent + 2)) (k, v) a =
            (.ok ((rowsOf (rowsN w (shownKeys E P w) n) k (some v)).flatMap (rowText P w pre indent)), b) ∧
            ReadOut E (InTree w root) w b := by
          cases v with
          | data d => exact ⟨a, by simp [treereprItem, M.pure_apply, rowsOf, rowText, rowLabel], ha⟩
          | node c =>
            have hcon : Contains w o k c := hx
            have etree : InTree a root = InTree w root := by
              funext y
              exact propext (InTree.congr (contains_same ha.same))
            have eshown : shownKeys E P a = shownKeys E P w := by
              funext y
              unfold shownKeys
              rw [ha.clsOf, ha.same.children]
            obtain ⟨b, g1, g2⟩ := ih (w := a) (o := c) (indent + 2) ha.wf
              (fun y hy => (hopen y (etree ▸ hy)).same ha (etree ▸ hy)) (etree ▸ ha.coh)
              (by rw [etree]; exact ho.child hcon) (fun ks y hy => hs.child hcon ks y (below_same ha.same hy))
            rw [etree] at g2
            refine ⟨b, ?_, ha.trans g2⟩
            show treerepr E P pre n (indent + 2) c a = _
            rw [g1, eshown, rowsN_congr ha.same.children]
            show _ = (Except.ok (((rowsN w (shownKeys E P w) n c).map fun r => (k :: r.1, r.2)).flatMap (rowText P w pre indent)), b)
            rw [rowText_cons]
            congr 2
            exact congrArg (fun f => List.flatMap f _) (funext fun r => rowText_congr ha.same.objs2 pre (indent + 2) r)
        obtain ⟨b, hb1, hb2⟩ := hitem
        obtain ⟨c, hc1, hc2⟩ := ihl (fun y hy => hl y (List.mem_cons_of_mem _ hy)) hb2
        refine ⟨c, ?_, hc2⟩
        simp only [forM', M.bind_apply, hb1, hc1, M.pure_apply, List.map_cons]
    obtain ⟨w2, h3, h4⟩ := loop (shownItems P (clsOf E w o) (w.omap o).items) (fun x hx => shownItems_mem.mp hx) h2
    refine ⟨w2, ?_, h4⟩
    have e1 : rowsN w (shownKeys E P w) (n + 1) o = ([], .node o) :: (shownKeys E P w o).flatMap fun k =>
        rowsOf (rowsN w (shownKeys E P w) n) k ((w.children o).get? k) := rfl
    rw [e1, ← shownItems_keys, List.flatMap_cons, List.flatMap_map, List.flatMap_assoc]
    have e2 : ∀ l : List (Key × Val), (∀ x ∈ l, x ∈ (w.omap o).items) →
        (l.flatMap fun kv => (rowsOf (rowsN w (shownKeys E P w) n) kv.1 ((w.children o).get? kv.1)).flatMap (rowText P w pre indent)) =
        (l.map fun kv => (rowsOf (rowsN w (shownKeys E P w) n) kv.1 (some kv.2)).flatMap (rowText P w pre indent)).flatten := by
      intro l
      induction l with
      | nil => exact fun _ => rfl
      | cons x l ihl =>
        intro hl
        rw [List.flatMap_cons, List.map_cons, List.flatten_cons, ihl fun y hy => hl y (List.mem_cons_of_mem _ hy),
          mem_items.mp (hl x List.mem_cons_self)]
    rw [e2 _ fun x hx => shownItems_mem.mp hx]
    simp only [treerepr, M.bind_apply, M.getW, h1, h3, M.pure_apply]
    simp only [rowText, rowLabel, List.length_nil, Nat.mul_zero, Nat.add_zero, List.append_assoc]

/-- C61, what is printed: one line per place below `o`, each place once, in document order, the
line of a place indented by two prefixes for each step of its path; parents come directly above
what is below them because of the document order (`DocLt`).  Reading changes nothing. -/
theorem c61_text {E : Env} {P : Printer} {pre : Str} {w : World} (hw : WF w) {o : Oid} (ho : OpenBelow E w o) {n : Nat}
    (hs : Shallow w o n) (indent : Nat) :
    ∃ (rows : List Row) (shown : Oid → List Key) (w' : World),
      treerepr E P pre n indent o w = (.ok (rows.flatMap (rowText P w pre indent)), w') ∧ Same w w' ∧
      (∀ ks v, (ks, v) ∈ rows ↔ At w o ks v) ∧
      (rows.Pairwise fun r s => DocLt w shown o r.1 s.1) ∧
      ∀ p, Shown P (clsOf E w p) (w.omap p).keys (shown p) := by
  have hcoh : Coh E (InTree w o) w := fun p hp hc j v hv => (ho p hp).cache hc j v hv
  obtain ⟨w', h1, h2⟩ := treerepr_rows (pre := pre) (P := P) n indent hw ho hcoh (InTree.refl o) hs
  exact ⟨_, _, w', h1, h2.same,
    rowsN_mem (fun p k => (shownKeys_shown E P w p).perm.mem_iff) n o hs, rowsN_sorted n o, shownKeys_shown E P w⟩

/-! ### Consequences of document order -/

theorem At.unique {w : World} {o : Oid} {ks : List Key} {v v' : Val} (h : At w o ks v) (h' : At w o ks v') : v = v' := by
  induction h generalizing v' with
  | here => cases h' with
    | here => rfl
  | data hd => cases h' with
    | data hd' => rw [hd] at hd'; injection hd'
    | down hc _ => rw [show _ = _ from hc] at hd; cases hd
  | down hc _ ih => cases h' with
    | data hd' => rw [show _ = _ from hc] at hd'; cases hd'
    | down hc' h' =>
      have e : some (Val.node _) = some (Val.node _) := (show _ = _ from hc).symm.trans hc'
      injection e with e
      injection e with e
      subst e
      exact ih h'

theorem at_node {w : World} {o x : Oid} {ks : List Key} : At w o ks (.node x) ↔ Below w o ks x := by
  constructor
  · generalize e : Val.node x = v
    intro h
    induction h with
    | here => cases e; exact .root
    | data _ => cases e
    | down hc _ ih => exact Below.append (Below.child (ks := []) .root hc) (ih e)
  · intro h
    have key : ∀ {ks x}, Below w o ks x → ∀ {js y}, At w x js (.node y) → At w o (ks ++ js) (.node y) := by
      intro ks x h
      induction h with
      | root => exact fun h => h
      | child _ hc ih =>
        intro js y hy
        rw [List.append_assoc]
        exact ih (.down hc hy)
    have := key h (js := []) .here
    rwa [List.append_nil] at this

/-- Two lists part at one place only. -/
theorem part_unique {α : Type} {u v x y x' y' : List α} {a b a' b' : α} (h1 : u ++ a :: x = v ++ a' :: x')
    (h2 : u ++ b :: y = v ++ b' :: y') (hab : a ≠ b) (hab' : a' ≠ b') : u = v ∧ a = a' ∧ b = b' := by
  induction u generalizing v with
  | nil =>
    cases v with
    | nil => injection h1 with h1 _; injection h2 with h2 _; exact ⟨rfl, h1, h2⟩
    | cons c v => injection h1 with h1 _; injection h2 with h2 _; exact absurd (h1.trans h2.symm) hab
  | cons c u ih =>
    cases v with
    | nil => injection h1 with h1 _; injection h2 with h2 _; exact absurd (h1.symm.trans h2) hab'
    | cons d v =>
      injection h1 with e h1
      injection h2 with _ h2
      obtain ⟨h3, h4⟩ := ih h1 h2
      exact ⟨by rw [e, h3], h4⟩

theorem pair_ne {l : List Key} (h : l.Nodup) {a b : Key} (hs : [a, b].Sublist l) : a ≠ b := by
  have := h.sublist hs
  intro e; subst e; simp at this

theorem pair_asymm {l : List Key} (h : l.Nodup) {a b : Key} (hs : [a, b].Sublist l) : ¬ [b, a].Sublist l := by
  intro hs'
  induction l with
  | nil => cases hs
  | cons c l ih =>
    have hn := List.nodup_cons.mp h
    by_cases hac : a = c
    · subst hac
      cases hs' with
      | cons _ hs' => exact hn.1 (hs'.subset (by simp))
      | cons_cons _ hs' => exact pair_ne h hs rfl
    · cases hs with
      | cons _ hs =>
        cases hs' with
        | cons _ hs' => exact ih hn.2 hs hs'
        | cons_cons _ hs' => exact hn.1 (hs.subset (by simp))
      | cons_cons _ hs => exact hac rfl

/-- Nothing above a path comes after it. -/
theorem DocLt.not_up {w : World} {shown : Oid → List Key} (hn : ∀ p, (shown p).Nodup) {o : Oid} {a b : List Key}
    (h : DocLt w shown o a b) : ¬ b <+: a := by
  rintro ⟨t, ht⟩
  rcases h with ⟨k, ks, rfl⟩ | ⟨ks, k, k', x, y, p, rfl, rfl, h1, h2⟩
  · have := congrArg List.length ht
    simp at this
  · rw [List.append_assoc] at ht
    have := List.append_cancel_left ht
    injection this with e _
    exact pair_ne (hn p) h2 e.symm

/-- What comes between two places of a subtree is in that subtree. -/
theorem DocLt.between {w : World} {shown : Oid → List Key} (hn : ∀ p, (shown p).Nodup) {o : Oid} {r s t ks : List Key}
    (h : DocLt w shown o r s) (h' : DocLt w shown o s t) (hr : ks <+: r) (ht : ks <+: t) : ks <+: s := by
  have hnu := h.not_up hn
  rcases h with ⟨k, x, rfl⟩ | ⟨u, k, k', x, y, p, rfl, rfl, h1, h2⟩
  · exact hr.trans (List.prefix_append _ _)
  · -- `ks` ends before the place where `r` and `s` part, or behind it
    rcases Nat.lt_or_ge u.length ks.length with hl | hl
    · -- then `ks = u ++ k :: z`, and `t` is in the branch of `k` too
      obtain ⟨z, hz⟩ := hr
      have hu : ∃ z', ks = u ++ k :: z' := by
        have h3 : u <+: ks := List.prefix_of_prefix_length_le (List.prefix_append u (k :: x)) ⟨z, hz⟩ (Nat.le_of_lt hl)
        obtain ⟨q, rfl⟩ := h3
        cases q with
        | nil => simp at hl
        | cons c q =>
          rw [List.append_assoc] at hz
          have := List.append_cancel_left hz
          injection this with e _
          exact ⟨q, by rw [e]⟩
      obtain ⟨z', rfl⟩ := hu
      obtain ⟨q, hq⟩ := ht
      rw [List.append_assoc] at hq
      subst hq
      have hkk := pair_ne (hn p) h2
      rcases h' with ⟨c, cs, e⟩ | ⟨u', c, c', x', y', p', e1, e2, h3, h4⟩
      · rw [List.append_assoc] at e
        have := List.append_cancel_left e
        injection this with e _
        exact absurd e hkk
      · obtain ⟨rfl, rfl, rfl⟩ := part_unique e1 e2 (Ne.symm hkk) (pair_ne (hn p') h4)
        have := h1.unique h3
        injection this with this
        subst this
        exact absurd h4 (pair_asymm (hn p) h2)
    · -- then `s` passes `ks` too
      exact (List.prefix_of_prefix_length_le hr (List.prefix_append u (k :: x)) hl).trans (List.prefix_append u (k' :: y))

theorem Shown.nodup {P : Printer} {c : ClassDef} {keys shown : List Key} (h : Shown P c keys shown) (hk : keys.Nodup) : shown.Nodup :=
  h.perm.nodup_iff.mpr hk

/-- C61, each place once. -/
theorem c61_places {w : World} {shown : Oid → List Key} (hn : ∀ p, (shown p).Nodup) {o : Oid} {rows : List Row}
    (h : rows.Pairwise fun r s => DocLt w shown o r.1 s.1) : (rows.map (·.1)).Nodup :=
  List.pairwise_map.mpr (h.imp fun h e => h.not_up hn (by rw [e]; exact List.prefix_refl _))

/-- C61, children below their parent: the line of a place comes after that of each node above it,
and between the two there are only lines of places below that node. -/
theorem c61_below {w : World} {shown : Oid → List Key} (hn : ∀ p, (shown p).Nodup) {o : Oid} {rows : List Row}
    (h : rows.Pairwise fun r s => DocLt w shown o r.1 s.1) {ks js : List Key} {k : Key} {v x : Val}
    (hp : (ks, v) ∈ rows) (hc : (ks ++ k :: js, x) ∈ rows) :
    ∃ a b c, rows = a ++ (ks, v) :: b ++ (ks ++ k :: js, x) :: c ∧ ∀ r ∈ b, ks <+: r.1 := by
  obtain ⟨a, l, rfl⟩ := List.append_of_mem hp
  have hmem : (ks ++ k :: js, x) ∈ l := by
    rcases List.mem_append.mp hc with hc | hc
    · have := (List.pairwise_append.mp h).2.2 _ hc _ List.mem_cons_self
      exact absurd (List.prefix_append _ _) (this.not_up hn)
    · rcases List.mem_cons.mp hc with hc | hc
      · injection hc with e _
        have := congrArg List.length e
        simp at this
      · exact hc
  obtain ⟨b, c, rfl⟩ := List.append_of_mem hmem
  refine ⟨a, b, c, by simp, fun r hr => ?_⟩
  have h1 := (List.pairwise_append.mp h).2.1
  have hfirst := List.rel_of_pairwise_cons h1 (List.mem_append_left _ hr)
  have hsecond := (List.pairwise_append.mp h1.of_cons).2.2 r hr _ List.mem_cons_self
  exact hfirst.between hn hsecond (List.prefix_refl _) (List.prefix_append _ _)

theorem Shallow.no_loop {w : World} {o : Oid} {n : Nat} (h : Shallow w o n) {k : Key} {ks : List Key} (hb : Below w o (k :: ks) o) : False := by
  have : ∀ m, ∃ js, Below w o js o ∧ m ≤ js.length := by
    intro m
    induction m with
    | zero => exact ⟨[], .root, Nat.zero_le _⟩
    | succ m ih =>
      obtain ⟨js, h1, h2⟩ := ih
      exact ⟨_, h1.append hb, by rw [List.length_append, List.length_cons]; omega⟩
  obtain ⟨js, h1, h2⟩ := this n
  exact absurd (h js o h1) (by omega)

theorem below_last {w : World} {o x : Oid} {ks : List Key} {k : Key} (h : Below w o (ks ++ [k]) x) :
    ∃ p, Below w o ks p ∧ Contains w p k x := by
  generalize e : ks ++ [k] = l at h
  cases h with
  | root => simp at e
  | child h hc =>
    obtain ⟨rfl, e2⟩ := List.append_inj' e rfl
    injection e2 with e2 _
    subst e2
    exact ⟨_, h, hc⟩

theorem below_nil {w : World} {o x : Oid} (h : Below w o [] x) : o = x := by
  generalize e : ([] : List Key) = l at h
  cases h with
  | root => rfl
  | child _ _ => simp at e

theorem Below.unique' {w : World} (hs : Sole w) {o : Oid} {n : Nat} (hd : Shallow w o n) {ks : List Key} {x : Oid} (h : Below w o ks x) :
    ∀ {js}, Below w o js x → ks = js := by
  induction h with
  | root =>
    intro js h'
    cases js with
    | nil => rfl
    | cons k js => exact absurd h' (fun hh => hd.no_loop hh)
  | child h hc ih =>
    rename_i ks p c k
    intro js h'
    rcases List.eq_nil_or_concat js with rfl | ⟨js, j, rfl⟩
    · have e := below_nil h'
      subst e
      cases ks with
      | nil => exact absurd (Below.child h hc) (fun hh => hd.no_loop hh)
      | cons c ks => exact absurd (Below.child h hc) (fun hh => hd.no_loop hh)
    · rw [List.concat_eq_append] at h' ⊢
      obtain ⟨q, h1, h2⟩ := below_last h'
      obtain ⟨rfl, rfl⟩ := hs _ _ _ _ _ hc h2
      rw [ih h1]

/-- The nodes of rows. -/
def rowNodes (rows : List Row) : List Oid := rows.filterMap fun r => match r.2 with | .node c => some c | .data _ => none

/-- C61, each node of the tree once: if each node has only one place, the lines of nodes are those
of the nodes of the tree, without repetition. -/
theorem c61_nodes {w : World} {shown : Oid → List Key} (hn : ∀ p, (shown p).Nodup) (hs : Sole w) {o : Oid} {n : Nat} (hd : Shallow w o n)
    {rows : List Row} (hm : ∀ ks v, (ks, v) ∈ rows ↔ At w o ks v) (h : rows.Pairwise fun r s => DocLt w shown o r.1 s.1) :
    (rowNodes rows).Nodup ∧ ∀ x, x ∈ rowNodes rows ↔ InTree w o x := by
  constructor
  · have hne := c61_places hn h
    have key : ∀ l : List Row, (∀ r ∈ l, At w o r.1 r.2) → (l.map (·.1)).Nodup → (rowNodes l).Nodup := by
      intro l
      induction l with
      | nil => exact fun _ _ => .nil
      | cons r l ih =>
        intro ha hl
        obtain ⟨ks, v⟩ := r
        have hl' := List.nodup_cons.mp hl
        have ih := ih (fun r hr => ha r (List.mem_cons_of_mem _ hr)) hl'.2
        cases v with
        | data d => exact ih
        | node c =>
          show (c :: rowNodes l).Nodup
          refine List.nodup_cons.mpr ⟨fun hc => ?_, ih⟩
          obtain ⟨⟨js, v⟩, hr, e⟩ := List.mem_filterMap.mp hc
          cases v with
          | data d => cases e
          | node c' =>
            injection e with e; subst e
            have e := Below.unique' hs hd (at_node.mp (ha _ List.mem_cons_self)) (at_node.mp (ha _ (List.mem_cons_of_mem _ hr)))
            exact hl'.1 (List.mem_map.mpr ⟨(js, .node c'), hr, e.symm⟩)
    exact key rows (fun r hr => (hm r.1 r.2).mp hr) hne
  · intro x
    unfold rowNodes
    rw [List.mem_filterMap]
    constructor
    · rintro ⟨⟨ks, v⟩, hr, e⟩
      cases v with
      | data d => cases e
      | node c => injection e with e; subst e; exact ⟨ks, at_node.mp ((hm _ _).mp hr)⟩
    · rintro ⟨ks, hb⟩
      exact ⟨(ks, .node x), (hm _ _).mpr (at_node.mpr hb), rfl⟩

/-! ### The order of insertion -/

/-- Two heaps with the same nodes, which hold the same children; ordered nodes in the same order,
unordered ones in any. -/
structure Reordered (E : Env) (w w' : World) : Prop where
  cls : ∀ o, (w'.objs o).cls = (w.objs o).cls
  name : ∀ o, (w'.objs o).name = (w.objs o).name
  children : ∀ o k, (w'.omap o).val k = (w.omap o).val k
  ordered : ∀ o, Bhv.odictStorage ∈ (clsOf E w o).bhvs → (w'.omap o).keys = (w.omap o).keys

/-- In the unordered nodes below `o` no two keys have the same text. -/
def Legible (E : Env) (P : Printer) (w : World) (o : Oid) : Prop := ∀ x, InTree w o x → Bhv.odictStorage ∉ (clsOf E w x).bhvs →
  ∀ a ∈ (w.omap x).keys, ∀ b ∈ (w.omap x).keys, keyStr P a = keyStr P b → a = b

theorem Reordered.perm {E : Env} {w w' : World} (h : Reordered E w w') (hw : WF w) (hw' : WF w') (o : Oid) :
    (w.children o).keys.Perm (w'.children o).keys := by
  refine (List.perm_ext_iff_of_nodup (hw.children_nodup o) (hw'.children_nodup o)).mpr fun k => ?_
  have := h.children o k
  rw [← Od.get?_isSome_iff, ← Od.get?_isSome_iff, show (w'.children o).get? k = (w.children o).get? k from this]

theorem Reordered.shown {E : Env} {P : Printer} {w w' : World} (h : Reordered E w w') (hw : WF w) (hw' : WF w') {o x : Oid}
    (hl : Legible E P w o) (hx : InTree w o x) : shownKeys E P w' x = shownKeys E P w x := by
  have ec : clsOf E w' x = clsOf E w x := congrArg E.cls (h.cls x)
  have h1 := shownKeys_shown E P w x
  have h2 := shownKeys_shown E P w' x
  rw [ec] at h2
  by_cases ho : Bhv.odictStorage ∈ (clsOf E w x).bhvs
  · rw [h1.ordered ho, h2.ordered ho, h.ordered x ho]
  · refine (sorted_unique (f := keyStr P) ?_ (h1.sorted ho) (h2.sorted ho) fun a ha b hb => ?_).symm
    · exact h1.perm.trans ((h.perm hw hw' x).trans h2.perm.symm)
    · exact hl x hx ho a (h1.perm.mem_iff.mp ha) b (h1.perm.mem_iff.mp hb)

theorem Reordered.contains {E : Env} {w w' : World} (h : Reordered E w w') (p : Oid) (k : Key) (c : Oid) :
    Contains w' p k c ↔ Contains w p k c := by unfold Contains; rw [h.children]

theorem Reordered.rows {E : Env} {P : Printer} {w w' : World} (h : Reordered E w w') (hw : WF w) (hw' : WF w') {o : Oid}
    (hl : Legible E P w o) (n : Nat) : ∀ x, InTree w o x → rowsN w' (shownKeys E P w') n x = rowsN w (shownKeys E P w) n x := by
  induction n with
  | zero => exact fun _ _ => rfl
  | succ n ih =>
    intro x hx
    unfold rowsN
    rw [h.shown hw hw' hl hx]
    congr 1
    refine congrArg (fun f => List.flatMap f (shownKeys E P w x)) (funext fun k => ?_)
    have e : (w'.children x).get? k = (w.children x).get? k := h.children x k
    rw [e]
    cases hg : (w.children x).get? k with
    | none => rfl
    | some v =>
      cases v with
      | data d => rfl
      | node c =>
        show (rowsN w' (shownKeys E P w') n c).map _ = (rowsN w (shownKeys E P w) n c).map _
        rw [ih c (hx.child hg)]

/-- C61, canonical: the text does not depend on the order in which the children of unordered nodes
were added, provided that no two keys of an unordered node have the same text.  Missing for C61:
keys that differ but have the same text. -/
theorem c61_order_partial {E : Env} {P : Printer} {pre : Str} {w w' : World} (hw : WF w) (hw' : WF w') {o : Oid}
    (ho : OpenBelow E w o) (ho' : OpenBelow E w' o) (hr : Reordered E w w') (hl : Legible E P w o) {n : Nat} (hs : Shallow w o n)
    (indent : Nat) : (treerepr E P pre n indent o w').1 = (treerepr E P pre n indent o w).1 := by
  have hs' : Shallow w' o n := fun ks x hb => by
    refine hs ks x ?_
    induction hb with
    | root => exact .root
    | child _ hc ih => exact .child ih ((hr.contains _ _ _).mp hc)
  have hcoh : Coh E (InTree w o) w := fun p hp hc j v hv => (ho p hp).cache hc j v hv
  have hcoh' : Coh E (InTree w' o) w' := fun p hp hc j v hv => (ho' p hp).cache hc j v hv
  obtain ⟨_, h1, -⟩ := treerepr_rows (pre := pre) (P := P) n indent hw ho hcoh (InTree.refl o) hs
  obtain ⟨_, h2, -⟩ := treerepr_rows (pre := pre) (P := P) n indent hw' ho' hcoh' (InTree.refl o) hs'
  rw [h1, h2, hr.rows hw hw' hl n o (InTree.refl o)]
  exact congrArg (fun f => Except.ok (List.flatMap f _)) (funext fun r =>
    rowText_congr (fun x => ⟨hr.cls x, hr.name x⟩) pre indent r)

/-! ### Concrete cases -/

/-- `BaseNode`s: `b` and `a` below the root, `c` below `a`. -/
def c61A : List Op := [.new 0 .none none, .new 0 .none none, .new 0 .none none, .new 0 .none none,
  .set 0 kb (.node 1), .set 0 ka (.node 2), .set 2 kc (.node 3)]

/-- The same tree, assigned in another order. -/
def c61B : List Op := [.new 0 .none none, .new 0 .none none, .new 0 .none none, .new 0 .none none,
  .set 2 kc (.node 3), .set 0 ka (.node 2), .set 0 kb (.node 1)]

theorem c61A_children (p : Oid) : (after sampleEnv c61A).children p =
    if p = 0 then [(kb, .node 1), (ka, .node 2)] else if p = 2 then [(kc, .node 3)] else [] := by
  match p with
  | 0 | 1 | 2 | 3 => rfl
  | n + 4 => rfl

theorem c61B_children (p : Oid) : (after sampleEnv c61B).children p =
    if p = 0 then [(ka, .node 2), (kb, .node 1)] else if p = 2 then [(kc, .node 3)] else [] := by
  match p with
  | 0 | 1 | 2 | 3 => rfl
  | n + 4 => rfl

theorem c61A_obj (p : Oid) : ((after sampleEnv c61A).objs p).cls = 0 ∧
    ((after sampleEnv c61A).objs p).name = ((after sampleEnv c61B).objs p).name ∧ ((after sampleEnv c61B).objs p).cls = 0 := by
  match p with
  | 0 | 1 | 2 | 3 => exact ⟨rfl, rfl, rfl⟩
  | n + 4 => exact ⟨rfl, rfl, rfl⟩

theorem open_base {E : Env} {w : World} {o : Oid} (h : clsOf E w o = baseNode) : Open E w o := by
  refine ⟨?_, fun k _ hn => ?_, fun hc => ?_⟩
  · rw [h]; exact ⟨by decide, by decide, by decide, by decide⟩
  · rw [h] at hn; exact absurd hn (by decide)
  · rw [h] at hc; exact absurd hc (by decide)

theorem c61A_open : OpenBelow sampleEnv (after sampleEnv c61A) 0 := fun x _ =>
  open_base (show sampleEnv.cls _ = baseNode by rw [(c61A_obj x).1]; rfl)

theorem c61B_open : OpenBelow sampleEnv (after sampleEnv c61B) 0 := fun x _ =>
  open_base (show sampleEnv.cls _ = baseNode by rw [(c61A_obj x).2.2]; rfl)

theorem c61A_contains {p c : Oid} {k : Key} (h : Contains (after sampleEnv c61A) p k c) : p < c ∧ c < 4 := by
  replace h : ((after sampleEnv c61A).children p).get? k = some (.node c) := h
  rw [c61A_children] at h
  split at h
  · subst_vars
    have := Od.get?_some_mem h
    simp at this
    omega
  · split at h
    · subst_vars
      have := Od.get?_some_mem h
      simp at this
      omega
    · cases h

theorem c61A_shallow : Shallow (after sampleEnv c61A) 0 5 := fun ks x h => by
  have : ks.length ≤ x ∧ x < 4 := by
    induction h with
    | root => exact ⟨Nat.le_refl 0, by decide⟩
    | child _ hc ih =>
      have := c61A_contains hc
      rw [List.length_append, List.length_singleton]
      omega
  omega

/-- Both orders print the same. -/
theorem c61_case {P : Printer} {pre : Str} (indent : Nat) :
    (treerepr sampleEnv P pre 5 indent 0 (after sampleEnv c61B)).1 = (treerepr sampleEnv P pre 5 indent 0 (after sampleEnv c61A)).1 := by
  refine c61_order_partial (reachable_after _ _).wf (reachable_after _ _).wf c61A_open c61B_open ⟨?_, ?_, ?_, ?_⟩ ?_ c61A_shallow indent
  · exact fun o => (c61A_obj o).2.2.trans (c61A_obj o).1.symm
  · exact fun o => (c61A_obj o).2.1.symm
  · intro o k
    show ((after sampleEnv c61B).children o).get? k = ((after sampleEnv c61A).children o).get? k
    rw [c61A_children, c61B_children]
    split
    · by_cases h1 : k = ka
      · subst h1; rfl
      · by_cases h2 : k = kb
        · subst h2; rfl
        · simp [Od.get?, Ne.symm h1, Ne.symm h2]
    · rfl
  · intro o ho
    rw [show clsOf sampleEnv (after sampleEnv c61A) o = baseNode from by unfold clsOf; rw [(c61A_obj o).1]; rfl] at ho
    exact absurd ho (by decide)
  · intro x _ _ a ha b hb e
    have hstr : ∀ k ∈ ((after sampleEnv c61A).omap x).keys, ∃ s, k = .str s := by
      intro k hk
      replace hk : k ∈ ((after sampleEnv c61A).children x).keys := hk
      rw [c61A_children] at hk
      split at hk
      · simp [Od.keys] at hk
        rcases hk with rfl | rfl
        · exact ⟨_, rfl⟩
        · exact ⟨_, rfl⟩
      · split at hk
        · simp [Od.keys] at hk
          subst hk; exact ⟨_, rfl⟩
        · cases hk
    obtain ⟨s, rfl⟩ := hstr a ha
    obtain ⟨t, rfl⟩ := hstr b hb
    exact congrArg Key.str e

/-- Texts for examples. -/
def samplePrinter : Printer where
  bytes _ := "b''".toList
  data
    | .int i => (toString i).toList
    | _ => "?".toList
  cls
    | 0 => "<class 'node.base.BaseNode'>".toList
    | _ => "<class 'node.base.OrderedNode'>".toList

example : ((treerepr sampleEnv samplePrinter [' '] 5 0 0 (after sampleEnv c61A)).1) = .ok
    ("<class 'node.base.BaseNode'>: None\n" ++
     "  <class 'node.base.BaseNode'>: a\n" ++
     "    <class 'node.base.BaseNode'>: c\n" ++
     "  <class 'node.base.BaseNode'>: b\n").toList := by decide +kernel

/-- Non-node values below an ordered node. -/
example : (treerepr sampleEnv samplePrinter ['-'] 5 1 0 (after sampleEnv
    [.new 3 (.str ['x', ':', 'y']) none, .set 0 kb (.data (.int 5)), .set 0 ka (.data (.int 7))])).1 = .ok
    ("-<class 'node.base.OrderedNode'>: y\n---b: 5\n---a: 7\n").toList := by decide +kernel

/-- C61 fails: two histories that only differ in the order in which two children are added to an
unordered node, with different texts. -/
theorem c61_refuted : ∃ (pre : List Op) (a b : Op),
    (treerepr sampleEnv samplePrinter [' '] 5 0 0 (after sampleEnv (pre ++ [a, b]))).1 = .ok
      ("<class 'node.base.BaseNode'>: None\n" ++
       "  <class 'node.base.BaseNode'>: 1\n" ++
       "    <class 'node.base.BaseNode'>: a\n" ++
       "  <class 'node.base.BaseNode'>: 1\n").toList ∧
    (treerepr sampleEnv samplePrinter [' '] 5 0 0 (after sampleEnv (pre ++ [b, a]))).1 = .ok
      ("<class 'node.base.BaseNode'>: None\n" ++
       "  <class 'node.base.BaseNode'>: 1\n" ++
       "  <class 'node.base.BaseNode'>: 1\n" ++
       "    <class 'node.base.BaseNode'>: a\n").toList :=
  ⟨[.new 0 .none none, .new 0 .none none, .new 0 .none none, .new 0 .none none, .set 1 ka (.node 3)],
   .set 0 (.str ['1']) (.node 1), .set 0 (.int 1) (.node 2), by decide +kernel, by decide +kernel⟩

end Verif
