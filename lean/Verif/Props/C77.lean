import Mathlib.Data.List.Forall2
import Verif.Model.Serializer
import Verif.Sample
import Verif.Props.C46

/-!
# C77: records are read by their known members

`deserialize` (serializer.py:35-41, 153-197, 213-219, 233-239) looks at the members `class`, `kw`, `name`, `children`
and `attrs` of a record only: what else is in it, and the order of the members, makes no difference.
-/

namespace Verif.Ser

/-- The children a record lists; a record without children may lack the member or have `null` there. -/
inductive Children (d : List (Str × J)) : List J → Prop
  | absent : Od.get? d "children".toList = none → Children d []
  | null : Od.get? d "children".toList = some .null → Children d []
  | listed {xs} : Od.get? d "children".toList = some (.list xs) → Children d xs

/-- The attributes a record lists. -/
inductive Attrs (d : List (Str × J)) : List (Str × J) → Prop
  | absent : Od.get? d "attrs".toList = none → Attrs d []
  | null : Od.get? d "attrs".toList = some .null → Attrs d []
  | listed {xs} : Od.get? d "attrs".toList = some (.obj xs) → Attrs d xs

/-- The two JSON values are the same but for what stands beside the known members of records, the order of these
members, and how a record says that it has no children or no attributes. -/
inductive ReadAlike : J → J → Prop
  | same (j : J) : ReadAlike j j
  | list {xs ys : List J} : List.Forall₂ ReadAlike xs ys → ReadAlike (.list xs) (.list ys)
  | node {kvs kvs' d d' : List (Str × J)} {xs ys : List J} {as bs : List (Str × J)}
      (ob : Od.get? kvs "__ob__".toList = none) (ob' : Od.get? kvs' "__ob__".toList = none)
      (rec : Od.get? kvs "__node__".toList = some (.obj d)) (rec' : Od.get? kvs' "__node__".toList = some (.obj d'))
      (plain : ∀ k ∈ ["class", "name", "kw"], Od.get? d' (String.toList k) = Od.get? d (String.toList k))
      (kids : Children d xs) (kids' : Children d' ys) (alike : List.Forall₂ ReadAlike xs ys)
      (attrs : Attrs d as) (attrs' : Attrs d' bs) (names : as.map Prod.fst = bs.map Prod.fst)
      (values : List.Forall₂ ReadAlike (as.map Prod.snd) (bs.map Prod.snd)) :
      ReadAlike (.obj kvs) (.obj kvs')
  | members {kvs kvs' d d' : List (Str × J)}
      (ob : Od.get? kvs "__ob__".toList = none) (ob' : Od.get? kvs' "__ob__".toList = none)
      (rec : Od.get? kvs "__node__".toList = some (.obj d)) (rec' : Od.get? kvs' "__node__".toList = some (.obj d'))
      (plain : ∀ k ∈ ["class", "name", "kw", "children", "attrs"],
        Od.get? d' (String.toList k) = Od.get? d (String.toList k)) :
      ReadAlike (.obj kvs) (.obj kvs')

variable {E : Env} {N : Codec}

theorem forM_alike {α β : Type} {f g : α → M β} {r : α → α → Prop} (h : ∀ a b, r a b → f a = g b) {xs ys : List α}
    (hr : List.Forall₂ r xs ys) : forM' f xs = forM' g ys := by
  induction hr with
  | nil => rfl
  | cons hab _ ih => simp only [forM', h _ _ hab, ih]

theorem forU_alike {α : Type} {f g : α → M Unit} {r : α → α → Prop} (h : ∀ a b, r a b → f a = g b) {xs ys : List α}
    (hr : List.Forall₂ r xs ys) : forU f xs = forU g ys := by
  induction hr with
  | nil => rfl
  | cons hab _ ih => simp only [forU, h _ _ hab, ih]

theorem pairs_alike {r : J → J → Prop} {as bs : List (Str × J)} (hn : as.map Prod.fst = bs.map Prod.fst)
    (hv : List.Forall₂ r (as.map Prod.snd) (bs.map Prod.snd)) :
    List.Forall₂ (fun a b => a.1 = b.1 ∧ r a.2 b.2) as bs := by
  induction as generalizing bs with
  | nil =>
    cases bs with
    | nil => exact .nil
    | cons _ _ => exact absurd hn (by simp)
  | cons a as ih =>
    cases bs with
    | nil => exact absurd hn (by simp)
    | cons b bs =>
      simp only [List.map_cons, List.cons.injEq, List.forall₂_cons] at hn hv
      exact .cons ⟨hn.1, hv.1⟩ (ih hn.2 hv.2)

theorem decKids_children {rec : J → Option Oid → M Dec} {o : Oid} {d : List (Str × J)} {xs : List J}
    (h : Children d xs) : decKids rec o d = forU (fun j => do let _ ← rec j (some o); pure ()) xs := by
  unfold decKids
  cases h with
  | absent h => rw [show Od.get? d kidsKey = none from h]; rfl
  | null h => rw [show Od.get? d kidsKey = some .null from h]; rfl
  | listed h => rw [show Od.get? d kidsKey = some (.list xs) from h]

theorem decAttrs_attrs {rec : J → Option Oid → M Dec} {o : Oid} {d : List (Str × J)} {as : List (Str × J)}
    (h : Attrs d as) : decAttrs E rec o d = fun w => if (clsOf E w o).bhvs.contains .attributes then
      forU (fun (kv : Str × J) => do
        let x ← rec kv.2 none
        let v ← x.toVal
        let a ← attrs E o
        setitem E a (.str kv.1) v) as w else (.ok (), w) := by
  funext w
  unfold decAttrs
  cases h with
  | absent h => rw [show Od.get? d attrsName = none from h]; rfl
  | null h => rw [show Od.get? d attrsName = some .null from h]; rfl
  | listed h => rw [show Od.get? d attrsName = some (.obj as) from h]

/-- **C77.** Data that are alike are read alike: with the same outcome, the same return value and the same effect on
the heap, in every state, for every root. -/
theorem c77_alike {j j' : J} (h : ReadAlike j j') (n : Nat) (root : Option Oid) (w : World) :
    deserialize E N n j' root w = deserialize E N n j root w := by
  unfold deserialize
  suffices ∀ n j j' root, ReadAlike j j' → decode E N n j root = decode E N n j' root from
    (congrFun (this n j j' root h) w).symm
  intro n
  induction n with
  | zero => intro j j' root _; unfold decode; rfl
  | succ n ih =>
    intro j j' root h
    cases h with
    | same => rfl
    | list h =>
      simp only [decode]
      rw [forM_alike (fun a b hab => ih a b root hab) h]
    | @node kvs kvs' d d' xs ys as bs ob ob' rec rec' plain kids kids' alike attrs attrs' names values =>
      have hf : nodeFactory E N (decode E N n) d root = nodeFactory E N (decode E N n) d' root := by
        have hc : Od.get? d' classKey = Od.get? d classKey := plain "class" (by simp)
        have hn : Od.get? d' nameKey = Od.get? d nameKey := plain "name" (by simp)
        have hk : Od.get? d' kwKey = Od.get? d kwKey := plain "kw" (by simp)
        unfold nodeFactory decClass decKw decName
        rw [hc, hn, hk]
      have hkids (o : Oid) : decKids (decode E N n) o d = decKids (decode E N n) o d' := by
        rw [decKids_children kids, decKids_children kids',
          forU_alike (fun a b hab => by rw [ih a b (some o) hab]) alike]
      have hattrs (o : Oid) : decAttrs E (decode E N n) o d = decAttrs E (decode E N n) o d' := by
        rw [decAttrs_attrs attrs, decAttrs_attrs attrs',
          forU_alike (fun a b hab => by rw [hab.1, ih a.2 b.2 none hab.2]) (pairs_alike names values)]
      simp only [decode, show Od.get? kvs obKey = none from ob, show Od.get? kvs' obKey = none from ob',
        show Od.get? kvs nodeKey = some (.obj d) from rec, show Od.get? kvs' nodeKey = some (.obj d') from rec', hf,
        hkids, hattrs]
    | @members kvs kvs' d d' ob ob' rec rec' plain =>
      have hc : Od.get? d' classKey = Od.get? d classKey := plain "class" (by simp)
      have hn : Od.get? d' nameKey = Od.get? d nameKey := plain "name" (by simp)
      have hk : Od.get? d' kwKey = Od.get? d kwKey := plain "kw" (by simp)
      have hs : Od.get? d' kidsKey = Od.get? d kidsKey := plain "children" (by simp)
      have ha : Od.get? d' attrsName = Od.get? d attrsName := plain "attrs" (by simp)
      have hf : nodeFactory E N (decode E N n) d root = nodeFactory E N (decode E N n) d' root := by
        unfold nodeFactory decClass decKw decName
        rw [hc, hn, hk]
      have hkids (o : Oid) : decKids (decode E N n) o d = decKids (decode E N n) o d' := by
        unfold decKids
        rw [hs]
      have hattrs (o : Oid) : decAttrs E (decode E N n) o d = decAttrs E (decode E N n) o d' := by
        unfold decAttrs
        rw [ha]
      simp only [decode, show Od.get? kvs obKey = none from ob, show Od.get? kvs' obKey = none from ob',
        show Od.get? kvs nodeKey = some (.obj d) from rec, show Od.get? kvs' nodeKey = some (.obj d') from rec', hf,
        hkids, hattrs]

/-- A member of another name makes no difference, whatever its value. -/
theorem c77_extra {d : List (Str × J)} {k : Str} (hk : k ∉ ["class", "name", "kw", "children", "attrs"].map String.toList)
    (x : J) (n : Nat) (root : Option Oid) (w : World) :
    deserialize E N n (.obj [("__node__".toList, .obj (Od.set d k x))]) root w =
      deserialize E N n (.obj [("__node__".toList, .obj d)]) root w := by
  refine c77_alike (.members (by rfl) (by rfl) (d := d) (d' := Od.set d k x) (by rfl) (by rfl) fun m hm => ?_) n root w
  rw [Od.get?_set, if_neg]
  rintro rfl
  exact hk (List.mem_map.mpr ⟨m, hm, rfl⟩)

/-- The order of the members makes no difference. -/
theorem c77_order {d d' : List (Str × J)} (hd : (d.map Prod.fst).Nodup) (hp : d'.Perm d) (n : Nat) (root : Option Oid)
    (w : World) : deserialize E N n (.obj [("__node__".toList, .obj d')]) root w =
      deserialize E N n (.obj [("__node__".toList, .obj d)]) root w := by
  refine c77_alike (.members (by rfl) (by rfl) (d := d) (d' := d') (by rfl) (by rfl) fun m hm => ?_) n root w
  refine Option.ext fun v => ?_
  have hd' : (d'.map Prod.fst).Nodup := (hp.map Prod.fst).nodup_iff.mpr hd
  constructor
  · exact fun h => Od.get?_of_mem hd (hp.mem_iff.mp (Od.get?_some_mem h))
  · exact fun h => Od.get?_of_mem hd' (hp.mem_iff.mpr (Od.get?_some_mem h))

/-! ### A concrete case -/

/-- The record of a node with a child; a tool has written a version and a comment and changed the order. -/
def c77Data (noted : Bool) : J := .obj [(nodeKey, .obj (
  (if noted then [("version".toList, .int 2)] else []) ++
  [(nameKey, .str ['a']), (classKey, .str "node.base.OrderedNode".toList),
   (kidsKey, .list [.obj ((if noted then [("comment".toList, .str ['x'])] else []) ++
     [(nodeKey, .obj ([(nameKey, .str ['b']), (classKey, .str "node.base.OrderedNode".toList)] ++
       (if noted then [(kidsKey, .list [])] else [])))])])]))]

theorem c77Alike : ReadAlike (c77Data false) (c77Data true) := by
  have plain {d d' : List (Str × J)} (h1 : Od.get? d' classKey = Od.get? d classKey)
      (h2 : Od.get? d' nameKey = Od.get? d nameKey) (h3 : Od.get? d' kwKey = Od.get? d kwKey) :
      ∀ k ∈ ["class", "name", "kw"], Od.get? d' (String.toList k) = Od.get? d (String.toList k) := by
    intro k hk
    simp only [List.mem_cons, List.not_mem_nil, or_false] at hk
    rcases hk with rfl | rfl | rfl
    · exact h1
    · exact h2
    · exact h3
  refine .node (by rfl) (by rfl) (by rfl) (by rfl) (plain (by rfl) (by rfl) (by rfl)) (.listed (by rfl)) (.listed (by rfl))
    (.cons (.node (by rfl) (by rfl) (by rfl) (by rfl) (plain (by rfl) (by rfl) (by rfl)) (.absent (by rfl)) (.listed (by rfl)) .nil
      (.absent (by rfl)) (.absent (by rfl)) (by rfl) .nil) .nil) (.absent (by rfl)) (.absent (by rfl)) (by rfl) .nil

example : deserialize sampleEnv sampleCodec 9 (c77Data true) none {} =
      deserialize sampleEnv sampleCodec 9 (c77Data false) none {} ∧
    (deserialize sampleEnv sampleCodec 9 (c77Data true) none {}).1 = .ok (.node 0) ∧
    ((deserialize sampleEnv sampleCodec 9 (c77Data true) none {}).2.omap 0).items = [(kb, .node 1)] :=
  ⟨c77_alike c77Alike 9 none {}, by rfl, by rfl⟩

end Verif.Ser
