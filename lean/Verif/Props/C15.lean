import Verif.Lemmas.RefUuid
import Verif.Lemmas.RefInsert
import Verif.Lemmas.RefMapping
import Verif.Lemmas.CopyRef
import Verif.Lemmas.Grow
import Verif.Props.C46
import Verif.Sample

/-!
# C15, C17: the uuid index is exact

`Grown` lists the ways a forest of `Reference` trees comes about through the public API:
creating nodes, assigning new childless nodes and ordinary values to keys that hold no node,
inserting new childless nodes at positions, swapping,
deleting, detaching, giving uuids, also to whole trees by `set_uuid_for`, reading, popping, clearing, updating,
assignments that are refused, making attributes and giving them values, loading trees by `deserialize`, and
`deepcopy`, from where on either the trees that were there or the new one are followed.  In all of
them `node(uuid)`, asked anywhere, answers exactly for the tree it is asked in.
-/

namespace Verif

variable {E : Env}

/-- The heaps and tree roots reached through the operations of the API that C15 is about.
Every step starts the operation itself, whatever it answers. -/
inductive Grown (E : Env) : World → List Oid → Prop where
  | start : Grown E {} []
  /-- `cls(name, parent)` with arguments the class takes, drawing uuids no node of the forest has. -/
  | new {w w' : World} {Rs : List Oid} {c : ClassId} {name : Key} {parent : Option Oid} {x : Except Exc Oid} :
    Grown E w Rs → RefClass (E.cls c) → (E.cls c).Accepts name parent → newNode E c name parent w = (x, w') →
    (∀ u, w.nuuid ≤ u → u < w'.nuuid → Unused w Rs u) → Grown E w' (w.nobj :: Rs)
  /-- `node[k] = leaf` for an unused key and a node that is alone. -/
  | leaf {w w' : World} {Rs : List Oid} {R o N : Oid} {k : Key} {x : Except Exc Unit} :
    Grown E w Rs → R ∈ Rs → InTree w R o → N ∈ Rs → N ≠ R → (∀ j c, ¬ Contains w N j c) →
    k ∉ (w.children o).keys → KeyFor (clsOf E w o) k → setitem E o k (.node N) w = (x, w') →
    Grown E w' (Rs.filter (· ≠ N))
  /-- `node.insertbefore(leaf, ref)` or `insertafter`, if it returns. -/
  | insert {w w' : World} {Rs : List Oid} {R o N ref : Oid} {before : Bool} :
    Grown E w Rs → R ∈ Rs → InTree w R o → N ∈ Rs → N ≠ R → (∀ j c, ¬ Contains w N j c) →
    KeyFor (clsOf E w o) (w.loc N).1 → insertAt E before o N ref w = (.ok (), w') → Grown E w' (Rs.filter (· ≠ N))
  /-- If it raises, for the root of another tree with or without children. -/
  | insertRefused {w w' : World} {Rs : List Oid} {R o N ref : Oid} {before : Bool} {e : Exc} :
    Grown E w Rs → R ∈ Rs → InTree w R o → N ∈ Rs → N ≠ R → KeyFor (clsOf E w o) (w.loc N).1 →
    insertAt E before o N ref w = (.error e, w') → Grown E w' Rs
  /-- For a node of the same tree: refused. -/
  | insertAgain {w w' : World} {Rs : List Oid} {R o n ref : Oid} {before : Bool} {x : Except Exc Unit} :
    Grown E w Rs → R ∈ Rs → InTree w R o → InTree w R n → insertAt E before o n ref w = (x, w') → Grown E w' Rs
  /-- `node.insertfirst(leaf)` or `insertlast`, if it returns. -/
  | ends {w w' : World} {Rs : List Oid} {R o N : Oid} {first : Bool} :
    Grown E w Rs → R ∈ Rs → InTree w R o → N ∈ Rs → N ≠ R → (∀ j c, ¬ Contains w N j c) →
    KeyFor (clsOf E w o) (w.loc N).1 → insertEnd E first o N w = (.ok (), w') → Grown E w' (Rs.filter (· ≠ N))
  /-- If it raises. -/
  | endsRefused {w w' : World} {Rs : List Oid} {R o N : Oid} {first : Bool} {e : Exc} :
    Grown E w Rs → R ∈ Rs → InTree w R o → N ∈ Rs → N ≠ R → (∀ j c, ¬ Contains w N j c) →
    KeyFor (clsOf E w o) (w.loc N).1 → insertEnd E first o N w = (.error e, w') → Grown E w' Rs
  /-- `node.swap(a, b)`, for any nodes. -/
  | swap {w w' : World} {Rs : List Oid} {o a b : Oid} {x : Except Exc Unit} :
    Grown E w Rs → swapNodes E o a b w = (x, w') → Grown E w' Rs
  /-- `node[k] = value` for an ordinary value, where no node is replaced. -/
  | data {w w' : World} {Rs : List Oid} {R o : Oid} {k : Key} {d : Data} {x : Except Exc Unit} :
    Grown E w Rs → R ∈ Rs → InTree w R o → (∀ c, ¬ Contains w o k c) → KeyFor (clsOf E w o) k →
    refuses (clsOf E w o) (.data d) = none → setitem E o k (.data d) w = (x, w') → Grown E w' Rs
  /-- `del node[k]`. -/
  | del {w w' : World} {Rs : List Oid} {R o : Oid} {k : Key} {x : Except Exc Unit} :
    Grown E w Rs → R ∈ Rs → InTree w R o → k ∈ (w.children o).keys → delitem E o k w = (x, w') →
    Grown E w' Rs
  /-- `node.detach(k)`. -/
  | detach {w w' : World} {Rs : List Oid} {R o n : Oid} {k : Key} {x : Except Exc Val} :
    Grown E w Rs → R ∈ Rs → InTree w R o → Contains w o k n → detach E o k w = (x, w') →
    Grown E w' (n :: Rs)
  /-- `node.uuid = u`, where no node of another tree has `u`; refused if another node of the
  same tree has it. -/
  | uuid {w w' : World} {Rs : List Oid} {R o : Oid} {u : Nat} {x : Except Exc Unit} :
    Grown E w Rs → R ∈ Rs → InTree w R o → 0 < u → Unused w (Rs.filter (· ≠ R)) u →
    setUuidRef o (some u) w = (x, w') → Grown E w' Rs
  /-- `set_uuid_for(node, override, recursiv)`, if all uuids in use have been drawn. -/
  | uuids {w w' : World} {Rs : List Oid} {R o : Oid} {override recursiv : Bool} {x : Except Exc Unit} :
    Grown E w Rs → R ∈ Rs → InTree w R o → Issued w → setUuidForNode E override recursiv o w = (x, w') →
    Grown E w' Rs
  /-- `node[k]`. -/
  | get {w w' : World} {Rs : List Oid} {R o : Oid} {k : Key} {x : Except Exc Val} :
    Grown E w Rs → R ∈ Rs → InTree w R o → KeyFor (clsOf E w o) k → getitem E o k w = (x, w') →
    Grown E w' Rs
  /-- `node.keys()`, `values()`, `items()`, `len(node)`, `node.get(k, default)`, `k in node`. -/
  | reads {w w' : World} {Rs : List Oid} {R o : Oid} {op : Op} {x : Except Exc Res} :
    Grown E w Rs → R ∈ Rs → InTree w R o → op.ReadsAt E w o → exec E op w = (x, w') → Grown E w' Rs
  /-- `node.pop(k)`, with or without default, whether the key is there or not. -/
  | pop {w w' : World} {Rs : List Oid} {R o : Oid} {k : Key} {d : Option Val} {x : Except Exc Val} :
    Grown E w Rs → R ∈ Rs → InTree w R o → KeyFor (clsOf E w o) k → mpop E o k d w = (x, w') → Grown E w' Rs
  /-- `node.popitem()`. -/
  | popitem {w w' : World} {Rs : List Oid} {R o : Oid} {x : Except Exc (Key × Val)} :
    Grown E w Rs → R ∈ Rs → InTree w R o → mpopitem E o w = (x, w') → Grown E w' Rs
  /-- `node.clear()`. -/
  | clear {w w' : World} {Rs : List Oid} {R o : Oid} {x : Except Exc Unit} :
    Grown E w Rs → R ∈ Rs → InTree w R o → mclear E o w = (x, w') → Grown E w' Rs
  /-- `node.update(pairs)` for unused keys, ordinary values and nodes that are alone. -/
  | update {w w' : World} {Rs : List Oid} {R o : Oid} {kvs : List (Key × Val)} {x : Except Exc Unit} :
    Grown E w Rs → R ∈ Rs → InTree w R o → NewPairs E w Rs R o kvs → mupdate E o kvs w = (x, w') →
    Grown E w' (rootsLeft Rs kvs)
  /-- `node.setdefault(k, value)` for a key that is there. -/
  | default {w w' : World} {Rs : List Oid} {R o : Oid} {k : Key} {v : Val} {x : Except Exc Val} :
    Grown E w Rs → R ∈ Rs → InTree w R o → k ∈ (w.children o).keys → msetdefault E o k v w = (x, w') → Grown E w' Rs
  /-- For an unused key and an ordinary value or a node that is alone. -/
  | defaultNew {w w' : World} {Rs : List Oid} {R o : Oid} {k : Key} {v : Val} {x : Except Exc Val} :
    Grown E w Rs → R ∈ Rs → InTree w R o → NewPairs E w Rs R o [(k, v)] → msetdefault E o k v w = (x, w') →
    Grown E w' (rootsLeft Rs [(k, v)])
  /-- `node[k] = subtree` for a subtree of the same tree that has children: refused. -/
  | again {w w' : World} {Rs : List Oid} {R o c : Oid} {k : Key} {x : Except Exc Unit} :
    Grown E w Rs → R ∈ Rs → InTree w R o → InTree w R c → w.children c ≠ [] →
    KeyFor (clsOf E w o) k → setitem E o k (.node c) w = (x, w') → Grown E w' Rs
  /-- `node.attrs`, where attributes are no `Reference` nodes. -/
  | attrs {w w' : World} {Rs : List Oid} {o a : Oid} :
    Grown E w Rs → Bhv.reference ∉ (E.cls (clsOf E w o).attrsFactory).bhvs →
    Bhv.fixedChildren ∉ (E.cls (clsOf E w o).attrsFactory).bhvs → attrs E o w = (.ok a, w') → Grown E w' Rs
  /-- `node.attrs[k] = value`, or any other node that is no `Reference` node. -/
  | beside {w w' : World} {Rs : List Oid} {a : Oid} {k : Key} {d : Data} {x : Except Exc Unit} :
    Grown E w Rs → a < w.nobj → Bhv.reference ∉ (clsOf E w a).bhvs → TakeClass (clsOf E w a) → KeyFor (clsOf E w a) k →
    refuses (clsOf E w a) (.data d) = none → setitem E a k (.data d) w = (x, w') → Grown E w' Rs
  /-- `deserialize(data)`, for data that stands for a tree of `Reference` nodes; the uuids to be drawn are unused. -/
  | load {w w' : World} {Rs : List Oid} {N : Ser.Codec} {t : NTree} {n : Nat} {x : Except Exc Ser.Dec} :
    Grown E w Rs → (∀ u, w.nuuid ≤ u → Unused w Rs u) → Ser.Buildable E N (Ser.Keeps N) t → Ser.Refs E t → Ser.tall t < n →
    Ser.deserialize E N n (Ser.jNode E (Ser.shown N {}) {} t) none w = (x, w') → Grown E w' (w.nobj :: Rs)
  /-- `deserialize(data, root=parent)`, where the parent is in a tree and the name is not in use there. -/
  | loadBelow {w w' : World} {Rs : List Oid} {N : Ser.Codec} {t : NTree} {n : Nat} {p : Oid} {x : Except Exc Ser.Dec} :
    Grown E w Rs → (∀ u, w.nuuid ≤ u → Unused w Rs u) → Ser.Buildable E N (Ser.Keeps N) t → Ser.Refs E t → Ser.tall t < n →
    Ser.Spot E t w Rs p → Ser.deserialize E N n (Ser.jNode E (Ser.shown N {}) {} t) (some p) w = (x, w') → Grown E w' Rs
  /-- `node.deepcopy()`, looked at from the trees that were there.  If the node has `UUIDAware`, all uuids in use have
  been drawn. -/
  | copied {w w' : World} {Rs : List Oid} {R o c : Oid} :
    Grown E w Rs → Intact w → R ∈ Rs → InTree w R o → (Bhv.uuidAware ∈ (clsOf E w o).bhvs → Issued w) →
    deepcopy E o w = (.ok c, w') → Grown E w' Rs
  /-- `node.deepcopy()`, looked at from the tree the copy is in: with it the parents and siblings are copied, and `A` is
  the copy of the root. -/
  | copyOf {w w' : World} {Rs : List Oid} {R o c A : Oid} :
    Grown E w Rs → Intact w → R ∈ Rs → InTree w R o → (Bhv.uuidAware ∈ (clsOf E w o).bhvs → Issued w) →
    deepcopy E o w = (.ok c, w') → InTree w' A c → (∀ p k, ¬ Contains w' p k A) → Grown E w' [A]

theorem Forest.empty : Forest E {} [] where
  wf := WF.empty
  pos := by decide
  sole p k p' k' c h := nomatch h
  bounds p k c h := nomatch h
  nodup := List.nodup_nil
  live R h := nomatch h
  apart R h := nomatch h
  inj R h := nomatch h

theorem LiveTree.own {w : World} {R x : Oid} {r : Ref} (h : LiveTree E w R r) (hx : InTree w R x) :
    ∃ u, HasUuid w x u ∧ (w.idxs r).get? (some u) = some x := by
  obtain ⟨u, hu⟩ := h.tree.uuid x hx
  exact ⟨u, hu, (h.exact _ x).mpr ⟨u, rfl, hx, hu⟩⟩

theorem Forest.again {w : World} {Rs : List Oid} (hf : Forest E w Rs) {R o c : Oid} {k : Key} (hR : R ∈ Rs)
    (ho : InTree w R o) (hc : InTree w R c) (hne : w.children c ≠ []) (hk : KeyFor (clsOf E w o) k) :
    ∃ w', setitem E o k (.node c) w = (.error (.value "Node with uuid already exists"), w') ∧
      Calm w w' ∧ ∀ p, w'.loc p = w.loc p := by
  obtain ⟨r, hr⟩ := hf.live R hR
  obtain ⟨u, -, hu⟩ := hr.own ho
  exact setitem_refused (u := some u) hf.wf (hr.tree.cls o ho) (hr.tree.cls c hc) hk (hr.shared o ho)
    (hr.shared c hc) hne (Od.mem_keys_of_get? hu) (Od.mem_keys_of_get? hu)

theorem snd_of {α : Type} {x y : Except Exc α} {w w' : World} (h : (x, w) = (y, w')) : w = w' :=
  (Prod.mk.inj h).2

/-- A uuid of another node of the tree is refused. -/
theorem LiveTree.taken {w : World} {R o y : Oid} {r : Ref} {u : Nat} (h : LiveTree E w R r)
    (ho : InTree w R o) (hy : InTree w R y) (h0 : 0 < u) (hu : HasUuid w y u) (hne : y ≠ o) :
    setUuidRef o (some u) w = (.error (.value "Given uuid was already used for another Node"), w) := by
  have hg : (w.idxs r).get? (some u) = some y := (h.exact _ y).mpr ⟨u, rfl, hy, hu⟩
  have hi : iuuid (some u) = some u := by
    cases u with
    | zero => cases h0
    | succ n => rfl
  simp only [setUuidRef, M.bind_apply, indexRef, h.shared o ho, M.getW_apply, hi, hg]
  simp [hne, M.raise]

/-- Any uuid that no other tree has can be tried. -/
theorem Forest.tryUuid {w : World} {Rs : List Oid} (hf : Forest E w Rs) {R o : Oid} {u : Nat} (hR : R ∈ Rs)
    (ho : InTree w R o) (h0 : 0 < u) (hun : Unused w (Rs.filter (· ≠ R)) u) :
    Forest E (setUuidRef o (some u) w).2 Rs := by
  obtain ⟨r, hr⟩ := hf.live R hR
  by_cases ht : ∃ y, InTree w R y ∧ HasUuid w y u ∧ y ≠ o
  · obtain ⟨y, hy, hu, hne⟩ := ht
    rw [hr.taken ho hy h0 hu hne]
    exact hf
  · have : Unused w Rs u ∨ HasUuid w o u := by
      by_cases ho' : HasUuid w o u
      · exact .inr ho'
      · refine .inl fun R' hR' x hx hu => ?_
        by_cases e : R' = R
        · subst e
          by_cases ex : x = o
          · exact ho' (ex ▸ hu)
          · exact ht ⟨x, hx, hu, ex⟩
        · exact hun R' (List.mem_filter.mpr ⟨hR', by simpa using e⟩) x hx hu
    obtain ⟨w1, e1, e2, -⟩ := hf.setUuid hR ho h0 this
    rw [e1]
    exact e2

/-- Grown forests keep the invariant. -/
theorem Grown.forest (hE : 0 < E.depth) {w : World} {Rs : List Oid} (h : Grown E w Rs) : Forest E w Rs := by
  induction h with
  | start => exact .empty
  | @new w w' Rs c name parent x _ hc ha e hu ih =>
    obtain ⟨w1, u, e1, e2, e3⟩ := ih.new name parent hE ha hc
    obtain rfl := snd_of (e1.symm.trans e)
    exact e3 (hu u e2.le e2.lt)
  | leaf _ hR ho hN hNR hl hk hkf e ih =>
    obtain ⟨w1, e1, e2, -⟩ := ih.setLeaf hR ho hN hNR hl hk hkf
    exact snd_of (e1.symm.trans e) ▸ e2
  | insert _ hR ho hN hNR hl hkf e ih =>
    rcases ih.insertAny hR ho hN hNR hl hkf e with ⟨-, h⟩ | ⟨⟨_, h⟩, -⟩
    · exact h
    · cases h
  | insertRefused _ hR ho hN hNR hkf e ih =>
    rcases ih.insertRoot hR ho hN hNR hkf with ⟨a, w1, e1, e2⟩ | ⟨h1, h2, h3, h4⟩
    · exact snd_of (e1.symm.trans e) ▸ ih.calm e2.calm
    · obtain ⟨w1, e1⟩ := ih.insertsRoot hR ho hN hNR h1 h2 h3 hkf h4
      cases e.symm.trans e1
  | insertAgain _ hR ho hn e ih =>
    obtain ⟨a, ha⟩ := ih.insertSame hR ho hn
    simp only [insertAt, M.bind_apply, ha] at e
    exact snd_of e ▸ ih
  | ends _ hR ho hN hNR hl hkf e ih =>
    rcases ih.insertEnds hR ho hN hNR hl hkf e with ⟨-, h⟩ | ⟨⟨_, h⟩, -⟩
    · exact h
    · cases h
  | endsRefused _ hR ho hN hNR hl hkf e ih =>
    rcases ih.insertEnds hR ho hN hNR hl hkf e with ⟨h, -⟩ | ⟨-, h⟩
    · cases h
    · exact ih.calm h.calm
  | @swap w w' Rs o a b x _ e ih =>
    have := ih.swap o a b
    rw [e] at this
    exact this
  | data _ hR ho hk hkf hd e ih =>
    obtain ⟨w1, e1, e2, -⟩ := ih.setData hR ho hk hkf hd
    exact snd_of (e1.symm.trans e) ▸ e2
  | @del w w' Rs R o k x _ hR ho hk e ih =>
    obtain ⟨v, hv⟩ := Option.isSome_iff_exists.mp ((Od.get?_isSome_iff _ _).mpr hk)
    obtain ⟨w1, e1, e2, -⟩ := ih.delitem hR ho hv
    exact snd_of (e1.symm.trans e) ▸ e2
  | detach _ hR ho hc e ih =>
    obtain ⟨w1, e1, e2, -⟩ := ih.detach hR ho hc
    exact snd_of (e1.symm.trans e) ▸ e2
  | uuid _ hR ho hu hun e ih =>
    have := ih.tryUuid hR ho hu hun
    rw [e] at this
    exact this
  | uuids _ hR ho hi e ih =>
    exact ih.setUuids hi hR ho e
  | get _ hR ho hk e ih =>
    obtain ⟨r, hr⟩ := ih.live _ hR
    obtain ⟨w1, e1, e2⟩ := getitem_ref ih.wf (hr.tree.cls _ ho) hk
    exact snd_of (e1.symm.trans e) ▸ ih.calm e2.calm
  | reads _ hR ho hop e ih =>
    have := ih.reads hR ho hop
    rw [e] at this
    exact ih.calm this.calm
  | @pop w w' Rs R o k d x _ hR ho hk e ih =>
    have := ih.pop hR ho hk d
    rw [e] at this
    exact this
  | popitem _ hR ho e ih =>
    have := ih.popitem hR ho
    rw [e] at this
    exact this
  | clear _ hR ho e ih =>
    obtain ⟨w1, e1, e2⟩ := ih.clear hR ho
    exact snd_of (e1.symm.trans e) ▸ e2
  | update _ hR ho hp e ih =>
    obtain ⟨w1, e1, e2⟩ := ih.update _ hR ho hp
    exact snd_of (e1.symm.trans e) ▸ e2
  | @default w w' Rs R o k v x _ hR ho hk e ih =>
    have := ih.setdefaultThere hR ho hk v
    rw [e] at this
    exact this
  | @defaultNew w w' Rs R o k v x _ hR ho hp e ih =>
    obtain ⟨w1, h1, e1⟩ := ih.setdefaultNew hR ho (hp.unused _ List.mem_cons_self) (hp.key _ List.mem_cons_self) v
    rw [e] at e1
    obtain ⟨w2, e2, e3⟩ := (ih.calm h1.calm).update [(k, v)] hR (h1.calm.inTree.mpr ho) (hp.calm h1.calm)
    simp only [mupdate, forU, M.bind_apply] at e2
    rw [show w' = w2 by
      rw [show w' = (setitem E o k v w1).2 from e1]
      revert e2
      rcases setitem E o k v w1 with ⟨_ | _, _⟩
      · exact fun h => (nomatch (Prod.mk.inj h).1)
      · exact snd_of]
    exact e3
  | again _ hR ho hc hne hk e ih =>
    obtain ⟨w1, e1, e2, -⟩ := ih.again hR ho hc hne hk
    exact snd_of (e1.symm.trans e) ▸ ih.calm e2
  | @attrs w w' Rs o a _ hr hx e ih =>
    have hw := grow_attrs E o w
    rw [e] at hw
    exact (ih.attrs (hw.wf ih.wf) hr hx e).1
  | beside _ ha hr hc hk hd e ih =>
    obtain ⟨w1, e1, e2, -⟩ := setitem_tree ih.wf hc hk hd ha nofun
    exact snd_of (e1.symm.trans e) ▸ (ih.setBeside hr e1 e2).1
  | @load w w' Rs N t n x _ hi hb hr hn e ih =>
    have := (Ser.decode_ready (fun d hd => hd.shown) hE t n none w Rs ⟨ih, hi⟩ hb hr hn nofun).forest
    rw [show Ser.decode E N n _ none w = _ from e] at this
    exact this
  | @loadBelow w w' Rs N t n p x _ hi hb hr hn hp e ih =>
    have := (Ser.decode_ready (fun d hd => hd.shown) hE t n (some p) w Rs ⟨ih, hi⟩ hb hr hn
      (fun q hq => Option.some.inj hq ▸ hp)).forest
    rw [show Ser.decode E N n _ (some p) w = _ from e] at this
    exact this
  | copied _ hs hR ho hi e ih => exact (ih.deepcopy hs hR ho hi e).2.2.1
  | copyOf _ hs hR ho hi e hA ht ih =>
    obtain ⟨rfl, h1, -, -, h2⟩ := ih.deepcopy hs hR ho hi e
    exact h1.oneRoot List.mem_cons_self ((h2 _).mpr ⟨_, ho, rfl⟩) hA ht ▸ h1

theorem LiveTree.known {w : World} {R o : Oid} {r : Ref} (h : LiveTree E w R r) (ho : InTree w R o) :
    w.known o = w.idxs r := by
  simp only [World.known, h.shared o ho]

theorem LiveTree.indexed {w : World} {R : Oid} {r : Ref} (h : LiveTree E w R r) : Indexed w R := by
  intro o ho u x
  rw [h.known ho, h.exact]
  constructor
  · rintro ⟨u', e, hx⟩
    cases e
    exact hx
  · exact fun hx => ⟨u, rfl, hx⟩

theorem refNode_known {w : World} {o : Oid} {r : Ref} (h : (w.objs o).index = some r) (u : Nat) :
    refNode o u w = (.ok ((w.known o).get? (some u)), w) := by
  simp only [refNode, M.bind_apply, indexRef, h, M.getW_apply, M.pure_apply, World.known]

/-- **C15.**  In every tree grown through the API, `node(u)` asked on any node answers with
the node of that tree carrying `u`, and with `None` exactly if there is none.  Asking changes
nothing.  Uuids are unique in the tree, so the answer is determined. -/
theorem c15_exact (hE : 0 < E.depth) {w : World} {Rs : List Oid} (h : Grown E w Rs) {R o : Oid}
    (hR : R ∈ Rs) (ho : InTree w R o) (u : Nat) :
    ∃ r, refNode o u w = (.ok r, w) ∧ (∀ x, r = some x ↔ InTree w R x ∧ HasUuid w x u) ∧
      (r = none ↔ ¬ ∃ x, InTree w R x ∧ HasUuid w x u) := by
  have hf := h.forest hE
  obtain ⟨i, hi⟩ := hf.live R hR
  refine ⟨_, refNode_known (hi.shared o ho) u, fun x => hi.indexed o ho u x, ?_⟩
  cases hg : (w.known o).get? (some u) with
  | none =>
    refine ⟨fun _ ⟨x, hx⟩ => ?_, fun _ => rfl⟩
    rw [(hi.indexed o ho u x).mpr hx] at hg
    cases hg
  | some x => exact ⟨fun h => (nomatch h), fun h => absurd ⟨x, (hi.indexed o ho u x).mp hg⟩ h⟩

/-- C15 for the `NodeIndex` that `node.index` returns: subscription, `get` and `in` agree
with the tree. -/
theorem c15_index (hE : 0 < E.depth) {w : World} {Rs : List Oid} (h : Grown E w Rs) {R o : Oid}
    (hR : R ∈ Rs) (ho : InTree w R o) (u : Nat) :
    (∀ x, (indexGetitem o u w).1 = .ok x ↔ InTree w R x ∧ HasUuid w x u) ∧
    (∀ d x, (indexGet o u d w).1 = .ok (some x) ↔ (InTree w R x ∧ HasUuid w x u) ∨
      d = some x ∧ ¬ ∃ y, InTree w R y ∧ HasUuid w y u) ∧
    ((indexContains o u w).1 = .ok true ↔ ∃ x, InTree w R x ∧ HasUuid w x u) := by
  have hf := h.forest hE
  obtain ⟨i, hi⟩ := hf.live R hR
  have hk : ∀ x, (w.idxs i).get? (some u) = some x ↔ InTree w R x ∧ HasUuid w x u := fun x => by
    rw [← hi.known ho]; exact hi.indexed o ho u x
  simp only [indexGetitem, indexGet, indexContains, M.bind_apply, indexRef, hi.shared o ho, M.getW_apply]
  cases hg : (w.idxs i).get? (some u) with
  | none =>
    have hno : ¬ ∃ x, InTree w R x ∧ HasUuid w x u := by
      rintro ⟨x, hx⟩
      rw [(hk x).mpr hx] at hg
      cases hg
    refine ⟨fun x => ⟨fun h => (nomatch h), fun h => absurd ⟨x, h⟩ hno⟩, fun d x => ?_, ?_⟩
    · simp only [M.pure_apply, Except.ok.injEq]
      exact ⟨fun h => .inr ⟨h, hno⟩, fun h => h.elim (fun h => absurd ⟨x, h⟩ hno) (·.1)⟩
    · simp only [M.pure_apply, Except.ok.injEq]
      refine ⟨fun h => absurd h ?_, fun h => absurd h hno⟩
      rw [Od.has_iff, ← Od.get?_isSome_iff, hg]
      simp
  | some y =>
    have hy := (hk y).mp hg
    have huniq : ∀ x, y = x ↔ InTree w R x ∧ HasUuid w x u := fun x => by
      rw [← hk x, hg, Option.some.injEq]
    refine ⟨fun x => ?_, fun d x => ?_, ?_⟩
    · simp only [M.pure_apply, Except.ok.injEq]
      exact huniq x
    · simp only [M.pure_apply, Except.ok.injEq, Option.some.injEq]
      exact ⟨fun h => .inl ((huniq x).mp h), fun h => h.elim (huniq x).mpr fun h => absurd ⟨y, hy⟩ h.2⟩
    · simp only [M.pure_apply, Except.ok.injEq]
      refine ⟨fun _ => ⟨y, hy⟩, fun _ => ?_⟩
      rw [Od.has_iff]
      exact Od.mem_keys_of_get? hg

/-- The steps of `Grown` that add, delete and detach do what they are asked for: the
assigned node is a child, the deleted key is gone, the detached node is returned; nothing
else is stored or removed and no uuid changes. -/
theorem c15_steps (hE : 0 < E.depth) {w : World} {Rs : List Oid} (h : Grown E w Rs) :
    (∀ R ∈ Rs, ∀ o N k, InTree w R o → N ∈ Rs → N ≠ R → (∀ j c, ¬ Contains w N j c) →
      k ∉ (w.children o).keys → KeyFor (clsOf E w o) k →
      ∃ w', setitem E o k (.node N) w = (.ok (), w') ∧ Grown E w' (Rs.filter (· ≠ N)) ∧
        (∀ p j c, Contains w' p j c ↔ Contains w p j c ∨ p = o ∧ j = k ∧ c = N) ∧
        ∀ x u, HasUuid w' x u ↔ HasUuid w x u) ∧
    (∀ R ∈ Rs, ∀ o k, InTree w R o → k ∈ (w.children o).keys →
      ∃ w', delitem E o k w = (.ok (), w') ∧ Grown E w' Rs ∧
        (∀ p j c, Contains w' p j c ↔ Contains w p j c ∧ ¬ (p = o ∧ j = k)) ∧
        ∀ x u, HasUuid w' x u ↔ HasUuid w x u) ∧
    (∀ c name parent, RefClass (E.cls c) → (E.cls c).Accepts name parent → (∀ u, w.nuuid ≤ u → Unused w Rs u) →
      ∃ w', newNode E c name parent w = (.ok w.nobj, w') ∧ Grown E w' (w.nobj :: Rs) ∧
        (∀ j c, ¬ Contains w' w.nobj j c) ∧ ∃ u, HasUuid w' w.nobj u ∧ w.nuuid ≤ u ∧ u < w'.nuuid) := by
  have hf := h.forest hE
  refine ⟨fun R hR o N k ho hN hNR hl hk hkf => ?_, fun R hR o k ho hk => ?_, fun c name parent hc ha hu => ?_⟩
  · obtain ⟨w', e1, -, e3, e4, -⟩ := hf.setLeaf hR ho hN hNR hl hk hkf
    refine ⟨w', e1, .leaf h hR ho hN hNR hl hk hkf e1, fun p j c => ?_, fun x u => ?_⟩
    · rw [contains_chSet (fun p j => by rw [e3]) hk]
      simp only [Val.node.injEq, eq_comm]
    · simp only [HasUuid, e4]
  · obtain ⟨v, hv⟩ := Option.isSome_iff_exists.mp ((Od.get?_isSome_iff _ _).mpr hk)
    obtain ⟨w', e1, -, e3, e4, -⟩ := hf.delitem hR ho hv
    exact ⟨w', e1, .del h hR ho hk e1, contains_chDel hf.wf e3, fun x u => by simp only [HasUuid, e4]⟩
  · obtain ⟨w', u, e1, e3, -⟩ := hf.new name parent hE ha hc
    refine ⟨w', e1, .new h hc ha e1 fun u hu' _ => hu u hu', fun j c hj => ?_, u, ?_, e3.le, e3.lt⟩
    · replace hj : (w'.children w.nobj).get? j = _ := hj
      rw [e3.empty] at hj
      cases hj
    · simp only [HasUuid, e3.uuid, if_true]

/-- **C17.**  Detaching splits the index: the call returns the subtree's node, afterwards the
subtree and the rest are exactly indexed each for itself, the subtree consists of what was
below it, the rest of the others, and no uuid changed. -/
theorem c17_split (hE : 0 < E.depth) {w : World} {Rs : List Oid} (h : Grown E w Rs) {R o n : Oid}
    {k : Key} (hR : R ∈ Rs) (ho : InTree w R o) (hc : Contains w o k n) :
    ∃ w', detach E o k w = (.ok (.node n), w') ∧ Grown E w' (n :: Rs) ∧
      (∀ x, InTree w' n x ↔ InTree w n x) ∧ (∀ x, InTree w' R x ↔ InTree w R x ∧ ¬ InTree w n x) ∧
      (∀ x u, HasUuid w' x u ↔ HasUuid w x u) ∧
      (∀ y, InTree w n y → ∀ u x, (w'.known y).get? (some u) = some x ↔ InTree w n x ∧ HasUuid w x u) ∧
      (∀ y, InTree w R y → ¬ InTree w n y → ∀ u x, (w'.known y).get? (some u) = some x ↔
        InTree w R x ∧ ¬ InTree w n x ∧ HasUuid w x u) := by
  have hf := h.forest hE
  obtain ⟨r, hr⟩ := hf.live R hR
  obtain ⟨w', e1, e2, e3⟩ := hf.detach hR ho hc
  have hcon := contains_chDel hf.wf e3.children
  have hno : ¬ InTree w n o := fun h' => ho.acyclic hf.sole hr.tree.top hc h'
  have hn : ∀ x, InTree w' n x ↔ InTree w n x := fun x => InTree.rest hcon hno
  have hRt : ∀ x, InTree w' R x ↔ InTree w R x ∧ ¬ InTree w n x := fun x =>
    InTree.removed hf.sole hc hcon hr.tree.top ho
  have hu : ∀ x u, HasUuid w' x u ↔ HasUuid w x u := fun x u => by simp only [HasUuid, e3.uuid]
  refine ⟨w', e1, .detach h hR ho hc e1, hn, hRt, hu, fun y hy u x => ?_, fun y hy hy' u x => ?_⟩
  · obtain ⟨i, hi⟩ := e2.live n List.mem_cons_self
    rw [hi.indexed y ((hn y).mpr hy), hn, hu]
  · obtain ⟨i, hi⟩ := e2.live R (List.mem_cons_of_mem _ hR)
    rw [hi.indexed y ((hRt y).mpr ⟨hy, hy'⟩), hRt, hu, and_assoc]

/-! ### A concrete forest: 0 with child 1 with child 2 -/

theorem sample_refClass : RefClass (sampleEnv.cls 7) where
  kind := ⟨.odictStorage, rfl, by decide⟩
  once := ⟨[.adopt, .order], [.defaultInit, .nodify, .odictStorage], rfl, by decide, by decide⟩
  plain := by decide

/-- A chain of three `Reference` nodes. -/
def refChain : List Op := [.new 7 .none none, .new 7 .none none, .new 7 .none none,
  .set 0 ka (.node 1), .set 1 kb (.node 2)]

theorem refChain_grown : Grown sampleEnv (after sampleEnv refChain) [0] := by
  have h0 : Grown sampleEnv {} [] := .start
  have none : ∀ {w : World} {o : Oid}, w.children o = [] → ∀ j c, ¬ Contains w o j c :=
    fun {w o} e j c h => by
      replace h : (w.children o).get? j = _ := h
      rw [e] at h
      cases h
  have alone : ∀ {w : World} {o x : Oid}, w.children o = [] → InTree w o x → x = o := by
    intro w o x e h
    rcases h.down with h | ⟨j, c, hc, -⟩
    · exact h
    · exact absurd hc (none e j c)
  have kf : ∀ (w : World) k, (w.objs 0).cls = 7 → KeyFor (clsOf sampleEnv w 0) k := fun w k e h => by
    rw [show clsOf sampleEnv w 0 = sampleEnv.cls 7 from congrArg _ e] at h
    exact absurd h (by decide)
  have kf1 : ∀ (w : World) k, (w.objs 1).cls = 7 → KeyFor (clsOf sampleEnv w 1) k := fun w k e h => by
    rw [show clsOf sampleEnv w 1 = sampleEnv.cls 7 from congrArg _ e] at h
    exact absurd h (by decide)
  have h1 : Grown sampleEnv (after sampleEnv (refChain.take 1)) [0] :=
    .new (x := .ok 0) (c := 7) (name := .none) (parent := Option.none) h0 sample_refClass (by decide) rfl
      (fun _ _ _ R h => nomatch h)
  have h2 : Grown sampleEnv (after sampleEnv (refChain.take 2)) [1, 0] :=
    .new (x := .ok 1) (c := 7) (name := .none) (parent := Option.none) h1 sample_refClass (by decide) rfl
      (fun u h1 h2 R hR x hx hu => by
        obtain rfl : u = _ := Nat.le_antisymm (Nat.le_of_lt_succ h2) h1
        rcases List.mem_singleton.mp hR with rfl
        rcases alone rfl hx with rfl
        exact absurd hu (by unfold HasUuid; decide +kernel))
  have h3 : Grown sampleEnv (after sampleEnv (refChain.take 3)) [2, 1, 0] :=
    .new (x := .ok 2) (c := 7) (name := .none) (parent := Option.none) h2 sample_refClass (by decide) rfl
      (fun u h1 h2 R hR x hx hu => by
        obtain rfl : u = _ := Nat.le_antisymm (Nat.le_of_lt_succ h2) h1
        simp only [List.mem_cons, List.not_mem_nil, or_false] at hR
        rcases hR with rfl | rfl <;> rcases alone rfl hx with rfl <;>
        exact absurd hu (by unfold HasUuid; decide +kernel))
  have h4 : Grown sampleEnv (after sampleEnv (refChain.take 4)) [2, 0] :=
    .leaf (x := .ok ()) (R := 0) (o := 0) (N := 1) (k := ka) h3 (by decide) (.refl 0) (by decide)
      (by decide) (none rfl) (by decide +kernel) (kf _ _ rfl) rfl
  exact .leaf (x := .ok ()) (R := 0) (o := 1) (N := 2) (k := kb) h4 (by decide)
    (.child (.refl 0) (k := ka) rfl) (by decide) (by decide) (none rfl) (by decide +kernel) (kf1 _ _ rfl) rfl

/-- Asked on the middle node, the grown chain knows all three uuids and no fourth. -/
example : (refNode 1 1 (after sampleEnv refChain)).1 = .ok (some 0) ∧
    (refNode 1 2 (after sampleEnv refChain)).1 = .ok (some 1) ∧
    (refNode 1 3 (after sampleEnv refChain)).1 = .ok (some 2) ∧
    (refNode 1 4 (after sampleEnv refChain)).1 = .ok none := by decide +kernel

/-- `c15_exact` about that chain. -/
example : ∃ r, refNode 1 3 (after sampleEnv refChain) = (.ok r, after sampleEnv refChain) ∧
    (∀ x, r = some x ↔ InTree (after sampleEnv refChain) 0 x ∧ HasUuid (after sampleEnv refChain) x 3) ∧
      (r = none ↔ ¬ ∃ x, InTree (after sampleEnv refChain) 0 x ∧ HasUuid (after sampleEnv refChain) x 3) :=
  c15_exact (by decide) refChain_grown (by decide) (.child (.refl 0) (k := ka) rfl) 3

/-- After detaching the middle node: the root knows itself, the others each other. -/
example : let w := after sampleEnv (refChain ++ [.detach 0 ka])
    (refNode 0 1 w).1 = .ok (some 0) ∧ (refNode 0 2 w).1 = .ok none ∧ (refNode 0 3 w).1 = .ok none ∧
    (refNode 2 1 w).1 = .ok none ∧ (refNode 2 2 w).1 = .ok (some 1) ∧ (refNode 1 3 w).1 = .ok (some 2) := by
  decide +kernel

/-- `clear` and `update` in a tree that has grown. -/
example : ∃ w', Grown sampleEnv w' [0] ∧ mclear sampleEnv 1 (after sampleEnv refChain) = (.ok (), w') := by
  obtain ⟨w', e, -⟩ := (refChain_grown.forest (by decide)).clear (R := 0) (o := 1) (by decide)
    (.child (.refl 0) (k := ka) rfl)
  exact ⟨w', .clear refChain_grown (by decide) (.child (.refl 0) (k := ka) rfl) e, e⟩

example : let w := (mclear sampleEnv 1 (after sampleEnv refChain)).2
    (refNode 0 2 w).1 = .ok (some 1) ∧ (refNode 1 3 w).1 = .ok none := by decide +kernel

example : ∃ w', Grown sampleEnv w' [0] ∧
    mupdate sampleEnv 1 [(ka, .data (.int 1)), (kc, .data .none)] (after sampleEnv refChain) = (.ok (), w') := by
  have ho : InTree (after sampleEnv refChain) 0 1 := .child (.refl 0) (k := ka) rfl
  have hp : NewPairs sampleEnv (after sampleEnv refChain) [0] 0 1 [(ka, .data (.int 1)), (kc, .data .none)] := {
    keys := by decide
    nodes := by simp
    unused := by decide +kernel
    key := fun kv _ h => absurd h (by decide +kernel)
    data := fun k d _ => rfl
    leaf := fun k N h => by simp at h }
  obtain ⟨w', e, -⟩ := (refChain_grown.forest (by decide)).update _ (by decide) ho hp
  exact ⟨w', .update refChain_grown (by decide) ho hp e, e⟩

/-- Two new nodes come in by `update`, the last goes by `popitem`, the first with the others by `pop`. -/
example : let w := after sampleEnv (refChain ++ [.new 7 .none none, .new 7 .none none,
      .update 1 [(ka, .node 3), (kc, .node 4)], .popitem 1])
    (refNode 0 4 w).1 = .ok (some 3) ∧ (refNode 3 3 w).1 = .ok (some 2) ∧ (refNode 0 5 w).1 = .ok none ∧
    (refNode 0 4 (exec sampleEnv (.pop 0 ka none) w).2).1 = .ok none := by decide +kernel

end Verif
