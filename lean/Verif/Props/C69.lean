import Verif.Lemmas.Groups
import Verif.Lemmas.SepApi
import Verif.Lemmas.Grow
import Verif.Model.Serializer
import Verif.Spec.Sessions
import Verif.Sample
import Verif.Props.C47

/-!
# C69: reading serialized data leaves existing nodes alone

`deserialize(data)` makes new nodes only, whatever the data are and whether it returns or raises.  With a
root, only what is connected with the root changes.  If it raises, the root should be as before; it is
not, because `node_factory` sets the node on the root before its children are read.
-/

namespace Verif.Ser

open Verif

mutual
/-- The nodes in what `decode` returns. -/
def Dec.nodes : Dec → List Oid
  | .node o => [o]
  | .data _ => []
  | .list xs => Dec.nodesList xs
/-- The nodes in a list of these. -/
def Dec.nodesList : List Dec → List Oid
  | [] => []
  | x :: r => x.nodes ++ Dec.nodesList r
end

theorem mem_nodesList {xs : List Dec} {c : Oid} : c ∈ Dec.nodesList xs ↔ ∃ x ∈ xs, c ∈ x.nodes := by
  induction xs with
  | nil => simp [Dec.nodesList]
  | cons x r ih => simp [Dec.nodesList, ih]

variable {E : Env} {N : Codec} {Γ : Prot}

/-- No node in it is protected. -/
def GoodD (Γ : Prot) (n : Nat) (x : Dec) : Prop := ∀ c ∈ x.nodes, Good Γ n c

theorem GoodD.mono {n m : Nat} {x : Dec} (h : GoodD Γ n x) (hnm : n ≤ m) : GoodD Γ m x := fun c hc => (h c hc).mono hnm

theorem sep_toVal {n : Nat} {x : Dec} (hx : GoodD Γ n x) : Sep Γ n x.toVal (GoodV Γ) := by
  unfold Dec.toVal
  split
  · rename_i o
    exact sep_pure fun n' hn' => ((hx o (by simp [Dec.nodes])).mono hn').val
  · split
    · exact sep_pure fun n' _ => goodV_data n' _
    · exact sep_raise

theorem sep_nodeFactory {rec : J → Option Oid → M Dec} {n : Nat} {data : List (Str × J)} {parent : Option Oid}
    (hr : ∀ j n', n ≤ n' → Sep Γ n' (rec j none) (GoodD Γ)) (hp : ∀ p, parent = some p → Good Γ n p) :
    Sep Γ n (nodeFactory E N rec data parent) fun n' o => Good Γ n' o := by
  unfold nodeFactory
  refine sep_bind (p := tt) (sep_ofExcept fun _ _ _ _ => trivial) fun c n1 h1 _ => ?_
  refine sep_bind (p := tt) ?_ fun kw n2 h2 _ => ?_
  · unfold decKw
    split
    · exact sep_pure fun _ _ => trivial
    · exact sep_tt (hr _ n1 h1)
  refine sep_bind (p := tt) (sep_ofExcept fun _ _ _ _ => trivial) fun k n2' h2' _ => ?_
  refine sep_bind (p := tt) (sep_ofExcept fun _ _ _ _ => trivial) fun arg n3 h3 _ => ?_
  refine sep_bind (sep_newNode nofun) fun o n4 h4 ho => ?_
  cases parent with
  | none => exact sep_bind (sep_name (by good)) fun _ n5 h5 _ => sep_pure fun n' hn' => ho.mono (by omega)
  | some p =>
    have hp := hp p rfl
    exact sep_bind (sep_setitem (by good) (by good)) fun _ n5 h5 _ => sep_pure fun n' hn' => ho.mono (by omega)

theorem sep_decode (fuel : Nat) {n : Nat} {j : J} {parent : Option Oid} (hp : ∀ p, parent = some p → Good Γ n p) :
    Sep Γ n (decode E N fuel j parent) (GoodD Γ) := by
  induction fuel generalizing n j parent with
  | zero => exact sep_raise
  | succ d ih =>
    have data : ∀ x n', GoodD Γ n' (.data x) := fun x n' c hc => by simp [Dec.nodes] at hc
    cases j with
    | str s =>
      exact sep_bind (p := tt) (sep_ofExcept fun _ _ _ _ => trivial) fun x _ _ _ => sep_pure fun _ _ => data x _
    | list xs =>
      refine sep_bind (sep_forM (p := GoodD Γ) (fun _ _ _ h hb => hb.mono h) xs fun x _ n' hn' =>
        ih fun p hp' => (hp p hp').mono hn') fun ys n1 h1 hys => sep_pure fun n' hn' c hc => ?_
      obtain ⟨y, hy, hcy⟩ := mem_nodesList.mp hc
      exact (hys y hy c hcy).mono hn'
    | obj kvs =>
      simp only [decode]
      split
      · exact sep_bind (p := tt) (sep_ofExcept fun _ _ _ _ => trivial) fun x _ _ _ => sep_pure fun _ _ => data x _
      · split
        · rename_i rec _
          refine sep_bind (sep_nodeFactory (fun _ _ _ => ih nofun) hp) fun o n1 h1 ho => ?_
          refine sep_bind (p := tt) ?_ fun _ n2 h2 _ => sep_bind (p := tt) ?_ fun _ n3 h3 _ => sep_pure fun n' hn' c hc => ?_
          · unfold decKids
            split
            · exact sep_pure fun _ _ => trivial
            · exact sep_pure fun _ _ => trivial
            · exact sep_forU _ fun x _ n' hn' => sep_bind (ih (sep_some (ho.mono hn'))) fun _ _ _ _ =>
                sep_pure fun _ _ => trivial
            · exact sep_raise
          · unfold decAttrs
            have hloop : Sep Γ n2 (match Od.get? rec attrsName with
                | none => pure ()
                | some .null => pure ()
                | some (.obj kvs) => forU (fun (kv : Str × J) => do
                    let x ← decode E N d kv.2 none
                    let v ← x.toVal
                    let a ← attrs E o
                    setitem E a (.str kv.1) v) kvs
                | some _ => M.raise .unmodelled : M Unit) tt := by
              split
              · exact sep_pure fun _ _ => trivial
              · exact sep_pure fun _ _ => trivial
              · refine sep_forU _ fun kv _ n' hn' => ?_
                refine sep_bind (ih nofun) fun x m1 g1 hx => ?_
                refine sep_bind (sep_toVal hx) fun v m2 g2 hv => ?_
                refine sep_bind (sep_attrs (ho.mono (by omega))) fun a m3 g3 ha => ?_
                exact sep_setitem (by good) (by good)
              · exact sep_raise
            intro w hI hw
            simp only
            split
            · exact hloop w hI hw
            · exact ⟨hI, Nat.le_refl _, fun _ _ => trivial⟩
          · rw [Dec.nodes, List.mem_singleton] at hc
            subst hc
            exact ho.mono (by omega)
        · exact sep_raise
        · exact sep_pure fun _ _ => data _ _
    | null => exact sep_pure fun _ _ => data _ _
    | bool b => exact sep_pure fun _ _ => data _ _
    | int i => exact sep_pure fun _ _ => data _ _

/-! ### Without a root -/

section
variable {w : World} (hw : WF w) (hi : Intact w)
include hw hi

/-- Whatever the data are and whether it returns or raises, no existing node changes. -/
theorem c69_existing (n : Nat) (j : J) {p : Oid} (hp : p < w.nobj) :
    Unchanged w (deserialize E N n j none w).2 p :=
  sep_frame [] hw hi (fun _ _ => sep_tt (sep_decode (parent := none) n nofun)) (fun _ h => nomatch h) hp
    (fun _ h => nomatch h)

/-- With a root, only what has to do with the root changes. -/
theorem c69_root (n : Nat) (j : J) {r p : Oid} (hr : r < w.nobj) (hp : p < w.nobj) (hn : ¬ Connected w r p) :
    Unchanged w (deserialize E N n j (some r) w).2 p :=
  sep_frame [r] hw hi (fun _ h => sep_tt (sep_decode n (sep_some (h r List.mem_cons_self))))
    (fun o ho => by rw [List.mem_singleton] at ho; exact ho ▸ hr) hp
    (fun o ho => by rw [List.mem_singleton] at ho; exact ho ▸ hn)

omit hw in
/-- All nodes that are returned are new. -/
theorem c69_new (n : Nat) (j : J) {x : Dec} (h : (deserialize E N n j none w).1 = .ok x) {c : Oid}
    (hc : c ∈ x.nodes) : w.nobj ≤ c ∧ c < (deserialize E N n j none w).2.nobj := by
  have hg : Grouped (fun _ : Oid => false) w :=
    ⟨fun _ _ => rfl, fun _ _ => rfl, fun _ _ _ => rfl, fun _ _ _ => rfl, fun _ _ _ => rfl, fun _ _ _ => rfl,
      fun _ _ _ _ => rfl⟩
  have := (sep_decode (E := E) (N := N) (Γ := protOthers (fun _ => false) true w) n (j := j) (n := w.nobj)
    (parent := none) nofun w (grouped_inv hi hg) (Nat.le_refl _)).2.2 x h c hc
  exact ⟨Nat.le_of_not_lt fun hlt => this.1 ⟨hlt, nofun⟩, this.2⟩
end

/-! ### Data that are no nodes -/

mutual
/-- There is no `__node__` in the data where `decode` looks for it. -/
def NoNodes : J → Prop
  | .list xs => NoNodesList xs
  | .obj kvs => Od.get? kvs obKey ≠ none ∨ Od.get? kvs nodeKey = none
  | _ => True
/-- The same for all elements. -/
def NoNodesList : List J → Prop
  | [] => True
  | x :: r => NoNodes x ∧ NoNodesList r
end

theorem noNodesList_mem {xs : List J} (h : NoNodesList xs) {x : J} (hx : x ∈ xs) : NoNodes x := by
  induction xs with
  | nil => cases hx
  | cons y r ih =>
    rcases List.mem_cons.mp hx with e | e
    · subst e; exact h.1
    · exact ih h.2 e

theorem forM_same {α β : Type} {f : α → M β} {w : World} (l : List α) (h : ∀ a ∈ l, (f a w).2 = w) :
    (forM' f l w).2 = w := by
  induction l with
  | nil => rfl
  | cons a r ih =>
    have ha := h a List.mem_cons_self
    have hr := ih fun x hx => h x (List.mem_cons_of_mem _ hx)
    show (Prod.snd ((f a >>= fun b => forM' f r >>= fun bs => pure (b :: bs)) w)) = w
    rw [M.bind_apply]
    rcases hx : f a w with ⟨e | b, w1⟩
    · rw [hx] at ha; exact ha
    · rw [hx] at ha
      have ha : w1 = w := ha
      subst ha
      simp only [M.bind_apply]
      rcases hy : forM' f r w1 with ⟨e | bs, w2⟩
      · rw [hy] at hr; exact hr
      · rw [hy] at hr; exact hr

/-- Reading data without nodes changes nothing at all. -/
theorem c69_plain (n : Nat) (j : J) (root : Option Oid) (w : World) (hj : NoNodes j) :
    (deserialize E N n j root w).2 = w := by
  unfold deserialize
  induction n generalizing j root with
  | zero => rfl
  | succ d ih =>
    cases j with
    | str s =>
      show (Prod.snd ((M.ofExcept (decStr N s) >>= fun x => pure (Dec.data x)) w)) = w
      rw [M.bind_apply]
      cases decStr N s <;> rfl
    | list xs =>
      have := forM_same (f := fun x => decode E N d x root) (w := w) xs fun x hx => ih x root (noNodesList_mem hj hx)
      show (Prod.snd ((forM' (fun x => decode E N d x root) xs >>= fun ys => pure (Dec.list ys)) w)) = w
      rw [M.bind_apply]
      rcases hy : forM' (fun x => decode E N d x root) xs w with ⟨e | ys, w1⟩
      · rw [hy] at this; exact this
      · rw [hy] at this; exact this
    | obj kvs =>
      simp only [decode]
      rcases hj with h | h
      · cases ho : Od.get? kvs obKey with
        | none => exact absurd ho h
        | some j =>
          show (Prod.snd ((M.ofExcept (decOb N j) >>= fun x => pure (Dec.data x)) w)) = w
          rw [M.bind_apply]
          cases decOb N j <;> rfl
      · rw [h]
        cases ho : Od.get? kvs obKey with
        | none => rfl
        | some j =>
          show (Prod.snd ((M.ofExcept (decOb N j) >>= fun x => pure (Dec.data x)) w)) = w
          rw [M.bind_apply]
          cases decOb N j <;> rfl
    | null => rfl
    | bool b => rfl
    | int i => rfl

/-! ### Records that cannot be read -/

section
variable {kvs data : List (Str × J)} (hob : Od.get? kvs obKey = none) (hnode : Od.get? kvs nodeKey = some (.obj data))
  (n : Nat) (root : Option Oid) (w : World)
include hob hnode

/-- Without a class: `KeyError('class')`, and nothing has changed, not even below the root. -/
theorem c69_no_class (h : Od.get? data classKey = none) :
    deserialize E N (n + 1) (.obj kvs) root w = (.error (.key (.key (.str classKey))), w) := by
  simp only [deserialize, decode, hob, hnode, nodeFactory, M.bind_apply, decClass, h, M.ofExcept]

/-- With a class that is not there: an error, and nothing has changed. -/
theorem c69_unknown_class {s : Str} (h : Od.get? data classKey = some (.str s)) (hs : N.findCls s = none) :
    deserialize E N (n + 1) (.obj kvs) root w = (.error .attr, w) := by
  simp only [deserialize, decode, hob, hnode, nodeFactory, M.bind_apply, decClass, h, hs, M.ofExcept]

/-- With a class that is no string: `AttributeError`, and nothing has changed. -/
theorem c69_bad_class {j : J} (h : Od.get? data classKey = some j) (hj : ∀ s, j ≠ .str s) :
    deserialize E N (n + 1) (.obj kvs) root w = (.error .attr, w) := by
  have : decClass N data = .error .attr := by
    unfold decClass
    rw [h]
    cases j <;> first | rfl | exact absurd rfl (hj _)
  simp only [deserialize, decode, hob, hnode, nodeFactory, M.bind_apply, this, M.ofExcept]

/-- Without a name: `KeyError('name')`, and nothing has changed. -/
theorem c69_no_name {s : Str} {c : ClassId} (h : Od.get? data classKey = some (.str s)) (hs : N.findCls s = some c)
    (hk : Od.get? data kwKey = none) (hn : Od.get? data nameKey = none) :
    deserialize E N (n + 1) (.obj kvs) root w = (.error (.key (.key (.str nameKey))), w) := by
  simp only [deserialize, decode, hob, hnode, nodeFactory, M.bind_apply, decClass, h, hs, M.ofExcept, decKw, hk,
    M.pure_apply, decName, hn]

/-- With keyword arguments that are no object: `TypeError`, and nothing has changed. -/
theorem c69_kw_no_object {s nm : Str} {c : ClassId} {j : J} (h : Od.get? data classKey = some (.str s))
    (hs : N.findCls s = some c) (hn : Od.get? data nameKey = some (.str nm)) (hk : Od.get? data kwKey = some j)
    (hj : j = .null ∨ (∃ b, j = .bool b) ∨ (∃ i, j = .int i) ∨
      ∃ t, j = .str t ∧ t ≠ "<UNSET>".toList ∧ ¬ "<UUID>:".toList <+: t) :
    deserialize E N (n + 2) (.obj kvs) root w = (.error .type, w) := by
  have hn : decName data = .ok (.str nm) := by simp only [decName, hn]
  simp only [deserialize, decode, hob, hnode, nodeFactory, M.bind_apply, decClass, h, hs, M.ofExcept, decKw, hk]
  rcases hj with rfl | ⟨b, rfl⟩ | ⟨i, rfl⟩ | ⟨t, rfl, h1, h2⟩
  · simp only [decode, M.pure_apply, hn, raw, callArgs]
  · simp only [decode, M.pure_apply, hn, raw, callArgs]
  · simp only [decode, M.pure_apply, hn, raw, callArgs]
  · have hd : decStr N t = .ok (.str t) := by
      unfold decStr
      rw [if_neg h1, if_neg (fun h => h2 (List.isPrefixOf_iff_prefix.mp h))]
    simp only [decode, M.bind_apply, hd, M.ofExcept, M.pure_apply, hn, callArgs]

omit hob hnode in
theorem rawDict_keys (xs : List (Str × J)) : (rawDict xs).map Prod.fst = xs.map Prod.fst := by
  induction xs with
  | nil => rfl
  | cons x r ih => simp only [rawDict, List.map_cons, ih]

/-- With keyword arguments the class does not take, which are all but `name` and `parent` for a class with
`DefaultInit` and without `Events`, and all for the others: `TypeError`, and nothing has changed. -/
theorem c69_kw_unknown {s nm : Str} {c : ClassId} {args : List (Str × J)}
    (h : Od.get? data classKey = some (.str s)) (hs : N.findCls s = some c) (hn : Od.get? data nameKey = some (.str nm))
    (hk : Od.get? data kwKey = some (.obj args)) (h1 : Od.get? args obKey = none) (h2 : Od.get? args nodeKey = none)
    {a : Str} (ha : a ∈ args.map Prod.fst)
    (hbad : (Bhv.defaultInit ∈ (E.cls c).bhvs ∧ Bhv.events ∉ (E.cls c).bhvs) →
      a ≠ "name".toList ∧ a ≠ "parent".toList) :
    deserialize E N (n + 2) (.obj kvs) root w = (.error .type, w) := by
  have hn : decName data = .ok (.str nm) := by simp only [decName, hn]
  have hcall : callArgs (E.cls c) (.data (.dict (rawDict args))) = .error .type := by
    have ha' : a ∈ (rawDict args).map Prod.fst := by rw [rawDict_keys]; exact ha
    generalize rawDict args = xs at ha'
    cases xs with
    | nil => cases ha'
    | cons x r =>
      have : ((E.cls c).takesArgs && (x :: r).all fun kv => kv.1 == nameKey || kv.1 == parentKey) = false := by
        refine Bool.eq_false_iff.mpr fun ht => ?_
        obtain ⟨t1, t2⟩ := (Bool.and_eq_true ..).mp ht
        have t1 : Bhv.defaultInit ∈ (E.cls c).bhvs ∧ Bhv.events ∉ (E.cls c).bhvs := by
          simpa [ClassDef.takesArgs] using t1
        obtain ⟨kv, hkv, e⟩ := List.mem_map.mp ha'
        have := List.all_eq_true.mp t2 kv hkv
        rw [e] at this
        rcases (Bool.or_eq_true ..).mp this with e | e
        · exact (hbad t1).1 (eq_of_beq e)
        · exact (hbad t1).2 (eq_of_beq e)
      simp only [callArgs, this]
      rfl
  simp only [deserialize, decode, hob, hnode, nodeFactory, M.bind_apply, decClass, h, hs, M.ofExcept, decKw, hk,
    h1, h2, M.pure_apply, hn, raw, hcall]
end

/-- What is under `__node__` must be an object: otherwise `TypeError`, and nothing has changed. -/
theorem c69_no_record {kvs : List (Str × J)} {j : J} (hob : Od.get? kvs obKey = none)
    (hnode : Od.get? kvs nodeKey = some j) (hj : ∀ d, j ≠ .obj d) (n : Nat) (root : Option Oid) (w : World) :
    deserialize E N (n + 1) (.obj kvs) root w = (.error .type, w) := by
  simp only [deserialize, decode, hob, hnode]
  cases j <;> first | rfl | exact absurd rfl (hj _)

/-- A reference to an object (`__ob__`) comes before a record: it gives the object of that name, and nothing has
changed. -/
theorem c69_object {kvs : List (Str × J)} {s : Str} {d : Data} (hob : Od.get? kvs obKey = some (.str s))
    (hs : N.findOb s = some d) (n : Nat) (root : Option Oid) (w : World) :
    deserialize E N (n + 1) (.obj kvs) root w = (.ok (.data d), w) := by
  simp only [deserialize, decode, hob, M.bind_apply, decOb, hs, M.ofExcept, M.pure_apply]

/-- If there is no such object, or the reference is no string: an error, and nothing has changed, even if there is also
a record that could be read. -/
theorem c69_no_object {kvs : List (Str × J)} {j : J} (hob : Od.get? kvs obKey = some j)
    (hj : ∀ s, j = .str s → N.findOb s = none) (n : Nat) (root : Option Oid) (w : World) :
    deserialize E N (n + 1) (.obj kvs) root w = (.error .attr, w) := by
  have : decOb N j = .error .attr := by
    cases j <;> first | rfl | (rename_i s; simp only [decOb, hj s rfl])
  simp only [deserialize, decode, hob, M.bind_apply, this, M.ofExcept]

/-! ### With a root -/

/-- The record of an `OrderedNode` named `a` with one child, whose record has no class. -/
def c69Bad : J := .obj [(nodeKey, .obj [(classKey, .str "node.base.OrderedNode".toList), (nameKey, .str ['a']),
  (kidsKey, .list [.obj [(nodeKey, .obj [(nameKey, .str ['b'])])]])])]

/-- `deserialize(data, root)` raises and leaves the root with a half read child. -/
theorem c69_refuted : ∃ w', deserialize sampleEnv sampleCodec 9 c69Bad (some 0) (after sampleEnv [.new 1 .none none]) =
      (.error (.key (.key (.str classKey))), w') ∧
    ((after sampleEnv [.new 1 .none none]).omap 0).items = [] ∧ (w'.omap 0).items = [(ka, .node 1)] ∧
    w'.nobj = 2 := ⟨_, by rfl, by rfl, by rfl, by rfl⟩

/-- The same data without a root leave the tree alone. -/
example : (deserialize sampleEnv sampleCodec 9 c69Bad none (after sampleEnv [.new 1 .none none])).1 =
      .error (.key (.key (.str classKey))) ∧
    Unchanged (after sampleEnv [.new 1 .none none])
      (deserialize sampleEnv sampleCodec 9 c69Bad none (after sampleEnv [.new 1 .none none])).2 0 :=
  ⟨by rfl, c69_existing (reachable_after _ _).wf (intact_after (by decide +kernel)) 9 c69Bad (by decide +kernel)⟩

/-- Two nodes that have nothing to do with each other. -/
theorem c69Apart : ¬ Connected (after sampleEnv [.new 1 .none none, .new 1 .none none]) 0 1 := by
  intro h
  have bare : ∀ p, p < 2 → ((after sampleEnv [.new 1 .none none, .new 1 .none none]).objs p) = { cls := 1 } := by
    intro p hp
    rcases Nat.lt_succ_iff_lt_or_eq.mp hp with h | rfl
    · rcases Nat.lt_succ_iff_lt_or_eq.mp h with h | rfl
      · exact absurd h (Nat.not_lt_zero _)
      · rfl
    · rfl
  have hg : Grouped (fun p => p) (after sampleEnv [.new 1 .none none, .new 1 .none none]) := by
    constructor
    · intro p q hp h; rw [bare p hp] at h; cases h
    · intro p q k hp h; rw [bare p hp] at h; cases h
    · intro p q k r hp h; rw [bare p hp] at h; cases h
    · intro p q k r hp h; rw [bare p hp] at h; cases h
    · intro p q k r hp h; rw [bare p hp] at h; cases h
    · intro p q k r hp h; rw [bare p hp] at h; cases h
    · intro p q r hp _ h; rw [bare p hp] at h; cases h
  exact absurd (h.group (intact_after (by decide +kernel)) hg).2.2 (by decide)

/-- And with another root. -/
example : Unchanged (after sampleEnv [.new 1 .none none, .new 1 .none none])
    (deserialize sampleEnv sampleCodec 9 c69Bad (some 0) (after sampleEnv [.new 1 .none none, .new 1 .none none])).2
      1 :=
  c69_root (reachable_after _ _).wf (intact_after (by decide +kernel)) 9 c69Bad (by decide +kernel)
    (by decide +kernel) c69Apart

/-- A record with the keyword argument `title`. -/
def c69Kw : J := .obj [(nodeKey, .obj [(classKey, .str "node.base.OrderedNode".toList), (nameKey, .str ['a']),
  (kwKey, .obj [("title".toList, .str ['t'])])])]

example (w : World) : deserialize sampleEnv sampleCodec 2 c69Kw (some 0) w = (.error .type, w) :=
  c69_kw_unknown (data := [(classKey, .str "node.base.OrderedNode".toList), (nameKey, .str ['a']),
    (kwKey, .obj [("title".toList, .str ['t'])])]) (by decide) rfl 0 (some 0) w (s := "node.base.OrderedNode".toList)
    (nm := ['a']) (c := 1) (args := [("title".toList, .str ['t'])]) rfl (by rfl) rfl rfl rfl rfl
    (a := "title".toList) (by decide) fun _ => by decide

example (w : World) : deserialize sampleEnv sampleCodec 2 (.obj [(nodeKey, .obj [(classKey,
      .str "node.base.OrderedNode".toList), (nameKey, .str ['a']), (kwKey, .null)])]) none w = (.error .type, w) :=
  c69_kw_no_object (data := [(classKey, .str "node.base.OrderedNode".toList), (nameKey, .str ['a']),
    (kwKey, .null)]) (by decide) rfl 0 none w (s := "node.base.OrderedNode".toList) (nm := ['a']) (c := 1) rfl (by rfl)
    rfl rfl (.inl rfl)

/-- A name given as keyword argument is overwritten by that of the record. -/
example : ∃ w', deserialize sampleEnv sampleCodec 3 (.obj [(nodeKey, .obj [(classKey,
      .str "node.base.OrderedNode".toList), (nameKey, .str ['a']), (kwKey, .obj [(nameKey, .str ['b'])])])]) none {} =
    (.ok (.node 0), w') ∧ w'.loc 0 = (ka, none) := ⟨_, by rfl, by rfl⟩

example : NoNodes (.list [.obj [(obKey, .str ['x'])], .obj [(['q'], .null)], .int 3]) := by
  simp only [NoNodes, NoNodesList]
  exact ⟨.inl (by decide), .inr (by decide), trivial, trivial⟩

example : Od.get? [(nodeKey, J.obj [])] obKey = none ∧ Od.get? [(nodeKey, J.obj [])] nodeKey = some (.obj []) ∧
    Od.get? ([] : List (Str × J)) classKey = none := ⟨rfl, rfl, rfl⟩

end Verif.Ser
