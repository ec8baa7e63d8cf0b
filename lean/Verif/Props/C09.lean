import Verif.Lemmas.Chain
import Verif.Lemmas.Lookup
import Verif.Props.C08

/-!
# C09 Path lookup inverts `path`, C10 Paths identify nodes

For every node reached from a parentless root in the heap of a tree history (see
C08): its `path` is the root's name followed by the keys that lead to it, its `root`
is that root, and `node_by_path` with that path without its first name returns the
node, for the list as well as for the string joined by slashes.
-/

namespace Verif

/-- `p[k]` reads the child stored under `k`: `p` has a storage, does not translate
keys, `k` is no nodespace, and `p` has no cache or one that agrees with the storage. -/
structure Opens (E : Env) (w : World) (p : Oid) (k : Key) : Prop where
  stores : Stores (clsOf E w p)
  noAlias : Bhv.alias ∉ (clsOf E w p).bhvs
  key : KeyFor (clsOf E w p) k
  cache : Bhv.cache ∈ (clsOf E w p).bhvs →
    ∀ j v, (w.cached p).get? j = some v → (w.omap p).val j = some v

/-- All nodes passed on the way along `ks` can be read with the next key. -/
def OpenPath (E : Env) (w : World) (root : Oid) (ks : List Key) : Prop :=
  ∀ js p k, Below w root js p → js ++ [k] <+: ks → Opens E w p k

/-- What `path` and `root` see of a node below `root`. -/
theorem Below.chain {w : World} (ht : Tidy w) {root : Oid} (hr : (w.loc root).2 = none)
    (hn : root < w.nobj) {ks : List Key} {o : Oid} (h : Below w root ks o) :
    ∃ l, Chain w o l ∧ (∀ p ∈ o :: l, p < w.nobj) ∧
      (o :: l).reverse.map (fun p => (w.loc p).1) = (w.loc root).1 :: ks ∧
      (o :: l).getLast (List.cons_ne_nil _ _) = root := by
  induction h with
  | root => exact ⟨[], .root hr, by simpa using hn, rfl, rfl⟩
  | @child ks p c k hb hc ih =>
    obtain ⟨l, h1, h2, h3, h4⟩ := ih
    obtain ⟨e, hl⟩ := ht p k c hc
    refine ⟨p :: l, .up (by rw [e]) h1, fun q hq => ?_, ?_, ?_⟩
    · rcases List.mem_cons.mp hq with rfl | hq
      · exact hl
      · exact h2 q hq
    · rw [List.reverse_cons, List.map_append, h3, List.map_singleton, e]
      rfl
    · rw [List.getLast_cons (List.cons_ne_nil _ _)]
      exact h4

theorem walk_append (E : Env) (a b : List Key) (v : Val) (w : World) :
    walk E v (a ++ b) w =
      (match walk E v a w with | (.ok x, w') => walk E x b w' | (.error e, w') => (.error e, w')) := by
  induction a generalizing v w with
  | nil => rfl
  | cons k r ih =>
    cases v with
    | data d => rfl
    | node o =>
      simp only [List.cons_append, walk, M.bind_apply]
      generalize getitem E o k w = x
      rcases x with ⟨_ | _, _⟩
      · rfl
      · exact ih _ _

/-- Walking along the keys. -/
theorem Below.walk {E : Env} {w : World} (hw : WF w) {root : Oid} {ks : List Key} {o : Oid}
    (h : Below w root ks o) (ho : OpenPath E w root ks) :
    ∃ w', walk E (.node root) ks w = (.ok (.node o), w') ∧ Same w w' := by
  have hcoh : Coh E (fun p => ∃ js k, Below w root js p ∧ js ++ [k] <+: ks) w :=
    fun p ⟨js, k, hb, hp⟩ hc j v hv => (ho js p k hb hp).cache hc j v hv
  suffices ∀ ms q, Below w root ms q → ms <+: ks →
      ∃ w', Verif.walk E (.node root) ms w = (.ok (.node q), w') ∧
        ReadOut E (fun p => ∃ js k, Below w root js p ∧ js ++ [k] <+: ks) w w' by
    obtain ⟨w', h1, h2⟩ := this ks o h (List.prefix_refl _)
    exact ⟨w', h1, h2.same⟩
  intro ms q hb hp
  induction hb with
  | root => exact ⟨w, rfl, .refl hw hcoh⟩
  | @child ms p c k hb hc ih =>
    obtain ⟨w1, h1, h2⟩ := ih ((List.prefix_append _ _).trans hp)
    have hx := ho ms p k hb hp
    have hl : Looks (clsOf E w1 p) k := by
      rw [h2.clsOf]; exact ⟨hx.stores, hx.noAlias, hx.key⟩
    obtain ⟨w2, h3, h4⟩ := getitem_hit hl h2.wf h2.coh ⟨ms, k, hb, hp⟩ (v := .node c)
      (by rw [h2.same.children]; exact hc)
    refine ⟨w2, ?_, h2.trans h4⟩
    rw [walk_append, h1]
    show (do let v ← getitem E p k; Verif.walk E v []) w1 = _
    rw [M.bind_apply, h3]
    rfl

section
variable {E : Env} (hE : NoFactory E) {ops : List Op} (hh : TreeHistory E ops {}) {root : Oid}
  (hn : root < (after E ops).nobj) (hr : ((after E ops).loc root).2 = none) {ks : List Key} {o : Oid}
  (hb : Below (after E ops) root ks o)
include hE hh hn hr hb

/-- C09: the path of a node below `root` is the root's name and the keys that lead
there; its root is `root`. -/
theorem c09_path_partial : pathOf (after E ops) o = some (((after E ops).loc root).1 :: ks) ∧
    rootOf (after E ops) o = some root := by
  have ht : Tidy (after E ops) := Tidy.execAll hE ops WF.empty (fun _ _ _ h => nomatch h) hh
  obtain ⟨l, h1, h2, h3, h4⟩ := hb.chain ht hr hn
  have hlen := nodup_length_le h1.nodup h2
  simp only [List.length_cons] at hlen
  constructor
  · unfold pathOf
    rw [h1.namesUp (by omega), Option.map_some, ← List.map_reverse, h3]
  · unfold rootOf
    rw [h1.rootN (by omega), h4]

/-- C09: looking up `node.path[1:]` from the root finds the node, and changes nothing
but caches. -/
theorem c09_lookup_partial (ho : OpenPath E (after E ops) root ks) :
    ∃ p w', pathOf (after E ops) o = some p ∧
      nodeByPath E root p.tail (after E ops) = (.ok (.node o), w') ∧ Same (after E ops) w' := by
  obtain ⟨w', h1, h2⟩ := hb.walk (reachable_after E ops).wf ho
  exact ⟨_, w', (c09_path_partial hE hh hn hr hb).1, h1, h2⟩

end

/-! ### Strings -/

/-- The strings joined by slashes. -/
def joinSlash : List Str → Str
  | [] => []
  | [s] => s
  | s :: r => s ++ '/' :: joinSlash r

theorem splitSlash_ne_nil (s : Str) : splitSlash s ≠ [] := by
  cases s with
  | nil => simp [splitSlash]
  | cons c r =>
    unfold splitSlash
    split
    · simp
    · split <;> simp

theorem splitSlash_plain {s : Str} (h : '/' ∉ s) : splitSlash s = [s] := by
  induction s with
  | nil => rfl
  | cons c r ih =>
    have hc : ¬ c = '/' := fun e => h (e ▸ List.mem_cons_self)
    unfold splitSlash
    rw [if_neg hc, ih fun x => h (List.mem_cons_of_mem _ x)]

theorem splitSlash_append {s : Str} (h : '/' ∉ s) (t : Str) :
    splitSlash (s ++ '/' :: t) = s :: splitSlash t := by
  induction s with
  | nil => simp [splitSlash]
  | cons c r ih =>
    have hc : ¬ c = '/' := fun e => h (e ▸ List.mem_cons_self)
    simp only [List.cons_append]
    conv => lhs; unfold splitSlash
    rw [if_neg hc, ih fun x => h (List.mem_cons_of_mem _ x)]

theorem splitSlash_join {l : List Str} (hl : l ≠ []) (h : ∀ s ∈ l, '/' ∉ s) :
    splitSlash (joinSlash l) = l := by
  induction l with
  | nil => exact absurd rfl hl
  | cons s r ih =>
    cases r with
    | nil => exact splitSlash_plain (h s List.mem_cons_self)
    | cons t r =>
      show splitSlash (s ++ '/' :: joinSlash (t :: r)) = _
      rw [splitSlash_append (h s List.mem_cons_self), ih (List.cons_ne_nil _ _)
        fun x hx => h x (List.mem_cons_of_mem _ hx)]

theorem dropWhile_slashes (m : Nat) (s : Str) :
    (List.replicate m '/' ++ s).dropWhile (· = '/') = s.dropWhile (· = '/') := by
  induction m with
  | zero => rfl
  | succ m ih => rw [List.replicate_succ, List.cons_append]; simpa using ih

/-- A string that neither begins nor ends with a slash. -/
def Trim (s : Str) : Prop := (∀ c, s.head? = some c → c ≠ '/') ∧ ∀ c, s.getLast? = some c → c ≠ '/'

theorem dropWhile_head {s : Str} (h : ∀ c, s.head? = some c → c ≠ '/') :
    s.dropWhile (· = '/') = s := by
  cases s with
  | nil => rfl
  | cons c r => simp [h c rfl]

theorem stripSlash_slashes {s : Str} (h : Trim s) (m n : Nat) :
    stripSlash (List.replicate m '/' ++ s ++ List.replicate n '/') = s := by
  have h2 : (List.replicate n '/' ++ s.reverse).dropWhile (· = '/') = s.reverse := by
    rw [dropWhile_slashes, dropWhile_head]
    intro c hc
    rw [List.head?_reverse] at hc
    exact h.2 c hc
  unfold stripSlash
  rw [List.append_assoc, dropWhile_slashes]
  cases s with
  | nil =>
    have : ((List.replicate n '/') : Str).dropWhile (· = '/') = [] := by
      have := dropWhile_slashes n []
      simpa using this
    rw [List.nil_append, this]; rfl
  | cons c r =>
    rw [dropWhile_head (s := c :: r ++ List.replicate n '/') fun x hx => h.1 x (by simpa using hx),
      List.reverse_append, List.reverse_replicate, h2, List.reverse_reverse]

theorem joinSlash_trim {l : List Str} (h : ∀ s ∈ l, s ≠ [] ∧ '/' ∉ s) : Trim (joinSlash l) ∧
    (l ≠ [] → joinSlash l ≠ []) := by
  have first : ∀ {s : Str}, '/' ∉ s → ∀ c, s.head? = some c → c ≠ '/' := fun {s} hs c hc e => by
    subst e; exact hs (List.mem_of_mem_head? hc)
  induction l with
  | nil => exact ⟨⟨fun c hc => (nomatch hc), fun c hc => (nomatch hc)⟩, fun h => absurd rfl h⟩
  | cons s r ih =>
    have hs := h s List.mem_cons_self
    cases r with
    | nil =>
      refine ⟨⟨first hs.2, fun c hc e => ?_⟩, fun _ => hs.1⟩
      subst e; exact hs.2 (List.mem_of_getLast? hc)
    | cons t r =>
      have ih := ih fun x hx => h x (List.mem_cons_of_mem _ hx)
      show Trim (s ++ '/' :: joinSlash (t :: r)) ∧ (_ → s ++ '/' :: joinSlash (t :: r) ≠ [])
      refine ⟨⟨fun c hc => ?_, fun c hc => ?_⟩, fun _ => by simp⟩
      · rcases s with _ | ⟨x, s⟩
        · exact absurd rfl hs.1
        · exact first hs.2 c (by simpa using hc)
      · refine ih.1.2 c ?_
        have hne := ih.2 (List.cons_ne_nil _ _)
        rcases hj : joinSlash (t :: r) with _ | ⟨x, y⟩
        · exact absurd hj hne
        · rw [hj, List.getLast?_append, List.getLast?_cons_cons, List.getLast?_cons] at hc
          rw [List.getLast?_cons]; exact hc

/-- A string path with any number of slashes around it is the list of its names. -/
theorem nodeByStrPath_join (E : Env) (root : Oid) {names : List Str}
    (h : ∀ s ∈ names, s ≠ [] ∧ '/' ∉ s) (m n : Nat) :
    nodeByStrPath E root (List.replicate m '/' ++ joinSlash names ++ List.replicate n '/') =
      nodeByPath E root (names.map Key.str) := by
  obtain ⟨ht, hne⟩ := joinSlash_trim h
  unfold nodeByStrPath nodeByPath
  rw [stripSlash_slashes ht]
  simp only
  cases names with
  | nil => rfl
  | cons s r =>
    rw [if_neg (hne (List.cons_ne_nil _ _)), splitSlash_join (List.cons_ne_nil _ _) fun s hs => (h s hs).2]

/-- C09 for string paths: names that are non-empty strings without slash. -/
theorem c09_string_partial {E : Env} (hE : NoFactory E) {ops : List Op} (hh : TreeHistory E ops {})
    {root : Oid} (hn : root < (after E ops).nobj) (hr : ((after E ops).loc root).2 = none)
    {names : List Str} {o : Oid} (hb : Below (after E ops) root (names.map Key.str) o)
    (ho : OpenPath E (after E ops) root (names.map Key.str))
    (hs : ∀ s ∈ names, s ≠ [] ∧ '/' ∉ s) (m n : Nat) :
    (∃ r, pathOf (after E ops) o = some (r :: names.map Key.str)) ∧
    ∃ w', nodeByStrPath E root (List.replicate m '/' ++ joinSlash names ++ List.replicate n '/')
      (after E ops) = (.ok (.node o), w') ∧ Same (after E ops) w' := by
  refine ⟨⟨_, (c09_path_partial hE hh hn hr hb).1⟩, ?_⟩
  obtain ⟨w', h1, h2⟩ := hb.walk (reachable_after E ops).wf ho
  refine ⟨w', ?_, h2⟩
  rw [nodeByStrPath_join E root hs]
  exact h1

/-! ### C10 -/

/-- Keys lead to one node. -/
theorem Below.functional {w : World} {root : Oid} {ks : List Key} {a b : Oid} (ha : Below w root ks a)
    (hb : Below w root ks b) : a = b := by
  induction ha generalizing b with
  | root =>
    generalize hk : ([] : List Key) = ks at hb
    cases hb with
    | root => rfl
    | child _ _ => simp at hk
  | @child ks p c k _ hc ih =>
    generalize hk : ks ++ [k] = ms at hb
    cases hb with
    | root => simp at hk
    | @child ms q d j hb hd =>
      obtain ⟨rfl, e⟩ := List.append_inj' hk rfl
      injection e with e
      subst e
      rw [← ih hb] at hd
      unfold Contains at hc hd
      rw [hc] at hd
      injection hd with hd
      injection hd

/-- C10: two nodes below the same root with the same path are the same node. -/
theorem c10_identify_partial {E : Env} (hE : NoFactory E) {ops : List Op} (hh : TreeHistory E ops {})
    {root : Oid} (hn : root < (after E ops).nobj) (hr : ((after E ops).loc root).2 = none)
    {ks js : List Key} {a b : Oid} (ha : Below (after E ops) root ks a)
    (hb : Below (after E ops) root js b) (he : pathOf (after E ops) a = pathOf (after E ops) b) :
    a = b := by
  rw [(c09_path_partial hE hh hn hr ha).1, (c09_path_partial hE hh hn hr hb).1] at he
  injection he with he
  injection he with _ he
  subst he
  exact ha.functional hb

/-! ### Instances -/

/-- Three full nodes below each other and a sibling. -/
def c09Ops : List Op := c08Ops.take 6

theorem c09Ops_history : TreeHistory sampleEnv c09Ops {} := by
  have := c08Ops_history
  rw [show c08Ops = c09Ops ++ [.del 1 kb] ++ [.insertBefore 0 3 1] ++ [.attrs 3] from rfl,
    treeHistory_append, treeHistory_append, treeHistory_append] at this
  exact this.1.1.1

theorem c09_below : Below (after sampleEnv c09Ops) 0 ([] ++ [ka] ++ [kb]) 2 :=
  .child (.child .root (p := 0) (k := ka) (c := 1) rfl) (p := 1) (k := kb) rfl

theorem c09_open : OpenPath sampleEnv (after sampleEnv c09Ops) 0 ([] ++ [ka] ++ [kb]) := by
  intro js p k hb hp
  have hcls : clsOf sampleEnv (after sampleEnv c09Ops) p = fullNode := by
    obtain ⟨t, ht⟩ := hp
    rcases js with _ | ⟨j, _ | ⟨j', r⟩⟩
    · rw [hb.functional .root]; rfl
    · simp only [List.nil_append, List.cons_append, List.cons.injEq] at ht
      rw [ht.1] at hb
      have h1 : Below (after sampleEnv c09Ops) 0 ([] ++ [ka]) 1 :=
        .child .root (p := 0) (k := ka) (c := 1) rfl
      rw [hb.functional h1]; rfl
    · simp at ht
  have hk : k = ka ∨ k = kb := by
    obtain ⟨t, ht⟩ := hp
    have : k ∈ [] ++ [ka] ++ [kb] := by rw [← ht]; simp
    simpa using this
  refine ⟨?_, ?_, fun _ => ?_, fun hc => ?_⟩
  · rw [hcls]; exact ⟨by decide, by decide⟩
  · rw [hcls]; decide
  · rcases hk with rfl | rfl
    · exact ⟨_, rfl, by decide⟩
    · exact ⟨_, rfl, by decide⟩
  · rw [hcls] at hc; exact absurd hc (by decide)

example : pathOf (after sampleEnv c09Ops) 2 = some [.str ['r'], ka, kb] ∧
    (nodeByStrPath sampleEnv 0 ['/', 'a', '/', 'b'] (after sampleEnv c09Ops)).1 = .ok (.node 2) := by
  refine ⟨(c09_path_partial sample_noFactory c09Ops_history (by decide +kernel) (by decide +kernel)
    c09_below).1, ?_⟩
  obtain ⟨-, w', h, -⟩ := c09_string_partial sample_noFactory c09Ops_history (by decide +kernel)
    (by decide +kernel) (names := [['a'], ['b']]) c09_below c09_open (by decide) 1 0
  exact congrArg Prod.fst h

/-- Both conditions matter.  A node taken out by `del` keeps its name and parent, so
it has the path of the node that takes its place. -/
theorem c10_stale : ∃ ops, TreeHistory sampleEnv ops {} ∧
    rootOf (after sampleEnv ops) 1 = some 0 ∧ rootOf (after sampleEnv ops) 2 = some 0 ∧
    pathOf (after sampleEnv ops) 1 = pathOf (after sampleEnv ops) 2 := by
  refine ⟨[.new 0 .none none, .new 0 .none none, .new 0 .none none, .set 0 ka (.node 1), .del 0 ka,
    .set 0 ka (.node 2)], ?_, by decide +kernel, by decide +kernel, by decide +kernel⟩
  have h3 : TreeHistory sampleEnv [.new 0 .none none, .new 0 .none none, .new 0 .none none] {} :=
    ⟨trivial, trivial, trivial, trivial⟩
  have h4 : TreeHistory sampleEnv [.new 0 .none none, .new 0 .none none, .new 0 .none none,
      .set 0 ka (.node 1)] {} :=
    (treeHistory_append [_, _, _] _).mpr ⟨h3, admissible_parentless sample_noFactory h3 (by decide)
      (by decide) (by decide) (by decide) (by decide)⟩
  have h5 : TreeHistory sampleEnv [.new 0 .none none, .new 0 .none none, .new 0 .none none,
      .set 0 ka (.node 1), .del 0 ka] {} := (treeHistory_append [_, _, _, _] _).mpr ⟨h4, trivial⟩
  exact (treeHistory_append [_, _, _, _, _] _).mpr ⟨h5, admissible_parentless sample_noFactory h5
    (by decide) (by decide) (by decide) (by decide +kernel) (by decide +kernel)⟩

end Verif
