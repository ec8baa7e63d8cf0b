import Verif.Lemmas.Tree
import Verif.Props.C09

/-!
# C97 Paths are relative

The path of a node begins with the path of each of its ancestors, and with no other paths; what is left of
it leads from the ancestor to the node.  Looking up a path is looking up its first part, and the rest from
there, for lists of names as well as for strings.
-/

namespace Verif

/-- Keys that lead on from the node where the first of them lead. -/
theorem Below.rest {w : World} {r p : Oid} {js : List Key} (hp : Below w r js p) : ∀ {ks : List Key} {o : Oid},
    Below w r (js ++ ks) o → Below w p ks o := by
  intro ks o h
  generalize hl : js ++ ks = l at h
  induction h generalizing ks with
  | root =>
    obtain ⟨rfl, rfl⟩ := List.append_eq_nil_iff.mp hl
    rw [hp.functional .root]
    exact .root
  | @child ms q c k hb hc ih =>
    rcases List.eq_nil_or_concat ks with rfl | ⟨ks, j, rfl⟩
    · rw [List.append_nil] at hl
      subst hl
      rw [hp.functional (.child hb hc)]
      exact .root
    · rw [List.concat_eq_append, ← List.append_assoc] at hl
      obtain ⟨e, e'⟩ := List.append_inj' hl rfl
      injection e' with e'
      subst e'
      rw [List.concat_eq_append]
      exact .child (ih e) hc

section
variable {E : Env} (hE : NoFactory E) {ops : List Op} (hh : TreeHistory E ops {}) {r : Oid}
  (hn : r < (after E ops).nobj) (hr : ((after E ops).loc r).2 = none)
include hE hh hn hr

/-- C97: the path of a node is the path of its ancestor followed by the keys that lead from there to the
node; looked up from the ancestor, the rest of the path finds the node. -/
theorem c97_relative {p o : Oid} {ks : List Key} (hp : InTree (after E ops) r p)
    (ho : Below (after E ops) p ks o) (hx : OpenPath E (after E ops) p ks) :
    ∃ a b w', pathOf (after E ops) p = some a ∧ pathOf (after E ops) o = some b ∧ b = a ++ ks ∧
      nodeByPath E p (b.drop a.length) (after E ops) = (.ok (.node o), w') ∧ Same (after E ops) w' := by
  obtain ⟨js, hp⟩ := hp
  obtain ⟨w', h1, h2⟩ := ho.walk (reachable_after E ops).wf hx
  refine ⟨_, _, w', (c09_path_partial hE hh hn hr hp).1, (c09_path_partial hE hh hn hr (hp.append ho)).1,
    rfl, ?_, h2⟩
  show nodeByPath E p ((((after E ops).loc r).1 :: js ++ ks).drop _) _ = _
  rw [List.drop_left]
  exact h1

/-- C97: a node of a tree is another one or somewhere below it if and only if its path begins with the
path of the other one. -/
theorem c97_ancestor {p o : Oid} (hp : InTree (after E ops) r p) (ho : InTree (after E ops) r o)
    {a b : List Key} (ha : pathOf (after E ops) p = some a) (hb : pathOf (after E ops) o = some b) :
    a <+: b ↔ InTree (after E ops) p o := by
  obtain ⟨js, hp⟩ := hp
  obtain ⟨ms, ho⟩ := ho
  rw [(c09_path_partial hE hh hn hr hp).1] at ha
  rw [(c09_path_partial hE hh hn hr ho).1] at hb
  injection ha with ha
  injection hb with hb
  subst ha hb
  constructor
  · rintro ⟨t, ht⟩
    rw [List.cons_append] at ht
    injection ht with _ ht
    subst ht
    exact ⟨t, hp.rest ho⟩
  · rintro ⟨ks, hk⟩
    have h1 := (c09_path_partial hE hh hn hr (hp.append hk)).1
    rw [(c09_path_partial hE hh hn hr ho).1] at h1
    injection h1 with h1
    rw [h1]
    exact ⟨ks, rfl⟩

end

/-! ### Looking up in two steps -/

/-- C97: a list of names is looked up by looking up the first names, and the others from the node found;
an exception for the first names is the exception for all. -/
theorem c97_compose (E : Env) (r : Oid) (p q : List Key) {w w' : World} :
    (∀ x, nodeByPath E r p w = (.ok (.node x), w') → nodeByPath E r (p ++ q) w = nodeByPath E x q w') ∧
    ∀ e, nodeByPath E r p w = (.error e, w') → nodeByPath E r (p ++ q) w = (.error e, w') := by
  unfold nodeByPath
  exact ⟨fun x h => by rw [walk_append, h], fun e h => by rw [walk_append, h]⟩

theorem splitSlash_both (s t : Str) : splitSlash (s ++ '/' :: t) = splitSlash s ++ splitSlash t := by
  induction s with
  | nil => simp [splitSlash]
  | cons c s ih =>
    rw [List.cons_append]
    conv => lhs; unfold splitSlash
    conv => rhs; lhs; unfold splitSlash
    rw [ih]
    by_cases hc : c = '/'
    · rw [if_pos hc, if_pos hc]; rfl
    · rw [if_neg hc, if_neg hc]
      rcases hs : splitSlash s with _ | ⟨x, xs⟩
      · exact absurd hs (splitSlash_ne_nil s)
      · rfl

/-- The names of a string path. -/
def namesIn (s : Str) : List Key := if stripSlash s = [] then [] else (splitSlash (stripSlash s)).map Key.str

theorem nodeByStrPath_names (E : Env) (r : Oid) (s : Str) :
    nodeByStrPath E r s = nodeByPath E r (namesIn s) := rfl

theorem stripSlash_first (t : Str) : stripSlash ('/' :: t) = stripSlash t := by
  unfold stripSlash
  rw [List.dropWhile_cons_of_pos (by simp)]

theorem stripSlash_last (s : Str) : stripSlash (s ++ ['/']) = stripSlash s := by
  unfold stripSlash
  by_cases h : s.dropWhile (· = '/') = []
  · have : (s ++ ['/']).dropWhile (· = '/') = [] := by
      rw [List.dropWhile_append, h]; rfl
    rw [this, h]
  · have : (s ++ ['/']).dropWhile (· = '/') = s.dropWhile (· = '/') ++ ['/'] := by
      rw [List.dropWhile_append]
      simp only [List.isEmpty_iff, h, if_false]
    rw [this, List.reverse_append]
    rfl

/-- The names of two string paths joined by a slash. -/
theorem namesIn_both {s t : Str} (hs : s.getLast? ≠ some '/') (ht : t.head? ≠ some '/') :
    namesIn (s ++ '/' :: t) = namesIn s ++ namesIn t := by
  by_cases h1 : s = []
  · subst h1
    have : namesIn [] = [] := rfl
    rw [this, List.nil_append, List.nil_append]
    unfold namesIn
    rw [stripSlash_first]
  by_cases h2 : t = []
  · subst h2
    have : namesIn [] = [] := rfl
    rw [this, List.append_nil]
    unfold namesIn
    rw [stripSlash_last]
  have hl : ∀ x : Str, x ≠ [] → x.getLast? ≠ some '/' → x.dropWhile (· = '/') ≠ [] ∧
      (x.dropWhile (· = '/')).getLast? ≠ some '/' := by
    intro x
    induction x with
    | nil => exact fun h => absurd rfl h
    | cons c r ih =>
      intro _ h
      by_cases hc : c = '/'
      · rw [List.dropWhile_cons_of_pos (by simpa using hc)]
        rcases r with _ | ⟨d, r⟩
        · exact absurd (by simp [hc]) h
        · exact ih (List.cons_ne_nil _ _) (by rw [List.getLast?_cons_cons] at h; exact h)
      · rw [List.dropWhile_cons_of_neg (by simpa using hc)]
        exact ⟨List.cons_ne_nil _ _, h⟩
  have hd : ∀ x : Str, x.head? ≠ some '/' → x.dropWhile (· = '/') = x := fun x h =>
    dropWhile_head fun c hc e => h (e ▸ hc)
  have hr : ∀ x : Str, x.getLast? ≠ some '/' → (x.reverse.dropWhile (· = '/')).reverse = x := fun x h => by
    rw [hd _ (by rw [List.head?_reverse]; exact h), List.reverse_reverse]
  obtain ⟨n1, l1⟩ := hl s h1 hs
  have es : stripSlash s = s.dropWhile (· = '/') := hr _ l1
  have et : stripSlash t = (t.reverse.dropWhile (· = '/')).reverse := by
    unfold stripSlash; rw [hd t ht]
  have nt : t.reverse.dropWhile (· = '/') ≠ [] := (hl t.reverse (by simpa using h2) (by
    rw [List.getLast?_reverse]; exact ht)).1
  have est : stripSlash (s ++ '/' :: t) = stripSlash s ++ '/' :: stripSlash t := by
    rw [es, et]
    unfold stripSlash
    rw [List.dropWhile_append, if_neg (by simpa only [List.isEmpty_iff] using n1), List.reverse_append,
      List.reverse_cons, List.append_assoc, List.dropWhile_append, if_neg (by simpa only [List.isEmpty_iff] using nt),
      List.reverse_append, List.reverse_append, List.reverse_reverse]
    rw [List.reverse_singleton, List.append_assoc]
    rfl
  have ns : stripSlash s ≠ [] := by rw [es]; exact n1
  have nt' : stripSlash t ≠ [] := by rw [et]; simpa using nt
  unfold namesIn
  rw [est, if_neg (by simp), if_neg ns, if_neg nt', splitSlash_both, List.map_append]

/-- C97: so is a string path, a part without slash at its end and a part without slash at its beginning
joined by a slash. -/
theorem c97_compose_string (E : Env) (r : Oid) {s t : Str} (hs : s.getLast? ≠ some '/')
    (ht : t.head? ≠ some '/') {w w' : World} :
    (∀ x, nodeByStrPath E r s w = (.ok (.node x), w') →
      nodeByStrPath E r (s ++ '/' :: t) w = nodeByStrPath E x t w') ∧
    ∀ e, nodeByStrPath E r s w = (.error e, w') → nodeByStrPath E r (s ++ '/' :: t) w = (.error e, w') := by
  simp only [nodeByStrPath_names, namesIn_both hs ht]
  exact c97_compose E r _ _

/-! ### Instances -/

theorem c97_open : OpenPath sampleEnv (after sampleEnv c09Ops) 1 ([] ++ [kb]) := by
  have h1 : Below (after sampleEnv c09Ops) 0 ([] ++ [ka]) 1 := .child .root (p := 0) (k := ka) (c := 1) rfl
  intro js p k hb hp
  refine c09_open ([] ++ [ka] ++ js) p k (h1.append hb) ?_
  obtain ⟨t, ht⟩ := hp
  exact ⟨t, by simpa using ht⟩

example : ∃ a b w', pathOf (after sampleEnv c09Ops) 1 = some a ∧ pathOf (after sampleEnv c09Ops) 2 = some b ∧
    b = a ++ [kb] ∧ nodeByPath sampleEnv 1 (b.drop a.length) (after sampleEnv c09Ops) = (.ok (.node 2), w') ∧
    Same (after sampleEnv c09Ops) w' :=
  c97_relative sample_noFactory c09Ops_history (r := 0) (by decide +kernel) (by decide +kernel)
    ⟨_, .child .root (p := 0) (k := ka) (c := 1) rfl⟩ (.child .root (p := 1) (k := kb) (c := 2) rfl) c97_open

example : nodeByStrPath sampleEnv 0 "/a/b".toList (after sampleEnv c09Ops) =
    nodeByStrPath sampleEnv 1 "b".toList (nodeByStrPath sampleEnv 0 "/a".toList (after sampleEnv c09Ops)).2 :=
  (c97_compose_string sampleEnv 0 (s := "/a".toList) (t := "b".toList) (by decide) (by decide)).1 1
    (Prod.ext (by decide +kernel) rfl)

end Verif
