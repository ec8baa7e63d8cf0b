import Verif.Props.C01

/-!
# C106: keys are opaque

Nodes do nothing with keys but tell them apart: if all keys are renamed consistently, the results and the children
are those of the original program, renamed.
-/

namespace Verif

/-- The operation with its keys renamed. -/
def Op.rename (f : Key → Key) : Op → Op
  | .get o k => .get o (f k)
  | .set o k v => .set o (f k) v
  | .del o k => .del o (f k)
  | .getD o k d => .getD o (f k) d
  | .contains o k => .contains o (f k)
  | .setdefault o k v => .setdefault o (f k) v
  | .pop o k d => .pop o (f k) d
  | .update o kvs => .update o (kvs.map fun x => (f x.1, x.2))
  | op => op

/-- The result with its keys renamed. -/
def renameRes (f : Key → Key) : Except Exc Res → Except Exc Res
  | .ok (.keys ks) => .ok (.keys (ks.map f))
  | .ok (.items kvs) => .ok (.items (kvs.map fun x => (f x.1, x.2)))
  | .ok (.item k v) => .ok (.item (f k) v)
  | .error (.key (.key k)) => .error (.key (.key (f k)))
  | r => r

/-- An ordered map with its keys renamed. -/
structure Renamed (f : Key → Key) (m m' : OMap Key Val) : Prop where
  keys : m'.keys = m.keys.map f
  val : ∀ k, m'.val (f k) = m.val k

section spec
variable {f : Key → Key}

theorem Renamed.mem (hf : ∀ a b, f a = f b → a = b) {m m' : OMap Key Val} (h : Renamed f m m') (k : Key) :
    f k ∈ m'.keys ↔ k ∈ m.keys := by
  rw [h.keys]
  refine ⟨fun hk => ?_, List.mem_map_of_mem⟩
  obtain ⟨j, hj, e⟩ := List.mem_map.mp hk
  exact hf _ _ e ▸ hj

theorem Renamed.set (hf : ∀ a b, f a = f b → a = b) {m m' : OMap Key Val} (h : Renamed f m m') (k : Key) (v : Val) :
    Renamed f (m.set k v) (m'.set (f k) v) := by
  refine ⟨?_, fun j => ?_⟩
  · simp only [OMap.set, h.mem hf]
    split
    · exact h.keys
    · rw [h.keys, List.map_append]; rfl
  · simp only [OMap.set]
    by_cases hj : j = k
    · simp [hj]
    · have hj' : f j ≠ f k := fun e => hj (hf _ _ e)
      simp [hj, hj', h.val]

theorem Renamed.del (hf : ∀ a b, f a = f b → a = b) {m m' : OMap Key Val} (h : Renamed f m m') (k : Key) :
    Renamed f (m.del k) (m'.del (f k)) := by
  refine ⟨?_, fun j => ?_⟩
  · simp only [OMap.del, h.keys, List.filter_map]
    congr 1
    refine List.filter_congr fun j _ => ?_
    simp only [Function.comp_apply, decide_eq_decide]
    exact ⟨fun a b => a (b ▸ rfl), fun a b => a (hf _ _ b)⟩
  · simp only [OMap.del]
    by_cases hj : j = k
    · simp [hj]
    · have hj' : f j ≠ f k := fun e => hj (hf _ _ e)
      simp [hj, hj', h.val]

theorem Renamed.values {m m' : OMap Key Val} (h : Renamed f m m') : m'.values = m.values := by
  simp only [OMap.values, h.keys, List.filterMap_map]
  exact congrArg (fun g => m.keys.filterMap g) (funext h.val)

theorem Renamed.items {m m' : OMap Key Val} (h : Renamed f m m') :
    m'.items = m.items.map fun x => (f x.1, x.2) := by
  simp only [OMap.items, h.keys, List.filterMap_map, List.map_filterMap]
  refine congrArg (fun g => m.keys.filterMap g) (funext fun k => ?_)
  simp only [Function.comp_apply, h.val]
  cases m.val k <;> rfl

/-- The same nodes with the keys renamed. -/
structure RenamedAll (f : Key → Key) (s t : MapSpec) : Prop where
  n : t.n = s.n
  cls : t.cls = s.cls
  map : ∀ p, Renamed f (s.map p) (t.map p)

theorem RenamedAll.put {s t : MapSpec} (h : RenamedAll f s t) (o : Oid) {m m' : OMap Key Val} (hm : Renamed f m m') :
    RenamedAll f (s.put o m) (t.put o m') :=
  ⟨h.n, h.cls, fun p => by
    simp only [MapSpec.put]
    split
    · exact hm
    · exact h.map p⟩

variable {ref : ClassId → Val → Option String}

theorem assignAll_renamed (hf : ∀ a b, f a = f b → a = b) (o : Oid) : ∀ (kvs : List (Key × Val)) {s t : MapSpec},
    RenamedAll f s t →
    (MapSpec.assignAll ref o (kvs.map fun x => (f x.1, x.2)) t).1 = (MapSpec.assignAll ref o kvs s).1 ∧
    RenamedAll f (MapSpec.assignAll ref o kvs s).2 (MapSpec.assignAll ref o (kvs.map fun x => (f x.1, x.2)) t).2 ∧
    ∀ e, (MapSpec.assignAll ref o kvs s).1 = .error e → ∃ m, e = .value m
  | [], _, _, h => ⟨rfl, h, fun _ e => nomatch e⟩
  | (k, v) :: r, s, t, h => by
    simp only [List.map_cons, MapSpec.assignAll, MapSpec.assign, h.cls]
    cases ref (s.cls o) v with
    | some m => exact ⟨rfl, h, fun e he => ⟨m, by cases he; rfl⟩⟩
    | none => exact assignAll_renamed hf o r (h.put o ((h.map o).set hf k v))

theorem run_renamed (hf : ∀ a b, f a = f b → a = b) {E : Env} {s t : MapSpec} {op : Op} (hop : MapOp E s op)
    (h : RenamedAll f s t) :
    (t.run ref (op.rename f)).1 = renameRes f (s.run ref op).1 ∧
    RenamedAll f (s.run ref op).2 (t.run ref (op.rename f)).2 := by
  rcases hop with ⟨c, nm, p, rfl, -⟩ | ⟨p, ks, e, -, -⟩
  · simp only [Op.rename, MapSpec.run, h.n, h.cls]
    refine ⟨rfl, rfl, rfl, fun q => ?_⟩
    show Renamed f (if q = s.n then _ else _) (if q = s.n then _ else _)
    split
    · exact ⟨rfl, fun _ => rfl⟩
    · exact h.map q
  · cases op <;> simp only [Op.target, reduceCtorEq] at e
    case get o k =>
      simp only [Op.rename, MapSpec.run, (h.map o).val]
      cases (s.map o).val k <;> exact ⟨rfl, h⟩
    case set o k v =>
      simp only [Op.rename, MapSpec.run, MapSpec.assign, h.cls]
      cases ref (s.cls o) v with
      | some m => exact ⟨rfl, h⟩
      | none => exact ⟨rfl, h.put o ((h.map o).set hf k v)⟩
    case del o k =>
      simp only [Op.rename, MapSpec.run, (h.map o).mem hf]
      split
      · exact ⟨rfl, h.put o ((h.map o).del hf k)⟩
      · exact ⟨rfl, h⟩
    case getD o k d =>
      simp only [Op.rename, MapSpec.run, (h.map o).val]
      exact ⟨rfl, h⟩
    case contains o k =>
      simp only [Op.rename, MapSpec.run, (h.map o).mem hf]
      exact ⟨rfl, h⟩
    case keys o =>
      simp only [Op.rename, MapSpec.run, (h.map o).keys]
      exact ⟨rfl, h⟩
    case values o =>
      simp only [Op.rename, MapSpec.run, (h.map o).values]
      exact ⟨rfl, h⟩
    case items o =>
      simp only [Op.rename, MapSpec.run, (h.map o).items]
      exact ⟨rfl, h⟩
    case len o =>
      simp only [Op.rename, MapSpec.run, (h.map o).keys, List.length_map]
      exact ⟨rfl, h⟩
    case setdefault o k v =>
      simp only [Op.rename, MapSpec.run, MapSpec.assign, h.cls, (h.map o).val]
      cases (s.map o).val k with
      | some x => exact ⟨rfl, h⟩
      | none =>
        cases ref (s.cls o) v with
        | some m => exact ⟨rfl, h⟩
        | none => exact ⟨rfl, h.put o ((h.map o).set hf k v)⟩
    case pop o k d =>
      simp only [Op.rename, MapSpec.run, (h.map o).val]
      cases (s.map o).val k with
      | some x => exact ⟨rfl, h.put o ((h.map o).del hf k)⟩
      | none => cases d <;> exact ⟨rfl, h⟩
    case popitem o =>
      simp only [Op.rename, MapSpec.run, (h.map o).items, List.getLast?_map]
      cases (s.map o).items.getLast? with
      | some x => exact ⟨rfl, h.put o ((h.map o).del hf x.1)⟩
      | none => exact ⟨rfl, h⟩
    case update o kvs =>
      obtain ⟨h1, h2, h3⟩ := assignAll_renamed (ref := ref) hf o kvs h
      simp only [Op.rename, MapSpec.run]
      rcases hs : MapSpec.assignAll ref o kvs s with ⟨x, s1⟩
      rcases hu : MapSpec.assignAll ref o (kvs.map fun x => (f x.1, x.2)) t with ⟨y, t1⟩
      rw [hs, hu] at h1 h2
      rw [hs] at h3
      obtain rfl : y = x := h1
      cases y with
      | ok u => rw [hu]; exact ⟨rfl, h2⟩
      | error e =>
        obtain ⟨m, rfl⟩ := h3 e rfl
        rw [hu]
        exact ⟨rfl, h2⟩
    case clear o => exact ⟨rfl, h.put o ⟨rfl, fun _ => rfl⟩⟩

theorem runAll_renamed (hf : ∀ a b, f a = f b → a = b) {E : Env} : ∀ (l : List Op) {s t : MapSpec},
    MapHistory E ref l s → RenamedAll f s t →
    (MapSpec.runAll ref (l.map (Op.rename f)) t).1 = (MapSpec.runAll ref l s).1.map (renameRes f) ∧
    RenamedAll f (MapSpec.runAll ref l s).2 (MapSpec.runAll ref (l.map (Op.rename f)) t).2
  | [], _, _, _, h => ⟨rfl, h⟩
  | op :: r, s, t, ⟨hop, hr⟩, h => by
    obtain ⟨h1, h2⟩ := run_renamed (ref := ref) hf hop h
    obtain ⟨i1, i2⟩ := runAll_renamed hf r hr h2
    exact ⟨by simp only [List.map_cons, MapSpec.runAll, h1, i1], i2⟩

end spec

/-- **C106.** Renaming the keys of a program, different keys differently, renames the keys in its results, the exceptions
included, and the keys of the children of all nodes, and changes nothing else. -/
theorem c106_opaque (E : Env) (hd : 0 < E.depth) (f : Key → Key) (hf : ∀ a b, f a = f b → a = b) (ops : List Op)
    (h : MapHistory E (refOf E) ops {}) (h' : MapHistory E (refOf E) (ops.map (Op.rename f)) {}) {w w' : World}
    (hw : w = (execAll E ops {}).2) (hw' : w' = (execAll E (ops.map (Op.rename f)) {}).2) :
    (execAll E (ops.map (Op.rename f)) {}).1 = (execAll E ops {}).1.map (renameRes f) ∧ w'.nobj = w.nobj ∧
    ∀ o, o < w.nobj → (w'.omap o).keys = (w.omap o).keys.map f ∧ ∀ k, (w'.omap o).val (f k) = (w.omap o).val k := by
  subst hw hw'
  obtain ⟨j1, j2⟩ := execAll_pt hd ops Rel.empty h
  obtain ⟨k1, k2⟩ := execAll_pt hd _ Rel.empty h'
  obtain ⟨i1, i2⟩ := runAll_renamed (ref := refOf E) (f := f) hf ops h ⟨rfl, rfl, fun _ => ⟨rfl, fun _ => rfl⟩⟩
  refine ⟨by rw [k1, j1, i1], by rw [k2.nobj, j2.nobj, i2.n], fun o ho => ?_⟩
  have hs := j2.nobj ▸ ho
  rw [k2.map o (i2.n.symm ▸ hs), j2.map o hs]
  exact ⟨(i2.map o).keys, (i2.map o).val⟩

/-- Every text gets a prefix. -/
def prefixed : Key → Key
  | .str s => .str ('x' :: s)
  | k => k

theorem prefixed_inj : ∀ a b, prefixed a = prefixed b → a = b := by
  intro a b h
  cases a <;> cases b <;> simp_all [prefixed]

theorem c106_history : MapHistory sampleEnv (refOf sampleEnv) (c01Ops.map (Op.rename prefixed)) {} := by
  have hk : ∀ k, KeyFor orderedNode k := fun k h => absurd h (by decide)
  refine ⟨.inl ⟨_, _, _, rfl, mapClass_orderedNode, by decide⟩, .inl ⟨_, _, _, rfl, mapClass_baseNode, by decide⟩,
    .inl ⟨_, _, _, rfl, mapClass_baseNode, by decide⟩, .inr ⟨_, _, rfl, by decide, fun k _ => hk k⟩,
    .inr ⟨_, _, rfl, by decide, fun k _ => hk k⟩, .inr ⟨_, _, rfl, by decide, fun k _ => hk k⟩,
    .inr ⟨_, _, rfl, by decide, fun k _ => hk k⟩, .inr ⟨_, _, rfl, by decide, fun k _ => hk k⟩,
    .inr ⟨_, _, rfl, by decide, fun k _ => hk k⟩, .inr ⟨_, _, rfl, by decide, fun k _ => hk k⟩,
    .inr ⟨_, _, rfl, by decide, fun k _ => hk k⟩, trivial⟩

/-- `c106_opaque` for the history of C01. -/
example := c106_opaque sampleEnv (by decide) prefixed prefixed_inj c01Ops c01Ops_history c106_history rfl rfl

end Verif
