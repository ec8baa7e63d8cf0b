import Verif.Lemmas.Chain
import Verif.Lemmas.Lay
import Verif.Lemmas.Copy
import Verif.Props.C08

/-!
# C12 Locations stay acyclic

Histories that never put a node below itself keep every parent chain finite:
`path` and `root` end for every node.  All classes, all operations.
-/

namespace Verif

/-- `o[..] = v` does not put `o` or a node above `o` below `o`. -/
def NotAbove (w : World) (o : Oid) (v : Val) : Prop :=
  o < w.nobj ∧ ∀ c, v = .node c → c ≠ o ∧ ¬ Ancestor w c o

/-- Operations on existing nodes that put no node below itself. -/
def DownOp (w : World) : Op → Prop
  | .new _ _ parent => ∀ p, parent = some p → p < w.nobj
  | .attrs o => o < w.nobj
  | .set o _ v | .setdefault o _ v => NotAbove w o v
  | .update o kvs => o < w.nobj ∧ ∀ kv ∈ kvs, NotAbove w o kv.2
  | .insertBefore o n _ | .insertAfter o n _ | .insertFirst o n | .insertLast o n =>
    NotAbove w o (.node n)
  | _ => True

/-- Histories of such operations. -/
def DownHistory (E : Env) : List Op → World → Prop
  | [], _ => True
  | op :: rest, w => DownOp w op ∧ DownHistory E rest (exec E op w).2

theorem Sound.loc {w w' : World} (h : Sound w) (hn : w'.nobj = w.nobj) (hl : LocSame w w') :
    Sound w' := fun o ho => by
  rw [hn] at ho
  obtain ⟨a, l, b⟩ := h o ho
  refine ⟨fun p hp => ?_, l, b.congr fun q _ => by rw [hl q]⟩
  rw [hl o] at hp; rw [hn]; exact a p hp

theorem NotAbove.loc {w w' : World} {o : Oid} {v : Val} (hs : Sound w) (h : NotAbove w o v)
    (hn : w'.nobj = w.nobj) (hl : LocSame w w') : NotAbove w' o v := by
  obtain ⟨-, l, b⟩ := hs o h.1
  have b' : Chain w' o l := b.congr fun q _ => by rw [hl q]
  refine ⟨by rw [hn]; exact h.1, fun c hc => ⟨(h.2 c hc).1, ?_⟩⟩
  rw [b'.ancestor_iff, ← b.ancestor_iff]; exact (h.2 c hc).2

theorem Sound.moves {w w' : World} {o : Oid} {v : Val} (h : Sound w) (hv : NotAbove w o v)
    (hm : Moves o v w w') : Sound w' := fun p hp => by
  rw [hm.nobj] at hp
  refine ⟨fun q hq => ?_, ?_⟩
  · rw [hm.nobj]
    rcases hm.par p with e | e
    · rw [e] at hq; exact (h p hp).1 q hq
    · rw [e] at hq; injection hq with hq; subst hq; exact hv.1
  · obtain ⟨-, l, hl⟩ := h p hp
    obtain ⟨-, lo, hlo⟩ := h o hv.1
    cases v with
    | data d => exact ⟨l, hl.congr fun q _ => by rw [hm.loc q (by simp)]⟩
    | node c =>
      have hc := hv.2 c rfl
      refine hlo.move (c := c) (fun hx => ?_) (fun q hq => ?_) (hm.par c) hl
      · rcases List.mem_cons.mp hx with e | e
        · exact hc.1 e
        · exact hc.2 (hlo.ancestor_iff.mpr e)
      · rw [hm.loc q fun e => hq (by injection e with e; exact e.symm)]

/-- The ancestors of the target are not affected by such an assignment. -/
theorem NotAbove.moves {w w' : World} {o : Oid} {v x : Val} (h : Sound w) (hv : NotAbove w o v)
    (hx : NotAbove w o x) (hm : Moves o v w w') : NotAbove w' o x := by
  obtain ⟨-, lo, hlo⟩ := h o hv.1
  have hlo' : Chain w' o lo := hlo.congr fun q hq => by
    rw [hm.loc q fun e => ?_]
    have := hv.2 q e
    rcases List.mem_cons.mp hq with rfl | hq
    · exact this.1 rfl
    · exact this.2 (hlo.ancestor_iff.mpr hq)
  refine ⟨by rw [hm.nobj]; exact hx.1, fun c hc => ⟨(hx.2 c hc).1, ?_⟩⟩
  rw [hlo'.ancestor_iff, ← hlo.ancestor_iff]; exact (hx.2 c hc).2

theorem Sound.setitem {E : Env} {o : Oid} {k : Key} {v : Val} {w : World} (hw : WF w) (h : Sound w)
    (hv : NotAbove w o v) : Sound (setitem E o k v w).2 :=
  h.moves hv (setitem_moves E o k v w hw).2

theorem Sound.update {E : Env} {o : Oid} {kvs : List (Key × Val)} {w : World} (hw : WF w)
    (h : Sound w) (hv : ∀ kv ∈ kvs, NotAbove w o kv.2) : Sound (mupdate E o kvs w).2 := by
  induction kvs generalizing w with
  | nil => exact h
  | cons a r ih =>
    obtain ⟨k, v⟩ := a
    have hva := hv _ List.mem_cons_self
    have h1 := Sound.setitem (E := E) (k := k) hw h hva
    have h2 := setitem_moves E o k v w hw
    show Sound ((do Verif.setitem E o k v; mupdate E o r) w).2
    simp only [M.bind_apply]
    revert h1 h2
    generalize Verif.setitem E o k v w = x
    intro h1 h2
    rcases x with ⟨e | u, w1⟩
    · exact h1
    · exact ih h2.1 h1 fun kv hkv =>
        hva.moves h (hv kv (List.mem_cons_of_mem _ hkv)) h2.2

theorem Sound.insertAt {E : Env} {before : Bool} {o n ref : Oid} {w : World} (hw : WF w) (h : Sound w)
    (hv : NotAbove w o (.node n)) : Sound (insertAt E before o n ref w).2 := by
  have hi := storageInsert_out E before o (w.objs ref).name (w.objs n).name (.node n) hw
  rcases insertAt_cases E before o n ref w with ⟨e, he, -⟩ | ⟨e, w1, -, hs, he⟩ | ⟨w1, -, hs, he⟩
  · rw [he]; exact h
  · rw [hs] at hi; rw [he]
    obtain ⟨hw1, hq⟩ := hi.2 e rfl hw
    exact h.loc hq.nobj hq.loc
  · rw [hs] at hi; rw [he]
    have hi := hi.1 rfl
    exact (h.loc hi.nobj hi.loc).setitem hi.wf (hv.loc h hi.nobj hi.loc)

theorem Sound.grown {w w' : World} (h : Sound w) {pa : Option Oid} (hn : w.nobj ≤ w'.nobj)
    (hN : NewObjs w.nobj pa w') (hl : ∀ p, p < w.nobj → w'.loc p = w.loc p)
    (hpa : ∀ p, pa = some p → p < w.nobj) : Sound w' := by
  have old : ∀ o, o < w.nobj → ∃ l, Chain w' o l := fun o ho => by
    obtain ⟨-, l, hc⟩ := h o ho
    exact ⟨l, hc.congr fun q hq => by rw [hl q (h.lt hc ho q hq)]⟩
  intro o
  induction o using Nat.strongRecOn with
  | _ o ih =>
    intro ho
    by_cases hlt : o < w.nobj
    · exact ⟨fun p hp => by
        rw [hl o hlt] at hp
        have := (h o hlt).1 p hp; omega, old o hlt⟩
    · rcases (hN o (by omega) ho).2 with e | e | ⟨q, -, hq, e⟩
      · exact ⟨(fun p hp => by rw [e] at hp; cases hp), [], .root e⟩
      · cases pa with
        | none => exact ⟨(fun p hp => by rw [e] at hp; cases hp), [], .root e⟩
        | some p =>
          have hp := hpa p rfl
          obtain ⟨l, hc⟩ := old p hp
          exact ⟨fun q hq => by rw [e] at hq; injection hq with hq; omega, _, .up e hc⟩
      · obtain ⟨-, l, hc⟩ := ih q hq (by omega)
        exact ⟨fun p hp => by rw [e] at hp; injection hp with hp; omega, _, .up e hc⟩

/-! ### Reading and removing, with child factories -/

/-- New nodes, every parent chain finite, and the old nodes where they were. -/
structure Extended (w w' : World) : Prop where
  wf : WF w'
  sound : Sound w'
  nobj : w.nobj ≤ w'.nobj
  loc : ∀ p, p < w.nobj → w'.loc p = w.loc p

/-- From heaps where every parent chain is finite. -/
def Extends (w w' : World) : Prop := WF w → Sound w → Extended w w'

theorem extends_pre : PreR Extends :=
  ⟨fun _ hw hs => ⟨hw, hs, Nat.le_refl _, fun _ _ => rfl⟩, fun h h' hw hs => by
    have a := h hw hs
    have b := h' a.wf a.sound
    exact ⟨b.wf, b.sound, Nat.le_trans a.nobj b.nobj, fun p hp =>
      (b.loc p (Nat.lt_of_lt_of_le hp a.nobj)).trans (a.loc p hp)⟩⟩

theorem extends_shrink {w w' : World} (h : ShrinkR w w') : Extends w w' := fun hw hs => by
  have hh := h hw
  exact ⟨hh.1, hs.loc hh.2.nobj hh.2.loc, Nat.le_of_eq hh.2.nobj.symm, fun p _ => hh.2.loc p⟩

theorem NotAbove.extended {w w' : World} {o : Oid} {v : Val} (hs : Sound w) (h : NotAbove w o v)
    (he : Extended w w') : NotAbove w' o v := by
  obtain ⟨-, l, b⟩ := hs o h.1
  have b' : Chain w' o l := b.congr fun q hq => by rw [he.loc q (hs.lt b h.1 q hq)]
  refine ⟨Nat.lt_of_lt_of_le h.1 he.nobj, fun c hc => ⟨(h.2 c hc).1, ?_⟩⟩
  rw [b'.ancestor_iff, ← b.ancestor_iff]; exact (h.2 c hc).2

/-- A node that did not exist is not above one that did. -/
theorem notAbove_new {w w' : World} {o c : Oid} (hs : Sound w) (ho : o < w.nobj) (hc : w.nobj ≤ c)
    (he : Extended w w') : NotAbove w' o (.node c) := by
  obtain ⟨-, l, b⟩ := hs o ho
  have b' : Chain w' o l := b.congr fun q hq => by rw [he.loc q (hs.lt b ho q hq)]
  refine ⟨Nat.lt_of_lt_of_le ho he.nobj, fun x hx => ?_⟩
  injection hx with hx
  subst hx
  refine ⟨fun e => by omega, ?_⟩
  rw [b'.ancestor_iff]
  exact fun hm => by have := hs.lt b ho c (List.mem_cons_of_mem _ hm); omega

theorem extends_make {E : Env} {c : ClassId} {o : Oid} {k : Key} {w : World} (ho : o < w.nobj) :
    Extends w (makeChild E c o k w).2 := fun hw hs => by
  obtain ⟨b1, b2, b3, b4⟩ := newNode_builds E c .none none hw
  have he : Extended w (newNode E c .none none w).2 :=
    ⟨b1, hs.grown b3.nobj b2 b3.loc nofun, b3.nobj, b3.loc⟩
  unfold makeChild
  simp only [M.bind_apply]
  rcases hx : newNode E c .none none w with ⟨e | ch, w1⟩
  · rw [hx] at he; exact he
  · rw [hx] at he b4
    obtain ⟨hch, -⟩ := b4 ch rfl
    have hn := notAbove_new hs ho (Nat.le_of_eq hch.symm) he
    have hm := setitem_moves E o k (.node ch) w1 he.wf
    have : Extended w (Verif.setitem E o k (.node ch) w1).2 :=
      ⟨hm.1, he.sound.moves hn hm.2, Nat.le_trans he.nobj (Nat.le_of_eq hm.2.nobj.symm), fun p hp => by
        rw [hm.2.loc p fun e => by injection e with e; omega]; exact he.loc p hp⟩
    revert this
    simp only [M.bind_apply]
    generalize Verif.setitem E o k (.node ch) w1 = y
    rcases y with ⟨e | u, w2⟩ <;> exact id

theorem extends_prims (E : Env) : LayPrims E Prot.none Extends where
  pre := extends_pre
  quiet _ _ h := extends_shrink (shrink_quiet h)
  hidden _ _ h := extends_shrink (shrink_hidden h)
  delEnd o k w := extends_shrink (shrink_delEnd E o k w)
  nsDrop o k w := extends_shrink (shrink_nsDrop o k w)
  swap o a b w := extends_shrink (shrink_swap E o a b w)
  volatile o k w := extends_shrink (shrink_volatile E o k w)
  make _ _ _ _ _ ho _ := extends_make ho.2

theorem getitem_extended {E : Env} {o : Oid} {k : Key} {w : World} (hi : Intact w) (hw : WF w) (h : Sound w)
    (ho : o < w.nobj) : Extended w (getitem E o k w).2 :=
  ((extends_prims E).getitem ⟨fun x => x, ho⟩).2 w (intact_iff.mp hi) (Nat.le_refl _) hw h

theorem Sound.insertEnd {E : Env} {first : Bool} {o n : Oid} {w : World} (hi : Intact w)
    (hw : WF w) (h : Sound w) (hv : NotAbove w o (.node n)) : Sound (insertEnd E first o n w).2 := by
  have hg : ∀ {n'} , Good Prot.none n' o ↔ o < n' := fun {n'} => ⟨fun h => h.2, fun h => ⟨fun x => x, h⟩⟩
  have hk := mkeys_quiet E o w hw
  have hki := (sep_mkeys (E := E) (hg.mpr hv.1)) w (intact_iff.mp hi) (Nat.le_refl _)
  unfold Verif.insertEnd
  simp only [M.bind_apply]
  rcases hx : mkeys E o w with ⟨e | ks, w1⟩
  · rw [hx] at hk; exact h.loc hk.2.nobj hk.2.loc
  · rw [hx] at hk hki
    have h1 := h.loc hk.2.nobj hk.2.loc
    have v1 := hv.loc h hk.2.nobj hk.2.loc
    simp only
    generalize (if first = true then ks.head? else ks.getLast?) = hd
    cases hd with
    | none =>
      simp only [M.bind_apply, M.getW_apply]
      exact h1.setitem hk.1 v1
    | some k =>
      have he := getitem_extended (E := E) (k := k) (intact_iff.mpr hki.1) hk.1 h1 v1.1
      simp only [M.bind_apply]
      rcases hy : getitem E o k w1 with ⟨e | v, w2⟩
      · rw [hy] at he; exact he.sound
      · rw [hy] at he
        cases v with
        | node r => exact he.sound.insertAt he.wf (v1.extended h1 he)
        | data d =>
          have hv := validateInsertion_id E o n w2
          simp only [M.bind_apply]
          rcases hz : validateInsertion E o n w2 with ⟨e | u, w3⟩ <;>
            (rw [hz] at hv; simp only at hv; subst hv; exact he.sound)

/-- One operation. -/
theorem Sound.exec {E : Env} {op : Op} {w : World} (hi : Intact w) (hw : WF w) (h : Sound w)
    (ha : DownOp w op) (hu : ∀ c, Val.node c ∈ op.vals → c < w.nobj) : Sound (exec E op w).2 := by
  have rem : op.removes = true → Sound (Verif.exec E op w).2 := fun hr =>
    (((extends_prims E).exec hr fun v hv c hc => ⟨fun x => x, hu c (hc ▸ hv)⟩).2 w (intact_iff.mp hi)
      (Nat.le_refl _) hw h).sound
  cases op
  case new c name parent =>
    obtain ⟨-, b2, b3, -⟩ := newNode_builds E c name parent hw
    have := h.grown b3.nobj b2 b3.loc ha
    rwa [← exec_snd (newNode E c name parent) (fun o => .val (.node o))] at this
  case attrs o =>
    obtain ⟨-, b2, b3, -, b5, -, -⟩ := attrs_builds E o hw
    have := h.grown b3 b2 b5 fun p hp => by injection hp with hp; subst hp; exact ha
    rwa [← exec_snd (attrs E o) (fun a => .val (.node a))] at this
  case set o k v =>
    have := h.setitem (E := E) (k := k) hw ha
    rwa [← exec_snd (Verif.setitem E o k v) (fun _ => .unit)] at this
  case setdefault o k v =>
    have hx : Sound (msetdefault E o k v w).2 := by
      unfold msetdefault
      simp only [M.catchIf_apply]
      have he := getitem_extended (E := E) (k := k) hi hw h ha.1
      rcases hy : getitem E o k w with ⟨e | x, w1⟩
      · rw [hy] at he
        simp only
        split
        · have := he.sound.setitem (E := E) (k := k) he.wf (NotAbove.extended h ha he)
          simp only [M.bind_apply]
          revert this
          generalize Verif.setitem E o k v w1 = y
          rcases y with ⟨e | a, w2⟩ <;> exact id
        · exact he.sound
      · rw [hy] at he
        exact he.sound
    rwa [← exec_snd (msetdefault E o k v) (fun x => .val x)] at hx
  case update o kvs =>
    have := h.update (E := E) hw ha.2
    rwa [← exec_snd (mupdate E o kvs) (fun _ => .unit)] at this
  case insertBefore o n r =>
    have := h.insertAt (E := E) (before := true) (ref := r) hw ha
    rwa [← exec_snd (Verif.insertAt E true o n r) (fun _ => .unit)] at this
  case insertAfter o n r =>
    have := h.insertAt (E := E) (before := false) (ref := r) hw ha
    rwa [← exec_snd (Verif.insertAt E false o n r) (fun _ => .unit)] at this
  case insertFirst o n =>
    have := h.insertEnd (E := E) hi (first := true) hw ha
    rwa [← exec_snd (Verif.insertEnd E true o n) (fun _ => .unit)] at this
  case insertLast o n =>
    have := h.insertEnd (E := E) hi (first := false) hw ha
    rwa [← exec_snd (Verif.insertEnd E false o n) (fun _ => .unit)] at this
  all_goals exact rem rfl

theorem Intact.exec {E : Env} {op : Op} {w : World} (h : Intact w)
    (hu : ∀ c, Val.node c ∈ op.vals → c < w.nobj) : Intact (exec E op w).2 :=
  Intact.execAll (ops := [op]) h ⟨fun c hc => ⟨hu c hc, trivial⟩, trivial⟩

theorem Sound.execAll {E : Env} (ops : List Op) {w : World} (hi : Intact w) (hw : WF w)
    (h : Sound w) (hu : Uses E (fun _ => True) ops w) (ha : DownHistory E ops w) :
    Sound (execAll E ops w).2 := by
  induction ops generalizing w with
  | nil => exact h
  | cons op r ih =>
    have hu1 := fun c hc => (hu.1 c hc).1
    exact ih (hi.exec hu1) ((grow_exec E op w).wf hw) (h.exec hi hw ha.1 hu1) hu.2 ha.2

/-- Heaps reached from the empty one by histories that put no node below itself (and use nodes that
exist). -/
def DownReachable (E : Env) (w : World) : Prop :=
  ∃ ops, (Uses E (fun _ => True) ops {} ∧ DownHistory E ops {}) ∧ (execAll E ops {}).2 = w

theorem DownReachable.sound {E : Env} {w : World} (h : DownReachable E w) :
    Sound w := by
  obtain ⟨ops, ho, rfl⟩ := h
  exact Sound.execAll ops Intact.empty WF.empty (fun o ho => absurd ho (Nat.not_lt_zero _)) ho.1 ho.2

/-- C12: every parent chain ends. -/
theorem c12_finite {E : Env} {w : World} (h : DownReachable E w) {o : Oid}
    (ho : o < w.nobj) : ∃ l, Chain w o l := (h.sound o ho).2

/-- C12: no node is above itself. -/
theorem c12_irreflexive {E : Env} {w : World} (h : DownReachable E w)
    {o : Oid} (ho : o < w.nobj) : ¬ Ancestor w o o := by
  obtain ⟨l, hl⟩ := c12_finite h ho
  rw [hl.ancestor_iff]; exact hl.not_mem

/-- C12: `path` ends, with the names from the root to the node. -/
theorem c12_path {E : Env} {w : World} (h : DownReachable E w) {o : Oid}
    (ho : o < w.nobj) : ∃ l, Chain w o l ∧
      pathOf w o = some ((o :: l).reverse.map fun p => (w.loc p).1) := by
  obtain ⟨l, hl⟩ := c12_finite h ho
  refine ⟨l, hl, ?_⟩
  have := (h.sound).length hl ho
  unfold pathOf
  rw [hl.namesUp (by omega), Option.map_some, List.map_reverse]

/-- C12: `root` ends, in a node without parent that is the node or above it. -/
theorem c12_root {E : Env} {w : World} (h : DownReachable E w) {o : Oid}
    (ho : o < w.nobj) : ∃ r, rootOf w o = some r ∧ (w.loc r).2 = none ∧ (r = o ∨ Ancestor w r o) := by
  obtain ⟨l, hl⟩ := c12_finite h ho
  have := (h.sound).length hl ho
  refine ⟨_, hl.rootN (n := w.nobj + 1) (by omega), hl.last, ?_⟩
  have hm := List.getLast_mem (List.cons_ne_nil o l)
  rcases List.mem_cons.mp hm with e | e
  · exact .inl e
  · exact .inr (hl.ancestor_iff.mpr e)

/-! ### Instances -/

theorem downHistory_append {E : Env} (ops : List Op) (op : Op) {w : World} :
    DownHistory E (ops ++ [op]) w ↔ DownHistory E ops w ∧ DownOp (execAll E ops w).2 op := by
  induction ops generalizing w with
  | nil => simp [DownHistory, execAll]
  | cons a r ih => simp only [List.cons_append, DownHistory, ih, and_assoc, execAll]

/-- Assigning to a node without parent anything but itself. -/
theorem notAbove_root {w : World} {o : Oid} (ho : o < w.nobj) (hp : (w.loc o).2 = none) {c : Oid}
    (hc : c ≠ o) : NotAbove w o (.node c) := ⟨ho, fun x hx => by
  injection hx with hx
  subst hx
  refine ⟨hc, fun ha => ?_⟩
  cases ha with
  | parent e => rw [hp] at e; cases e
  | up e _ => rw [hp] at e; cases e⟩

/-- Four nodes in a row, built bottom-up; then the lowest moved to the top. -/
def c12Ops : List Op :=
  [.new 2 (.str ['r']) none, .new 2 .none none, .new 0 ka (some 1), .new 2 .none none,
   .set 1 kb (.node 3), .set 0 ka (.node 1), .del 1 kb, .set 0 kb (.node 3)]

theorem c12Ops_down : DownHistory sampleEnv c12Ops {} := by
  refine ⟨?_, ?_, ?_, ?_, ?_, ?_, trivial, ?_, trivial⟩
  · intro p hp; cases hp
  · intro p hp; cases hp
  · intro p hp; injection hp with hp; subst hp; decide
  · intro p hp; cases hp
  · exact notAbove_root (by decide) (by decide) (by decide)
  · exact notAbove_root (by decide +kernel) (by decide +kernel) (by decide)
  · exact notAbove_root (by decide +kernel) (by decide +kernel) (by decide)

theorem c12Ops_history : Uses sampleEnv (fun _ => True) c12Ops {} ∧ DownHistory sampleEnv c12Ops {} :=
  ⟨(uses_of_usesB (P := fun _ => true) (by decide +kernel)).mono fun _ _ => trivial, c12Ops_down⟩

example : DownReachable sampleEnv (after sampleEnv c12Ops) ∧
    pathOf (after sampleEnv c12Ops) 2 = some [.str ['r'], ka, ka] ∧
    rootOf (after sampleEnv c12Ops) 3 = some 0 :=
  ⟨⟨c12Ops, c12Ops_history, rfl⟩, by decide +kernel, by decide +kernel⟩

/-- The same with a child factory: reading the missing key creates the child; it is moved. -/
def c12FactoryOps : List Op :=
  [.new 13 (.str ['r']) none, .new 1 kb none, .get 0 ka, .set 1 kb (.node 2), .values 0]

example : DownReachable factoryEnv (after factoryEnv c12FactoryOps) ∧
    pathOf (after factoryEnv c12FactoryOps) 2 = some [kb, kb] := by
  refine ⟨⟨c12FactoryOps, ⟨(uses_of_usesB (P := fun _ => true) (by decide +kernel)).mono fun _ _ => trivial,
    (nofun), (nofun), trivial, ?_, trivial, trivial⟩, rfl⟩, by decide +kernel⟩
  exact notAbove_root (by decide +kernel) (by decide +kernel) (by decide)

/-- The condition is needed: a node assigned below itself has no root, the loop of
`root` and `path` does not end. -/
theorem c12_cycle : ∃ ops, (execAll sampleEnv ops {}).1.getLast? = some (.ok .unit) ∧
    rootOf (after sampleEnv ops) 0 = none ∧ pathOf (after sampleEnv ops) 0 = none :=
  ⟨[.new 0 .none none, .new 0 .none none, .set 0 ka (.node 1), .set 1 kb (.node 0)],
    by decide +kernel, by decide +kernel, by decide +kernel⟩

end Verif
