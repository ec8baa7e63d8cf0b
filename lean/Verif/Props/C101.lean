import Verif.Props.C100
import Verif.Props.C60
import Verif.Props.C61

/-!
# C101: trees that look alike print alike

The text of a tree is a matter of classes, names and order of children: two trees that agree in these
print the same text, wherever they live (`c101_alike_partial`).  So deep copies print like the original
(`c101_deepcopy_partial`), and so does what is read from the data of a tree
(`c101_roundtrip_partial`), and trees written as equal data print alike (`c101_data_partial`).  False in
general: what is read may be of another class than what was written (`c101_refuted`).
-/

namespace Verif.Ser

variable {E : Env} {N : Codec}

mutual
/-- Classes, names and children of two trees agree; attributes may differ. -/
def LookAlike : NTree → NTree → Prop
  | .mk c n _ ks, .mk c' n' _ ks' => c = c' ∧ n = n' ∧ LooksAlike ks ks'
/-- One by one. -/
def LooksAlike : List NTree → List NTree → Prop
  | [], [] => True
  | t :: ts, t' :: ts' => LookAlike t t' ∧ LooksAlike ts ts'
  | _, _ => False
end

mutual
theorem LookAlike.refl : ∀ t : NTree, LookAlike t t
  | .mk _ _ _ ks => ⟨rfl, rfl, LooksAlike.refl ks⟩
theorem LooksAlike.refl : ∀ ts : List NTree, LooksAlike ts ts
  | [] => trivial
  | t :: ts => ⟨LookAlike.refl t, LooksAlike.refl ts⟩
end

mutual
/-- Trees that can be printed: classes whose items can be read item by item. -/
def Printable (E : Env) : NTree → Prop
  | .mk c _ _ kids => ReadClass (E.cls c) ∧ (∀ t ∈ kids, KeyFor (E.cls c) t.name) ∧ Printables E kids
/-- All trees. -/
def Printables (E : Env) : List NTree → Prop
  | [] => True
  | t :: r => Printable E t ∧ Printables E r
end

theorem Printables.mem : ∀ {ts : List NTree}, Printables E ts → ∀ t ∈ ts, Printable E t
  | [], _, _, h => by cases h
  | _ :: _, h, _, ht => by
    rcases List.mem_cons.1 ht with rfl | ht
    · exact h.1
    · exact h.2.mem _ ht

mutual
theorem Readable.printable {A : Data → Prop} : ∀ t : NTree, Readable E A t → Printable E t
  | .mk _ _ _ ks, ⟨r1, _, _, r4, r5⟩ => ⟨r1, r4, Readables.printable ks r5⟩
theorem Readables.printable {A : Data → Prop} : ∀ ts : List NTree, Readables E A ts → Printables E ts
  | [], _ => trivial
  | t :: ts, h => ⟨Readable.printable t h.1, Readables.printable ts h.2⟩
end

mutual
/-- How many levels a tree has, less one. -/
def levels : NTree → Nat
  | .mk _ _ _ kids => levelss kids
/-- The most of them, and one more. -/
def levelss : List NTree → Nat
  | [] => 0
  | t :: r => max (levels t + 1) (levelss r)
end

theorem levelss_mem : ∀ {ts : List NTree} {t : NTree}, t ∈ ts → levels t < levelss ts
  | _ :: _, _, h => by
    rcases List.mem_cons.1 h with rfl | h
    · simp only [levelss]; omega
    · have := levelss_mem h; simp only [levelss]; omega

mutual
theorem levels_tall : ∀ t : NTree, levels t < tall t
  | .mk _ _ _ ks => by have := levelss_talls ks; simp only [levels, tall]; omega
theorem levelss_talls : ∀ ts : List NTree, levelss ts ≤ talls ts
  | [] => Nat.le_refl _
  | t :: ts => by have := levels_tall t; have := levelss_talls ts; simp only [levelss, talls]; omega
end

mutual
/-- The text of a tree: indented class and name, and the texts of the children, in order or by name. -/
def printed (E : Env) (P : Printer) (pre : Str) : Nat → NTree → Str
  | i, .mk c name _ kids => timesStr i pre ++ (P.cls c ++ [':', ' '] ++ afterColon (keyStr P name)) ++ ['\n'] ++
      ((if ordered (E.cls c) then printeds E P pre (i + 2) kids
        else sortBy (fun kt => keyStr P kt.1) (printeds E P pre (i + 2) kids)).map Prod.snd).flatten
/-- Names and texts of the children. -/
def printeds (E : Env) (P : Printer) (pre : Str) : Nat → List NTree → List (Key × Str)
  | _, [] => []
  | i, t :: ts => (t.name, printed E P pre i t) :: printeds E P pre i ts
end

theorem printeds_map (P : Printer) (pre : Str) (i : Nat) :
    ∀ ts : List NTree, printeds E P pre i ts = ts.map fun t => (t.name, printed E P pre i t)
  | [] => rfl
  | t :: ts => by simp only [printeds, List.map_cons, printeds_map P pre i ts]

mutual
theorem printed_alike (P : Printer) (pre : Str) :
    ∀ (t t' : NTree) (i : Nat), LookAlike t t' → printed E P pre i t = printed E P pre i t'
  | .mk c n _ ks, .mk c' n' _ ks', i, ⟨h1, h2, h3⟩ => by
    subst h1 h2
    simp only [printed, printeds_alike P pre ks ks' (i + 2) h3]
theorem printeds_alike (P : Printer) (pre : Str) :
    ∀ (ts ts' : List NTree) (i : Nat), LooksAlike ts ts' → printeds E P pre i ts = printeds E P pre i ts'
  | [], [], _, _ => rfl
  | [], _ :: _, _, h => h.elim
  | _ :: _, [], _, h => h.elim
  | .mk c n a ks :: ts, .mk c' n' a' ks' :: ts', i, h => by
    have hn : n = n' := h.1.2.1
    have hp := printed_alike P pre (.mk c n a ks) (.mk c' n' a' ks') i h.1
    simp only [printeds, hp, printeds_alike P pre ts ts' i h.2, NTree.name]
    rw [hn]
end

mutual
theorem LookAlike.levels : ∀ {t t' : NTree}, LookAlike t t' → Ser.levels t = Ser.levels t'
  | .mk _ _ _ ks, .mk _ _ _ ks', h => by simp only [Ser.levels, LooksAlike.levels h.2.2]
theorem LooksAlike.levels : ∀ {ts ts' : List NTree}, LooksAlike ts ts' → levelss ts = levelss ts'
  | [], [], _ => rfl
  | [], _ :: _, h => h.elim
  | _ :: _, [], h => h.elim
  | _ :: _, _ :: _, h => by simp only [levelss, LookAlike.levels h.1, LooksAlike.levels h.2]
end

/-- Items and shapes, side by side. -/
theorem Shapes.zip {S : Oid → Prop} {w : World} {o : Oid} : ∀ {ts : List NTree} {l : List (Key × Val)},
    Shapes E S w o ts l → ∃ L : List (Oid × NTree), l = L.map (fun x => (x.2.name, Val.node x.1)) ∧
      ts = L.map Prod.snd ∧ ∀ x ∈ L, Shape E S w x.2 x.1
  | [], _, h => ⟨[], h, rfl, nofun⟩
  | t :: ts, _, ⟨c, r, h1, _, h3, h4⟩ => by
    obtain ⟨L, e1, e2, e3⟩ := Shapes.zip h4
    refine ⟨(c, t) :: L, by rw [h1, e1]; rfl, by rw [e2]; rfl, fun x hx => ?_⟩
    rcases List.mem_cons.1 hx with rfl | hx
    · exact h3
    · exact e3 x hx

/-- What `treerepr` returns. -/
theorem treerepr_shape (P : Printer) (pre : Str) : ∀ (n i : Nat) (t : NTree) (o : Oid) (w : World), WF w →
    Shape E (· < w.nobj) w t o → Printable E t → levels t < n →
    ∃ w', treerepr E P pre n i o w = (.ok (printed E P pre i t), w') ∧ Grows E w w' := by
  intro n
  induction n with
  | zero => intro _ _ _ _ _ _ _ h; cases h
  | succ n ih =>
    intro i t o w hw hs hp hn
    obtain ⟨c, name, at', kids⟩ := t
    obtain ⟨s1, s2, s3, s4, s5⟩ := hs
    obtain ⟨r1, r4, r5⟩ := hp
    have hcl : clsOf E w o = E.cls c := congrArg E.cls s2
    obtain ⟨L, e1, e2, e3⟩ := Shapes.zip s5
    have hopen : Open E w o := ⟨by rw [hcl]; exact r1.concrete, fun k hk => by
      rw [keys_eq, ← items_eq hw, e1, List.map_map, List.mem_map] at hk
      obtain ⟨x, hx, rfl⟩ := hk
      rw [hcl]
      exact r4 x.2 (by rw [e2]; exact List.mem_map_of_mem hx), fun hcc => absurd hcc (by rw [hcl]; exact r1.not (by decide))⟩
    obtain ⟨w1, h1, h2⟩ := mitems_open (E := E) (S := (· = o)) hopen hw hopen.coh rfl
    have hg1 : Grows E w w1 := .same h2.wf h2.same
    have loop : ∀ (Q : List (Oid × NTree)) (a : World), (∀ x ∈ Q, x ∈ L) → Grows E w a →
        ∃ b, forM' (treereprItem P i pre (treerepr E P pre n (i + 2))) (Q.map fun x => (x.2.name, Val.node x.1)) a =
          (.ok (Q.map fun x => printed E P pre (i + 2) x.2), b) ∧ Grows E w b := by
      intro Q
      induction Q with
      | nil => exact fun a _ ha => ⟨a, rfl, ha⟩
      | cons x Q ihQ =>
        intro a hQ ha
        have hx := hQ x List.mem_cons_self
        have hk : x.2 ∈ kids := by rw [e2]; exact List.mem_map_of_mem hx
        obtain ⟨b, g1, g2⟩ := ih (i + 2) x.2 x.1 a ha.wf (Shape.grows ha _ _ (e3 x hx)) (r5.mem _ hk)
          (by have := levelss_mem hk; simp only [levels] at hn; omega)
        obtain ⟨d, g3, g4⟩ := ihQ b (fun y hy => hQ y (List.mem_cons_of_mem _ hy)) (ha.trans g2)
        refine ⟨d, ?_, g4⟩
        simp only [List.map_cons, forM', M.bind_apply, treereprItem, g1, g3, M.pure_apply]
    have hsorted : ∃ Q : List (Oid × NTree), (∀ x ∈ Q, x ∈ L) ∧
        shownItems P (E.cls c) (w.omap o).items = Q.map (fun x => (x.2.name, Val.node x.1)) ∧
        (if ordered (E.cls c) then printeds E P pre (i + 2) kids
          else sortBy (fun kt => keyStr P kt.1) (printeds E P pre (i + 2) kids)).map Prod.snd =
          Q.map fun x => printed E P pre (i + 2) x.2 := by
      unfold shownItems
      rw [printeds_map, e2, List.map_map, e1]
      split
      · exact ⟨L, fun _ h => h, rfl, by rw [List.map_map]; rfl⟩
      · refine ⟨sortBy (fun x => keyStr P x.2.name) L, fun x hx => (sortBy_perm L).mem_iff.1 hx, ?_, ?_⟩
        · rw [← sortBy_map (f := fun kv : Key × Val => keyStr P kv.1) (fun x : Oid × NTree => (x.2.name, Val.node x.1))]
        · rw [← sortBy_map (f := fun kt : Key × Str => keyStr P kt.1)
            ((fun t => (t.name, printed E P pre (i + 2) t)) ∘ Prod.snd), List.map_map]
          rfl
    obtain ⟨Q, m1, m2, m3⟩ := hsorted
    obtain ⟨w2, h3, h4⟩ := loop Q w1 m1 hg1
    refine ⟨w2, ?_, h4⟩
    simp only [treerepr, M.bind_apply, M.getW, h1, hcl, m2, h3, M.pure_apply, printed, m3, noderepr, s2, s3]

/-- C101, what is true of it: two trees of the same classes and names, with their children in the same
order, print the same text with the same indentation and prefix, whatever else is in the heaps. -/
theorem c101_alike_partial (P : Printer) (pre : Str) (i : Nat) {w w' : World} (hw : Reachable E w) (hw' : Reachable E w')
    {t t' : NTree} {o o' : Oid} (hs : Shape E (· < w.nobj) w t o) (hs' : Shape E (· < w'.nobj) w' t' o')
    (hl : LookAlike t t') (hp : Printable E t) (hp' : Printable E t') {n n' : Nat} (hn : levels t < n) (hn' : levels t < n') :
    ∃ s v v', treerepr E P pre n i o w = (.ok s, v) ∧ treerepr E P pre n' i o' w' = (.ok s, v') := by
  obtain ⟨v, h1, _⟩ := treerepr_shape P pre n i t o w hw.wf hs hp hn
  obtain ⟨v', h2, _⟩ := treerepr_shape P pre n' i t' o' w' hw'.wf hs' hp' (by rw [← hl.levels]; exact hn')
  exact ⟨_, v, v', h1, by rw [h2, printed_alike P pre t t' i hl]⟩

/-- Deep copies print like the original. -/
theorem c101_deepcopy_partial (P : Printer) (pre : Str) (i : Nat) {w w' : World} (hw : WF w) (hi : Intact w)
    {t : NTree} {o c : Oid} (hs : Shape E (· < w.nobj) w t o) (hp : Printable E t)
    (hu : Bhv.uuidAware ∉ (clsOf E w o).bhvs) (h : deepcopy E o w = (.ok c, w')) {n : Nat} (hn : levels t < n) :
    c ≠ o ∧ ∃ s v v', treerepr E P pre n i o w = (.ok s, v) ∧ treerepr E P pre n i c w' = (.ok s, v') := by
  have ho : o < w.nobj := by cases t; exact hs.1
  have hc := c60_shape_partial hw hi ho hu hs h
  obtain ⟨v, h1, _⟩ := treerepr_shape P pre n i t o w hw hs hp hn
  obtain ⟨v', h2, _⟩ := treerepr_shape P pre n i t c w' (deepcopy_wf hw hi ho hu h)
    (Shape.mono (fun p hp => hp.2) t _ hc) hp hn
  have : w.nobj ≤ c := by cases t; exact hc.1.1
  exact ⟨by omega, _, v, v', h1, h2⟩

/-- What is read from the data of a tree prints like the tree. -/
theorem c101_roundtrip_partial (P : Printer) (pre : Str) (i : Nat) (hE : 0 < E.depth) {w : World} (hw : Reachable E w)
    {t : NTree} {o : Oid} (hs : Shape E (· < w.nobj) w t o) (hb : Buildable E N (Keeps N) t) (hu : Unwrapped E t)
    {n : Nat} (hn : tall t < n) :
    ∃ j w1 o' w2 s v v', serialize E N {} n (.val (.node o)) w = (.ok j, w1) ∧
      deserialize E N n j none w1 = (.ok (.node o'), w2) ∧ o' ≠ o ∧
      treerepr E P pre n i o w = (.ok s, v) ∧ treerepr E P pre n i o' w2 = (.ok s, v') := by
  have hr := Buildable.readable t hb hu
  have hp := Readable.printable t hr
  obtain ⟨w1, h1, h2⟩ := serialize_tree (f := shown N {}) (fun d hd => (Keeps.shown hd).2.2) hE hw.wf hs hr hn
  obtain ⟨w2, h3, h4⟩ := decode_tree (f := shown N {}) (A := Keeps N) (fun d hd => hd.shown) hE t n none w1 h2.wf hb hn
    nofun
  have hl : levels t < n := Nat.lt_trans (levels_tall t) hn
  obtain ⟨v, h5, _⟩ := treerepr_shape P pre n i t o w hw.wf hs hp hl
  obtain ⟨v', h6, _⟩ := treerepr_shape P pre n i t _ w2 h4.wf (Shape.mono (fun p hp => hp.2) t _ h4.shape) hp hl
  have ho : o < w.nobj := by cases t; exact hs.1
  have := h2.index.le
  exact ⟨_, w1, w1.nobj, w2, _, v, v', h1, h3, by omega, h5, h6⟩

/-- Trees written as equal data print alike. -/
theorem c101_data_partial (P : Printer) (pre : Str) (i : Nat) (hE : 0 < E.depth) {w w' : World} (hw : Reachable E w)
    (hw' : Reachable E w') {t t' : NTree} {o o' : Oid} (hs : Shape E (· < w.nobj) w t o)
    (hs' : Shape E (· < w'.nobj) w' t' o') (hb : Buildable E N (Keeps N) t) (hb' : Buildable E N (Keeps N) t')
    (hu : Unwrapped E t) (hu' : Unwrapped E t') {n n' : Nat} (hn : tall t < n) (hn' : tall t' < n') {j : J} {w1 w1' : World}
    (h : serialize E N {} n (.val (.node o)) w = (.ok j, w1))
    (h' : serialize E N {} n' (.val (.node o')) w' = (.ok j, w1')) :
    ∃ s v v', treerepr E P pre n i o w = (.ok s, v) ∧ treerepr E P pre n' i o' w' = (.ok s, v') := by
  obtain ⟨j1, j2, v, v', e1, e2, hj⟩ := c100_identify_partial hE hw hw' hs hs' hb hb' hu hu' hn hn'
  rw [h] at e1
  rw [h'] at e2
  simp only [Prod.mk.injEq, Except.ok.injEq] at e1 e2
  have ht := hj.1 (e1.1.symm.trans e2.1)
  subst ht
  have hp := Readable.printable t (Buildable.readable t hb hu)
  exact c101_alike_partial P pre i hw hw' hs hs' (LookAlike.refl t) hp hp (Nat.lt_trans (levels_tall t) hn)
    (Nat.lt_trans (levels_tall t) hn')

/-! ### Concrete cases -/

example : ∃ j w1 o' w2 s v v', serialize serEnv sampleCodec {} 5 (.val (.node 0)) (after serEnv c46Ops) = (.ok j, w1) ∧
    deserialize serEnv sampleCodec 5 j none w1 = (.ok (.node o'), w2) ∧ o' ≠ 0 ∧
    treerepr serEnv samplePrinter [' '] 5 0 0 (after serEnv c46Ops) = (.ok s, v) ∧
    treerepr serEnv samplePrinter [' '] 5 0 o' w2 = (.ok s, v') :=
  c101_roundtrip_partial samplePrinter _ _ (by decide) (reachable_after _ _) c46_sample_shape c46_sample_buildable
    c46_sample_unwrapped (by decide)

/-- The copy of the sample tree. -/
example (w' : World) (h : deepcopy serEnv 0 (after serEnv c46Ops) = (.ok 5, w')) :
    ∃ s v v', treerepr serEnv samplePrinter ['-'] 5 1 0 (after serEnv c46Ops) = (.ok s, v) ∧
      treerepr serEnv samplePrinter ['-'] 5 1 5 w' = (.ok s, v') :=
  (c101_deepcopy_partial samplePrinter _ _ (reachable_after _ _).wf (intact_after (by decide +kernel)) c46_sample_shape
    (Readable.printable _ c48_sample_readable) (by decide +kernel) h (by decide)).2

/-- Attributes do not matter. -/
example : ∃ s v v', treerepr serEnv samplePrinter [' '] 3 0 0 (after serEnv (c100Ops (.uuid 2))) = (.ok s, v) ∧
    treerepr serEnv samplePrinter [' '] 4 0 0 (after serEnv (c100Ops (.str "<UUID>:xx".toList))) = (.ok s, v') :=
  c101_alike_partial samplePrinter _ _ (reachable_after _ _) (reachable_after _ _) (c100_sample _ (.inl rfl)).1
    (c100_sample _ (.inr rfl)).1 ⟨rfl, rfl, trivial⟩ (Readable.printable _ (c100_sample _ (.inl rfl)).2)
    (Readable.printable _ (c100_sample _ (.inr rfl)).2) (by decide) (by decide)

/-- C101 is false: what is read from the data of a node is of another class, if its class has the dotted
name of another one, and prints another text. -/
theorem c101_refuted : ∃ ops, ∃ j w1 o' w2 s s', Tidy serEnv (after serEnv ops) 0 ∧
    serialize serEnv sampleCodec {} 3 (.val (.node 0)) (after serEnv ops) = (.ok j, w1) ∧
    deserialize serEnv sampleCodec 3 j none w1 = (.ok (.node o'), w2) ∧
    (treerepr serEnv samplePrinter [' '] 3 0 0 (after serEnv ops)).1 = .ok s ∧
    (treerepr serEnv samplePrinter [' '] 3 0 o' w2).1 = .ok s' ∧ s ≠ s' := by
  refine ⟨[.new 4 ka none], _, _, 1, _, _, _, ?_, rfl, rfl, rfl, rfl, by decide +kernel⟩
  have e : ((after serEnv [.new 4 ka none]).omap 0).items = [] := by decide +kernel
  have hno : Bhv.attributes ∉ (clsOf serEnv (after serEnv [.new 4 ka none]) 0).bhvs := by decide +kernel
  refine .mk 0 (by decide +kernel) ?_ ?_ fun h => absurd h hno
  · rw [e]; nofun
  · rw [e]; nofun

end Verif.Ser
