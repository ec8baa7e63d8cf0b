import Verif.Lemmas.Placed
import Verif.Props.C01
import Verif.Props.C11

/-!
# C81 Writing down another location

Callers may assign `__name__` and `__parent__` themselves.  No mapping operation notices
(`c81_results`); `path`, `root` and `acquire` change for the node and those located below it and for
nobody else, as described by `c81_rename`, `c81_move` and `c81_cut`; `c81_endless` is what happens if the new
parent is located below the node.
-/

namespace Verif

/-- The operations of a program, without the assignments. -/
def opsIn : List Stmt → List Op
  | [] => []
  | .op op :: r => op :: opsIn r
  | _ :: r => opsIn r

theorem Rel.assign {E : Env} {w : World} {s : MapSpec} (h : Rel E w s) (o : Oid) (f : Obj → Obj)
    (hf : ∀ b, (f b).cls = b.cls ∧ (f b).storage = b.storage ∧ (f b).cache = b.cache ∧ (f b).nodespaces = b.nodespaces ∧
      (f b).index = b.index) : Rel E (modO o f w).2 s := by
  obtain ⟨h1, h2, h3, h4, h5⟩ := hf (w.objs o)
  have hc : ∀ p, ((modO o f w).2.objs p).cls = (w.objs p).cls := fun p => by
    simp only [modO_apply, upd]; split
    · rename_i e; subst e; exact h1
    · rfl
  have hs : ∀ p, ((modO o f w).2.objs p).storage = (w.objs p).storage := fun p => by
    simp only [modO_apply, upd]; split
    · rename_i e; subst e; exact h2
    · rfl
  have hca : ∀ p, ((modO o f w).2.objs p).cache = (w.objs p).cache := fun p => by
    simp only [modO_apply, upd]; split
    · rename_i e; subst e; exact h3
    · rfl
  have hch : ∀ p, (modO o f w).2.children p = w.children p := fun p => by
    unfold World.children; rw [hs]; rfl
  have hcd : ∀ p, (modO o f w).2.cached p = w.cached p := fun p => by
    unfold World.cached; rw [hca]; rfl
  refine ⟨h.wf.modO o f h2 h3 h4 fun r hr => h.wf.iLt (h5 ▸ hr), fun p hp hb k v hk => ?_, h.nobj, fun p hp => ?_, h.mc,
    fun p hp => ?_, fun p hp k hk => ?_⟩
  · rw [hcd] at hk
    rw [hch]
    refine h.coh p hp ?_ k v hk
    unfold Verif.clsOf at hb ⊢
    rwa [hc] at hb
  · rw [hc]; exact h.cls p hp
  · rw [← h.map p hp, World.omap, World.omap, hch]
  · rw [hch] at hk; exact h.keys p hp k hk

theorem runStmts_pt {E : Env} (hd : 0 < E.depth) (l : List Stmt) {w : World} {s : MapSpec} (h : Rel E w s)
    (ho : MapHistory E (refOf E) (opsIn l) s) :
    (runStmts E l w).1 = (MapSpec.runAll (refOf E) (opsIn l) s).1 ∧
      Rel E (runStmts E l w).2 (MapSpec.runAll (refOf E) (opsIn l) s).2 := by
  induction l generalizing w s with
  | nil => exact ⟨rfl, h⟩
  | cons st r ih =>
    cases st with
    | op op =>
      obtain ⟨w', h1, h2⟩ := exec_pt hd h op ho.1
      obtain ⟨h3, h4⟩ := ih h2 ho.2
      simp only [runStmts, runStmt, opsIn, MapSpec.runAll, h1]
      exact ⟨by rw [h3]; rfl, h4⟩
    | name o k => exact ih (h.assign o (fun ob => { ob with name := k }) fun _ => ⟨rfl, rfl, rfl, rfl, rfl⟩) ho
    | parent o p =>
      exact ih (h.assign o (fun ob => { ob with parent := p }) fun _ => ⟨rfl, rfl, rfl, rfl, rfl⟩) ho

/-- C81: in programs without the behaviors that look at locations by contract (Fallback; AttributesLifecycle, which
reports to the parent of the attributes), a program with assignments to `__name__` and `__parent__` anywhere in
between gets the same results as the program without them and leaves the same heap, apart from what is written
down as location. Operations that are given a place by the name of a node (`insertbefore`, ..., `swap`) are excluded. -/
theorem c81_results {E : Env} (hE : Unplaced E) (l : List Stmt) (h : ∀ op ∈ opsIn l, op.byName = false) :
    (runStmts E l {}).1 = (execAll E (opsIn l) {}).1 ∧
      ∃ f, (runStmts E l {}).2 = (execAll E (opsIn l) {}).2.placed f := by
  suffices ∀ (l : List Stmt) (w : World) f, (∀ op ∈ opsIn l, op.byName = false) →
      (runStmts E l (w.placed f)).1 = (execAll E (opsIn l) w).1 ∧
        ∃ g, (runStmts E l (w.placed f)).2 = (execAll E (opsIn l) w).2.placed g from this l {} (fun _ => (.none, none)) h
  intro l
  induction l with
  | nil => exact fun w f _ => ⟨rfl, f, rfl⟩
  | cons st r ih =>
    intro w f h
    cases st with
    | op x =>
      obtain ⟨g, hg⟩ := lf_exec hE x (h x List.mem_cons_self) w f
      obtain ⟨h1, h2⟩ := ih (exec E x w).2 g fun op ho => h op (List.mem_cons_of_mem _ ho)
      simp only [runStmts, runStmt, opsIn, execAll, hg]
      exact ⟨by rw [h1]; rfl, h2⟩
    | name o k =>
      have e : (assignName o k (w.placed f)).2 = w.placed (upd f o (k, (f o).2)) := by
        refine congrArg (fun x => ({ w with objs := x } : World)) (funext fun q => ?_)
        simp only [upd, World.placed]
        split
        · rename_i e; subst e; rfl
        · rfl
      simp only [runStmts, runStmt, opsIn, e]
      exact ih w _ h
    | parent o p =>
      have e : (assignParent o p (w.placed f)).2 = w.placed (upd f o ((f o).1, p)) := by
        refine congrArg (fun x => ({ w with objs := x } : World)) (funext fun q => ?_)
        simp only [upd, World.placed]
        split
        · rename_i e; subst e; rfl
        · rfl
      simp only [runStmts, runStmt, opsIn, e]
      exact ih w _ h

/-- C81, the mapping API, whatever other classes there are: a program with assignments to `__name__` and `__parent__` anywhere in between gets the
same results and leaves the same children as the program without them. -/
theorem c81_mapping {E : Env} (hd : 0 < E.depth) (l : List Stmt) (h : MapHistory E (refOf E) (opsIn l) {}) :
    (runStmts E l {}).1 = (execAll E (opsIn l) {}).1 ∧ (runStmts E l {}).2.nobj = (execAll E (opsIn l) {}).2.nobj ∧
      ∀ o, o < (runStmts E l {}).2.nobj → (runStmts E l {}).2.omap o = (execAll E (opsIn l) {}).2.omap o := by
  obtain ⟨h1, h2⟩ := runStmts_pt hd l Rel.empty h
  obtain ⟨h3, h4⟩ := execAll_pt hd (opsIn l) Rel.empty h
  exact ⟨h1.trans h3.symm, h2.nobj.trans h4.nobj.symm, fun o ho =>
    (h2.map o (h2.nobj ▸ ho)).trans (h4.map o (h2.nobj ▸ ho)).symm⟩

/-! ### Locations -/

/-- Statements on existing nodes that put no node below itself. -/
def Stmt.Down (w : World) : Stmt → Prop
  | .op x => (∀ c, Val.node c ∈ x.vals → c < w.nobj) ∧ DownOp w x
  | .name _ _ => True
  | .parent o p => o < w.nobj ∧ ∀ q, p = some q → NotAbove w q (.node o)

/-- Programs of such statements. -/
def DownStmts (E : Env) : List Stmt → World → Prop
  | [], _ => True
  | s :: r, w => s.Down w ∧ DownStmts E r (runStmt E s w).2

/-- Heaps reached by such programs. -/
def StmtReachable (E : Env) (w : World) : Prop := ∃ l, DownStmts E l {} ∧ (runStmts E l {}).2 = w

theorem loc_assignName (o : Oid) (k : Key) (w : World) (p : Oid) :
    (assignName o k w).2.loc p = (if p = o then k else (w.loc p).1, (w.loc p).2) := by
  simp only [assignName, modO_apply, World.loc, upd]
  split
  · rename_i e; subst e; rfl
  · rfl

theorem loc_assignParent (o : Oid) (q : Option Oid) (w : World) (p : Oid) :
    (assignParent o q w).2.loc p = ((w.loc p).1, if p = o then q else (w.loc p).2) := by
  simp only [assignParent, modO_apply, World.loc, upd]
  split
  · rename_i e; subst e; rfl
  · rfl

theorem Intact.assign {w : World} (h : Intact w) (o : Oid) (f : Obj → Obj)
    (hp : ∀ p, (f (w.objs o)).parent = some p → o < w.nobj → p < w.nobj)
    (hf : ∀ b, (f b).fixed = b.fixed ∧ (f b).storage = b.storage ∧ (f b).cache = b.cache ∧ (f b).nodespaces = b.nodespaces ∧
      (f b).index = b.index) : Intact (modO o f w).2 := by
  obtain ⟨h1, h2, h3, h4, h5⟩ := hf (w.objs o)
  refine ⟨fun p q hq e => ?_, fun p k c hq e => ?_, h.stores, h.caches, h.nspaces, h.idxs, fun p r e => ?_, fun p r e => ?_,
    fun p r e => ?_, fun p r e => ?_⟩ <;> simp only [modO_apply, upd] at e <;> split at e
  · rename_i x; subst x; exact hp q e hq
  · exact h.parent p q hq e
  · rename_i x; subst x; exact h.fixed _ k c hq (h1 ▸ e)
  · exact h.fixed p k c hq e
  · exact h.storage _ _ (h2 ▸ e)
  · exact h.storage _ _ e
  · exact h.cache _ _ (h3 ▸ e)
  · exact h.cache _ _ e
  · exact h.nodespaces _ _ (h4 ▸ e)
  · exact h.nodespaces _ _ e
  · exact h.index _ _ (h5 ▸ e)
  · exact h.index _ _ e

theorem Sound.stmt {E : Env} {s : Stmt} {w : World} (hi : Intact w) (hw : WF w) (h : Sound w) (hd : s.Down w) :
    Intact (runStmt E s w).2 ∧ WF (runStmt E s w).2 ∧ Sound (runStmt E s w).2 := by
  cases s with
  | op op => exact ⟨hi.exec hd.1, (grow_exec E op w).wf hw, h.exec hi hw hd.2 hd.1⟩
  | name o k =>
    refine ⟨hi.assign o (fun ob => { ob with name := k }) (fun p hp ho => hi.parent o p ho hp) fun _ => ⟨rfl, rfl, rfl, rfl, rfl⟩,
      hw.modO o (fun ob => { ob with name := k }) rfl rfl rfl fun r hr => hw.iLt (o := o) hr, fun p hp => ?_⟩
    obtain ⟨h1, l, h2⟩ := h p hp
    refine ⟨fun q hq => h1 q ?_, l, h2.congr fun q _ => ?_⟩
    · rw [show (runStmt E (.name o k) w).2 = (assignName o k w).2 from rfl, loc_assignName] at hq; exact hq
    · rw [show (runStmt E (.name o k) w).2 = (assignName o k w).2 from rfl, loc_assignName]
  | parent o q =>
    have hq : ∀ p, q = some p → p < w.nobj := fun p e => (hd.2 p e).1
    refine ⟨hi.assign o (fun ob => { ob with parent := q }) (fun p hp _ => hq p hp) fun _ => ⟨rfl, rfl, rfl, rfl, rfl⟩,
      hw.modO o (fun ob => { ob with parent := q }) rfl rfl rfl fun r hr => hw.iLt (o := o) hr, fun p hp => ⟨fun r hr => ?_, ?_⟩⟩
    · rw [show (runStmt E (.parent o q) w).2 = (assignParent o q w).2 from rfl, loc_assignParent] at hr
      simp only at hr
      split at hr
      · exact hq r hr
      · exact (h p hp).1 r hr
    · obtain ⟨-, l, hl⟩ := h p hp
      show ∃ l, Chain (assignParent o q w).2 p l
      have hne : ∀ p, p ≠ o → ((assignParent o q w).2.loc p).2 = (w.loc p).2 := fun p e => by
        rw [loc_assignParent]; simp [e]
      have hoo : ((assignParent o q w).2.loc o).2 = q := by rw [loc_assignParent]; simp
      cases q with
      | some q =>
        obtain ⟨hq1, hq2⟩ := hd.2 q rfl
        obtain ⟨-, lq, hlq⟩ := h q hq1
        refine hlq.move (c := o) ?_ hne (.inr hoo) hl
        rintro hm
        rcases List.mem_cons.mp hm with e | e
        · exact (hq2 o rfl).1 e
        · exact (hq2 o rfl).2 (hlq.ancestor_iff.mpr e)
      | none =>
        clear hp
        induction hl with
        | @root p e =>
          by_cases x : p = o
          · subst x; exact ⟨_, .root hoo⟩
          · exact ⟨_, .root ((hne p x).trans e)⟩
        | @up p r l e _ ih =>
          by_cases x : p = o
          · subst x; exact ⟨_, .root hoo⟩
          · obtain ⟨l', hl'⟩ := ih; exact ⟨_, .up ((hne p x).trans e) hl'⟩

theorem Sound.stmts {E : Env} (l : List Stmt) {w : World} (hi : Intact w) (hw : WF w) (h : Sound w)
    (hd : DownStmts E l w) : Intact (runStmts E l w).2 ∧ WF (runStmts E l w).2 ∧ Sound (runStmts E l w).2 := by
  induction l generalizing w with
  | nil => exact ⟨hi, hw, h⟩
  | cons s r ih =>
    obtain ⟨h1, h2, h3⟩ := h.stmt (E := E) hi hw hd.1
    exact ih h1 h2 h3 hd.2

theorem StmtReachable.inv {E : Env} {w : World} (h : StmtReachable E w) : Intact w ∧ WF w ∧ Sound w := by
  obtain ⟨l, hl, rfl⟩ := h
  exact Sound.stmts l Intact.empty WF.empty (fun o ho => absurd ho (Nat.not_lt_zero _)) hl

theorem StmtReachable.sound {E : Env} {w : World} (h : StmtReachable E w) : Sound w := h.inv.2.2

/-- C81, C12 for programs that write down locations: as long as no node is put below itself, all parents end. -/
theorem c81_finite {E : Env} {w : World} (h : StmtReachable E w) {o : Oid} (ho : o < w.nobj) : ∃ l, Chain w o l :=
  (h.sound o ho).2

theorem Chain.pathOf' {w : World} {p : Oid} {l : List Oid} (hl : Chain w p l) (hn : l.length < w.nobj) :
    pathOf w p = some ((p :: l).map fun q => (w.loc q).1).reverse := by
  unfold pathOf
  rw [hl.namesUp (by omega), Option.map_some]

theorem Chain.rootOf' {w : World} {p : Oid} {l : List Oid} (hl : Chain w p l) (hn : l.length < w.nobj) :
    rootOf w p = some ((p :: l).getLast (List.cons_ne_nil _ _)) := hl.rootN (by omega)

theorem Chain.acquire' {w : World} {p : Oid} {l : List Oid} (hl : Chain w p l) (hn : l.length < w.nobj) (t : Oid → Bool) :
    Verif.acquire w t p = some (l.find? t) := hl.acquireN t (by omega)

section
variable {E : Env} {w : World} (h : StmtReachable E w)
include h

/-- C81, `node.__name__ = k`: in the path of every node the name of that node is replaced, if it occurs there;
`root` and `acquire` are as before. -/
theorem c81_rename (o : Oid) (k : Key) {p : Oid} (hp : p < w.nobj) {l : List Oid} (hl : Chain w p l) :
    pathOf w p = some ((p :: l).map fun q => (w.loc q).1).reverse ∧
    pathOf (assignName o k w).2 p = some ((p :: l).map fun q => if q = o then k else (w.loc q).1).reverse ∧
    rootOf (assignName o k w).2 p = rootOf w p ∧
    ∀ t, acquire (assignName o k w).2 t p = acquire w t p := by
  have hn := h.sound.length hl hp
  have hl' : Chain (assignName o k w).2 p l := hl.congr fun q _ => by rw [loc_assignName]
  refine ⟨hl.pathOf' hn, ?_, ?_, fun t => ?_⟩
  · rw [hl'.pathOf' hn]
    simp only [loc_assignName]
  · rw [hl.rootOf' hn, hl'.rootOf' hn]
  · rw [hl.acquire' hn, hl'.acquire' hn]

/-- C81, `node.__parent__ = q`, every node that is not located at or below that node: nothing changes. -/
theorem c81_elsewhere (o : Oid) (q : Option Oid) {p : Oid} (hp : p < w.nobj) (hpo : p ≠ o) (ha : ¬ Ancestor w o p) :
    pathOf (assignParent o q w).2 p = pathOf w p ∧ rootOf (assignParent o q w).2 p = rootOf w p ∧
    ∀ t, acquire (assignParent o q w).2 t p = acquire w t p := by
  obtain ⟨l, hl⟩ := c81_finite h hp
  have hn := h.sound.length hl hp
  have hl' : Chain (assignParent o q w).2 p l := hl.congr fun r hr => by
    rw [loc_assignParent]
    have : r ≠ o := fun e => by
      subst e
      rcases List.mem_cons.mp hr with e | e
      · exact hpo e.symm
      · exact ha (hl.ancestor_iff.mpr e)
    simp [this]
  refine ⟨?_, ?_, fun t => ?_⟩
  · rw [hl.pathOf' hn, hl'.pathOf' hn]
    simp only [loc_assignParent]
  · rw [hl.rootOf' hn, hl'.rootOf' hn]
  · rw [hl.acquire' hn, hl'.acquire' hn]

end

/-- The parents from `p` up to `o`, then those of `o`. -/
theorem Chain.split {w : World} {o p : Oid} {l : List Oid} (hl : Chain w p l) (hm : o ∈ p :: l) :
    ∃ s t, p :: l = s ++ o :: t ∧ o ∉ s ∧ Chain w o t := by
  have hnd := hl.nodup
  rcases List.mem_cons.mp hm with rfl | hm
  · exact ⟨[], l, rfl, nofun, hl⟩
  · obtain ⟨s, t, rfl, ht⟩ := hl.suffix hm
    refine ⟨p :: s, t, rfl, fun hs => ?_, ht⟩
    rw [show p :: (s ++ o :: t) = (p :: s) ++ o :: t from rfl] at hnd
    exact (List.nodup_append.mp hnd).2.2 o hs o List.mem_cons_self rfl

/-- With another chain above `o`. -/
theorem Chain.graft {w w' : World} {o p : Oid} {l s t t' : List Oid} (hl : Chain w p l) (he : p :: l = s ++ o :: t)
    (hs : ∀ q ∈ s, (w'.loc q).2 = (w.loc q).2) (ht : Chain w' o t') :
    ∃ l', Chain w' p l' ∧ p :: l' = s ++ o :: t' := by
  induction hl generalizing s with
  | @root p e =>
    cases s with
    | nil => simp only [List.nil_append, List.cons.injEq] at he; rw [he.1]; exact ⟨t', ht, rfl⟩
    | cons a s => simp at he
  | @up p r l e hc ih =>
    cases s with
    | nil => simp only [List.nil_append, List.cons.injEq] at he; rw [he.1]; exact ⟨t', ht, rfl⟩
    | cons a s =>
      simp only [List.cons_append, List.cons.injEq] at he
      obtain ⟨rfl, he⟩ := he
      obtain ⟨l', h1, h2⟩ := ih he fun q hq => hs q (List.mem_cons_of_mem _ hq)
      refine ⟨r :: l', .up ((hs p List.mem_cons_self).trans e) h1, ?_⟩
      rw [h2]; rfl

section
variable {E : Env} {w : World} (h : StmtReachable E w) {o : Oid} (ho : o < w.nobj) {p : Oid} (hp : p < w.nobj)
  {l s t : List Oid} (hl : Chain w p l) (he : p :: l = s ++ o :: t) (hs : o ∉ s)
include h ho hp hl he hs

/-- C81, `node.__parent__ = q` where `q` is not located at or below the node: the paths of all nodes located at or
below it go on as the path of `q` does, their root is the root of `q`, and `acquire` looks at the nodes in
between, then at `q` and what is above. -/
theorem c81_move {q : Oid} (hq : NotAbove w q (.node o)) {lq : List Oid} (hlq : Chain w q lq) :
    (∃ m, pathOf w q = some m ∧
      pathOf (assignParent o (some q) w).2 p = some (m ++ ((s ++ [o]).map fun r => (w.loc r).1).reverse)) ∧
    rootOf (assignParent o (some q) w).2 p = rootOf w q ∧
    ∀ f, acquire (assignParent o (some q) w).2 f p = some ((((s ++ [o]).drop 1) ++ q :: lq).find? f) := by
  have hst : Sound (assignParent o (some q) w).2 :=
    (h.inv.2.2.stmt (E := E) (s := .parent o (some q)) h.inv.1 h.inv.2.1
      ⟨ho, fun r e => by injection e with e; subst e; exact hq⟩).2.2
  have hne : ∀ r, r ≠ o → ((assignParent o (some q) w).2.loc r).2 = (w.loc r).2 := fun r e => by
    rw [loc_assignParent]; simp [e]
  have hoo : ((assignParent o (some q) w).2.loc o).2 = some q := by rw [loc_assignParent]; simp
  have hqo : o ∉ q :: lq := fun hm => by
    rcases List.mem_cons.mp hm with e | e
    · exact (hq.2 o rfl).1 e
    · exact (hq.2 o rfl).2 (hlq.ancestor_iff.mpr e)
  have hlq' : Chain (assignParent o (some q) w).2 q lq := hlq.congr fun r hr => hne r fun e => hqo (e ▸ hr)
  obtain ⟨l', h1, h2⟩ := hl.graft he (fun r hr => hne r fun e => hs (e ▸ hr)) (.up hoo hlq')
  have hn := hst.length h1 hp
  have hnq := h.sound.length hlq hq.1
  have hd : l' = ((s ++ [o]).drop 1) ++ q :: lq := by
    have := congrArg (List.drop 1) h2
    cases s with
    | nil => simpa using this
    | cons a s => simpa using this
  refine ⟨⟨_, hlq.pathOf' hnq, ?_⟩, ?_, fun f => ?_⟩
  · rw [h1.pathOf' hn, h2, show s ++ o :: q :: lq = (s ++ [o]) ++ q :: lq by simp, List.map_append, List.reverse_append]
    simp only [loc_assignParent]
  · rw [h1.rootOf' hn, hlq.rootOf' hnq]
    congr 1
    simp only [h2]
    rw [List.getLast_append_of_ne_nil (by simp) (by simp), List.getLast_cons (by simp)]
  · rw [h1.acquire' hn, hd]

/-- C81, `node.__parent__ = None`: the node is the root of itself and of all nodes located below it, their paths
start with its name, and `acquire` looks no further up. -/
theorem c81_cut :
    pathOf (assignParent o none w).2 p = some ((s ++ [o]).map fun r => (w.loc r).1).reverse ∧
    rootOf (assignParent o none w).2 p = some o ∧
    ∀ f, acquire (assignParent o none w).2 f p = some (((s ++ [o]).drop 1).find? f) := by
  have hst : Sound (assignParent o none w).2 :=
    (h.inv.2.2.stmt (E := E) (s := .parent o none) h.inv.1 h.inv.2.1 ⟨ho, nofun⟩).2.2
  have hne : ∀ r, r ≠ o → ((assignParent o none w).2.loc r).2 = (w.loc r).2 := fun r e => by
    rw [loc_assignParent]; simp [e]
  have hoo : ((assignParent o none w).2.loc o).2 = none := by rw [loc_assignParent]; simp
  obtain ⟨l', h1, h2⟩ := hl.graft he (fun r hr => hne r fun e => hs (e ▸ hr)) (.root hoo)
  have hn := hst.length h1 hp
  have hd : l' = (s ++ [o]).drop 1 := by
    have := congrArg (List.drop 1) h2
    cases s with
    | nil => simpa using this
    | cons a s => simpa using this
  refine ⟨?_, ?_, fun f => ?_⟩
  · rw [h1.pathOf' hn, h2]
    simp only [loc_assignParent]
  · rw [h1.rootOf' hn]
    congr 1
    simp only [h2]
    simp
  · rw [h1.acquire' hn, hd]
end

theorem chain_of_rootN {w : World} {n : Nat} {o r : Oid} (h : rootN w n o = some r) : ∃ l, Chain w o l := by
  induction n generalizing o with
  | zero => cases h
  | succ n ih =>
    unfold rootN at h
    cases e : (w.objs o).parent with
    | none => exact ⟨_, .root e⟩
    | some p =>
      rw [e] at h
      obtain ⟨l, hl⟩ := ih h
      exact ⟨_, .up e hl⟩

theorem chain_of_namesUp {w : World} {n : Nat} {o : Oid} {m : List Key} (h : namesUp w n o = some m) :
    ∃ l, Chain w o l := by
  induction n generalizing o m with
  | zero => cases h
  | succ n ih =>
    unfold namesUp at h
    cases e : (w.objs o).parent with
    | none => exact ⟨_, .root e⟩
    | some p =>
      rw [e] at h
      cases e' : namesUp w n p with
      | none => simp [e'] at h
      | some m =>
        obtain ⟨l, hl⟩ := ih e'
        exact ⟨_, .up e hl⟩

/-- What was above stays above. -/
theorem above_assignParent {w : World} {o p : Oid} (q : Option Oid) (h : p = o ∨ Ancestor w o p) :
    p = o ∨ Ancestor (assignParent o q w).2 o p := by
  rcases h with h | h
  · exact .inl h
  have hne : ∀ r, r ≠ o → ((assignParent o q w).2.loc r).2 = (w.loc r).2 := fun r e => by
    rw [loc_assignParent]; simp [e]
  induction h with
  | @parent r e =>
    by_cases x : r = o
    · exact .inl x
    · exact .inr (.parent ((hne r x).trans e))
  | @up r p e _ ih =>
    by_cases x : r = o
    · exact .inl x
    · rcases ih with rfl | ih
      · exact .inr (.parent ((hne r x).trans e))
      · exact .inr (.up ((hne r x).trans e) ih)

/-- C81, `node.__parent__ = q` where `q` is the node or located below it, in any state: `path` and `root` of the node
and of every node located below it do not end. -/
theorem c81_endless {w : World} {o q : Oid} (hq : q = o ∨ Ancestor w o q) {p : Oid} (hp : p = o ∨ Ancestor w o p) :
    pathOf (assignParent o (some q) w).2 p = none ∧ rootOf (assignParent o (some q) w).2 p = none := by
  have hoo : ((assignParent o (some q) w).2.loc o).2 = some q := by rw [loc_assignParent]; simp
  have hself : Ancestor (assignParent o (some q) w).2 o o := by
    rcases above_assignParent (some q) hq with e | e
    · subst e; exact .parent hoo
    · exact .up hoo e
  have no : ∀ l, ¬ Chain (assignParent o (some q) w).2 p l := fun l hl => by
    obtain ⟨t, ht⟩ : ∃ t, Chain (assignParent o (some q) w).2 o t := by
      rcases above_assignParent (some q) hp with e | e
      · subst e; exact ⟨l, hl⟩
      · obtain ⟨s, t, -, ht⟩ := hl.suffix (hl.ancestor_iff.mp e)
        exact ⟨t, ht⟩
    exact ht.not_mem (ht.ancestor_iff.mp hself)
  constructor
  · unfold pathOf
    cases e : namesUp (assignParent o (some q) w).2 ((assignParent o (some q) w).2.nobj + 1) p with
    | none => rfl
    | some m => obtain ⟨l, hl⟩ := chain_of_namesUp e; exact absurd hl (no l)
  · cases e : rootOf (assignParent o (some q) w).2 p with
    | none => rfl
    | some r => obtain ⟨l, hl⟩ := chain_of_rootN e; exact absurd hl (no l)

/-! ### Instances -/

/-- A tree of three levels. -/
def c81Ops : List Stmt :=
  [.op (.new 1 ka none), .op (.new 1 .none none), .op (.new 1 .none none), .op (.set 0 kb (.node 1)),
   .op (.set 1 kc (.node 2)), .op (.new 1 kc none)]

/-- The same, then the child in the middle is renamed and given another parent, though it stays in the first. -/
def c81Moved : List Stmt := c81Ops ++ [.name 1 ka, .parent 1 (some 3), .op (.keys 0), .op (.values 0)]

example : (runStmts sampleEnv c81Moved {}).1.drop 6 = [.ok (.keys [kb]), .ok (.vals [.node 1])] ∧
    pathOf (runStmts sampleEnv c81Ops {}).2 2 = some [ka, kb, kc] ∧
    pathOf (runStmts sampleEnv c81Moved {}).2 2 = some [kc, ka, kc] ∧
    rootOf (runStmts sampleEnv c81Moved {}).2 2 = some 3 := by decide +kernel

theorem c81Moved_history : MapHistory sampleEnv (refOf sampleEnv) (opsIn c81Moved) {} := by
  have hk : ∀ k, KeyFor orderedNode k := fun k h => absurd h (by decide)
  exact ⟨.inl ⟨_, _, _, rfl, mapClass_orderedNode, by decide⟩, .inl ⟨_, _, _, rfl, mapClass_orderedNode, by decide⟩,
    .inl ⟨_, _, _, rfl, mapClass_orderedNode, by decide⟩, .inr ⟨_, _, rfl, by decide, fun k _ => hk k⟩,
    .inr ⟨_, _, rfl, by decide, fun k _ => hk k⟩, .inl ⟨_, _, _, rfl, mapClass_orderedNode, by decide⟩,
    .inr ⟨_, _, rfl, by decide, fun k _ => hk k⟩, .inr ⟨_, _, rfl, by decide, fun k _ => hk k⟩, trivial⟩

/-- Caching Reference trees with attributes, child factories and events, and no class that looks at locations. -/
def placedEnv : Env where
  cls
    | 0 => { bhvs := [.nodeChildValidate, .nodespaces, .adopt, .attributes, .lifecycle, .reference, .cache, .invalidate,
        .order, .defaultInit, .nodify, .odictStorage], attrsFactory := 3 }
    | 1 => factoryNode
    | _ => nodeAttributes

theorem placedEnv_unplaced : Unplaced placedEnv
  | 0 => ⟨by decide, by decide⟩
  | 1 => ⟨by decide, by decide⟩
  | _ + 2 => ⟨(by decide : Bhv.fallback ∉ nodeAttributes.bhvs), (by decide : Bhv.attributesLifecycle ∉ nodeAttributes.bhvs)⟩

/-- Renamed and moved before a child is read, detached, and inserted again. -/
def c81Placed : List Stmt :=
  [.op (.new 0 ka none), .op (.new 0 .none none), .op (.set 0 kb (.node 1)), .parent 1 none, .name 1 kc,
   .op (.attrs 1), .op (.get 0 kb), .op (.detach 0 kb), .parent 1 (some 1), .op (.set 0 kb (.node 1)), .name 0 kc]

example : (∀ op ∈ opsIn c81Placed, op.byName = false) ∧ (opsIn c81Placed).length = 7 ∧
    (runStmts placedEnv c81Placed {}).1.drop 4 = [.ok (.val (.node 1)), .ok (.val (.node 1)), .ok .unit] ∧
    (runStmts placedEnv c81Placed {}).2.loc 1 = (kb, some 0) ∧ (runStmts placedEnv c81Placed {}).2.loc 0 = (kc, none) := by
  decide +kernel

/-- Fallback looks at locations: a language falls back to the default language of the same tree, but not if its
parent is no longer written down. -/
def c81Fallback (l : List Stmt) : List Stmt :=
  [.op (.new 10 ka none), .op (.new 10 .none none), .op (.new 10 .none none), .op (.new 10 .none none),
   .op (.set 0 (.str ['e', 'n']) (.node 1)), .op (.set 0 (.str ['d', 'e']) (.node 2)), .op (.set 1 kb (.node 3))] ++ l ++
  [.op (.get 2 kb)]

example : (runStmts sampleEnv (c81Fallback []) {}).1.drop 7 = [.ok (.val (.node 3))] ∧
    (runStmts sampleEnv (c81Fallback [.parent 2 none]) {}).1.drop 7 ≠ [.ok (.val (.node 3))] := by decide +kernel

/-- `insertbefore` takes the key of the new child from its name. -/
example : (runStmts sampleEnv [.op (.new 7 .none none), .op (.new 7 .none none), .op (.new 7 .none none),
      .op (.set 0 kb (.node 1)), .name 2 ka, .op (.insertBefore 0 2 1), .op (.keys 0)] {}).1.drop 4 =
    [.ok .unit, .ok (.keys [ka, kb])] := by decide +kernel

end Verif
