import Verif.Props.C08

/-!
# C75 `UnicodeAware` and bytes

`UnicodeAware` is to ensure that keys and string values are text.  In Python 3 it looks for `str`, which
already is text, and lets bytes pass.  So the property is false: bytes stay bytes.  What is true is that
the behavior does nothing at all.
-/

namespace Verif

variable {E : Env} {o : Oid} {w w' : World}

/-- C75: `UnicodeAware` at any place of a pipeline makes no difference to an assignment. -/
theorem c75_set (l r : List Bhv) (k : Key) (v : Val) :
    setPipe E (l ++ .unicodeAware :: r) o k v = setPipe E (l ++ r) o k v := by
  induction l generalizing k v with
  | nil => rfl
  | cons b l ih =>
    have ih' : setPipe E (l ++ .unicodeAware :: r) o = setPipe E (l ++ r) o := funext fun _ => funext fun _ => ih ..
    cases b <;> simp only [List.cons_append, setPipe, ih']

/-- C75: nor to reading an item. -/
theorem c75_get (fb : Oid → Key → Exc → M Val) (l r : List Bhv) (k : Key) :
    getPipe E fb (l ++ .unicodeAware :: r) o k = getPipe E fb (l ++ r) o k := by
  induction l generalizing k with
  | nil => rfl
  | cons b l ih =>
    have ih' : getPipe E fb (l ++ .unicodeAware :: r) o = getPipe E fb (l ++ r) o := funext ih
    cases b <;> simp only [List.cons_append, getPipe, ih']

/-- C75: nor to a deletion. -/
theorem c75_del (l r : List Bhv) (k : Key) :
    delPipe E (l ++ .unicodeAware :: r) o k = delPipe E (l ++ r) o k := by
  induction l generalizing k with
  | nil => rfl
  | cons b l ih =>
    have ih' : delPipe E (l ++ .unicodeAware :: r) o = delPipe E (l ++ r) o := funext ih
    cases b <;> simp only [List.cons_append, delPipe, ih']

/-- C75 is false for every class without `Alias`: a child assigned under bytes is stored under these
bytes, and under no text. -/
theorem c75_bytes_kept (hw : WF w) (hn : Bhv.alias ∉ (clsOf E w o).bhvs) (b : List UInt8) (v : Val)
    (h : setitem E o (.bytes b) v w = (.ok (), w')) :
    (w'.omap o).val (.bytes b) = some v ∧ ∀ s, (w'.omap o).val (.str s) = (w.omap o).val (.str s) := by
  rcases c02_set_ok E o (.bytes b) v hw h with ⟨j, h1, h2, -⟩ | ⟨j, h1, -⟩
  · have := noAlias_dest _ hn h1
    subst this
    rw [h2]
    exact ⟨if_pos rfl, fun s => show (if Key.str s = .bytes b then some v else _) = _ from if_neg nofun⟩
  · exfalso
    generalize (clsOf E w o).bhvs = bs at h1 hn
    induction bs with
    | nil => cases h1
    | cons b' r ih =>
      have hr : Bhv.alias ∉ r := fun h => hn (List.mem_cons_of_mem _ h)
      cases b' <;> first
        | exact ih h1 hr
        | exact hn List.mem_cons_self
        | cases h1

/-- A class with `UnicodeAware`. -/
def unicodeEnv : Env where
  cls _ := { bhvs := [.adopt, .unicodeAware, .defaultInit, .nodify, .odictStorage] }

/-- C75 is false: what was assigned under `b'a'` is not found under `'a'`, the keys are bytes, and so is a
value. -/
theorem c75_refuted : ∃ ops, (mitems unicodeEnv 0 (after unicodeEnv ops)).1 =
      .ok [(.bytes [97], .data (.bytes [98]))] ∧
    (getitem unicodeEnv 0 (.str ['a']) (after unicodeEnv ops)).1 = .error (.key (.key (.str ['a']))) ∧
    (delitem unicodeEnv 0 (.str ['a']) (after unicodeEnv ops)).1 = .error (.key (.key (.str ['a']))) :=
  ⟨[.new 0 .none none, .set 0 (.bytes [97]) (.data (.bytes [98]))], by decide +kernel, by decide +kernel,
    by decide +kernel⟩

example : setPipe unicodeEnv [.adopt, .unicodeAware, .defaultInit, .nodify, .odictStorage] 0 ka (.node 1) =
    setPipe unicodeEnv [.adopt, .defaultInit, .nodify, .odictStorage] 0 ka (.node 1) :=
  c75_set [.adopt] [.defaultInit, .nodify, .odictStorage] ka (.node 1)

example : ∃ w', setitem unicodeEnv 0 (.bytes [97]) (.data (.int 1)) (after unicodeEnv [.new 0 .none none]) =
      (.ok (), w') ∧ (w'.omap 0).val (.bytes [97]) = some (.data (.int 1)) :=
  have h : setitem unicodeEnv 0 (.bytes [97]) (.data (.int 1)) (after unicodeEnv [.new 0 .none none]) =
      (.ok (), _) := Prod.ext (by decide +kernel) rfl
  ⟨_, h, (c75_bytes_kept (reachable_after ..).wf (by decide +kernel) _ _ h).1⟩

end Verif
