import Verif.Spec.View

/-!
# Arguments of constructors
-/

namespace Verif

theorem newNode_accepts {E : Env} {c : ClassId} {name : Key} {parent : Option Oid}
    (h : (E.cls c).Accepts name parent) : newNode E c name parent = newNodeN E E.depth c name parent := by
  unfold newNode
  rw [if_pos]
  rcases h with ⟨h1, h2⟩ | ⟨h1, h2⟩
  · subst h1 h2; simp
  · simp [ClassDef.takesArgs, h1, h2]

theorem newNode_refuses {E : Env} {c : ClassId} {name : Key} {parent : Option Oid}
    (h : ¬ (E.cls c).Accepts name parent) : newNode E c name parent = M.raise .type := by
  unfold newNode
  rw [if_neg]
  intro h'
  apply h
  simp only [ClassDef.takesArgs, Bool.or_eq_true, Bool.and_eq_true, Bool.not_eq_true', beq_iff_eq,
    List.contains_iff_mem, ← Bool.not_eq_true, Option.isNone_iff_eq_none] at h'
  exact h'.symm

theorem newNode_cases (E : Env) (c : ClassId) (name : Key) (parent : Option Oid) :
    newNode E c name parent = newNodeN E E.depth c name parent ∨ newNode E c name parent = M.raise .type := by
  by_cases h : (E.cls c).Accepts name parent
  · exact .inl (newNode_accepts h)
  · exact .inr (newNode_refuses h)

theorem newNode_ok {E : Env} {c : ClassId} {name : Key} {parent : Option Oid} {w w' : World} {o : Oid}
    (h : newNode E c name parent w = (.ok o, w')) : newNodeN E E.depth c name parent w = (.ok o, w') := by
  rcases newNode_cases E c name parent with e | e
  · rwa [e] at h
  · rw [e] at h; cases h

theorem newNode_ok_accepts {E : Env} {c : ClassId} {name : Key} {parent : Option Oid} {w w' : World} {o : Oid}
    (h : newNode E c name parent w = (.ok o, w')) : (E.cls c).Accepts name parent := by
  by_cases e : (E.cls c).Accepts name parent
  · exact e
  · rw [newNode_refuses e] at h; cases h

end Verif
