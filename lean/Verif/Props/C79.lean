import Mathlib.Data.List.Forall2
import Verif.Model.Report
import Verif.Props.C61
import Verif.Props.C62

/-!
# C79: the reports of the tester

Where a method comes from is said by the method resolution order of the tested class, of which only this is used:
it begins with the class itself and its first base, and all bases are in it.  `wherefrom` is right for methods
defined by the class itself or by its only base, and for methods that exist nowhere if there is one base, and wrong
in all other cases.
-/

namespace Verif.Tester

/-- What is known of the `__mro__` of a class. -/
structure Mro (c : PyClass) (l : List PyClass) : Prop where
  first : ∃ r, l = c :: r ∧ r.head? = c.bases.head?
  bases : ∀ b ∈ c.bases, b ∈ l

/-- Class names are not empty and have no blanks. -/
def ClassNames (l : List PyClass) : Prop := ∀ c ∈ l, c.name ≠ "" ∧ ' ' ∉ c.name.toList

/-- The text a reader of `wherefrom` relies on: the name of the first class of the resolution order that has the
function in its body. -/
inductive Origin (n : Name) : List PyClass → String → Prop
  | here {c l} : n ∈ c.dict → Origin n (c :: l) c.name
  | later {c l s} : n ∉ c.dict → Origin n l s → Origin n (c :: l) s
  | nowhere : Origin n [] "function not found on object"

theorem Origin.cases {n : Name} {l : List PyClass} {s : String} (h : Origin n l s) :
    (∃ c ∈ l, n ∈ c.dict ∧ s = c.name) ∨ (∀ c ∈ l, n ∉ c.dict) ∧ s = notFound := by
  induction h with
  | here h => exact .inl ⟨_, List.mem_cons_self, h, rfl⟩
  | nowhere => exact .inr ⟨(fun _ h => nomatch h), rfl⟩
  | later h _ ih =>
    rcases ih with ⟨c, hc, h1, h2⟩ | ⟨h1, h2⟩
    · exact .inl ⟨c, List.mem_cons_of_mem _ hc, h1, h2⟩
    · refine .inr ⟨fun c hc => ?_, h2⟩
      rcases List.mem_cons.mp hc with rfl | hc
      · exact h
      · exact h1 c hc

theorem Origin.here_eq {n : Name} {c : PyClass} {l : List PyClass} {s : String} (h : Origin n (c :: l) s) (hc : n ∈ c.dict) :
    s = c.name := by
  cases h with
  | here => rfl
  | later h _ => exact absurd hc h

theorem append_right_self {a b : String} (h : a ++ b = a) : b = "" := by
  have := congrArg String.toList h
  rw [String.toList_append] at this
  have : b.toList = [] := by simpa using this
  exact String.toList_eq_nil_iff.mp this

theorem basesText_ne {n : Name} {b : PyClass} {l : List PyClass} (hb : b.name ≠ "") : basesText n (b :: l) ≠ "" := by
  intro h
  have h := congrArg String.toList h
  unfold basesText at h
  rw [String.toList_append] at h
  have h := (List.append_eq_nil_iff.mp h).1
  split at h
  · exact hb (String.toList_eq_nil_iff.mp h)
  · exact absurd h (by decide)

theorem blank_notFound : ' ' ∈ notFound.toList := by decide

/-- C79, where functions come from: each line is right exactly if the class has the function in its own body, or
has one base and this has the function in its body or no class has it. -/
theorem c79_origin_partial {c : PyClass} {l : List PyClass} {n : Name} {s : String} (hm : Mro c l) (hn : ClassNames l)
    (ho : Origin n l s) :
    wherefromLine c n = n ++ ": " ++ s ↔
      n ∈ c.dict ∨ ∃ b, c.bases = [b] ∧ (n ∈ b.dict ∨ ∀ x ∈ l, n ∉ x.dict) := by
  obtain ⟨r, rfl, hr⟩ := hm.first
  unfold wherefromLine
  by_cases hc : n ∈ c.dict
  · rw [if_pos hc, ho.here_eq hc]
    exact ⟨fun _ => .inl hc, fun _ => rfl⟩
  rw [if_neg hc]
  have ho' : Origin n r s := by
    cases ho with
    | here h => exact absurd h hc
    | later _ h => exact h
  have hs : s ≠ "" ∧ (' ' ∈ s.toList → s = notFound) := by
    rcases ho.cases with ⟨x, hx, -, rfl⟩ | ⟨-, rfl⟩
    · exact ⟨(hn x hx).1, fun h => absurd h (hn x hx).2⟩
    · exact ⟨by decide, fun _ => rfl⟩
  have hcancel : n ++ ": " ++ basesText n c.bases = n ++ ": " ++ s ↔ basesText n c.bases = s := by
    constructor
    · intro h
      have h := congrArg String.toList h
      simp only [String.toList_append] at h
      exact String.ext (List.append_cancel_left h)
    · intro h; rw [h]
  rw [hcancel]
  cases hb : c.bases with
  | nil =>
    refine ⟨fun h => absurd h.symm hs.1, ?_⟩
    rintro (h | ⟨b, h, -⟩)
    · exact absurd h hc
    · cases h
  | cons b bs =>
    rw [hb] at hr
    obtain ⟨r', rfl⟩ : ∃ r', r = b :: r' := by
      cases r with
      | nil => cases hr
      | cons x r' => exact ⟨r', by injection hr with h; rw [h]⟩
    have hbn : b.name ≠ "" := (hn b (List.mem_cons_of_mem _ List.mem_cons_self)).1
    constructor
    · intro h
      refine .inr ⟨b, ?_⟩
      have hbs : bs = [] := by
        cases bs with
        | nil => rfl
        | cons d ds =>
          exfalso
          have hd : basesText n (d :: ds) ≠ "" := basesText_ne (hn d (hm.bases d (by rw [hb]; simp))).1
          rw [show basesText n (b :: d :: ds) = (if n ∈ b.dict then b.name else notFound) ++ basesText n (d :: ds) from rfl] at h
          by_cases hbd : n ∈ b.dict
          · rw [if_pos hbd, ho'.here_eq hbd] at h
            exact hd (append_right_self h)
          · rw [if_neg hbd] at h
            have : s = notFound := hs.2 (by
              rw [← h, String.toList_append]; exact List.mem_append_left _ blank_notFound)
            rw [this] at h
            exact hd (append_right_self h)
      subst hbs
      refine ⟨rfl, ?_⟩
      by_cases hbd : n ∈ b.dict
      · exact .inl hbd
      · right
        have h : (if n ∈ b.dict then b.name else notFound) ++ "" = s := h
        rw [if_neg hbd, String.append_empty] at h
        rcases ho.cases with ⟨x, hx, -, e⟩ | ⟨h1, -⟩
        · exact absurd (by rw [← e, ← h]; exact blank_notFound) (hn x hx).2
        · exact h1
    · rintro (h | ⟨b', h, h'⟩)
      · exact absurd h hc
      · injection h with h1 h2
        subst h1; subst h2
        show (if n ∈ b.dict then b.name else notFound) ++ "" = s
        rw [String.append_empty]
        by_cases hbd : n ∈ b.dict
        · rw [if_pos hbd, ho'.here_eq hbd]
        · rw [if_neg hbd]
          rcases ho.cases with ⟨x, hx, hxn, -⟩ | ⟨-, e⟩
          · exact absurd hxn ((h'.resolve_left hbd) x hx)
          · exact e.symm

/-- C79, the lines of `wherefrom`: one per entry of the contract, sorted by name. -/
theorem c79_lines (c : PyClass) (l : List Name) :
    ∃ names : List Name, names.Perm l ∧ names.Pairwise (fun a b => strLe a.toList b.toList = true) ∧
      wherefrom c l = names.map (wherefromLine c) :=
  ⟨_, sortBy_perm l, sortBy_sorted l, rfl⟩

/-- C79, results: whatever the tests did, `combined` has one line for every name that was reported, with what was
reported for it, sorted by name. -/
theorem c79_combined {S : Type} (tests : Tests S) (direct : Bool) (l : List Name) (s : S) :
    ∃ names : List Name, names.Perm (run tests direct l [] s).2.1.keys ∧ names.Nodup ∧
      names.Pairwise (fun a b => strLe a.toList b.toList = true) ∧
      List.Forall₂ (fun n t => ∃ v, (run tests direct l [] s).2.1.get? n = some v ∧ t = "``" ++ n ++ "``: " ++ v)
        names (combined (run tests direct l [] s).2.1) := by
  have hnd : ∀ (l : List Name) (r : Od Name String) (s : S), r.keys.Nodup → (run tests direct l r s).2.1.keys.Nodup := by
    intro l
    induction l with
    | nil => exact fun r s h => h
    | cons n l ih =>
      intro r s h
      unfold run
      cases tests n with
      | none => exact h
      | some f =>
        simp only
        rcases f s with ⟨o, s'⟩
        have hs : ∀ v, (r.set n v).keys.Nodup := fun v => Od.nodup_keys_set h n v
        cases o with
        | returned => exact ih _ _ (hs _)
        | raised e =>
          simp only
          split
          · exact h
          · exact ih _ _ (hs _)
        | aborted e => exact h
  have hr := hnd l [] s List.nodup_nil
  generalize (run tests direct l [] s).2.1 = r at hr ⊢
  have hp : (sortBy (fun x : Name × String => x.1.toList) r).Perm r := sortBy_perm r
  refine ⟨(sortBy (fun x : Name × String => x.1.toList) r).map Prod.fst, hp.map _, ?_, ?_, ?_⟩
  · exact (hp.map Prod.fst).nodup_iff.mpr hr
  · exact List.pairwise_map.mpr (sortBy_sorted (f := fun x : Name × String => x.1.toList) r)
  · unfold combined
    have : ∀ m : List (Name × String), (∀ x ∈ m, x ∈ r) → List.Forall₂ (fun n t => ∃ v, r.get? n = some v ∧ t = "``" ++ n ++ "``: " ++ v)
        (m.map Prod.fst) (m.map fun x => "``" ++ x.1 ++ "``: " ++ x.2) := by
      intro m hm
      induction m with
      | nil => exact .nil
      | cons x m ih =>
        exact .cons ⟨x.2, Od.get?_of_mem hr (hm x List.mem_cons_self), rfl⟩ (ih fun y hy => hm y (List.mem_cons_of_mem _ hy))
    exact this _ fun x hx => hp.mem_iff.mp hx

/-! ### Concrete cases -/

/-- `object`, two classes with a method each, and classes below them. -/
def objectClass : PyClass := .mk "object" ["__init__"] []
def implA : PyClass := .mk "A" ["a"] [objectClass]
def implB : PyClass := .mk "B" ["b"] [objectClass]
def onlyA : PyClass := .mk "OnlyA" ["own"] [implA]
def both : PyClass := .mk "Both" ["own"] [implA, implB]

theorem onlyA_mro : Mro onlyA [onlyA, implA, objectClass] :=
  ⟨⟨_, rfl, rfl⟩, fun b h => by rcases List.mem_singleton.mp h with rfl; simp⟩

theorem both_mro : Mro both [both, implA, implB, objectClass] :=
  ⟨⟨_, rfl, rfl⟩, fun b h => by
    rcases List.mem_cons.mp h with rfl | h
    · simp
    · rcases List.mem_singleton.mp h with rfl; simp⟩

example : wherefrom onlyA ["own", "a", "x"] = ["a: A", "own: OnlyA", "x: function not found on object"] := by decide +kernel

example : wherefromLine onlyA "a" = "a: A" :=
  (c79_origin_partial (n := "a") (s := "A") onlyA_mro (by unfold ClassNames; decide)
    (.later (by decide) (.here (c := implA) (by decide)))).mpr (.inr ⟨implA, rfl, .inl (by decide)⟩)

example : combined [("b", "OK"), ("a", "failed: E()")] = ["``a``: failed: E()", "``b``: OK"] := by decide +kernel

/-- C79 is false: of two bases the second is reported as well, and functions inherited from further up are reported
as missing. -/
theorem c79_refuted :
    (∃ (c : PyClass) (l : List PyClass), Mro c l ∧ Origin "a" l "A" ∧ wherefromLine c "a" = "a: Afunction not found on object") ∧
    ∃ (c : PyClass) (l : List PyClass), Mro c l ∧ Origin "__init__" l "object" ∧
      wherefromLine c "__init__" = "__init__: function not found on object" :=
  ⟨⟨both, _, both_mro, .later (by decide) (.here (c := implA) (by decide)), by decide⟩,
   ⟨onlyA, _, onlyA_mro, .later (by decide) (.later (by decide) (.here (c := objectClass) (by decide))), by decide⟩⟩

end Verif.Tester
