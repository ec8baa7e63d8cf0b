import Verif.World

/-!
# Specification: where an assignment goes

Which dictionary and which key `node[k] = v` is about, for a class with the given
behaviors.
-/

namespace Verif

/-- Names of the form `__x__`: two underscores at both ends. -/
def Reserved (s : Str) : Prop := (∃ t, s = ['_', '_'] ++ t) ∧ (∃ t, s = t ++ ['_', '_'])

instance (s : Str) : Decidable (Reserved s) :=
  decidable_of_iff (['_', '_'] <+: s ∧ ['_', '_'] <:+ s) <| by
    constructor
    · rintro ⟨⟨t, ht⟩, ⟨u, hu⟩⟩; exact ⟨⟨t, ht.symm⟩, ⟨u, hu.symm⟩⟩
    · rintro ⟨⟨t, ht⟩, ⟨u, hu⟩⟩; exact ⟨⟨t, ht.symm⟩, ⟨u, hu.symm⟩⟩

/-- A child key of the storage, or a name in the nodespaces. -/
inductive Dest where
  | child (k : Key)
  | nodespace (k : Key)
deriving DecidableEq, Repr

/-- Follow the key through the behaviors from left to right: `Alias` translates
it, `Nodespaces` takes reserved names out (and accepts no key that is not a
string). -/
def dest (al : Option Aliaser) : List Bhv → Key → Option Dest
  | [], k => some (.child k)
  | .alias :: r, k =>
    match al with
    | none => dest al r k
    | some a =>
      if a.truthy then
        match a.unalias k with
        | .ok u => dest al r u
        | .error _ => none
      else dest al r k
  | .nodespaces :: r, k =>
    match k with
    | .str s => if Reserved s then some (.nodespace k) else dest al r k
    | _ => none
  | _ :: r, k => dest al r k

/-- The name a child is given by `node[k] = child`, `none` if it is left alone:
`Adopt` names it by the key it is handed, and so does `Nodespaces` for reserved
names; behaviors further to the right come later. -/
def locName (al : Option Aliaser) : List Bhv → Key → Option Key
  | [], _ => none
  | .alias :: r, k =>
    match al with
    | none => locName al r k
    | some a =>
      if a.truthy then
        match a.unalias k with
        | .ok u => locName al r u
        | .error _ => none
      else locName al r k
  | .nodespaces :: r, k =>
    match k with
    | .str s => if Reserved s then some k else locName al r k
    | _ => none
  | .adopt :: r, k => (locName al r k).or (some k)
  | _ :: r, k => locName al r k

/-- Without key translation the name is the key. -/
theorem locName_noAlias (al : Option Aliaser) {bs : List Bhv} (ha : Bhv.alias ∉ bs) (k : Key) :
    locName al bs k = none ∨ locName al bs k = some k := by
  induction bs with
  | nil => exact .inl rfl
  | cons b r ih =>
    have ih := ih fun h => ha (List.mem_cons_of_mem _ h)
    cases b
    case alias => exact absurd List.mem_cons_self ha
    case nodespaces =>
      cases k with
      | str s =>
        simp only [locName]
        split
        · exact .inr rfl
        · exact ih
      | _ => exact .inl rfl
    case adopt =>
      simp only [locName]
      rcases ih with h | h <;> simp [h]
    all_goals exact ih

end Verif
