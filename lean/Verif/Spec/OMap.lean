import Verif.Base

/-!
# Specification: ordered finite maps

An ordered map is a sequence of keys together with a partial function.  Used to
state what users of the mapping API rely on; independent of the association lists
of the model.
-/

namespace Verif

/-- Keys in order, and the value of each key. -/
@[ext] structure OMap (K V : Type) where
  keys : List K
  val : K → Option V

namespace OMap

variable {K V : Type} [DecidableEq K]

/-- The empty map. -/
def empty : OMap K V := ⟨[], fun _ => none⟩

/-- Assign: an existing key keeps its place, a new one goes last. -/
def set (m : OMap K V) (k : K) (v : V) : OMap K V where
  keys := if k ∈ m.keys then m.keys else m.keys ++ [k]
  val := fun j => if j = k then some v else m.val j

/-- Remove a key. -/
def del (m : OMap K V) (k : K) : OMap K V where
  keys := m.keys.filter fun j => j ≠ k
  val := fun j => if j = k then none else m.val j

/-- The values in key order. -/
def values (m : OMap K V) : List V := m.keys.filterMap m.val

/-- The pairs in key order. -/
def items (m : OMap K V) : List (K × V) := m.keys.filterMap fun k => (m.val k).map fun v => (k, v)

end OMap
end Verif
