import Verif.Model.Items
import Verif.Spec.OMap

/-!
# What can be seen of a heap

The children of a node as an ordered map, its nodespaces, its cached values, its
location.  Theorems are stated in terms of these views.
-/

namespace Verif

/-- The nodespaces of `o` as seen through `node.nodespaces`. -/
def World.nsview (w : World) (o : Oid) : Od Key Val :=
  match (w.objs o).nodespaces with
  | none => [(childrenKey, .node o)]
  | some r => w.nspaces r

/-- The cached values of `o`. -/
def World.cached (w : World) (o : Oid) : Od Key Val :=
  match (w.objs o).cache with
  | none => []
  | some r => w.caches r

/-- Name and parent of a node. -/
def World.loc (w : World) (p : Oid) : Key × Option Oid := ((w.objs p).name, (w.objs p).parent)

/-- The class has an `__init__` that takes a name and a parent, and no `__new__` that does not. -/
def ClassDef.Located (c : ClassDef) : Prop := Bhv.defaultInit ∈ c.bhvs ∧ Bhv.events ∉ c.bhvs

/-- The class can be called with this name and parent; `Class()` always works. -/
def ClassDef.Accepts (c : ClassDef) (name : Key) (parent : Option Oid) : Prop :=
  (name = .none ∧ parent = none) ∨ c.Located

instance (c : ClassDef) : Decidable c.Located := by unfold ClassDef.Located; infer_instance

instance (c : ClassDef) (name : Key) (parent : Option Oid) : Decidable (c.Accepts name parent) := by
  unfold ClassDef.Accepts; infer_instance

/-- The ordered map of a dictionary. -/
def Od.toMap {K V : Type} [DecidableEq K] (d : Od K V) : OMap K V := ⟨d.keys, d.get?⟩

/-- The children of a node as an ordered map. -/
def World.omap (w : World) (o : Oid) : OMap Key Val := (w.children o).toMap

/-- The nodespaces of a node as an ordered map. -/
def World.nmap (w : World) (o : Oid) : OMap Key Val := (w.nsview o).toMap

end Verif
