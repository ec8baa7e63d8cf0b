import Verif.Spec.Copy

/-!
# The program without `Cache`

The classes of a program with every `Cache` taken out, and the stacks whose cache cannot be told from
no cache at all.
-/

namespace Verif

/-- A class without its `Cache`. -/
def ClassDef.uncached (c : ClassDef) : ClassDef :=
  { c with bhvs := c.bhvs.filter fun b => b ≠ .cache }

/-- The program without `Cache`. -/
def Env.uncached (E : Env) : Env := { E with cls := fun c => (E.cls c).uncached }

/-- What stands to the right of the `Cache`; nothing if there is none. -/
def belowCache : List Bhv → List Bhv
  | [] => []
  | .cache :: r => r
  | _ :: r => belowCache r

/-- Behaviors that may stand to the right of a `Cache`.  Not among them: `Lifecycle` and `Reference`,
whose `__delitem__` reads `self[key]` after the cached value was dropped; `Alias`, as two aliases can
lead to one child; `Fallback`; another `Cache`. -/
def Bhv.settled : Bhv → Bool
  | .reference | .lifecycle | .cache | .alias | .fallback => false
  | _ => true

/-- A class whose `Cache`, if it has one, stands above nothing but settled behaviors; with a
`ChildFactory` among them there must be no `Alias` to the left, as the factory assigns the key it was
handed, which `Alias` then translates once more. -/
structure CacheSafe (c : ClassDef) : Prop where
  once : c.bhvs.Nodup
  below : ∀ b ∈ belowCache c.bhvs, b.settled = true
  noAlias : Bhv.childFactory ∈ belowCache c.bhvs → Bhv.alias ∉ c.bhvs

/-- The heap with all caches thrown away. -/
def World.uncache (w : World) : World :=
  { w with
    objs := fun o => { w.objs o with cache := none }
    caches := fun _ => []
    ncache := 0 }

/-- The operation is given only nodes that exist, and it is not `invalidate()` without a key on a node
whose class has a `Cache` (see C32). -/
def Op.Fits (E : Env) (w : World) (op : Op) : Prop :=
  (∀ c, Val.node c ∈ op.vals → c < w.nobj) ∧
    ∀ o, op = .invalidate o .none → Bhv.cache ∉ (clsOf E w o).bhvs

/-- A history of such operations. -/
def FitsAll (E : Env) : List Op → World → Prop
  | [], _ => True
  | op :: r, w => op.Fits E w ∧ FitsAll E r (exec E op w).2

end Verif
