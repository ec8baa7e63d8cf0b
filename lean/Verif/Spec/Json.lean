import Verif.Model.Serializer
import Verif.Spec.Shape

/-!
# Specification: a tree written as JSON

Which JSON value stands for a tree, and which trees can be written and read.
-/

namespace Verif.Ser

/-- A name. -/
def jKey : Key → J
  | .none => .null
  | .str s => .str s
  | .int i => .int i
  | .bytes _ => .null

mutual
/-- What stands for a value. -/
def shown (N : Codec) (m : Mode) : Data → J
  | .none => .null
  | .bool b => .bool b
  | .int i => .int i
  | .str s => .str s
  | .bytes _ => .null
  | .opaque _ => .null
  | .unset => .str "<UNSET>".toList
  | .uuid u => .str ("<UUID>:".toList ++ N.uuidStr u)
  | .cls s => if m.simple then .str s else .obj [("__ob__".toList, .str s)]
  | .func s => if m.simple then .str s else .obj [("__ob__".toList, .str s)]
  | .list xs => .list (showns N m xs)
  | .tuple xs => .list (showns N m xs)
  | .dict kvs => .obj (shownDict N m kvs)
/-- What stands for the elements. -/
def showns (N : Codec) (m : Mode) : List Data → List J
  | [] => []
  | x :: r => shown N m x :: showns N m r
/-- What stands for the members. -/
def shownDict (N : Codec) (m : Mode) : List (Str × Data) → List (Str × J)
  | [] => []
  | (k, x) :: r => (k, shown N m x) :: shownDict N m r
end

mutual
/-- Python values that can be written: the keys of dictionaries differ, and there is nothing json
does not know. -/
def Writable : Data → Prop
  | .bytes _ => False
  | .opaque _ => False
  | .list xs => Writables xs
  | .tuple xs => Writables xs
  | .dict kvs => (kvs.map Prod.fst).Nodup ∧ WritableDict kvs
  | _ => True
/-- All elements. -/
def Writables : List Data → Prop
  | [] => True
  | x :: r => Writable x ∧ Writables r
/-- All values. -/
def WritableDict : List (Str × Data) → Prop
  | [] => True
  | (_, x) :: r => Writable x ∧ WritableDict r
end

mutual
/-- The JSON value for a tree; `f` says what stands for the value of an attribute. -/
def jNode (E : Env) (f : Data → J) (m : Mode) : NTree → J
  | .mk c name attrs kids =>
    let cls := if m.simple = false ∨ m.includeClass = true then
      [("class".toList, J.str (E.cls c).dotted)] else []
    let children := if kids.isEmpty then [] else [("children".toList, J.list (jNodes E f m kids))]
    let attributes := if Bhv.attributes ∈ (E.cls c).bhvs then
      [("attrs".toList, J.obj (attrs.map fun kv => (kv.1, f kv.2)))] else []
    let data := J.obj (cls ++ ("name".toList, jKey name) :: (children ++ attributes))
    if m.simple then data else .obj [("__node__".toList, data)]
/-- The JSON values for trees. -/
def jNodes (E : Env) (f : Data → J) (m : Mode) : List NTree → List J
  | [] => []
  | t :: ts => jNode E f m t :: jNodes E f m ts
end

mutual
/-- How deep lists are nested. -/
def height : Data → Nat
  | .list xs => heights xs + 1
  | _ => 0
/-- The deepest element. -/
def heights : List Data → Nat
  | [] => 0
  | x :: r => max (height x) (heights r)
end

/-- The deepest attribute. -/
def attrsHeight : List (Str × Data) → Nat
  | [] => 0
  | (_, d) :: r => max (height d) (attrsHeight r)

mutual
/-- How deep a tree is. -/
def tall : NTree → Nat
  | .mk _ _ attrs kids => max (attrsHeight attrs) (talls kids) + 1
/-- The deepest tree. -/
def talls : List NTree → Nat
  | [] => 0
  | t :: r => max (tall t) (talls r)
end

mutual
/-- Trees that can be written: classes whose items can be read, no name made of bytes, and
values of attributes in `A`. -/
def Readable (E : Env) (A : Data → Prop) : NTree → Prop
  | .mk c name attrs kids => ReadClass (E.cls c) ∧ (∀ b, name ≠ .bytes b) ∧
      (Bhv.attributes ∈ (E.cls c).bhvs → Bhv.nodespaces ∈ (E.cls c).bhvs ∧
        (E.cls c).attrAccess = false ∧ ReadClass (E.cls (E.cls c).attrsFactory) ∧
        (E.cls (E.cls c).attrsFactory).Located ∧
        ∀ kv ∈ attrs, KeyFor (E.cls (E.cls c).attrsFactory) (.str kv.1) ∧ A kv.2) ∧
      (∀ t ∈ kids, KeyFor (E.cls c) t.name) ∧ Readables E A kids
/-- All trees. -/
def Readables (E : Env) (A : Data → Prop) : List NTree → Prop
  | [] => True
  | t :: r => Readable E A t ∧ Readables E A r
end

mutual
/-- Nodes whose `attrs` are a node and not wrapped for attribute access. -/
def Unwrapped (E : Env) : NTree → Prop
  | .mk c _ _ kids => (Bhv.attributes ∈ (E.cls c).bhvs → (E.cls c).attrAccess = false) ∧ Unwrappeds E kids
/-- All trees. -/
def Unwrappeds (E : Env) : List NTree → Prop
  | [] => True
  | t :: r => Unwrapped E t ∧ Unwrappeds E r
end

mutual
/-- Trees that can be built again: classes that are found by their name, parents that adopt
their children, names that differ, and values of attributes in `A`. -/
def Buildable (E : Env) (N : Codec) (A : Data → Prop) : NTree → Prop
  | .mk c name attrs kids => ReadClass (E.cls c) ∧ (∀ b, name ≠ .bytes b) ∧
      N.findCls (E.cls c).dotted = some c ∧
      (if Bhv.attributes ∈ (E.cls c).bhvs then Bhv.nodespaces ∈ (E.cls c).bhvs ∧
        ReadClass (E.cls (E.cls c).attrsFactory) ∧ (E.cls (E.cls c).attrsFactory).Located ∧
        (attrs.map Prod.fst).Nodup ∧
        ∀ kv ∈ attrs, KeyFor (E.cls (E.cls c).attrsFactory) (.str kv.1) ∧
          refuses (E.cls (E.cls c).attrsFactory) (.data kv.2) = none ∧ A kv.2
      else attrs = []) ∧
      (kids.map NTree.name).Nodup ∧
      (∀ t ∈ kids, Bhv.adopt ∈ (E.cls c).bhvs ∧ KeyFor (E.cls c) t.name ∧
        (Bhv.reference ∈ (E.cls c).bhvs → Bhv.reference ∈ (E.cls t.cls).bhvs)) ∧ Buildables E N A kids
/-- All trees. -/
def Buildables (E : Env) (N : Codec) (A : Data → Prop) : List NTree → Prop
  | [] => True
  | t :: r => Buildable E N A t ∧ Buildables E N A r
end

/-- A node `p` of the heap below which the tree can be put: a class whose items can be read, which
adopts its children and allows the name, and whose index can take the node if there is one. -/
structure Par (E : Env) (t : NTree) (w : World) (p : Oid) : Prop where
  lt : p < w.nobj
  read : ReadClass (clsOf E w p)
  adopt : Bhv.adopt ∈ (clsOf E w p).bhvs
  key : KeyFor (clsOf E w p) t.name
  ref : Bhv.reference ∈ (clsOf E w p).bhvs → (w.objs p).index.isSome = true ∧
    Bhv.reference ∈ (E.cls t.cls).bhvs

end Verif.Ser
