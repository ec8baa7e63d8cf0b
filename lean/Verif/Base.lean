/-!
# Values, keys and exceptions

Shared vocabulary of the model.  Nothing here is code of `/repo`; the types say
which Python values the model distinguishes.
-/

namespace Verif

/-- Python `str`.  A list of characters, so that slicing, `startswith` and
`split` are ordinary list functions. -/
abbrev Str := List Char

/-- Identity of a node object (`id(ob)`). -/
macro "Oid" : term => `(Nat)

/-- Identity of a dictionary object (storage, cache, nodespaces, index). -/
macro "Ref" : term => `(Nat)

/-- Identity of a node class. -/
macro "ClassId" : term => `(Nat)

/-- Dictionary keys.  Keys that are floats, booleans, tuples or other hashable
objects are not modelled. -/
inductive Key where
  | none
  | str (s : Str)
  | int (i : Int)
  | bytes (b : List UInt8)
deriving DecidableEq, Repr, Inhabited

/-- Python values that are not nodes. `cls` is a class object, `func` a
function (both identified by their dotted name), `opaque` anything else. -/
inductive Data where
  | none
  | bool (b : Bool)
  | int (i : Int)
  | str (s : Str)
  | bytes (b : List UInt8)
  | unset
  | uuid (u : Nat)
  | cls (dotted : Str)
  | func (dotted : Str)
  | opaque (n : Nat)
  | list (xs : List Data)
  | tuple (xs : List Data)
  | dict (kvs : List (Str × Data))
deriving Inhabited, Repr

mutual
/-- Decidable equality of `Data` (deriving does not cover nested inductives). -/
def Data.decEq : (a b : Data) → Decidable (a = b)
  | .none, .none => isTrue rfl
  | .bool x, .bool y => if h : x = y then isTrue (by rw [h]) else isFalse (by simpa using h)
  | .int x, .int y => if h : x = y then isTrue (by rw [h]) else isFalse (by simpa using h)
  | .str x, .str y => if h : x = y then isTrue (by rw [h]) else isFalse (by simpa using h)
  | .bytes x, .bytes y => if h : x = y then isTrue (by rw [h]) else isFalse (by simpa using h)
  | .unset, .unset => isTrue rfl
  | .uuid x, .uuid y => if h : x = y then isTrue (by rw [h]) else isFalse (by simpa using h)
  | .cls x, .cls y => if h : x = y then isTrue (by rw [h]) else isFalse (by simpa using h)
  | .func x, .func y => if h : x = y then isTrue (by rw [h]) else isFalse (by simpa using h)
  | .opaque x, .opaque y => if h : x = y then isTrue (by rw [h]) else isFalse (by simpa using h)
  | .list x, .list y =>
    match Data.decEqList x y with
    | isTrue h => isTrue (by rw [h])
    | isFalse h => isFalse (by simpa using h)
  | .tuple x, .tuple y =>
    match Data.decEqList x y with
    | isTrue h => isTrue (by rw [h])
    | isFalse h => isFalse (by simpa using h)
  | .dict x, .dict y =>
    match Data.decEqKvs x y with
    | isTrue h => isTrue (by rw [h])
    | isFalse h => isFalse (by simpa using h)
  | .none, .bool _ | .none, .int _ | .none, .str _ | .none, .bytes _ | .none, .unset
  | .none, .uuid _ | .none, .cls _ | .none, .func _ | .none, .opaque _ | .none, .list _
  | .none, .tuple _ | .none, .dict _ => isFalse (by simp)
  | .bool _, .none | .bool _, .int _ | .bool _, .str _ | .bool _, .bytes _ | .bool _, .unset
  | .bool _, .uuid _ | .bool _, .cls _ | .bool _, .func _ | .bool _, .opaque _
  | .bool _, .list _ | .bool _, .tuple _ | .bool _, .dict _ => isFalse (by simp)
  | .int _, .none | .int _, .bool _ | .int _, .str _ | .int _, .bytes _ | .int _, .unset
  | .int _, .uuid _ | .int _, .cls _ | .int _, .func _ | .int _, .opaque _ | .int _, .list _
  | .int _, .tuple _ | .int _, .dict _ => isFalse (by simp)
  | .str _, .none | .str _, .bool _ | .str _, .int _ | .str _, .bytes _ | .str _, .unset
  | .str _, .uuid _ | .str _, .cls _ | .str _, .func _ | .str _, .opaque _ | .str _, .list _
  | .str _, .tuple _ | .str _, .dict _ => isFalse (by simp)
  | .bytes _, .none | .bytes _, .bool _ | .bytes _, .int _ | .bytes _, .str _
  | .bytes _, .unset | .bytes _, .uuid _ | .bytes _, .cls _ | .bytes _, .func _
  | .bytes _, .opaque _ | .bytes _, .list _ | .bytes _, .tuple _
  | .bytes _, .dict _ => isFalse (by simp)
  | .unset, .none | .unset, .bool _ | .unset, .int _ | .unset, .str _ | .unset, .bytes _
  | .unset, .uuid _ | .unset, .cls _ | .unset, .func _ | .unset, .opaque _ | .unset, .list _
  | .unset, .tuple _ | .unset, .dict _ => isFalse (by simp)
  | .uuid _, .none | .uuid _, .bool _ | .uuid _, .int _ | .uuid _, .str _ | .uuid _, .bytes _
  | .uuid _, .unset | .uuid _, .cls _ | .uuid _, .func _ | .uuid _, .opaque _
  | .uuid _, .list _ | .uuid _, .tuple _ | .uuid _, .dict _ => isFalse (by simp)
  | .cls _, .none | .cls _, .bool _ | .cls _, .int _ | .cls _, .str _ | .cls _, .bytes _
  | .cls _, .unset | .cls _, .uuid _ | .cls _, .func _ | .cls _, .opaque _ | .cls _, .list _
  | .cls _, .tuple _ | .cls _, .dict _ => isFalse (by simp)
  | .func _, .none | .func _, .bool _ | .func _, .int _ | .func _, .str _ | .func _, .bytes _
  | .func _, .unset | .func _, .uuid _ | .func _, .cls _ | .func _, .opaque _
  | .func _, .list _ | .func _, .tuple _ | .func _, .dict _ => isFalse (by simp)
  | .opaque _, .none | .opaque _, .bool _ | .opaque _, .int _ | .opaque _, .str _
  | .opaque _, .bytes _ | .opaque _, .unset | .opaque _, .uuid _ | .opaque _, .cls _
  | .opaque _, .func _ | .opaque _, .list _ | .opaque _, .tuple _
  | .opaque _, .dict _ => isFalse (by simp)
  | .list _, .none | .list _, .bool _ | .list _, .int _ | .list _, .str _ | .list _, .bytes _
  | .list _, .unset | .list _, .uuid _ | .list _, .cls _ | .list _, .func _
  | .list _, .opaque _ | .list _, .tuple _ | .list _, .dict _ => isFalse (by simp)
  | .tuple _, .none | .tuple _, .bool _ | .tuple _, .int _ | .tuple _, .str _
  | .tuple _, .bytes _ | .tuple _, .unset | .tuple _, .uuid _ | .tuple _, .cls _
  | .tuple _, .func _ | .tuple _, .opaque _ | .tuple _, .list _
  | .tuple _, .dict _ => isFalse (by simp)
  | .dict _, .none | .dict _, .bool _ | .dict _, .int _ | .dict _, .str _ | .dict _, .bytes _
  | .dict _, .unset | .dict _, .uuid _ | .dict _, .cls _ | .dict _, .func _
  | .dict _, .opaque _ | .dict _, .list _ | .dict _, .tuple _ => isFalse (by simp)

/-- Decidable equality of lists of `Data`. -/
def Data.decEqList : (a b : List Data) → Decidable (a = b)
  | [], [] => isTrue rfl
  | [], _ :: _ => isFalse (by simp)
  | _ :: _, [] => isFalse (by simp)
  | x :: xs, y :: ys =>
    match Data.decEq x y, Data.decEqList xs ys with
    | isTrue h, isTrue h' => isTrue (by rw [h, h'])
    | isFalse h, _ => isFalse (by intro e; injection e with e1 e2; exact h e1)
    | _, isFalse h => isFalse (by intro e; injection e with e1 e2; exact h e2)

/-- Decidable equality of dictionary contents. -/
def Data.decEqKvs : (a b : List (Str × Data)) → Decidable (a = b)
  | [], [] => isTrue rfl
  | [], _ :: _ => isFalse (by simp)
  | _ :: _, [] => isFalse (by simp)
  | (k, x) :: xs, (k', y) :: ys =>
    if hk : k = k' then
      match Data.decEq x y, Data.decEqKvs xs ys with
      | isTrue h, isTrue h' => isTrue (by rw [hk, h, h'])
      | isFalse h, _ => isFalse (by intro e; injection e with e1 e2; injection e1 with _ e3; exact h e3)
      | _, isFalse h => isFalse (by intro e; injection e with e1 e2; exact h e2)
    else isFalse (by intro e; injection e with e1 e2; injection e1 with e3 _; exact hk e3)
end

instance : DecidableEq Data := Data.decEq

/-- What can be stored under a key: a node, or any other value. -/
inductive Val where
  | node (o : Oid)
  | data (d : Data)
deriving DecidableEq, Repr, Inhabited

/-- `inspect.isclass(val)`: class objects are `Data.cls`. -/
def Val.isClass : Val → Bool
  | .data (.cls _) => true
  | _ => false

/-- `INode.providedBy(val)`.  Every object of the heap is a node: all modelled
classes contain `Nodify`, which implements `INodify(INode)`. -/
def Val.isNode : Val → Bool
  | .node _ => true
  | _ => false

/-- The argument of a `KeyError`. -/
inductive KArg where
  | key (k : Key)
  | uuid (u : Option Nat)
  | msg (s : String)
deriving DecidableEq, Repr

/-- Exceptions.  `plain` is `Exception` itself, `diverge` marks recursion or iteration that exceeded every
bound Python could respect (endless loop or `RecursionError`), `unmodelled`
marks behaviour outside the contracts listed in DESIGN.md. -/
inductive Exc where
  | key (a : KArg)
  | value (m : String)
  | attr
  | type
  | notImpl
  | runtime
  | index
  | plain (m : String)
  | diverge
  | unmodelled
deriving DecidableEq, Repr

/-- `except KeyError`. -/
def Exc.isKey : Exc → Bool
  | .key _ => true
  | _ => false

/-- `except AttributeError`. -/
def Exc.isAttr : Exc → Bool
  | .attr => true
  | _ => false

/-- `except (AttributeError, KeyError, ValueError)`, behaviors/common.py:41. -/
def Exc.isAKV : Exc → Bool
  | .key _ | .attr | .value _ => true
  | _ => false

end Verif
