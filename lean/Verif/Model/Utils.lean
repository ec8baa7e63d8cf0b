import Verif.Odict

/-!
# Helpers of `node/utils.py`

`ReverseMapping` (lines 50-95) and `StrCodec` (134-200).
-/

namespace Verif.Utils

/-! ### ReverseMapping -/

/-- A mapping as `ReverseMapping` reads it: iteration, item access, `items` and `len`.  Reading is
taken to have no effects (true of `dict`; of nodes without child factories and caches). -/
structure Ctx (K V : Type) where
  iter : List K
  getitem : K → Option V
  items : List (K × V)
  len : Nat

/-- What is raised: `KeyError` of the context for one of its keys, `KeyError(value)`. -/
inductive RErr (K V : Type) where
  | ctx (k : K)
  | key (v : V)

/-- The loop of `__getitem__`, utils.py:62-66. -/
def revGetLoop {K V : Type} (eq : V → V → Bool) (c : Ctx K V) (v : V) : List K → Except (RErr K V) K
  | [] => .error (.key v)
  | k :: ks =>
    match c.getitem k with
    | none => .error (.ctx k)
    | some x => if eq x v then .ok k else revGetLoop eq c v ks

/-- `ReverseMapping(c)[v]`; `eq x y` is `x == y`. -/
def revGetitem {K V : Type} (eq : V → V → Bool) (c : Ctx K V) (v : V) : Except (RErr K V) K :=
  revGetLoop eq c v c.iter

/-- `get`, utils.py:68-72: every `KeyError` gives the default. -/
def revGetDefault {K V : Type} (eq : V → V → Bool) (c : Ctx K V) (v : V) (default : Option K) : Option K :=
  match revGetitem eq c v with
  | .ok k => some k
  | .error _ => default

/-- The loop of `__contains__`, utils.py:74-79. -/
def revContainsLoop {K V : Type} (eq : V → V → Bool) (c : Ctx K V) (v : V) : List K → Except (RErr K V) Bool
  | [] => .ok false
  | k :: ks =>
    match c.getitem k with
    | none => .error (.ctx k)
    | some x => if eq x v then .ok true else revContainsLoop eq c v ks

/-- `v in ReverseMapping(c)`. -/
def revContains {K V : Type} (eq : V → V → Bool) (c : Ctx K V) (v : V) : Except (RErr K V) Bool :=
  revContainsLoop eq c v c.iter

/-- `__iter__`, utils.py:84-86, read to its end. -/
def revIterLoop {K V : Type} (c : Ctx K V) : List K → Except (RErr K V) (List V)
  | [] => .ok []
  | k :: ks =>
    match c.getitem k with
    | none => .error (.ctx k)
    | some x => (revIterLoop c ks).map (x :: ·)

/-- `keys()`, utils.py:81-82. -/
def revKeys {K V : Type} (c : Ctx K V) : Except (RErr K V) (List V) := revIterLoop c c.iter

/-- `values()`, utils.py:88-89. -/
def revValues {K V : Type} (c : Ctx K V) : List K := c.iter.map fun key => key

/-- `items()`, utils.py:91-92. -/
def revItems {K V : Type} (c : Ctx K V) : List (V × K) := c.items.map fun (k, v) => (v, k)

/-- `__len__`, utils.py:94-95. -/
def revLen {K V : Type} (c : Ctx K V) : Nat := c.len

/-! ### StrCodec -/

/-- Values the codec works on: text, bytes, lists, tuples, dictionaries, nodes (the items of
`iteritems`) and everything else, which is left alone.  Subclasses of `list` and `tuple`, whose
constructors may differ, are not modelled. -/
inductive Val (T B : Type) where
  | text (t : T)
  | bytes (b : B)
  | list (l : List (Val T B))
  | tuple (l : List (Val T B))
  | dict (l : List (Val T B × Val T B))
  | node (l : List (Val T B × Val T B))
  | other (n : Nat)

section
variable {T B : Type} [DecidableEq T] [DecidableEq B]

mutual
/-- Equality. -/
def Val.decEq : (a b : Val T B) → Decidable (a = b)
  | .text x, .text y => if h : x = y then isTrue (by rw [h]) else isFalse (by simpa using h)
  | .bytes x, .bytes y => if h : x = y then isTrue (by rw [h]) else isFalse (by simpa using h)
  | .other x, .other y => if h : x = y then isTrue (by rw [h]) else isFalse (by simpa using h)
  | .list x, .list y =>
    match Val.decEqs x y with
    | isTrue h => isTrue (by rw [h])
    | isFalse h => isFalse (by simpa using h)
  | .tuple x, .tuple y =>
    match Val.decEqs x y with
    | isTrue h => isTrue (by rw [h])
    | isFalse h => isFalse (by simpa using h)
  | .dict x, .dict y =>
    match Val.decEqp x y with
    | isTrue h => isTrue (by rw [h])
    | isFalse h => isFalse (by simpa using h)
  | .node x, .node y =>
    match Val.decEqp x y with
    | isTrue h => isTrue (by rw [h])
    | isFalse h => isFalse (by simpa using h)
  | .text _, .bytes _ | .text _, .list _ | .text _, .tuple _ | .text _, .dict _ | .text _, .node _
  | .text _, .other _ => isFalse (by simp)
  | .bytes _, .text _ | .bytes _, .list _ | .bytes _, .tuple _ | .bytes _, .dict _ | .bytes _, .node _
  | .bytes _, .other _ => isFalse (by simp)
  | .list _, .text _ | .list _, .bytes _ | .list _, .tuple _ | .list _, .dict _ | .list _, .node _
  | .list _, .other _ => isFalse (by simp)
  | .tuple _, .text _ | .tuple _, .bytes _ | .tuple _, .list _ | .tuple _, .dict _ | .tuple _, .node _
  | .tuple _, .other _ => isFalse (by simp)
  | .dict _, .text _ | .dict _, .bytes _ | .dict _, .list _ | .dict _, .tuple _ | .dict _, .node _
  | .dict _, .other _ => isFalse (by simp)
  | .node _, .text _ | .node _, .bytes _ | .node _, .list _ | .node _, .tuple _ | .node _, .dict _
  | .node _, .other _ => isFalse (by simp)
  | .other _, .text _ | .other _, .bytes _ | .other _, .list _ | .other _, .tuple _ | .other _, .dict _
  | .other _, .node _ => isFalse (by simp)
/-- Equality of lists. -/
def Val.decEqs : (a b : List (Val T B)) → Decidable (a = b)
  | [], [] => isTrue rfl
  | [], _ :: _ => isFalse (by simp)
  | _ :: _, [] => isFalse (by simp)
  | x :: xs, y :: ys =>
    match Val.decEq x y, Val.decEqs xs ys with
    | isTrue h, isTrue h' => isTrue (by rw [h, h'])
    | isFalse h, _ => isFalse (by simp [h])
    | _, isFalse h => isFalse (by simp [h])
/-- Equality of item lists. -/
def Val.decEqp : (a b : List (Val T B × Val T B)) → Decidable (a = b)
  | [], [] => isTrue rfl
  | [], _ :: _ => isFalse (by simp)
  | _ :: _, [] => isFalse (by simp)
  | (k, x) :: xs, (j, y) :: ys =>
    match Val.decEq k j, Val.decEq x y, Val.decEqp xs ys with
    | isTrue h, isTrue h', isTrue h'' => isTrue (by rw [h, h', h''])
    | isFalse h, _, _ => isFalse (by simp [h])
    | _, isFalse h, _ => isFalse (by simp [h])
    | _, _, isFalse h => isFalse (by simp [h])
end

instance : DecidableEq (Val T B) := Val.decEq

/-- Exceptions: `UnicodeDecodeError`, `UnicodeEncodeError`, `TypeError` (unhashable key). -/
inductive CErr where
  | decode
  | encode
  | type
deriving DecidableEq, Repr

/-- A character encoding: `text.encode` and `bytes.decode`, `none` if they raise. -/
structure Encoding (T B : Type) where
  enc : T → Option B
  dec : B → Option T

omit [DecidableEq T] [DecidableEq B] in
mutual
/-- Whether a value can be the key of a dictionary. -/
def hashable : Val T B → Bool
  | .list _ => false
  | .dict _ => false
  | .tuple l => hashables l
  | _ => true
/-- All of a list. -/
def hashables : List (Val T B) → Bool
  | [] => true
  | x :: xs => hashable x && hashables xs
end

/-- `dict(pairs)`. -/
def mkDict (l : List (Val T B × Val T B)) : Except CErr (Val T B) :=
  if l.all fun p => hashable p.1 then .ok (.dict (Od.update [] l)) else .error .type

/-- What `decode` does with bytes, utils.py:190-197. -/
def decodeBytes (e : Encoding T B) (soft : Bool) (b : B) : Except CErr (Val T B) :=
  match e.dec b with
  | some t => .ok (.text t)
  | none => if soft then .ok (.bytes b) else .error .decode

/-- What `encode` does with text, utils.py:179-180. -/
def encodeText (e : Encoding T B) (t : T) : Except CErr (Val T B) :=
  match e.enc t with
  | some b => .ok (.bytes b)
  | none => .error .encode

mutual
/-- `StrCodec.decode`, utils.py:185-200. -/
def decode (e : Encoding T B) (soft : Bool) : Val T B → Except CErr (Val T B)
  | .list l => (decodes e soft l).map .list
  | .tuple l => (decodes e soft l).map .tuple
  | .dict l => (decodep e soft l).bind mkDict
  | .bytes b => decodeBytes e soft b
  | .node l => (decodep e soft l).bind mkDict
  | .text t => .ok (.text t)
  | .other n => .ok (.other n)
/-- `map(self.decode, arg)`. -/
def decodes (e : Encoding T B) (soft : Bool) : List (Val T B) → Except CErr (List (Val T B))
  | [] => .ok []
  | x :: xs => (decode e soft x).bind fun y => (decodes e soft xs).map (y :: ·)
/-- `[self.decode(t) for t in iteritems(arg)]`: `t` is a tuple of two. -/
def decodep (e : Encoding T B) (soft : Bool) : List (Val T B × Val T B) → Except CErr (List (Val T B × Val T B))
  | [] => .ok []
  | (k, x) :: xs =>
    (decode e soft k).bind fun j => (decode e soft x).bind fun y => (decodep e soft xs).map ((j, y) :: ·)
end

mutual
/-- `StrCodec.encode`, utils.py:152-183.  The recursive call for decoded bytes (178) is that for
text. -/
def encode (e : Encoding T B) (soft : Bool) : Val T B → Except CErr (Val T B)
  | .list l => (encodes e soft l).map .list
  | .tuple l => (encodes e soft l).map .tuple
  | .dict l => (encodep e soft l).bind mkDict
  | .bytes b => (decodeBytes e soft b).bind fun
    | .text t => encodeText e t
    | y => .ok y
  | .text t => encodeText e t
  | .node l => (encodep e soft l).bind mkDict
  | .other n => .ok (.other n)
/-- `map(self.encode, arg)`. -/
def encodes (e : Encoding T B) (soft : Bool) : List (Val T B) → Except CErr (List (Val T B))
  | [] => .ok []
  | x :: xs => (encode e soft x).bind fun y => (encodes e soft xs).map (y :: ·)
/-- `[self.encode(t) for t in iteritems(arg)]`. -/
def encodep (e : Encoding T B) (soft : Bool) : List (Val T B × Val T B) → Except CErr (List (Val T B × Val T B))
  | [] => .ok []
  | (k, x) :: xs =>
    (encode e soft k).bind fun j => (encode e soft x).bind fun y => (encodep e soft xs).map ((j, y) :: ·)
end

end
end Verif.Utils
