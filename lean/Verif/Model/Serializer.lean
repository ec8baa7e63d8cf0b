import Verif.Model.Mapping

/-!
# Serializing and deserializing

`node/serializer.py`.  JSON text itself is outside the model: `J` is the value
`json.loads` returns, and the contract is that `json.loads(json.dumps(x))` is what the
functions below call `dumps`.  Floats, NaN and the recursion limit of the json module are
not modelled.
-/

namespace Verif.Ser

/-- The values `json.loads` returns. -/
inductive J where
  | null
  | bool (b : Bool)
  | int (i : Int)
  | str (s : Str)
  | list (xs : List J)
  | obj (kvs : List (Str × J))
deriving Inhabited

/-- What the serializer takes from the rest of the program: `str(uuid)` and `uuid.UUID(text)`
(`none` for `ValueError`), the classes of nodes by dotted name, and the classes and functions
by dotted name (`NodeDecoder.resolve`, serializer.py:144-151; `none` for `ImportError` and
`AttributeError`). -/
structure Codec where
  uuidStr : Nat → Str
  parseUuid : Str → Option Nat
  parse_ok : ∀ u, parseUuid (uuidStr u) = some u
  findCls : Str → Option ClassId
  findOb : Str → Option Data

/-- `simple_mode` and `include_class`, serializer.py:79-82. -/
structure Mode where
  simple : Bool := false
  includeClass : Bool := true

/-- A string constant. -/
abbrev lit (s : String) : Str := s.toList

/-- `'<UNSET>'`, serializer.py:109, 171. -/
abbrev unsetMark : Str := lit "<UNSET>"

/-- `'<UUID>:'`, serializer.py:112, 174. -/
abbrev uuidMark : Str := lit "<UUID>:"

abbrev obKey : Str := lit "__ob__"
abbrev nodeKey : Str := lit "__node__"
abbrev classKey : Str := lit "class"
abbrev nameKey : Str := lit "name"
abbrev kidsKey : Str := lit "children"
abbrev attrsName : Str := lit "attrs"
abbrev kwKey : Str := lit "kw"
abbrev parentKey : Str := lit "parent"

/-- The object a JSON reader builds from members: of members with the same name the last one
counts. -/
def jobj (kvs : List (Str × J)) : J := .obj (kvs.foldl (fun d kv => Od.set d kv.1 kv.2) [])

/-- `json.dumps` finds an object it cannot encode although `default` returned it. -/
def circular : Exc := .value "Circular reference detected"

mutual
/-- `json.dumps` of a value, with `default` (serializer.py:106-135) for values json does not
know.  `bytes` and other objects come back from `default` unchanged (serializer.py:135), which
json reports as a circular reference.  Bound methods are not modelled. -/
def encData (N : Codec) (m : Mode) : Data → Except Exc J
  | .none => .ok .null
  | .bool b => .ok (.bool b)
  | .int i => .ok (.int i)
  | .str s => .ok (.str s)
  | .bytes _ => .error circular
  | .opaque _ => .error circular
  | .unset => .ok (.str unsetMark)
  | .uuid u => .ok (.str (uuidMark ++ N.uuidStr u))
  | .cls s => .ok (if m.simple then .str s else .obj [(obKey, .str s)])
  | .func s => .ok (if m.simple then .str s else .obj [(obKey, .str s)])
  | .list xs => match encList N m xs with
    | .ok js => .ok (.list js)
    | .error e => .error e
  | .tuple xs => match encList N m xs with
    | .ok js => .ok (.list js)
    | .error e => .error e
  | .dict kvs => match encDict N m kvs with
    | .ok js => .ok (jobj js)
    | .error e => .error e
/-- The elements of a list. -/
def encList (N : Codec) (m : Mode) : List Data → Except Exc (List J)
  | [] => .ok []
  | x :: r => match encData N m x with
    | .error e => .error e
    | .ok j => match encList N m r with
      | .error e => .error e
      | .ok js => .ok (j :: js)
/-- The members of a dictionary. -/
def encDict (N : Codec) (m : Mode) : List (Str × Data) → Except Exc (List (Str × J))
  | [] => .ok []
  | (k, x) :: r => match encData N m x with
    | .error e => .error e
    | .ok j => match encDict N m r with
      | .error e => .error e
      | .ok js => .ok ((k, j) :: js)
end

/-- What `default` returns for a node: dictionaries and lists whose leaves json still has to
encode.  Keys of dictionaries are those of the code or of the attributes. -/
inductive P where
  | data (d : Data)
  | str (s : Str)
  | name (k : Key)
  | list (xs : List P)
  | obj (kvs : List (Key × P))

/-- The text json makes of a dictionary key. -/
def memberName : Key → Except Exc Str
  | .str s => .ok s
  | .none => .ok (lit "null")
  | .int i => .ok (toString i).toList
  | .bytes _ => .error .type

/-- `json.dumps` of a name. -/
def encKey : Key → Except Exc J
  | .none => .ok .null
  | .str s => .ok (.str s)
  | .int i => .ok (.int i)
  | .bytes _ => .error circular

mutual
/-- `json.dumps` of what `default` returned. -/
def dumps (N : Codec) (m : Mode) : P → Except Exc J
  | .data d => encData N m d
  | .str s => .ok (.str s)
  | .name k => encKey k
  | .list xs => match dumpsList N m xs with
    | .ok js => .ok (.list js)
    | .error e => .error e
  | .obj kvs => match dumpsObj N m kvs with
    | .ok js => .ok (jobj js)
    | .error e => .error e
/-- The elements of a list. -/
def dumpsList (N : Codec) (m : Mode) : List P → Except Exc (List J)
  | [] => .ok []
  | x :: r => match dumps N m x with
    | .error e => .error e
    | .ok j => match dumpsList N m r with
      | .error e => .error e
      | .ok js => .ok (j :: js)
/-- The members of a dictionary. -/
def dumpsObj (N : Codec) (m : Mode) : List (Key × P) → Except Exc (List (Str × J))
  | [] => .ok []
  | (k, x) :: r => match memberName k with
    | .error e => .error e
    | .ok s => match dumps N m x with
      | .error e => .error e
      | .ok j => match dumpsObj N m r with
        | .error e => .error e
        | .ok js => .ok ((s, j) :: js)
end

/-- `node.attrs.items()`, serializer.py:229.  With `attribute_access_for_attrs` (attributes.py:54-55)
`node.attrs` is an `AttributeAccess`, which has no `items` of its own: `__getattr__`
(utils.py:107-112) looks for an attribute of that name.  Nodes and plain values cannot be called. -/
def attrsItems (E : Env) (o a : Oid) : M (List (Key × Val)) := fun w =>
  if (clsOf E w o).attrAccess then
    match getitem E a (.str (lit "items")) w with
    | (.ok (.data (.cls _)), w') | (.ok (.data (.func _)), w') | (.ok (.data (.opaque _)), w') =>
      (.error .unmodelled, w')
    | (.ok _, w') => (.error .type, w')
    | (.error e, w') => (.error (if e.isKey then .attr else e), w')
  else mitems E a w

/-- `serialize_node_attributes`, serializer.py:226-230; `rec` is `encoder.default`. -/
def defaultAttrs (E : Env) (rec : Val → M P) (o : Oid) : M (List (Key × P)) := fun w =>
  if (clsOf E w o).bhvs.contains .attributes then (do
    let a ← attrs E o
    let items ← attrsItems E o a
    let kvs ← forM' (fun (kv : Key × Val) => do
      let p ← rec kv.2
      pure (kv.1, p)) items
    pure [(Key.str attrsName, P.obj kvs)]) w
  else (.ok [], w)

/-- `NodeEncoder.default`, serializer.py:106-135, with `serialize_node` (204-210) and
`serialize_node_attributes` (226-230) from the registry; further registered serializers are
not modelled.  The number bounds the recursion. -/
def default (E : Env) (m : Mode) : Nat → Val → M P
  | _, .data d => pure (.data d)
  | 0, .node _ => M.raise .diverge
  | n + 1, .node o => do
    let w ← M.getW
    let head := (if !m.simple || m.includeClass then [(Key.str classKey, P.str (clsOf E w o).dotted)]
      else []) ++ [(Key.str nameKey, P.name (w.objs o).name)]
    let vs ← mvalues E o
    let kids ← forM' (default E m n) vs
    let kidsPart := if kids.isEmpty then [] else [(Key.str kidsKey, P.list kids)]
    let attrsPart ← defaultAttrs E (default E m n) o
    let data := P.obj (head ++ kidsPart ++ attrsPart)
    pure (if m.simple then data else .obj [(.str nodeKey, data)])

/-- What can be serialized: a node, a value, or a list of such. -/
inductive Ob where
  | val (v : Val)
  | list (xs : List Ob)

mutual
/-- `serialize`, serializer.py:20-32. -/
def serialize (E : Env) (N : Codec) (m : Mode) (n : Nat) : Ob → M J
  | .val v => do
    let p ← default E m n v
    M.ofExcept (dumps N m p)
  | .list xs => do
    let js ← serializeList E N m n xs
    pure (.list js)
/-- The elements of a list. -/
def serializeList (E : Env) (N : Codec) (m : Mode) (n : Nat) : List Ob → M (List J)
  | [] => pure []
  | x :: r => do
    let j ← serialize E N m n x
    let js ← serializeList E N m n r
    pure (j :: js)
end

/-! ### Decoding -/

/-- What `decode` returns: a node, a value without nodes, or a list. -/
inductive Dec where
  | node (o : Oid)
  | data (d : Data)
  | list (xs : List Dec)
deriving Inhabited

mutual
/-- The value, if there are no nodes in it. -/
def Dec.toData : Dec → Option Data
  | .node _ => none
  | .data d => some d
  | .list xs => (Dec.listData xs).map Data.list
/-- The values of a list, if there are no nodes in it. -/
def Dec.listData : List Dec → Option (List Data)
  | [] => some []
  | x :: r => match x.toData, Dec.listData r with
    | some d, some ds => some (d :: ds)
    | _, _ => none
end

/-- The value handed to `attrs[name] = value`; lists with nodes inside are not modelled as
attribute values. -/
def Dec.toVal : Dec → M Val
  | .node o => pure (.node o)
  | x => match x.toData with
    | some d => pure (.data d)
    | none => M.raise .unmodelled

mutual
/-- A JSON value as it is. -/
def raw : J → Data
  | .null => .none
  | .bool b => .bool b
  | .int i => .int i
  | .str s => .str s
  | .list xs => .list (rawList xs)
  | .obj kvs => .dict (rawDict kvs)
/-- The elements of a list. -/
def rawList : List J → List Data
  | [] => []
  | x :: r => raw x :: rawList r
/-- The members of an object. -/
def rawDict : List (Str × J) → List (Str × Data)
  | [] => []
  | (k, x) :: r => (k, raw x) :: rawDict r
end

/-- Strings, serializer.py:169-176. -/
def decStr (N : Codec) (s : Str) : Except Exc Data :=
  if s = unsetMark then .ok .unset
  else if uuidMark.isPrefixOf s then
    match N.parseUuid (s.drop uuidMark.length) with
    | some u => .ok (.uuid u)
    | none => .error (.value "badly formed hexadecimal UUID string")
  else .ok (.str s)

/-- `resolve(data['__ob__'])`, serializer.py:184-185; `name.split` needs a string.  The two
exceptions of `resolve` are not told apart. -/
def decOb (N : Codec) : J → Except Exc Data
  | .str s => match N.findOb s with
    | some d => .ok d
    | none => .error .attr
  | _ => .error .attr

/-- `resolve(data['class'])`, serializer.py:157.  Names of things that are not node classes
count as not found. -/
def decClass (N : Codec) (data : List (Str × J)) : Except Exc ClassId :=
  match Od.get? data classKey with
  | none => .error (.key (.key (.str classKey)))
  | some (.str s) => match N.findCls s with
    | some c => .ok c
    | none => .error .attr
  | some _ => .error .attr

/-- `data['name']`, serializer.py:159; only what `serialize` writes is modelled. -/
def decName (data : List (Str × J)) : Except Exc Key :=
  match Od.get? data nameKey with
  | none => .error (.key (.key (.str nameKey)))
  | some .null => .ok .none
  | some (.str s) => .ok (.str s)
  | some (.int i) => .ok (.int i)
  | some _ => .error .unmodelled

/-- `kw = self.decode(data.get('kw', dict()))`, serializer.py:158; `rec` is `decoder.decode`. -/
def decKw (rec : J → Option Oid → M Dec) (data : List (Str × J)) : M Dec :=
  match Od.get? data kwKey with
  | none => pure (.data (.dict []))
  | some j => rec j none

/-- The name given in the call `factory(**kw)`, serializer.py:161, 163.  What is no dictionary cannot
be given as keyword arguments (`TypeError`); no class takes other arguments than `name` and `parent`
(nodify.py:22-25), and not all take these.  A node or an unknown object as `kw`, a parent other
than `None` and names of other types than those of keys are not modelled. -/
def callArgs (c : ClassDef) : Dec → Except Exc Key
  | .node _ => .error .unmodelled
  | .list _ => .error .type
  | .data (.dict []) => .ok .none
  | .data (.dict kvs) =>
    if c.takesArgs && kvs.all (fun kv => kv.1 == nameKey || kv.1 == parentKey) then
      match Od.get? kvs parentKey with
      | some d => if d = .none then argName kvs else .error .unmodelled
      | none => argName kvs
    else .error .type
  | .data (.opaque _) => .error .unmodelled
  | .data _ => .error .type
where
  /-- The argument `name`. -/
  argName (kvs : List (Str × Data)) : Except Exc Key :=
    match Od.get? kvs nameKey with
    | none => .ok .none
    | some .none => .ok .none
    | some (.str s) => .ok (.str s)
    | some (.int i) => .ok (.int i)
    | some _ => .error .unmodelled

/-- `node_factory`, serializer.py:153-165; `rec` is `decoder.decode`. -/
def nodeFactory (E : Env) (N : Codec) (rec : J → Option Oid → M Dec) (data : List (Str × J))
    (parent : Option Oid) : M Oid := do
  let c ← M.ofExcept (decClass N data)
  let kw ← decKw rec data
  let k ← M.ofExcept (decName data)
  let arg ← M.ofExcept (callArgs (E.cls c) kw)
  let o ← newNode E c arg none
  match parent with
  | some p => setitem E p k (.node o)
  | none => modO o fun ob => { ob with name := k }
  pure o

/-- `deserialize_node`, serializer.py:213-219; `rec` is `decoder.decode`. -/
def decKids (rec : J → Option Oid → M Dec) (o : Oid) (data : List (Str × J)) : M Unit :=
  match Od.get? data kidsKey with
  | none => pure ()
  | some .null => pure ()
  | some (.list js) => forU (fun j => do let _ ← rec j (some o); pure ()) js
  | some _ => M.raise .unmodelled

/-- `deserialize_node_attributes`, serializer.py:233-239. -/
def decAttrs (E : Env) (rec : J → Option Oid → M Dec) (o : Oid) (data : List (Str × J)) : M Unit :=
  fun w => if (clsOf E w o).bhvs.contains .attributes then
    (match Od.get? data attrsName with
    | none => pure ()
    | some .null => pure ()
    | some (.obj kvs) => forU (fun (kv : Str × J) => do
        let x ← rec kv.2 none
        let v ← x.toVal
        let a ← attrs E o
        setitem E a (.str kv.1) v) kvs
    | some _ => M.raise .unmodelled) w
  else (.ok (), w)

/-- `NodeDecoder.decode`, serializer.py:167-197, with `deserialize_node` (213-219) and
`deserialize_node_attributes` (233-239) from the registry.  The number bounds the recursion. -/
def decode (E : Env) (N : Codec) : Nat → J → Option Oid → M Dec
  | 0, _, _ => M.raise .diverge
  | _ + 1, .str s, _ => do
    let d ← M.ofExcept (decStr N s)
    pure (.data d)
  | n + 1, .list xs, parent => do
    let ys ← forM' (fun x => decode E N n x parent) xs
    pure (.list ys)
  | n + 1, .obj kvs, parent =>
    match Od.get? kvs obKey with
    | some j => do
      let d ← M.ofExcept (decOb N j)
      pure (.data d)
    | none => match Od.get? kvs nodeKey with
      | some (.obj data) => do
        let o ← nodeFactory E N (decode E N n) data parent
        decKids (decode E N n) o data
        decAttrs E (decode E N n) o data
        pure (.node o)
      | some _ => M.raise .type
      | none => pure (.data (raw (.obj kvs)))
  | _ + 1, j, _ => pure (.data (raw j))

/-- `deserialize(data, root)`, serializer.py:35-41. -/
def deserialize (E : Env) (N : Codec) (n : Nat) (j : J) (root : Option Oid) : M Dec :=
  decode E N n j root

end Verif.Ser
