import Verif.Model.Serializer

/-!
# The registries of serializers and deserializers

`node/serializer.py`: the decorators `serializer` and `deserializer`, and encoding and decoding with whatever is
registered.  `Verif.Model.Serializer` is the case of the callbacks the package registers itself (`shipped_default`,
`shipped_decode` in `Verif.Props.C78`).
-/

namespace Verif.Ser

/-- What callbacks are registered for, an interface or a class: `INode` is 0, `IAttributes` is 1. -/
abbrev Sel := Nat

/-- A serializer `callback(encoder, node, data)`, serializer.py:128: gets `encoder.default`, the node and what is in
`data` so far, and says what is in `data` afterwards.  `data` is written as the list of its assignments. -/
abbrev SerCall := (Val → M P) → Oid → List (Key × P) → M (List (Key × P))

/-- A deserializer `callback(decoder, node, node_data)`, serializer.py:191. -/
abbrev DesCall := (J → Option Oid → M Dec) → Oid → List (Str × J) → M (List (Str × J))

/-- `_serializer_registry.__call__`, serializer.py:57-59: `self.registry[self.ob] = ob`. -/
def register {α : Type} (reg : Od Sel α) (s : Sel) (cb : α) : Od Sel α := Od.set reg s cb

/-- All decorators of a program, one after the other. -/
def registerAll {α : Type} (reg : Od Sel α) (l : List (Sel × α)) : Od Sel α :=
  l.foldl (fun r x => register r x.1 x.2) reg

/-- Whether a node is asked for by its class: `issubclass(cls, Interface) and cls.providedBy(ob)` or
`isinstance(ob, cls)`, serializer.py:126-129, 189-192.  Interfaces provided by single instances are not modelled. -/
abbrev Provides := ClassId → Sel → Bool

/-- Every node provides `INode`; those with the `Attributes` behavior provide `IAttributes` (attributes.py:41). -/
structure Faithful (E : Env) (prov : Provides) : Prop where
  node : ∀ c, prov c 0 = true
  attributes : ∀ c, prov c 1 = (E.cls c).bhvs.contains .attributes

/-- The loop over the registry, serializer.py:125-129 and 188-192. -/
def runCalls {α δ : Type} (prov : Provides) (call : α → δ → M δ) (o : Oid) : List (Sel × α) → δ → M δ
  | [], d => pure d
  | (s, cb) :: r, d => do
    let w ← M.getW
    if prov (w.objs o).cls s then do
      let d' ← call cb d
      runCalls prov call o r d'
    else runCalls prov call o r d

/-! ### Encoding -/

/-- The value last assigned. -/
def assigned (data : List (Key × P)) (k : Key) : Option P :=
  (data.reverse.find? fun kv => kv.1 = k).map Prod.snd

/-- `serialize_node`, serializer.py:204-210. -/
def serializeNode (E : Env) : SerCall := fun rec o data => do
  let vs ← mvalues E o
  let kids ← forM' rec vs
  pure (if kids.isEmpty then data else data ++ [(Key.str kidsKey, P.list kids)])

/-- `serialize_node_attributes`, serializer.py:226-230.  Something other than a dictionary under `attrs`, put there by
another callback, is not modelled. -/
def serializeAttrs (E : Env) : SerCall := fun rec o data => do
  let a ← attrs E o
  let items ← attrsItems E o a
  let kvs ← forM' (fun (kv : Key × Val) => do
    let p ← rec kv.2
    pure (kv.1, p)) items
  match assigned data (.str attrsName) with
  | none => pure (data ++ [(Key.str attrsName, P.obj kvs)])
  | some (.obj old) => pure (data ++ [(Key.str attrsName, P.obj (old ++ kvs))])
  | some _ => M.raise .unmodelled

/-- The registry after importing the package, serializer.py:203, 225. -/
def shippedSer (E : Env) : Od Sel SerCall := registerAll [] [(0, serializeNode E), (1, serializeAttrs E)]

/-- `NodeEncoder.default` with a registry, serializer.py:106-135. -/
def defaultR (E : Env) (prov : Provides) (reg : Od Sel SerCall) (m : Mode) : Nat → Val → M P
  | _, .data d => pure (.data d)
  | 0, .node _ => M.raise .diverge
  | n + 1, .node o => do
    let w ← M.getW
    let head := (if !m.simple || m.includeClass then [(Key.str classKey, P.str (clsOf E w o).dotted)]
      else []) ++ [(Key.str nameKey, P.name (w.objs o).name)]
    let data ← runCalls prov (fun cb => cb (defaultR E prov reg m n) o) o reg head
    pure (if m.simple then .obj data else .obj [(.str nodeKey, .obj data)])

mutual
/-- `serialize` with a registry, serializer.py:20-32. -/
def serializeR (E : Env) (prov : Provides) (reg : Od Sel SerCall) (N : Codec) (m : Mode) (n : Nat) : Ob → M J
  | .val v => do
    let p ← defaultR E prov reg m n v
    M.ofExcept (dumps N m p)
  | .list xs => do
    let js ← serializeListR E prov reg N m n xs
    pure (.list js)
/-- The elements of a list. -/
def serializeListR (E : Env) (prov : Provides) (reg : Od Sel SerCall) (N : Codec) (m : Mode) (n : Nat) :
    List Ob → M (List J)
  | [] => pure []
  | x :: r => do
    let j ← serializeR E prov reg N m n x
    let js ← serializeListR E prov reg N m n r
    pure (j :: js)
end

/-! ### Decoding -/

/-- `deserialize_node`, serializer.py:213-219. -/
def deserializeNode : DesCall := fun rec o data => do
  decKids rec o data
  pure data

/-- `deserialize_node_attributes`, serializer.py:233-239. -/
def deserializeAttrs (E : Env) : DesCall := fun rec o data => do
  (match Od.get? data attrsName with
    | none => pure ()
    | some .null => pure ()
    | some (.obj kvs) => forU (fun (kv : Str × J) => do
        let x ← rec kv.2 none
        let v ← x.toVal
        let a ← attrs E o
        setitem E a (.str kv.1) v) kvs
    | some _ => M.raise .unmodelled)
  pure data

/-- The registry after importing the package, serializer.py:212, 232. -/
def shippedDes (E : Env) : Od Sel DesCall := registerAll [] [(0, deserializeNode), (1, deserializeAttrs E)]

/-- `NodeDecoder.decode` with a registry, serializer.py:167-197. -/
def decodeR (E : Env) (prov : Provides) (reg : Od Sel DesCall) (N : Codec) : Nat → J → Option Oid → M Dec
  | 0, _, _ => M.raise .diverge
  | _ + 1, .str s, _ => do
    let d ← M.ofExcept (decStr N s)
    pure (.data d)
  | n + 1, .list xs, parent => do
    let ys ← forM' (fun x => decodeR E prov reg N n x parent) xs
    pure (.list ys)
  | n + 1, .obj kvs, parent =>
    match Od.get? kvs obKey with
    | some j => do
      let d ← M.ofExcept (decOb N j)
      pure (.data d)
    | none => match Od.get? kvs nodeKey with
      | some (.obj data) => do
        let o ← nodeFactory E N (decodeR E prov reg N n) data parent
        let _ ← runCalls prov (fun cb => cb (decodeR E prov reg N n) o) o reg data
        pure (.node o)
      | some _ => M.raise .type
      | none => pure (.data (raw (.obj kvs)))
  | _ + 1, j, _ => pure (.data (raw j))

/-- `deserialize(data, root)` with a registry, serializer.py:35-41. -/
def deserializeR (E : Env) (prov : Provides) (reg : Od Sel DesCall) (N : Codec) (n : Nat) (j : J)
    (root : Option Oid) : M Dec := decodeR E prov reg N n j root

end Verif.Ser
