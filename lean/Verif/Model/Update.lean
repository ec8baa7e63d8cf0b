import Verif.Model.Mapping

/-!
# Model: the arguments of `update`
-/

namespace Verif

/-- What `update` may be given by position: something with `items` (`ITER_FUNC`, compat.py:7-11), here a node, or
pairs.  The pairs of a plain dictionary are those of the model's lists. -/
inductive UpdateArg where
  | node (b : Oid)
  | pairs (kvs : List (Key × Val))

/-- `data = iteritems(data)` if it has `items`, mapping.py:187-188. -/
def UpdateArg.read (E : Env) : UpdateArg → M (List (Key × Val))
  | .node b => mitems E b
  | .pairs kvs => pure kvs

/-- `update(*args, **kw)`, mapping.py:181-193; keywords are strings. -/
def updateWith (E : Env) (o : Oid) (args : List UpdateArg) (kw : List (Str × Val)) : M Unit :=
  if args.length > 1 then M.raise .type
  else do
    match args with
    | [] => pure ()
    | a :: _ => do
      let data ← a.read E
      forU (fun kv => setitem E o kv.1 kv.2) data
    forU (fun kv => setitem E o (.str kv.1) kv.2) kw

end Verif
