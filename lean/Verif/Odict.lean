/-!
# Insertion-ordered dictionaries

Contract of Python's `dict` (≥ 3.7) and of the external package `odict` as far
as `/repo` uses it: an association list with unique keys.  `insertBefore`,
`insertAfter` and `swap` are the `odict` methods used in
behaviors/order.py:12-49.
-/

namespace Verif

/-- Contents of a `dict`/`odict` in iteration order. -/
abbrev Od (K V : Type) := List (K × V)

namespace Od

variable {K V : Type} [DecidableEq K]

/-- `d.get(k)` / `d[k]`. -/
def get? : Od K V → K → Option V
  | [], _ => none
  | (k', v) :: r, k => if k' = k then some v else get? r k

/-- `d[k] = v`: an existing key keeps its position, a new one is appended. -/
def set : Od K V → K → V → Od K V
  | [], k, v => [(k, v)]
  | (k', v') :: r, k, v => if k' = k then (k', v) :: r else (k', v') :: set r k v

/-- Effect of `del d[k]` when `k` is present (callers check presence). -/
def del : Od K V → K → Od K V
  | [], _ => []
  | (k', v') :: r, k => if k' = k then r else (k', v') :: del r k

/-- `list(d.keys())`. -/
def keys (d : Od K V) : List K := d.map (·.1)

/-- `list(d.values())`. -/
def vals (d : Od K V) : List V := d.map (·.2)

/-- `k in d`. -/
def has (d : Od K V) (k : K) : Bool := (get? d k).isSome

/-- `d.update(e)`. -/
def update (d e : Od K V) : Od K V := e.foldl (fun acc kv => set acc kv.1 kv.2) d

/-- `odict.insertbefore(ref, k, v)` for present `ref` and absent `k`. -/
def insertBefore : Od K V → K → K → V → Od K V
  | [], _, _, _ => []
  | (k', v') :: r, ref, k, v =>
    if k' = ref then (k, v) :: (k', v') :: r else (k', v') :: insertBefore r ref k v

/-- `odict.insertafter(ref, k, v)` for present `ref` and absent `k`. -/
def insertAfter : Od K V → K → K → V → Od K V
  | [], _, _, _ => []
  | (k', v') :: r, ref, k, v =>
    if k' = ref then (k', v') :: (k, v) :: r else (k', v') :: insertAfter r ref k v

/-- `odict.swap(a, b)` for present, different keys: the entries exchange their
positions. -/
def swap (d : Od K V) (a b : K) : Od K V :=
  match get? d a, get? d b with
  | some va, some vb =>
    d.map fun kv => if kv.1 = a then (b, vb) else if kv.1 = b then (a, va) else kv
  | _, _ => d

end Od
end Verif
