import Verif.Base
import Verif.Odict

/-!
# Aliasers

behaviors/alias.py:14-120 and utils.ReverseMapping (utils.py:50-95) as far as
`DictAliaser.alias` uses it.  Pure functions, exceptions as values.
-/

namespace Verif

/-- `str.startswith`. -/
def startsWith (s p : Str) : Bool := p.isPrefixOf s

/-- `str.endswith`. -/
def endsWith (s p : Str) : Bool := p.isSuffixOf s

/-- The slice `s[:-n]` for a non-negative `n`: Python reads `s[:-0]` as
`s[:0]`, which is empty. -/
def sliceToNeg (s : Str) (n : Nat) : Str :=
  if n = 0 then [] else s.take (s.length - n)

/-- The aliaser classes.  `dict` is `DictAliaser` (alias.py:14-39), `pre`
`PrefixAliaser` (42-64), `suf` `SuffixAliaser` (67-89), `chain` `AliaserChain`
(92-112).  Simplified: a chain of `None` (the default of the constructor,
unusable in Python too) is not representable. -/
inductive Aliaser where
  | dict (tbl : Od Key Key) (strict : Bool)
  | pre (p : Option Str)
  | suf (s : Option Str)
  | chain (l : List Aliaser)
deriving Repr, Inhabited

/-- `PrefixSuffixAliaser.__init__`, alias.py:115-120. -/
def Aliaser.preSuf (p s : Option Str) : Aliaser := .chain [.pre p, .suf s]

namespace Aliaser

/-- `ReverseMapping(tbl)[v]`, utils.py:62-66: first key in iteration order whose
value equals `v`. -/
def revGet (tbl : Od Key Key) (v : Key) : Option Key :=
  (tbl.find? fun kv => kv.2 = v).map (·.1)

/-- `.startswith`/`.endswith`/concatenation on a key that is no `str`: `None`
and `int` lack the method (`AttributeError`), `bytes` reject a `str` argument
(`TypeError`). -/
def noStrMethod : Key → Exc
  | .bytes _ => .type
  | _ => .attr

mutual
/-- `alias(key)`, alias.py:25-31 (dict), 52-53 (prefix), 77-78 (suffix),
104-107 (chain). -/
def alias : Aliaser → Key → Except Exc Key
  | .dict tbl strict, k =>
    match revGet tbl k with
    | some a => .ok a
    | none => if strict then .error (.key (.key k)) else .ok k
  | .pre p, .str s => .ok (.str (p.getD [] ++ s))
  | .pre _, _ => .error .type
  | .suf q, .str s => .ok (.str (s ++ q.getD []))
  | .suf _, _ => .error .type
  | .chain l, k => aliasChain l k

/-- The loop alias.py:105-107. -/
def aliasChain : List Aliaser → Key → Except Exc Key
  | [], k => .ok k
  | a :: r, k =>
    match alias a k with
    | .ok k' => aliasChain r k'
    | .error e => .error e
end

mutual
/-- `unalias(key)`, alias.py:33-39 (dict), 55-64 (prefix), 80-89 (suffix),
109-112 (chain, right to left). -/
def unalias : Aliaser → Key → Except Exc Key
  | .dict tbl strict, k =>
    match Od.get? tbl k with
    | some u => .ok u
    | none => if strict then .error (.key (.key k)) else .ok k
  | .pre p, .str s =>
    let pfx := p.getD []
    if startsWith s pfx then .ok (.str (s.drop pfx.length))
    else .error (.key (.msg "key does not match prefix"))
  | .pre _, k => .error (noStrMethod k)
  | .suf q, .str s =>
    let sfx := q.getD []
    if endsWith s sfx then .ok (.str (sliceToNeg s sfx.length))
    else .error (.key (.msg "key does not match suffix"))
  | .suf _, k => .error (noStrMethod k)
  | .chain l, k => unaliasChain l k

/-- The loop over `reversed(self.chain)`, alias.py:110-112: the tail first, then
the head. -/
def unaliasChain : List Aliaser → Key → Except Exc Key
  | [], k => .ok k
  | a :: r, k =>
    match unaliasChain r k with
    | .ok k' => unalias a k'
    | .error e => .error e
end

/-- `bool(aliaser)` as used by `if self.aliaser:` (alias.py:129, 140, 151,
164): a `DictAliaser` is an `odict` and false when empty, the other classes
define no truth value. -/
def truthy : Aliaser → Bool
  | .dict tbl _ => !tbl.isEmpty
  | _ => true

/-- `IEnumerableMapping.providedBy(aliaser)` (alias.py:169): only
`DictAliaser` implements `IFullMapping` (alias.py:14). -/
def enumerable : Aliaser → Bool
  | .dict _ _ => true
  | _ => false

end Aliaser
end Verif
