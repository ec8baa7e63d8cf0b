import Verif.Conformance.Basic

/-!
# `tests/test_alias.py`
-/

namespace Verif.Tests.Alias

/-- `DictAliaser([('alias1', 'key1'), ('alias2', 'key2')], strict)`. -/
def da (strict : Bool) : Aliaser := .dict [("alias1", "key1"), ("alias2", "key2")] strict

/-- `test_DictAliaser`, test_alias.py:13-33. -/
def dictAliaser : M Unit := do
  same ((da true).alias "key1") (.ok "alias1")
  same ((da true).unalias "alias2") (.ok "key2")
  same ((da true).alias "foo") (.error (noKey "foo"))
  same ((da true).unalias "foo") (.error (noKey "foo"))
  same ((da false).alias "foo") (.ok "foo")
  same ((da false).unalias "foo") (.ok "foo")

example : passes dictAliaser = true := by decide +kernel

/-- `PrefixAliaser('prefix-')`. -/
def pa : Aliaser := .pre (some "prefix-".toList)
/-- `PrefixAliaser('pre2-')`. -/
def pa2 : Aliaser := .pre (some "pre2-".toList)
/-- `SuffixAliaser('-suffix')`. -/
def sa : Aliaser := .suf (some "-suffix".toList)
/-- `PrefixSuffixAliaser('prefix-', '-suffix')`. -/
def psa : Aliaser := .preSuf (some "prefix-".toList) (some "-suffix".toList)

/-- `test_PrefixAliaser`, `test_SuffixAliaser`, `test_AliaserChain` and
`test_PrefixSuffixAliaser`, test_alias.py:35-76.  The messages leave out key and prefix. -/
def affixes : M Unit := do
  same (pa.alias "foo") (.ok "prefix-foo")
  same (pa.unalias "prefix-foo") (.ok "foo")
  same (pa.unalias "foo") (.error (.key (.msg "key does not match prefix")))
  same (sa.alias "foo") (.ok "foo-suffix")
  same (sa.unalias "foo-suffix") (.ok "foo")
  same (sa.unalias "foo") (.error (.key (.msg "key does not match suffix")))
  same ((Aliaser.chain [pa, pa2]).alias "foo") (.ok "pre2-prefix-foo")
  same ((Aliaser.chain [pa, pa2]).unalias "pre2-prefix-foo") (.ok "foo")
  same (((Aliaser.chain [pa2, pa]).alias "foo").bind (Aliaser.chain [pa2, pa]).unalias) (.ok "foo")
  same (psa.alias "foo") (.ok "prefix-foo-suffix")
  same (psa.unalias "prefix-foo-suffix") (.ok "foo")

example : passes affixes = true := by decide +kernel

/-- The classes `AliasDict` of the tests below, with a storage instead of `dict`. -/
def E : Env where
  cls
    | 0 => { bhvs := [.alias, .nodify, .dictStorage] }
    | 1 => { bhvs := [.alias, .nodify, .dictStorage], aliaser := some (.pre (some "pre-".toList)) }
    | _ => { bhvs := [.alias, .nodify, .dictStorage],
             aliaser := some (.dict [("foo", "f00"), ("bar", "b4r")] true) }

/-- `test_Alias_no_aliaser`, test_alias.py:78-91. -/
def noAliaser : M Unit := do
  let ad ← newNode E 0 .none none
  setitem E ad "foo" (int 1)
  same (← getitem E ad "foo") (int 1)
  same (← mkeys E ad) ["foo"]
  delitem E ad "foo"
  same (← mkeys E ad) []

example : passes noAliaser = true := by decide +kernel

/-- `test_Alias_with_PrefixAliaser`, test_alias.py:93-105. -/
def prefixed : M Unit := do
  let ad ← newNode E 1 .none none
  setitem E ad "pre-foo" (int 1)
  same (← getitem E ad "pre-foo") (int 1)
  same (← mkeys E ad) ["pre-foo"]
  delitem E ad "pre-foo"
  same (← mkeys E ad) []

example : passes prefixed = true := by decide +kernel

/-- `test_KeyError_with_aliased_key`, test_alias.py:107-158, for reading and deleting: the storages
of the model never raise on assignment, and aliasers do not change. -/
def keyError : M Unit := do
  let fail ← newNode E 1 .none none
  fails (getitem E fail "pre-foo") (noKey "pre-foo")
  fails (delitem E fail "pre-foo") (noKey "pre-foo")

example : passes keyError = true := by decide +kernel

/-- `test_Alias_with_DictAliaser`, test_alias.py:160-188. -/
def whitelist : M Unit := do
  let ad ← newNode E 2 .none none
  setitem E ad "foo" (int 1)
  same (← mkeys E ad) ["foo"]
  fails (setitem E ad "abc" (int 1)) (noKey "abc")
  setEnd E ad "abc" (int 1)
  same (← mkeys E ad) ["foo"]
  same ((← stored ad).keys) ["f00", "abc"]

example : passes whitelist = true := by decide +kernel

end Verif.Tests.Alias
