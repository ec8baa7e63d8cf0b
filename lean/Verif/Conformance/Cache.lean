import Verif.Conformance.Basic

/-!
# `tests/test_cache.py`
-/

namespace Verif.Tests.Cache

/-- The classes of test_cache.py:24-31, 79-86, 127-139 and 167-175, and `BaseNode`. -/
def E : Env where
  cls
    | 0 => { bhvs := [.adopt, .invalidate, .defaultInit, .nodify, .odictStorage] }
    | 1 => { bhvs := [.adopt, .volatileInvalidate, .defaultInit, .nodify, .odictStorage] }
    | 2 => { bhvs := [.adopt, .volatileInvalidate, .defaultInit, .nodify, .childFactory, .odictStorage],
             factories := [("foo", 4), ("bar", 4)] }
    | 3 => { bhvs := [.adopt, .cache, .invalidate, .defaultInit, .nodify, .odictStorage] }
    | _ => baseNode

/-- `str(cls)` without the module. -/
def cls : ClassId → String := fun _ => "N"

/-- `test_Invalidate` and `test_VolatileStorageInvalidate`, test_cache.py:18-124. -/
def invalidates (c : ClassId) : M Unit := do
  let root ← newNode E c .none none
  let _ ← put E root "c1" c
  let _ ← put E root "c2" c
  let _ ← put E (← child E root "c2") "d1" c
  let _ ← put E (← child E root "c2") "d2" c
  shows E cls root ["<class 'N'>: None", "  <class 'N'>: c1", "  <class 'N'>: c2", "    <class 'N'>: d1",
    "    <class 'N'>: d2"]
  invalidate E root "c1"
  shows E cls root ["<class 'N'>: None", "  <class 'N'>: c2", "    <class 'N'>: d1", "    <class 'N'>: d2"]
  fails (invalidate E root "c1") (noKey "c1")
  invalidate E (← child E root "c2") .none
  shows E cls root ["<class 'N'>: None", "  <class 'N'>: c2"]

example : passes (invalidates 0) = true ∧ passes (invalidates 1) = true := by decide +kernel

/-- `test_with_ChildFactory`, test_cache.py:126-161. -/
def factory : M Unit := do
  let node ← newNode E 2 .none none
  let kvs ← mitems E node
  same (Od.keys kvs) ["foo", "bar"]
  same (← name (← child E node "foo")) "foo"
  same (← name (← child E node "bar")) "bar"
  invalidate E node "foo"
  same (← mkeys E node) ["foo", "bar"]
  same (← stored node).keys ["bar"]
  invalidate E node "foo"
  same (← stored node).keys ["bar"]
  invalidate E node .none
  same (← stored node) []
  fails (invalidate E node "baz") (noKey "baz")

example : passes factory = true := by decide +kernel

/-- The keys in `node.cache`. -/
def cached (o : Oid) : M (List Key) := do
  let r ← cacheRef o
  let w ← M.getW
  pure (w.caches r).keys

/-- `test_Cache`, test_cache.py:163-241. -/
def caching : M Unit := do
  let root ← newNode E 3 .none none
  let _ ← put E root "c1" 3
  let c2 ← put E root "c2" 3
  let _ ← put E (← child E root "c2") "d1" 3
  let _ ← put E (← child E root "c2") "d2" 3
  same (← cached root) ["c2"]
  same (← child E root "c2") c2
  same (← name (← child E root "c1")) "c1"
  same (← cached root) ["c2", "c1"]
  invalidate E root "c1"
  same (← cached root) ["c2"]
  invalidate E root .none
  same (← cached root) []
  shows E cls root ["<class 'N'>: None"]
  let _ ← put E root "x1" 3
  let _ ← put E root "x2" 3
  shows E cls root ["<class 'N'>: None", "  <class 'N'>: x1", "  <class 'N'>: x2"]
  same (← cached root) ["x1", "x2"]
  cacheDrop root "x1"
  cacheDrop root "x2"
  invalidate E root "x1"
  shows E cls root ["<class 'N'>: None", "  <class 'N'>: x2"]
  cacheDrop root "x2"
  invalidate E root .none
  shows E cls root ["<class 'N'>: None"]

example : passes caching = true := by decide +kernel

end Verif.Tests.Cache
