import Verif.Conformance.Basic
import Verif.Model.Utils
import Verif.Model.InstanceProperty
import Verif.Model.Debug
import Verif.Model.Locking

/-!
# `tests/test_utils.py` and `tests/test_locking.py`

Left out: `test_UNSET`, and of `test_encode` the call with more bytes than the small
encoding used here knows.
-/

namespace Verif.Tests.Utils

section
open Verif.Utils

/-! ### ReverseMapping -/

/-- `odict([('foo', 'a'), ('bar', 'b')])`. -/
def context : Ctx String String where
  iter := ["foo", "bar"]
  getitem k := if k = "foo" then some "a" else if k = "bar" then some "b" else none
  items := [("foo", "a"), ("bar", "b")]
  len := 2

/-- The value returned. -/
def okOf {ε α : Type} : Except ε α → Option α
  | .ok a => some a
  | .error _ => none

/-- test_utils.py:27-44. -/
example :
    okOf (revKeys context) = some ["a", "b"] ∧ revValues context = ["foo", "bar"] ∧
    revItems context = [("a", "foo"), ("b", "bar")] ∧ revLen context = 2 ∧
    okOf (revContains (· == ·) context "a") = some true ∧
    okOf (revContains (· == ·) context "foo") = some false ∧
    okOf (revGetitem (· == ·) context "a") = some "foo" ∧
    okOf (revGetitem (· == ·) context "foo") = none ∧
    revGetDefault (· == ·) context "b" none = some "bar" ∧
    revGetDefault (· == ·) context "foo" (some "DEFAULT") = some "DEFAULT" := by decide +kernel

example : (match revGetitem (· == ·) context "foo" with
    | .error (.key v) => v = "foo"
    | _ => False) := rfl

/-! ### Codec -/

/-- UTF-8 for ASCII and `ä`. -/
def utf8 : Encoding (List Char) (List Nat) where
  enc t := some (t.flatMap fun c => if c = 'ä' then [0xc3, 0xa4] else [c.toNat])
  dec b := go b
where
  go : List Nat → Option (List Char)
    | [] => some []
    | 0xc3 :: 0xa4 :: r => (go r).map ('ä' :: ·)
    | n :: r => if n < 128 then (go r).map (Char.ofNat n :: ·) else none

abbrev V := Verif.Utils.Val (List Char) (List Nat)

def text (x : String) : V := .text x.toList
def ascii (x : String) : V := .bytes (x.toList.map Char.toNat)
def auml : V := .bytes [0xc3, 0xa4]

/-- test_utils.py:74-96. -/
example :
    encode utf8 true (text "ä") = .ok auml ∧
    encode utf8 true (.list [text "ä"]) = .ok (.list [auml]) ∧
    encode utf8 true (.dict [(text "ä", text "ä")]) = .ok (.dict [(auml, auml)]) ∧
    encode utf8 true auml = .ok auml ∧
    encode utf8 true (.bytes [0x01, 0x05, 0xd4, 0xa0, 0xff]) = .ok (.bytes [0x01, 0x05, 0xd4, 0xa0, 0xff]) ∧
    encode utf8 true (.node [(text "foo", text "ä")]) = .ok (.dict [(ascii "foo", auml)]) := by decide +kernel

/-- test_utils.py:98-109. -/
example :
    decode utf8 true (ascii "foo") = .ok (text "foo") ∧
    decode utf8 true (.tuple [ascii "foo", text "bar"]) = .ok (.tuple [text "foo", text "bar"]) ∧
    decode utf8 true (.dict [(ascii "foo", ascii "bar")]) = .ok (.dict [(text "foo", text "bar")]) ∧
    decode utf8 true (.bytes [0x66, 0x6f, 0xe4]) = .ok (.bytes [0x66, 0x6f, 0xe4]) ∧
    decode utf8 true (.node [(ascii "foo", auml)]) = .ok (.dict [(text "foo", text "ä")]) := by decide +kernel

/-- test_utils.py:111-119. -/
example : decode utf8 false (.bytes [0x66, 0x6f, 0xe4]) = .error .decode := by decide +kernel

end

/-! ### Nodes -/

/-- `BaseNode`; class 1 stands for the `odict` the test of `AttributeAccess` uses. -/
def E : Env where
  cls
    | 0 => { bhvs := [.nodeChildValidate, .adopt, .asAttrAccess, .defaultInit, .nodify, .dictStorage] }
    | _ => { bhvs := [.nodify, .odictStorage] }

/-- test_utils.py:46-71. -/
def attributeAccess : M Unit := do
  let context ← newNode E 1 .none none
  setitem E context "foo" (str "a")
  setitem E context "bar" (str "b")
  let get (name : String) := aaGet E (fun _ => false) context name.toList
  same (← get "foo") (.item (str "a"))
  fails (get "a") .attr
  aaSet E context "foo".toList (str "foo")
  same (← get "foo") (.item (str "foo"))
  same (← getitem E context "foo") (str "foo")
  setitem E context "baz" (str "bla")
  same (← get "baz") (.item (str "bla"))
  delitem E context "bar"
  same (← mkeys E context) ["foo", "baz"]
  aaSet E context "x".toList (int 0)
  same (← mkeys E context) ["foo", "baz", "x"]

example : passes attributeAccess = true := by decide +kernel

/-- test_utils.py:144-167. -/
def nodeByPathTest : M Unit := do
  let root ← newNode E 0 "root" none
  let child ← put E root "child" 0
  let sub ← put E child "sub" 0
  same (← nodeByStrPath E root "".toList) (.node root)
  same (← nodeByStrPath E root "/".toList) (.node root)
  same (← nodeByPath E root []) (.node root)
  same (← nodeByStrPath E root "child".toList) (.node child)
  same (← nodeByStrPath E root "/child".toList) (.node child)
  same (← nodeByStrPath E root "child/sub".toList) (.node sub)
  same (← nodeByPath E root ["child"]) (.node child)
  same (← nodeByPath E root ["child", "sub"]) (.node sub)

example : passes nodeByPathTest = true := by decide +kernel

/-! ### `instance_property` -/

/-- The function of the property of test_utils.py:124-128; 5 is `'value'`. -/
def body (_ : InstProp.PName) (_ : InstProp.Inst) : InstProp.Body := .ret 5

/-- test_utils.py:121-142. -/
example :
    ({} : InstProp.St).attr 0 0 = none ∧
    (InstProp.read body 9 0 0 {}).1 = .ok 5 ∧
    (InstProp.read body 9 0 0 {}).2.log = [.start 0 0, .done 0 0 5] ∧
    (InstProp.read body 9 0 0 {}).2.attr 0 0 = some 5 ∧
    (InstProp.read body 9 0 0 (InstProp.read body 9 0 0 {}).2).1 = .ok 5 ∧
    (InstProp.read body 9 0 0 (InstProp.read body 9 0 0 {}).2).2.log = [.start 0 0, .done 0 0 5] := by
  decide +kernel

/-! ### `debug` -/

/-- How the values of the test are printed. -/
def namer : Namer where
  toPrinter := printer fun _ => "BaseNode"
  clsName _ := "BaseNode".toList
  addr _ := "0x0".toList
  text
    | .none => "None".toList
    | _ => "?".toList
  quote x := ['\''] ++ x ++ ['\'']
  attrsCls _ := false

/-- test_utils.py:169-186. -/
example : (debugged namer "test_search".toList (fun _ _ => pure (.data .none)) [int 21] [] {} []).2.2 =
    ["test_search: args=(21,), kws={}".toList, "test_search: --> None".toList] := by decide +kernel

/-! ### Locks -/

section
open Verif.Locking

/-- How often a lock is acquired. -/
def count (k : RLock) : Nat := (k.map Prod.snd).getD 0

/-- test_locking.py:26-37. -/
example :
    let free : RLock := none
    let one := free.acquire 0
    let two := one.bind (RLock.acquire · 0)
    let less := two.bind (RLock.release · 0)
    let done := less.bind (RLock.release · 0)
    count free = 0 ∧ one.map count = some 1 ∧ two.map count = some 2 ∧ less.map count = some 1 ∧
      done.map count = some 0 := by decide +kernel

/-- So many steps of thread 0. -/
def run (n : Nat) (σ : State) : Option State := Nat.repeat (fun s => s.bind (Verif.Locking.step 0)) n (some σ)

/-- `node.locked()`, test_locking.py:52-53. -/
def start : State :=
  { thr := fun t => if t = 0 then { stack := [.cmd (.locked 7 [.work])] } else {} }

/-- The count of the lock of the tree, if there is one. -/
def counted (σ : State) : Option Nat := (σ.treelock 7).map fun l => count (σ.lock l)

/-- test_locking.py:39-59: no lock before, acquired once while the body runs (after three steps: line 9,
line 11, line 14), free when it has returned. -/
example : counted start = none ∧ (run 3 start).bind counted = some 1 ∧ (run 5 start).bind counted = some 0 ∧
    (run 5 start).map (fun σ => (σ.thr 0).stack.isEmpty && !(σ.thr 0).raising) = some true := by decide +kernel

end

end Verif.Tests.Utils
