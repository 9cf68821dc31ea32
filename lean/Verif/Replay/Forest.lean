import Verif.Forest.Ends
import Verif.Forest.History

/-!
# The project's own forest tests, run in the model

Not proofs: each check below runs one test case of test/forest_test.cpp in the model and compares with the value
the test expects. They guard the transcription of the code, on which all theorems about forests rest; a check
that fails stops the build.

Addresses: the forest of `big_test_forest` is at 0, its nodes at 1 to 11; other forests at 100, 200, ….
-/

namespace Verif.Replay.Forest
open Verif.Forest

abbrev W0 : World String := ⟨fun _ => none, fun _ => 0⟩

/-- The values met by iterators, as one string (forest_test.cpp:151-167). -/
def text (h : Heap String) (is : List Iter) : Option String := do
  let vs ← is.mapM h.deref
  return "".intercalate vs

/-- The whole traversal. -/
def full (W : World String) (t : Ptr) : Option String := do
  let b ← begin_ W.heap t
  text W.heap (← walk iterEq (incr W.heap) b (end_ t))

/-- `preorder_range`/`postorder_range`. -/
def edges (W : World String) (e : Edge) (t : Ptr) : Option String := do
  let (f, l) ← edgeRange W.heap e t
  text W.heap (← walk iterEq (edgeIncr W.heap e) f l)

/-- `std::find_if` over the whole traversal (forest_test.cpp:278-281). -/
def findNode (W : World String) (t : Ptr) (x : String) : Option Iter := do
  let b ← begin_ W.heap t
  let is ← walk iterEq (incr W.heap) b (end_ t)
  is.find? fun i => W.heap.deref i == some x

/-- `big_test_forest` (forest_test.cpp:94-122). -/
def big (W : World String) (t : Ptr) (n : Nat) : Option (World String) := do
  let W ← newForest W t
  let (W, a) ← insert W t (end_ t) "A" (n + 1)
  let (W, b) ← insert W t a.trailingOf "B" (n + 2)
  let (W, c) ← insert W t b.trailingOf "C" (n + 3)
  let (W, d) ← insert W t b.trailingOf "D" (n + 4)
  let (W, e) ← insert W t b.trailingOf "E" (n + 5)
  let (W, _) ← insert W t c.trailingOf "F" (n + 6)
  let (W, _) ← insert W t c.trailingOf "G" (n + 7)
  let (W, _) ← insert W t c.trailingOf "H" (n + 8)
  let (W, _) ← insert W t d.trailingOf "I" (n + 9)
  let (W, _) ← insert W t d.trailingOf "J" (n + 10)
  let (W, _) ← insert W t d.trailingOf "K" (n + 11)
  let (W, s) ← size W t
  -- forest_test.cpp:113-119
  let hs ← [a.trailingOf, b.trailingOf, c.trailingOf, d.trailingOf, e].mapM (hasChildren W.heap)
  if s = 11 ∧ hs = [true, true, true, true, false] then some W else none

/-- addresses for copies -/
def fresh (n : Nat) : List Ptr := (List.range 20).map (· + n)

-- empty_forest (forest_test.cpp:63-68)
#guard (do
  let W ← newForest W0 0
  let (W, s) ← size W 0
  return (← isEmpty W.heap 0) && s == 0 && (← begin_ W.heap 0) == end_ 0) == some true

-- single_node_forest (forest_test.cpp:72-86)
#guard (do
  let W ← newForest W0 0
  let (W, il) ← insert W 0 (end_ 0) "42" 1
  let (W, s) ← size W 0
  return il.edge == .leading && W.heap.deref il == some "42" && !(← isEmpty W.heap 0) &&
    (← begin_ W.heap 0) != end_ 0 && s == 1 && il.trailingOf.edge == .trailing &&
    W.heap.deref il.trailingOf == W.heap.deref il) == some true

-- forward_traversal (forest_test.cpp:217-245)
#guard (do full (← big W0 0 0) 0) == some "ABCFFGGHHCDIIJJKKDEEBA"
#guard (do edges (← big W0 0 0) .leading 0) == some "ABCFGHDIJKE"
#guard (do edges (← big W0 0 0) .trailing 0) == some "FGHCIJKDEBA"

-- reverse_traversal (forest_test.cpp:249-274)
#guard (do
  let W ← big W0 0 0
  let (f, l) ← revRange W.heap 0
  let is ← walk revEq (revIncr W.heap) f l
  text W.heap (is.map (·.base))) == some "ABEEDKKJJIIDCHHGGFFCBA"
#guard (do
  let W ← big W0 0 0
  let (f, l) ← revRange W.heap 0
  let is ← walk revEq (revIncr W.heap) f l
  return ((is.filter (·.edge == .leading)).length, (is.filter (·.edge == .trailing)).length)) == some (11, 11)

-- child_traversal (forest_test.cpp:285-307)
#guard (do
  let W ← big W0 0 0
  let p ← findNode W 0 "B"
  let is ← walk iterEq (childIncr W.heap) (← childBegin W.heap p) (childEnd p)
  text W.heap is) == some "CDE"

-- test_find_parent (forest_test.cpp:311-327)
#guard (do
  let W ← big W0 0 0
  return (← W.heap.deref (← findParent W.heap (← findNode W 0 "B")),
    ← W.heap.deref (← findParent W.heap (← findNode W 0 "J")))) == some ("A", "D")

-- test_has_children (forest_test.cpp:331-345)
#guard (do
  let W ← big W0 0 0
  return (← hasChildren W.heap (← findNode W 0 "B"), ← hasChildren W.heap (← findNode W 0 "J"))) == some (true, false)

-- erase (forest_test.cpp:349-369)
#guard (do
  let W ← big W0 0 0
  let (W, r1) ← erase W 0 (← findNode W 0 "J")
  let s1 ← edges W .leading 0
  let v1 ← W.heap.deref r1
  let d ← findNode W 0 "D"
  let (W, r2) ← eraseRange W 0 d.leadingOf (← incr W.heap d.trailingOf)
  let s2 ← edges W .leading 0
  let v2 ← W.heap.deref r2
  return [s1, v1, s2, v2]) == some ["ABCFGHDIKE", "K", "ABCFGHE", "E"]

-- construction (forest_test.cpp:373-387)
#guard (do
  let W ← big W0 0 0
  let W ← copyCtor W 100 0 (fresh 101)
  let (W, e1) ← equal W 100 0
  let (W, n) ← size W 0
  let W ← moveCtor W 200 0
  let (W, e2) ← equal W 200 0
  let (_, m) ← size W 200
  return e1 && !e2 && n == m) == some true

-- assignment (forest_test.cpp:391-416)
#guard (do
  let W ← big W0 0 0
  let W ← newForest W 100
  let e0 ← isEmpty W.heap 100
  let W ← copyAssign W 100 0 300 301 (fresh 101)
  let (W, e1) ← equal W 100 0
  let (W, n) ← size W 0
  let W ← newForest W 200
  let W ← moveAssign W 200 0 302
  let (W, e2) ← equal W 200 0
  let (W, m) ← size W 200
  let W ← big W 400 400
  let W ← moveAssign W 0 400 303
  let (W, k) ← size W 0
  let W ← moveAssign W 0 0 304
  let (_, j) ← size W 0
  return e0 && e1 && !e2 && n == m && k == j && k == 11) == some true

-- swap (forest_test.cpp:420-440)
#guard (do
  let W ← big W0 0 0
  let W ← copyCtor W 100 0 (fresh 101)
  let W ← forestPopBack W 100
  let W ← forestPopFront W 100
  let (W, a) ← size W 0
  let (W, b) ← size W 100
  let (W, e) ← equal W 0 100
  let W ← swap W 0 100 300 301 302
  let (W, b1) ← size W 0
  let (W, a1) ← size W 100
  let W ← swap W 0 100 300 301 302
  let (W, a2) ← size W 0
  let (_, b2) ← size W 100
  return a != b && !e && a == a1 && b == b1 && a == a2 && b == b2) == some true

-- test_equal_shape (forest_test.cpp:444-455)
#guard (do
  let W ← big W0 0 0
  let W ← copyCtor W 100 0 (fresh 101)
  let (f, l) ← edgeRange W.heap .leading 100
  let is ← walk iterEq (edgeIncr W.heap .leading) f l
  let W ← is.foldlM (fun W i => write W i "X") W
  let (W, e) ← equal W 0 100
  let (W, s) ← equalShape W 0 100
  return (e, s, ← full W 100)) == some (false, true, "XXXXXXXXXXXXXXXXXXXXXX")

-- test_transcribe_forest (forest_test.cpp:459-470)
#guard (do
  let W ← big W0 0 0
  let W ← newForest W 100
  let (W, _) ← transcribe (fun s => toString (s.front.toNat)) W 0 100 (fresh 101)
  let (W, s) ← equalShape W 0 100
  return (s, ← full W 100)) == some (true, "65666770707171727267687373747475756869696665")

-- test_flatten (forest_test.cpp:474-487)
#guard (do
  let W ← big W0 0 0
  let fl ← flatten W.heap (← begin_ W.heap 0) (end_ 0)
  let W ← newForest W 100
  let (W, _) ← unflatten W 100 fl (fresh 101)
  let (_, e) ← equal W 0 100
  return ("".intercalate (fl.map (·.getD "?")), e)) == some ("ABCF?G?H??DI?J?K??E???", true)

end Verif.Replay.Forest
