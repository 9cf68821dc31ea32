import Verif.Forest.Adaptors

/-!
# Model of the members of `forest` that work at its two ends (forest.hpp:838-854, 875-884)

An assertion that fails is the error outcome `none`.
-/

namespace Verif.Forest

variable {T : Type}

/-- `assert(!empty())` (forest.hpp:839, 843, 847, 851, 878, 882). -/
def assertNonempty (h : Heap T) (t : Ptr) : Option Unit := do
  if ← isEmpty h t then none else some ()

/-- `forest::front()` (forest.hpp:838-845), read. -/
def front (h : Heap T) (t : Ptr) : Option T := do
  assertNonempty h t
  let b ← begin_ h t
  h.deref b

/-- `forest::back()` (forest.hpp:846-853), read: the last edge of a nonempty forest is the trailing edge of
its last root. -/
def back (h : Heap T) (t : Ptr) : Option T := do
  assertNonempty h t
  let l ← decr h (end_ t)
  h.deref l

/-- `forest::push_front(x)` (forest.hpp:875). -/
def forestPushFront (W : World T) (t : Ptr) (x : T) (p : Ptr) : Option (World T) := do
  let b ← begin_ W.heap t
  (insert W t b x p).map (·.1)

/-- `forest::push_back(x)` (forest.hpp:876). -/
def forestPushBack (W : World T) (t : Ptr) (x : T) (p : Ptr) : Option (World T) :=
  (insert W t (end_ t) x p).map (·.1)

/-- `forest::pop_front()` (forest.hpp:877-880). -/
def forestPopFront (W : World T) (t : Ptr) : Option (World T) := do
  assertNonempty W.heap t
  let b ← begin_ W.heap t
  (erase W t b).map (·.1)

/-- `forest::pop_back()` (forest.hpp:881-884). -/
def forestPopBack (W : World T) (t : Ptr) : Option (World T) := do
  assertNonempty W.heap t
  let l ← decr W.heap (end_ t)
  (erase W t l).map (·.1)

/-- A call of one of the four modifiers; `p` is the address `new` returns. -/
inductive EndOp (T : Type) where
  | pushFront (v : T) (p : Ptr)
  | pushBack (v : T) (p : Ptr)
  | popFront
  | popBack

/-- One call on the forest `t` (forest.hpp:875-884). -/
def runEnd (W : World T) (t : Ptr) : EndOp T → Option (World T)
  | .pushFront v p => forestPushFront W t v p
  | .pushBack v p => forestPushBack W t v p
  | .popFront => forestPopFront W t
  | .popBack => forestPopBack W t

/-- A sequence of calls. -/
def runEnds (W : World T) (t : Ptr) : List (EndOp T) → Option (World T)
  | [] => some W
  | o :: os => do runEnds (← runEnd W t o) t os

end Verif.Forest
