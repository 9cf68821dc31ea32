/-!
# Model of `stlab::forest` (include/stlab/forest.hpp)

The heap maps addresses to nodes; reading or writing a node that is not allocated is undefined
behaviour and makes the operation return `none`.  Loops are `partial_fixpoint`s in `Option`, so a
non-terminating loop also is `none`.  Every theorem about an operation therefore proves that it
returns `some`.
-/

namespace Verif.Forest

/-- Addresses of nodes. -/
abbrev Ptr := Nat

/-- `forest_edge` (forest.hpp:32): `trailing = 0`, `leading = 1`. -/
inductive Edge where
  | trailing
  | leading
  deriving DecidableEq, Repr, Inhabited

/-- `forest_edge(bool)` conversions as used in forest.hpp:613-617, 624-628. -/
def Edge.ofBool (b : Bool) : Edge := if b then .leading else .trailing

/-- `pivot(forest_edge)` (forest.hpp:39). -/
def Edge.pivot : Edge → Edge
  | .leading => .trailing
  | .trailing => .leading

/-- `next_prior_t` (forest.hpp:515). -/
inductive Dir where
  | prior
  | next
  deriving DecidableEq, Repr

/-- `node_base`/`node` (forest.hpp:513-543): four links and the value. The sentinel `_tail` is a
`node_base` without a value (`data = none`). -/
structure Node (T : Type) where
  link : Edge → Dir → Ptr
  data : Option T

/-- The heap. `none` = not allocated. -/
abbrev Heap (T : Type) := Ptr → Option (Node T)

/-- `forest_iterator`/`forest_const_iterator` (forest.hpp:549-736): node pointer and edge. -/
structure Iter where
  node : Ptr
  edge : Edge
  deriving DecidableEq, Repr, Inhabited

/-- `leading_of` (forest.hpp:54-58). -/
def Iter.leadingOf (i : Iter) : Iter := ⟨i.node, .leading⟩
/-- `trailing_of` (forest.hpp:60-64). -/
def Iter.trailingOf (i : Iter) : Iter := ⟨i.node, .trailing⟩
/-- `pivot`/`pivot_of` on iterators (forest.hpp:41-50). -/
def Iter.pivot (i : Iter) : Iter := ⟨i.node, i.edge.pivot⟩

variable {T : Type}

/-- `node_base::link` read (forest.hpp:520-526). -/
def Heap.link (h : Heap T) (p : Ptr) (e : Edge) (d : Dir) : Option Ptr := (h p).map (·.link e d)

/-- `forest_iterator::dereference` (forest.hpp:608): reading the value; the sentinel has none. -/
def Heap.deref (h : Heap T) (i : Iter) : Option T := (h i.node).bind (·.data)

/-- `node_base::link` write (forest.hpp:520-522 used as an lvalue). -/
def Heap.setLink (h : Heap T) (p : Ptr) (e : Edge) (d : Dir) (q : Ptr) : Option (Heap T) :=
  (h p).map fun n =>
    fun r => if r = p then
        some { n with link := fun e' d' => if e' = e ∧ d' = d then q else n.link e' d' }
      else h r

/-- `forest_iterator::increment` (forest.hpp:610-619). -/
def incr (h : Heap T) (i : Iter) : Option Iter := do
  let nx ← h.link i.node i.edge .next
  if i.edge = .leading then
    return ⟨nx, Edge.ofBool (nx != i.node)⟩
  else
    let lp ← h.link nx .leading .prior
    return ⟨nx, Edge.ofBool (lp == i.node)⟩

/-- `forest_iterator::decrement` (forest.hpp:621-630). -/
def decr (h : Heap T) (i : Iter) : Option Iter := do
  let nx ← h.link i.node i.edge .prior
  if i.edge = .leading then
    let tn ← h.link nx .trailing .next
    return ⟨nx, Edge.ofBool (tn != i.node)⟩
  else
    return ⟨nx, Edge.ofBool (nx == i.node)⟩

/-- `set_next_fn<forest_iterator>` (forest.hpp:747-755). -/
def setNext (h : Heap T) (x y : Iter) : Option (Heap T) := do
  let h ← h.setLink x.node x.edge .next y.node
  h.setLink y.node y.edge .prior x.node

/-- `child_iterator::increment` (forest.hpp:147-150), on the base iterator. -/
def childIncr (h : Heap T) (i : Iter) : Option Iter := incr h i.pivot

/-- `child_iterator::decrement` (forest.hpp:151-154), on the base iterator. -/
def childDecr (h : Heap T) (i : Iter) : Option Iter := (decr h i).map Iter.pivot

/-- `set_next_fn<child_iterator>` (forest.hpp:940-945). -/
def childSetNext (h : Heap T) (x y : Iter) : Option (Heap T) := setNext h x.pivot y

/-- `has_children` (forest.hpp:94-97). -/
def hasChildren (h : Heap T) (i : Iter) : Option Bool := do
  let n ← incr h i.leadingOf
  return i.node != n.node

/-- `find_edge` (forest.hpp:161-166). -/
def findEdge (h : Heap T) (x : Iter) (e : Edge) : Option Iter :=
  if x.edge = e then some x else do
    let y ← incr h x
    findEdge h y e
partial_fixpoint

/-- `find_edge_reverse` (forest.hpp:168-173). -/
def findEdgeReverse (h : Heap T) (x : Iter) (e : Edge) : Option Iter :=
  if x.edge = e then some x else do
    let y ← decr h x
    findEdgeReverse h y e
partial_fixpoint

/-- `edge_iterator::increment` (forest.hpp:223). -/
def edgeIncr (h : Heap T) (e : Edge) (x : Iter) : Option Iter := do
  let y ← incr h x
  findEdge h y e

/-- `edge_iterator::decrement` (forest.hpp:225). -/
def edgeDecr (h : Heap T) (e : Edge) (x : Iter) : Option Iter := do
  let y ← decr h x
  findEdgeReverse h y e

/-- `std::distance` over edge iterators, as used by `forest::size` (forest.hpp:959). -/
def edgeDistance (h : Heap T) (e : Edge) (x last : Iter) : Option Nat :=
  if x = last then some 0 else do
    let y ← edgeIncr h e x
    let n ← edgeDistance h e y last
    return n + 1
partial_fixpoint

/-- A heap together with the cached `_size` of each forest object. A forest object is identified
with the address of its sentinel `_tail` (forest.hpp:908-912). -/
structure World (T : Type) where
  heap : Heap T
  size : Ptr → Nat

/-- `forest::root` (forest.hpp:825). -/
def root (t : Ptr) : Iter := ⟨t, .leading⟩
/-- `forest::end` (forest.hpp:829). -/
def end_ (t : Ptr) : Iter := ⟨t, .trailing⟩
/-- `forest::begin` (forest.hpp:828). -/
def begin_ (h : Heap T) (t : Ptr) : Option Iter := incr h (root t)

/-- `forest::empty` (forest.hpp:820-822). -/
def isEmpty (h : Heap T) (t : Ptr) : Option Bool := do
  let b ← begin_ h t
  return b == end_ t

/-- `forest::size_valid` (forest.hpp:819), with its short circuit. -/
def sizeValid (W : World T) (t : Ptr) : Option Bool :=
  if W.size t ≠ 0 then some true else isEmpty W.heap t

/-- Assignment to `_size`. -/
def World.setSize (W : World T) (t : Ptr) (n : Nat) : World T :=
  { W with size := fun q => if q = t then n else W.size q }

/-- Unsigned subtraction; wrapping below zero is the error outcome. -/
def usub (a b : Nat) : Option Nat := if b ≤ a then some (a - b) else none

/-- `forest::size` (forest.hpp:953-964), including the update of the mutable cache. -/
def size (W : World T) (t : Ptr) : Option (World T × Nat) := do
  if ← sizeValid W t then
    return (W, W.size t)
  else
    let b ← begin_ W.heap t
    let first ← findEdge W.heap b .leading
    let last ← findEdge W.heap (end_ t) .leading
    let n ← edgeDistance W.heap .leading first last
    return (W.setSize t n, n)

/-- A self linked node (`node_base()` constructor, forest.hpp:530-532). -/
def freshNode (p : Ptr) (d : Option T) : Node T := ⟨fun _ _ => p, d⟩

/-- `new`: `p` is the address the allocator returns; returning an address in use is impossible. -/
def Heap.alloc (h : Heap T) (p : Ptr) (d : Option T) : Option (Heap T) :=
  match h p with
  | some _ => none
  | none => some fun q => if q = p then some (freshNode p d) else h q

/-- `delete` of a value node. Deleting a freed address or a sentinel is undefined. -/
def Heap.free (h : Heap T) (p : Ptr) : Option (Heap T) :=
  match h p with
  | some ⟨_, some _⟩ => some fun q => if q = p then none else h q
  | _ => none

/-- `forest::insert(position, x)` (forest.hpp:864-873). -/
def insert (W : World T) (t : Ptr) (pos : Iter) (x : T) (p : Ptr) : Option (World T × Iter) := do
  let h ← W.heap.alloc p (some x)
  let W : World T := { W with heap := h }
  let result : Iter := ⟨p, .leading⟩
  let W := if ← sizeValid W t then W.setSize t (W.size t + 1) else W
  let pr ← decr W.heap pos
  let h ← setNext W.heap pr result
  let nx ← incr h result
  let h ← setNext h nx pos
  return ({ W with heap := h }, result)

/-- `forest::erase(position)` (forest.hpp:989-1014). -/
def erase (W : World T) (t : Ptr) (pos : Iter) : Option (World T × Iter) := do
  let W ← if ← sizeValid W t then (usub (W.size t) 1).map (W.setSize t) else some W
  let lp ← decr W.heap pos.leadingOf
  let ln ← incr W.heap pos.leadingOf
  let tp ← decr W.heap pos.trailingOf
  let tn ← incr W.heap pos.trailingOf
  let hc ← hasChildren W.heap pos
  let h ← if hc then do
      let h ← setNext W.heap lp ln
      setNext h tp tn
    else setNext W.heap lp tn
  let h ← h.free pos.node
  let r ← if pos.edge = .leading then incr h lp else some tn
  return ({ W with heap := h }, r)

/-- The loop of `forest::erase(first, last)` (forest.hpp:968-985). -/
def eraseLoop (W : World T) (t : Ptr) (pos last : Iter) (depth : Int) : Option (World T) :=
  if pos = last then some W
  else if pos.edge = .leading then do
    let pos' ← incr W.heap pos
    eraseLoop W t pos' last (depth + 1)
  else if depth > 0 then do
    let r ← erase W t pos
    eraseLoop r.1 t r.2 last (max 0 (depth - 1))
  else do
    let pos' ← incr W.heap pos
    eraseLoop W t pos' last (max 0 (depth - 1))
partial_fixpoint

/-- `forest::erase(first, last)` (forest.hpp:967-985). -/
def eraseRange (W : World T) (t : Ptr) (first last : Iter) : Option (World T × Iter) := do
  let W ← eraseLoop W t first last 0
  return (W, last)

/-- `forest::clear` (forest.hpp:856-859), with its assertion. -/
def clear (W : World T) (t : Ptr) : Option (World T) := do
  let b ← begin_ W.heap t
  let r ← eraseRange W t b (end_ t)
  if ← isEmpty r.1.heap t then return r.1 else none

/-- `forest::splice(pos, x, first, last, count)` (forest.hpp:1047-1073). `t` is `*this`. -/
def splice (W : World T) (t : Ptr) (pos : Iter) (x : Ptr) (first last : Iter) (count : Nat) :
    Option (World T × Iter) := do
  if first = last ∨ first = pos then return (W, pos)
  let W ←
    if x ≠ t then
      if count ≠ 0 then do
        let W ← (if ← sizeValid W t then some (W.setSize t (W.size t + count)) else some W)
        if ← sizeValid W x then (usub (W.size x) count).map (W.setSize x) else some W
      else some ((W.setSize t 0).setSize x 0)
    else some W
  let back ← decr W.heap last
  let pf ← childDecr W.heap first
  let h ← childSetNext W.heap pf last
  let pp ← decr h pos
  let h ← setNext h pp first
  let h ← setNext h back pos
  return ({ W with heap := h }, first)

/-- `forest::splice(pos, x)` (forest.hpp:1018-1022). -/
def spliceAll (W : World T) (t : Ptr) (pos : Iter) (x : Ptr) : Option (World T × Iter) := do
  let b ← begin_ W.heap x
  if ← sizeValid W x then do
    let (W, n) ← size W x
    splice W t pos x b (end_ x) n
  else splice W t pos x b (end_ x) 0

/-- `forest::splice(pos, x, i)` (forest.hpp:1026-1031). -/
def spliceNode (W : World T) (t : Ptr) (pos : Iter) (x : Ptr) (i : Iter) :
    Option (World T × Iter) := do
  let i := i.leadingOf
  let l ← childIncr W.heap i
  let hc ← hasChildren W.heap i
  splice W t pos x i l (if hc then 0 else 1)

/-- `forest::splice(pos, x, first, last)` (forest.hpp:1077-1081). -/
def spliceRange (W : World T) (t : Ptr) (pos : Iter) (x : Ptr) (first last : Iter) :
    Option (World T × Iter) := splice W t pos x first last 0

/-- `forest::insert_parent` (forest.hpp:1085-1092). -/
def insertParent (W : World T) (t : Ptr) (first last : Iter) (x : T) (p : Ptr) :
    Option (World T × Iter) := do
  let (W, result) ← insert W t last x p
  if first = last then return (W, result)
  let (W, _) ← spliceRange W t result.trailingOf t first result
  return (W, result)

/-- `unsafe::reverse_append` at child iterators (algorithm/reverse.hpp:32-41). Note that the code
initialises `prior` from `end`, not from `first`. -/
def reverseAppend (h : Heap T) (first last end' : Iter) : Option (Heap T × Iter) :=
  if first = last then some (h, end')
  else do
    let prior := end'
    let first ← childIncr h first
    let h ← childSetNext h prior end'
    reverseAppend h first last prior
partial_fixpoint

/-- `forest::reverse(first, last)` (forest.hpp:1096-1102); `reverse_nodes` is
algorithm/reverse.hpp:55-58. -/
def reverse (W : World T) (first last : Iter) : Option (World T) := do
  let prior ← decr W.heap first
  let (h, f) ← reverseAppend W.heap first last last
  let h ← setNext h prior f
  return { W with heap := h }

/-- `forest::insert(pos, first, last)` of a range of another (or the same) forest
(forest.hpp:1035-1043). `ps` are the addresses successive `new`s return. -/
def insertRangeLoop (W : World T) (t : Ptr) (pos first last : Iter) (ps : List Ptr) :
    Option (World T × Iter) :=
  if first = last then some (W, pos)
  else do
    let (W, pos, ps) ← (if first.edge = .leading then do
        let v ← W.heap.deref first
        match ps with
        | [] => none
        | p :: ps => do
          let (W, r) ← insert W t pos v p
          return (W, r, ps)
      else some (W, pos, ps))
    let first ← incr W.heap first
    let pos ← incr W.heap pos
    insertRangeLoop W t pos first last ps
partial_fixpoint

/-- `forest()` (forest.hpp:795): a sentinel at a fresh address, `_size{0}`. -/
def newForest (W : World T) (t : Ptr) : Option (World T) := do
  let h ← W.heap.alloc t none
  return ({ W with heap := h } : World T).setSize t 0

/-- `~forest()` (forest.hpp:796): `clear()`, then the object (sentinel) disappears. -/
def destroy (W : World T) (t : Ptr) : Option (World T) := do
  let W ← clear W t
  return { W with heap := fun q => if q = t then none else W.heap q }

/-- `forest(const forest&)` (forest.hpp:798-800). -/
def copyCtor (W : World T) (t x : Ptr) (ps : List Ptr) : Option (World T) := do
  let W ← newForest W t
  let b ← begin_ W.heap x
  let (W, _) ← insertRangeLoop W t (end_ t) b (end_ x) ps
  return W

/-- `forest(forest&&)` (forest.hpp:801). -/
def moveCtor (W : World T) (t x : Ptr) : Option (World T) := do
  let W ← newForest W t
  let (W, _) ← spliceAll W t (end_ t) x
  return W

/-- `operator=(forest&&)` (forest.hpp:808-813); `tmp` is the address of the local object. -/
def moveAssign (W : World T) (t x tmp : Ptr) : Option (World T) := do
  let W ← moveCtor W tmp x
  let W ← clear W t
  let (W, _) ← spliceAll W t (end_ t) tmp
  destroy W tmp

/-- `operator=(const forest&)` (forest.hpp:802-806) for distinct forests (self assignment is ruled out
by an assertion): copy into a temporary, move-assign it, destroy it. -/
def copyAssign (W : World T) (t x tmp tmp1 : Ptr) (ps : List Ptr) : Option (World T) :=
  if t = x then none else do
    let W ← copyCtor W tmp x ps
    let W ← moveAssign W t tmp tmp1
    destroy W tmp

/-- `forest::swap` (forest.hpp:815) = `std::swap`: move-construct a temporary from `*this`, then two
move assignments, then the temporary is destroyed. -/
def swap (W : World T) (t x tmp tmp1 tmp2 : Ptr) : Option (World T) := do
  let W ← moveCtor W tmp t
  let W ← moveAssign W t x tmp1
  let W ← moveAssign W x tmp tmp2
  destroy W tmp

/-- The loop of `operator==` (forest.hpp:921-924). -/
def eqLoop [DecidableEq T] (h : Heap T) (first last pos : Iter) : Option Bool :=
  if first = last then some true
  else if first.edge ≠ pos.edge then some false
  else do
    let differ ← (if first.edge = .leading then do
        let a ← h.deref first
        let b ← h.deref pos
        return a != b
      else some false)
    if differ then return false
    let first ← incr h first
    let pos ← incr h pos
    eqLoop h first last pos
partial_fixpoint

/-- `operator==` (forest.hpp:917-927). -/
def equal [DecidableEq T] (W : World T) (x y : Ptr) : Option (World T × Bool) := do
  let (W, a) ← size W x
  let (W, b) ← size W y
  if a ≠ b then return (W, false)
  let first ← begin_ W.heap x
  let pos ← begin_ W.heap y
  let r ← eqLoop W.heap first (end_ x) pos
  return (W, r)

end Verif.Forest
