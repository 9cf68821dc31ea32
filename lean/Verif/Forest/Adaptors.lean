import Verif.Forest.Model

/-!
# Model of the iterator adaptors of forest.hpp and of forest_algorithms.hpp
-/

namespace Verif.Forest

variable {T : Type}

/-- The loop `for (; first != last; ++first) visit(first)` over any iterator type, with `eq` its
`operator==` and `next` its `operator++`; returns the visited iterators in order. -/
def walk {σ : Type} (eq : σ → σ → Bool) (next : σ → Option σ) (first last : σ) : Option (List σ) :=
  if eq first last then some [] else do
    let n ← next first
    let r ← walk eq next n last
    return first :: r
partial_fixpoint

/-- The loop `while (last != first) visit(--last)`. -/
def walkBack {σ : Type} (eq : σ → σ → Bool) (prev : σ → Option σ) (first last : σ) :
    Option (List σ) :=
  if eq last first then some [] else do
    let p ← prev last
    let r ← walkBack eq prev first p
    return p :: r
partial_fixpoint

/-- `operator==` of `forest_iterator` (forest.hpp:632-634). -/
def iterEq (x y : Iter) : Bool := decide (x = y)

/-- `find_parent` (forest.hpp:85-90). -/
def findParent (h : Heap T) (i : Iter) : Option Iter := do
  let i ← incr h i.trailingOf
  if i.edge ≠ .trailing then findParent h i else return i
partial_fixpoint

/-- `child_begin(x).base()` (forest.hpp:1106-1109). -/
def childBegin (h : Heap T) (x : Iter) : Option Iter := incr h x.leadingOf

/-- `child_end(x).base()` (forest.hpp:1113-1116). -/
def childEnd (x : Iter) : Iter := x.trailingOf

/-! ## `child_adaptor` (forest.hpp:1120-1146): `t` is its forest, `i` its iterator -/

/-- `back()` (forest.hpp:1134), read. -/
def childBack (h : Heap T) (i : Iter) : Option T := do
  let l ← childDecr h (childEnd i)
  h.deref l

/-- `front()` (forest.hpp:1135), read. -/
def childFront (h : Heap T) (i : Iter) : Option T := do
  let f ← childBegin h i
  h.deref f

/-- `push_back(x)` (forest.hpp:1137). -/
def pushBack (W : World T) (t : Ptr) (i : Iter) (x : T) (p : Ptr) : Option (World T) :=
  (insert W t (childEnd i) x p).map (·.1)

/-- `push_front(x)` (forest.hpp:1138). -/
def pushFront (W : World T) (t : Ptr) (i : Iter) (x : T) (p : Ptr) : Option (World T) := do
  let f ← childBegin W.heap i
  (insert W t f x p).map (·.1)

/-- `pop_back()` (forest.hpp:1140): the decrement is one of the base iterator. -/
def popBack (W : World T) (t : Ptr) (i : Iter) : Option (World T) := do
  let l ← decr W.heap (childEnd i)
  (erase W t l).map (·.1)

/-- `pop_front()` (forest.hpp:1141). -/
def popFront (W : World T) (t : Ptr) (i : Iter) : Option (World T) := do
  let f ← childBegin W.heap i
  (erase W t f).map (·.1)

/-- `edge_iterator(x)` (forest.hpp:186): construction searches forward for the edge. -/
def edgeMk (h : Heap T) (e : Edge) (x : Iter) : Option Iter := findEdge h x e

/-- `preorder_range`/`postorder_range` (forest.hpp:1218-1246): begin and end. -/
def edgeRange (h : Heap T) (e : Edge) (t : Ptr) : Option (Iter × Iter) := do
  let b ← begin_ h t
  let f ← edgeMk h e b
  let l ← edgeMk h e (end_ t)
  return (f, l)

/-! ## `filter_fullorder_iterator` (forest.hpp:232-344) -/

/-- Its data members (forest.hpp:297-301), without the predicate. -/
structure FIt where
  x : Iter
  inside : Bool
  first : Iter
  last : Iter
  deriving DecidableEq, Repr

/-- `skip_forward` (forest.hpp:313-321). -/
def skipForward (h : Heap T) (p : T → Bool) (f l : Iter) : Option Iter :=
  if f.edge = .leading ∧ f ≠ l then do
    let v ← h.deref f
    if p v then some f else do
      let n ← incr h f.trailingOf
      skipForward h p n l
  else some f
partial_fixpoint

/-- `skip_backward` (forest.hpp:323-331). -/
def skipBackward (h : Heap T) (p : T → Bool) (f l : Iter) : Option Iter :=
  if l.edge = .trailing ∧ f ≠ l then do
    let v ← h.deref l
    if p v then some l else do
      let n ← decr h l.leadingOf
      skipBackward h p f n
  else some l
partial_fixpoint

/-- The constructor `filter_fullorder_iterator(f, l, p)` (forest.hpp:243-244). -/
def filterMk (h : Heap T) (p : T → Bool) (f l : Iter) : Option FIt := do
  let x ← skipForward h p f l
  return ⟨x, true, f, l⟩

/-- `increment` (forest.hpp:303-311). -/
def filterIncr (h : Heap T) (p : T → Bool) (i : FIt) : Option FIt := do
  let inside := if i.x = i.last then false else i.inside
  let x ← incr h i.x
  let inside := if x = i.first then true else inside
  let x ← if inside then skipForward h p x i.last else some x
  return { i with x := x, inside := inside }

/-- `decrement` (forest.hpp:333-341). -/
def filterDecr (h : Heap T) (p : T → Bool) (i : FIt) : Option FIt := do
  let inside := if i.x = i.first then false else i.inside
  let x ← decr h i.x
  let inside := if x = i.last then true else inside
  let x ← if inside then skipBackward h p i.first x else some x
  return { i with x := x, inside := inside }

/-- `operator==` (forest.hpp:287-290): compares `base()` only. -/
def filterEq (a b : FIt) : Bool := decide (a.x = b.x)

/-- `filter_fullorder_range(x, p)` (forest.hpp:1168-1182): its `begin()` and `end()`. -/
def filterRange (h : Heap T) (p : T → Bool) (t : Ptr) : Option (FIt × FIt) := do
  let b ← begin_ h t
  let f ← filterMk h p b (end_ t)
  let l ← filterMk h p (end_ t) (end_ t)
  return (f, l)

/-! ## `reverse_fullorder_iterator` (forest.hpp:348-422) -/

/-- Its data members (forest.hpp:404-405). -/
structure RIt where
  base : Iter
  edge : Edge
  deriving DecidableEq, Repr

/-- The constructor from an iterator (forest.hpp:359). -/
def revMk (h : Heap T) (x : Iter) : Option RIt := do
  let b ← decr h x
  return ⟨b, b.edge.pivot⟩

/-- `increment` (forest.hpp:407-411). -/
def revIncr (h : Heap T) (i : RIt) : Option RIt := do
  let b ← decr h ⟨i.base.node, i.edge.pivot⟩
  return ⟨b, b.edge.pivot⟩

/-- `decrement` (forest.hpp:412-416). -/
def revDecr (h : Heap T) (i : RIt) : Option RIt := do
  let b ← incr h ⟨i.base.node, i.edge.pivot⟩
  return ⟨b, b.edge.pivot⟩

/-- `equal` (forest.hpp:419-421). -/
def revEq (a b : RIt) : Bool := decide (a.base = b.base) && decide (a.edge = b.edge)

/-- `base()` (forest.hpp:364). -/
def revBase (h : Heap T) (i : RIt) : Option Iter := incr h i.base

/-- The constructor from a reverse iterator of another type, such as that of a `const_iterator` from that of an `iterator`
(forest.hpp:360-362). -/
def revConvert (h : Heap T) (i : RIt) : Option RIt := do
  let x ← revBase h i
  revMk h x

/-- `leading_of`/`trailing_of` at a reverse iterator (forest.hpp:53-64 with forest.hpp:367):
assigns through `edge()`, which is the member `_edge`. -/
def revSetEdge (i : RIt) (e : Edge) : RIt := { i with edge := e }

/-- `reverse_fullorder_range(x)` (forest.hpp:1186-1198), also `rbegin()`, `rend()`
(forest.hpp:833-836). -/
def revRange (h : Heap T) (t : Ptr) : Option (RIt × RIt) := do
  let f ← revMk h (end_ t)
  let b ← begin_ h t
  let l ← revMk h b
  return (f, l)

/-! ## `depth_fullorder_iterator` (forest.hpp:426-498) -/

/-- Its data members (forest.hpp:480-481). -/
structure DIt where
  x : Iter
  depth : Int
  deriving DecidableEq, Repr

/-- `difference_type(size_t(edge) << 1) - 1` (forest.hpp:487, 494). -/
def edgeSign : Edge → Int
  | .leading => 2 * 1 - 1
  | .trailing => 2 * 0 - 1

/-- `increment` (forest.hpp:483-488). -/
def depthIncr (h : Heap T) (i : DIt) : Option DIt := do
  let x ← incr h i.x
  return ⟨x, if i.x.edge = x.edge then i.depth + edgeSign i.x.edge else i.depth⟩

/-- `decrement` (forest.hpp:490-495). -/
def depthDecr (h : Heap T) (i : DIt) : Option DIt := do
  let x ← decr h i.x
  return ⟨x, if i.x.edge = x.edge then i.depth - edgeSign i.x.edge else i.depth⟩

/-- `operator==` (forest.hpp:470-473): compares `base()` only. -/
def depthEq (a b : DIt) : Bool := decide (a.x = b.x)

/-- `depth_range(x)` (forest.hpp:1202-1214): begin and end, both with depth 0. -/
def depthRange (h : Heap T) (t : Ptr) : Option (DIt × DIt) := do
  let b ← begin_ h t
  return (⟨b, 0⟩, ⟨end_ t, 0⟩)

/-! ## forest_algorithms.hpp -/

/-- The loop of `equal_shape` (forest_algorithms.hpp:26-28). -/
def shapeLoop (h : Heap T) (first last pos : Iter) : Option Bool :=
  if first = last then some true
  else if first.edge ≠ pos.edge then some false
  else do
    let first ← incr h first
    let pos ← incr h pos
    shapeLoop h first last pos
partial_fixpoint

/-- The part of `equal_shape` after the comparison of sizes (forest_algorithms.hpp:25-29). -/
def shapeTail (W : World T) (x y : Ptr) : Option (World T × Bool) := do
  let pos ← begin_ W.heap y
  let first ← begin_ W.heap x
  let r ← shapeLoop W.heap first (end_ x) pos
  return (W, r)

/-- `equal_shape` (forest_algorithms.hpp:22-30). Both forests here hold the same value type; the
code does not read values. -/
def equalShape (W : World T) (x y : Ptr) : Option (World T × Bool) := do
  if (← sizeValid W x) && (← sizeValid W y) then do
    let (W, a) ← size W x
    let (W, b) ← size W y
    if a ≠ b then return (W, false) else shapeTail W x y
  else shapeTail W x y

/-- `transcribe_iterator::operator=` (forest_algorithms.hpp:56-64): the iterator is the pair of the
container `t` and the position `i`. `p` is the address `new` returns. -/
def transcribeAssign (W : World T) (t : Ptr) (i : Iter) (v : T) (p : Ptr) :
    Option (World T × Iter) := insert W t i v p

/-- `transcribe(first, last, out, proj)` with the default predicate `is_leading`
(forest_algorithms.hpp:80-90, 98-102), from a forest range into the forest `t`. -/
def transcribeLoop (proj : T → T) (W : World T) (t : Ptr) (first last out : Iter) (ps : List Ptr) :
    Option (World T × Iter) :=
  if first = last then some (W, out)
  else do
    let (W, out, ps) ← (if first.edge = .leading then do
        let v ← W.heap.deref first
        match ps with
        | [] => none
        | p :: ps => do
          let (W, r) ← transcribeAssign W t out (proj v) p
          return (W, r, ps)
      else some (W, out.trailingOf, ps))
    let first ← incr W.heap first
    let out ← incr W.heap out
    transcribeLoop proj W t first last out ps
partial_fixpoint

/-- `transcribe(range, transcriber(c), proj)` (forest_algorithms.hpp:104-107, 73-76). -/
def transcribe (proj : T → T) (W : World T) (x t : Ptr) (ps : List Ptr) :
    Option (World T × Iter) := do
  let out ← begin_ W.heap t
  let first ← begin_ W.heap x
  transcribeLoop proj W t first (end_ x) out ps

/-- `flatten` (forest_algorithms.hpp:111-122): the sequence written to the output iterator. -/
def flatten (h : Heap T) (first last : Iter) : Option (List (Option T)) :=
  if first = last then some []
  else do
    let o ← (if first.edge = .leading then (h.deref first).map some else some none)
    let first ← incr h first
    let r ← flatten h first last
    return o :: r
partial_fixpoint

/-- The loop of `transcribe` as `unflatten` uses it (forest_algorithms.hpp:80-90, 129-131): over a
sequence of `optional<T>`, the predicate tests engagement, the projection dereferences. -/
def unflattenLoop (W : World T) (t : Ptr) (out : Iter) (ps : List Ptr) :
    List (Option T) → Option (World T × Iter)
  | [] => some (W, out)
  | some v :: s =>
    match ps with
    | [] => none
    | p :: ps => do
      let (W, out) ← transcribeAssign W t out v p
      let out ← incr W.heap out
      unflattenLoop W t out ps s
  | none :: s => do
    let out ← incr W.heap out.trailingOf
    unflattenLoop W t out ps s

/-- `unflatten(first, last, f)` (forest_algorithms.hpp:126-132). -/
def unflatten (W : World T) (t : Ptr) (s : List (Option T)) (ps : List Ptr) :
    Option (World T × Iter) := do
  let out ← begin_ W.heap t
  unflattenLoop W t out ps s

end Verif.Forest
