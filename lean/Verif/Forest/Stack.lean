import Verif.Forest.Adaptors

/-!
# Iterator adaptors over any full order iterator

The adaptors of forest.hpp are templates over "a FullorderIterator" (forest.hpp:53, 59, 84, 94, 232, 348, 426), and each of them is one
itself. `Adaptors.lean` has them over the iterators of a forest; here they are over any iterator, also over one another, and so are the
functions that navigate.
-/

namespace Verif.Forest

/-- What the adaptors and functions use of an iterator: reading `edge()`, assigning to it, `++`, `--`, `==`, `equal_node` and `*`. -/
structure FO (T σ : Type) where
  edge : σ → Edge
  setEdge : σ → Edge → σ
  incr : σ → Option σ
  decr : σ → Option σ
  eq : σ → σ → Bool
  eqNode : σ → σ → Bool
  deref : σ → Option T

variable {T σ : Type}

/-- `forest_iterator` (forest.hpp:549-640). -/
def baseFO (h : Heap T) : FO T Iter where
  edge := (·.edge)
  setEdge i e := ⟨i.node, e⟩
  incr := Forest.incr h
  decr := Forest.decr h
  eq := iterEq
  eqNode x y := x.node == y.node
  deref := h.deref

/-! ## The adaptors -/

/-- The data members of `reverse_fullorder_iterator` (forest.hpp:404-405). -/
structure Rev (σ : Type) where
  base : σ
  edge : Edge

/-- The constructor (forest.hpp:359). -/
def Rev.mk' (F : FO T σ) (x : σ) : Option (Rev σ) := do
  let b ← F.decr x
  return ⟨b, (F.edge b).pivot⟩

/-- `reverse_fullorder_iterator` (forest.hpp:366-371, 407-421). `*` (line 417) does not compile over the other adaptors, whose `operator*`
is not `const`; over a `forest_iterator` it does. -/
def revFO (F : FO T σ) : FO T (Rev σ) where
  edge := (·.edge)
  setEdge i e := { i with edge := e }
  incr i := do
    let b ← F.decr (F.setEdge i.base i.edge.pivot)
    return ⟨b, (F.edge b).pivot⟩
  decr i := do
    let b ← F.incr (F.setEdge i.base i.edge.pivot)
    return ⟨b, (F.edge b).pivot⟩
  eq a b := F.eq a.base b.base && decide (a.edge = b.edge)
  eqNode a b := F.eqNode a.base b.base
  deref i := F.deref i.base

/-- The data members of `depth_fullorder_iterator` (forest.hpp:480-481). -/
structure Dep (σ : Type) where
  x : σ
  depth : Int

/-- `depth_fullorder_iterator` (forest.hpp:440-445, 470-497). -/
def depFO (F : FO T σ) : FO T (Dep σ) where
  edge i := F.edge i.x
  setEdge i e := { i with x := F.setEdge i.x e }
  incr i := do
    let x ← F.incr i.x
    return ⟨x, if F.edge i.x = F.edge x then i.depth + edgeSign (F.edge i.x) else i.depth⟩
  decr i := do
    let x ← F.decr i.x
    return ⟨x, if F.edge i.x = F.edge x then i.depth - edgeSign (F.edge i.x) else i.depth⟩
  eq a b := F.eq a.x b.x
  eqNode a b := F.eqNode a.x b.x
  deref i := F.deref i.x

/-- The data members of `filter_fullorder_iterator` (forest.hpp:297-300), without the predicate. -/
structure Fil (σ : Type) where
  x : σ
  inside : Bool
  first : σ
  last : σ

/-- `skip_forward` (forest.hpp:313-321). -/
def skipF (F : FO T σ) (p : T → Bool) (f l : σ) : Option σ :=
  if F.edge f = .leading ∧ F.eq f l = false then do
    let v ← F.deref f
    if p v then some f else do
      let n ← F.incr (F.setEdge f .trailing)
      skipF F p n l
  else some f
partial_fixpoint

/-- `skip_backward` (forest.hpp:323-331). -/
def skipB (F : FO T σ) (p : T → Bool) (f l : σ) : Option σ :=
  if F.edge l = .trailing ∧ F.eq f l = false then do
    let v ← F.deref l
    if p v then some l else do
      let n ← F.decr (F.setEdge l .leading)
      skipB F p f n
  else some l
partial_fixpoint

/-- The constructor (forest.hpp:243-244). -/
def Fil.mk' (F : FO T σ) (p : T → Bool) (f l : σ) : Option (Fil σ) := do
  let x ← skipF F p f l
  return ⟨x, true, f, l⟩

/-- `filter_fullorder_iterator` (forest.hpp:256-290, 303-311, 333-343). -/
def filFO (F : FO T σ) (p : T → Bool) : FO T (Fil σ) where
  edge i := F.edge i.x
  setEdge i e := { i with x := F.setEdge i.x e }
  incr i := do
    let inside := if F.eq i.x i.last then false else i.inside
    let x ← F.incr i.x
    let inside := if F.eq x i.first then true else inside
    let x ← if inside then skipF F p x i.last else some x
    return { i with x := x, inside := inside }
  decr i := do
    let inside := if F.eq i.x i.first then false else i.inside
    let x ← F.decr i.x
    let inside := if F.eq x i.last then true else inside
    let x ← if inside then skipB F p i.first x else some x
    return { i with x := x, inside := inside }
  eq a b := F.eq a.x b.x
  eqNode a b := F.eqNode a.x b.x
  deref i := F.deref i.x

/-! ## The functions -/

namespace FO

/-- `find_parent` (forest.hpp:84-90). -/
def findParent (F : FO T σ) (i : σ) : Option σ := do
  let i ← F.incr (F.setEdge i .trailing)
  if F.edge i ≠ .trailing then findParent F i else return i
partial_fixpoint

/-- `has_children` (forest.hpp:94-97). -/
def hasChildren (F : FO T σ) (i : σ) : Option Bool := do
  let n ← F.incr (F.setEdge i .leading)
  return !F.eqNode i n

/-- `child_begin(x).base()` (forest.hpp:1106-1109). -/
def childBegin (F : FO T σ) (x : σ) : Option σ := F.incr (F.setEdge x .leading)

/-- `child_end(x).base()` (forest.hpp:1113-1116). -/
def childEnd (F : FO T σ) (x : σ) : σ := F.setEdge x .trailing

/-- `child_iterator::increment` (forest.hpp:147-150); `pivot` is at lines 41-44. -/
def childIncr (F : FO T σ) (x : σ) : Option σ := F.incr (F.setEdge x (F.edge x).pivot)

/-- `child_iterator::decrement` (forest.hpp:151-154). -/
def childDecr (F : FO T σ) (x : σ) : Option σ := (F.decr x).map fun y => F.setEdge y (F.edge y).pivot

/-- `find_edge` (forest.hpp:161-166). -/
def findEdge (F : FO T σ) (x : σ) (e : Edge) : Option σ :=
  if F.edge x = e then some x else do
    let y ← F.incr x
    findEdge F y e
partial_fixpoint

/-- `edge_iterator::increment` (forest.hpp:223). -/
def edgeIncr (F : FO T σ) (e : Edge) (x : σ) : Option σ := do
  let y ← F.incr x
  findEdge F y e

end FO

/-! ## Stacks of adaptors -/

inductive Ad (T : Type)
  | rev
  | depth
  | filter (p : T → Bool)

/-- The type of an iterator with adaptors, the outermost first. -/
def Stack : List (Ad T) → Type
  | [] => Iter
  | .rev :: l => Rev (Stack l)
  | .depth :: l => Dep (Stack l)
  | .filter _ :: l => Fil (Stack l)

def fo (h : Heap T) : (l : List (Ad T)) → FO T (Stack l)
  | [] => baseFO h
  | .rev :: l => revFO (fo h l)
  | .depth :: l => depFO (fo h l)
  | .filter p :: l => filFO (fo h l) p

/-- The node an iterator refers to and its edge: what a program sees of its position. -/
def node : (l : List (Ad T)) → Stack l → Ptr
  | [], i => Iter.node i
  | .rev :: l, i => node l (Rev.base i)
  | .depth :: l, i => node l (Dep.x i)
  | .filter _ :: l, i => node l (Fil.x i)

def shows (h : Heap T) (l : List (Ad T)) (i : Stack l) : Iter := ⟨node l i, (fo h l).edge i⟩

/-- Its position was reached by `++` or `--`, as far as a reverse iterator can tell: the edge it shows is that of its base. -/
def settled (h : Heap T) : (l : List (Ad T)) → Stack l → Prop
  | [], _ => True
  | .rev :: l, i => settled h l (Rev.base i) ∧ Rev.edge i = ((fo h l).edge (Rev.base i)).pivot
  | .depth :: l, i => settled h l (Dep.x i)
  | .filter _ :: l, i => settled h l (Fil.x i)

end Verif.Forest
