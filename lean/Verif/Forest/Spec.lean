import Verif.Forest.Model
import Mathlib.Data.List.Chain
import Mathlib.Data.List.Nodup

/-!
# Specification vocabulary for `stlab::forest`

The *word* of a forest is the list of its positions (node, edge) in full order, from `begin()` up to
and excluding `end()`.
-/

namespace Verif.Forest

variable {T : Type}

/-- Well nested words: a sequence of trees, each a leading edge, the word of its children, and the
trailing edge of the same node. -/
inductive Balanced : List Iter → Prop
  | nil : Balanced []
  | cons (n : Ptr) {b c : List Iter} : Balanced b → Balanced c →
      Balanced (⟨n, .leading⟩ :: (b ++ ⟨n, .trailing⟩ :: c))

/-- `y` is linked directly after `x`. -/
def Linked (h : Heap T) (x y : Iter) : Prop :=
  h.link x.node x.edge .next = some y.node ∧ h.link y.node y.edge .prior = some x.node

/-- All positions of the forest with sentinel `t` including `root()` and `end()`. -/
def closed (t : Ptr) (w : List Iter) : List Iter := ⟨t, .leading⟩ :: (w ++ [⟨t, .trailing⟩])

/-- `Rep h t w`: in heap `h`, the forest object whose sentinel is at `t` is well formed and its full
order is `w`.  -/
structure Rep (h : Heap T) (t : Ptr) (w : List Iter) : Prop where
  /-- edges are properly nested -/
  balanced : Balanced w
  /-- every position occurs once, the sentinel is not among them -/
  nodup : (closed t w).Nodup
  /-- the links follow the word … -/
  chain : List.IsChain (Linked h) (closed t w)
  /-- … and close the cycle -/
  wrap : Linked h ⟨t, .trailing⟩ ⟨t, .leading⟩
  /-- the sentinel is allocated and holds no value -/
  tail_live : ∃ n, h t = some n ∧ n.data = none
  /-- all nodes are allocated and hold a value -/
  live : ∀ x ∈ w, ∃ n v, h x.node = some n ∧ n.data = some v

/-- The value a node holds. -/
def valueAt (h : Heap T) (p : Ptr) : Option T := (h p).bind (·.data)

/-- The nodes of a word in preorder. -/
def nodes (w : List Iter) : List Ptr := (w.filter (fun x => x.edge = .leading)).map (·.node)

/-- The addresses a forest occupies. -/
def support (t : Ptr) (w : List Iter) : List Ptr := t :: w.map (·.node)

/-- If the word of the forest at `t` is `a ++ b`, `posOf t b` is the position between the two parts:
the first position of `b`, or `end()` if `b` is empty. Every position of a forest that an insertion
may refer to is of this form. -/
def posOf (t : Ptr) (b : List Iter) : Iter := (b.head?).getD (end_ t)

/-- Abstract state of a program's forests: the word of each existing forest (named by the address of
its sentinel) and the value of each node. -/
structure AState (T : Type) where
  words : Ptr → Option (List Iter)
  val : Ptr → Option T

/-- Replace (or create) the word of one forest. -/
def AState.setWord (A : AState T) (t : Ptr) (w : List Iter) : AState T :=
  { A with words := fun q => if q = t then some w else A.words q }

/-- Remove a forest. -/
def AState.delWord (A : AState T) (t : Ptr) : AState T :=
  { A with words := fun q => if q = t then none else A.words q }

/-- Set the value of a node. -/
def AState.setVal (A : AState T) (p : Ptr) (v : Option T) : AState T :=
  { A with val := fun q => if q = p then v else A.val q }

/-- Both edges of node `n` lie in the range `r`. -/
def Within (r : List Iter) (n : Ptr) : Prop := (⟨n, .leading⟩ : Iter) ∈ r ∧ (⟨n, .trailing⟩ : Iter) ∈ r

instance (r : List Iter) (n : Ptr) : Decidable (Within r n) := inferInstanceAs (Decidable (_ ∧ _))

/-- What remains of the range `r` when every node with both edges in it is removed. -/
def prune (r : List Iter) : List Iter := r.filter (fun x => ¬ Within r x.node)

/-- Forget the values of all nodes lying wholly in `r`. -/
def AState.dropVals (A : AState T) (r : List Iter) : AState T :=
  { A with val := fun q => if Within r q then none else A.val q }

/-- What a word shows, position by position: the value at a leading edge, nothing at a trailing one.
Shape and values of a forest, without the identity of its nodes. -/
def content (val : Ptr → Option T) (w : List Iter) : List (Option T) :=
  w.map (fun x => if x.edge = .leading then val x.node else none)

/-- A sequence of optionals closes `n` open nodes and nests properly otherwise. -/
def Nested {α : Type} : Nat → List (Option α) → Prop
  | n, [] => n = 0
  | n, some _ :: s => Nested (n + 1) s
  | 0, none :: _ => False
  | n + 1, none :: s => Nested n s

/-- The world `W` implements the abstract state `A`: every forest is well formed with the word `A`
gives it, cached sizes are 0 (unknown) or right, forests share no nodes, no allocated node is outside
all forests (nothing leaked), and nodes hold the values `A` gives them. -/
structure Inv (W : World T) (A : AState T) : Prop where
  rep : ∀ t w, A.words t = some w → Rep W.heap t w
  size : ∀ t w, A.words t = some w → W.size t = 0 ∨ W.size t = (nodes w).length
  disj : ∀ t w t' w' p, A.words t = some w → A.words t' = some w' →
    p ∈ support t w → p ∈ support t' w' → t = t'
  noleak : ∀ p, W.heap p ≠ none → ∃ t w, A.words t = some w ∧ p ∈ support t w
  val : ∀ p, valueAt W.heap p = A.val p

/-- `Roots w ns`: the top level nodes of the word `w` are `ns`, in order. -/
inductive Roots : List Iter → List Ptr → Prop
  | nil : Roots [] []
  | cons (n : Ptr) {b c : List Iter} {ns : List Ptr} : Balanced b → Roots c ns →
      Roots (⟨n, .leading⟩ :: (b ++ ⟨n, .trailing⟩ :: c)) (n :: ns)

/-- The nodes whose leading edge is in `a` and whose trailing edge is in `c`: the ancestors of a node
whose subtree lies between `a` and `c`. -/
def enclosing (a c : List Iter) : List Ptr := (nodes a).filter (fun n => (⟨n, .trailing⟩ : Iter) ∈ c)

/-- `m` is `n` or an ancestor of `n`: the leading edge of `n` lies between the edges of `m`. -/
def AncestorOrSelf (w : List Iter) (m n : Ptr) : Prop :=
  ∃ a s c, w = a ++ (⟨m, .leading⟩ :: (s ++ ⟨m, .trailing⟩ :: c)) ∧
    (n = m ∨ (⟨n, .leading⟩ : Iter) ∈ s)

open Classical in
/-- The positions of `w` whose node and all of its ancestors satisfy `ok`. -/
noncomputable def shown (ok : Ptr → Prop) (w : List Iter) : List Iter :=
  w.filter (fun x => ∀ m, AncestorOrSelf w m x.node → ok m)

end Verif.Forest
