/-!
# include/stlab/iterator/set_next.hpp: linked lists

Nodes are numbers; the specialisation of `set_next_fn` is the one a doubly linked list has (such as forest.hpp lines 747-755 without
the edges): it links both ways. A ring is a circular list.
-/

namespace Verif.SetNext

structure Links where
  next : Nat → Nat
  prev : Nat → Nat

def upd (f : Nat → Nat) (k v : Nat) : Nat → Nat := fun i => if i = k then v else f i

/-- `set_next`, lines 28-31. -/
def setNext (s : Links) (x y : Nat) : Links := { next := upd s.next x y, prev := upd s.prev y x }

/-- `splice_node_range`, lines 35-40. -/
def spliceNodeRange (s : Links) (location first last : Nat) : Links :=
  let successor := s.next location
  setNext (setNext s location first) last successor

/-- `skip_next_node`, lines 42-45. -/
def skipNextNode (s : Links) (location : Nat) : Links := setNext s location (s.next (s.next location))

/-- `skip_node`, lines 47-50. -/
def skipNode (s : Links) (location : Nat) : Links := setNext s (s.prev location) (s.next location)

/-! ## Specification -/

/-- From `a` along the list `l` to `b`, each node is linked with the next in both directions. -/
def Chain (s : Links) : Nat → List Nat → Nat → Prop
  | a, [], b => s.next a = b ∧ s.prev b = a
  | a, x :: l, b => s.next a = x ∧ s.prev x = a ∧ Chain s x l b

/-- The circular list of `a` and then `l`. -/
def Ring (s : Links) (a : Nat) (l : List Nat) : Prop := (a :: l).Nodup ∧ Chain s a l a

/-- The nodes `a :: l` are linked with each other, whatever `a` comes after and whatever comes after the last. -/
def Segment (s : Links) : Nat → List Nat → Prop
  | _, [] => True
  | a, x :: l => s.next a = x ∧ s.prev x = a ∧ Segment s x l

/-- The last of `a :: l`. -/
def last : Nat → List Nat → Nat
  | a, [] => a
  | _, x :: l => last x l

theorem last_mem : ∀ a l, last a l ∈ a :: l
  | a, [] => by simp [last]
  | a, x :: l => by have := last_mem x l; simp only [last]; exact List.mem_cons_of_mem _ this

theorem chain_iff {s : Links} : ∀ {a l b}, Chain s a l b ↔ Segment s a l ∧ s.next (last a l) = b ∧ s.prev b = last a l
  | a, [], b => by simp [Chain, Segment, last]
  | a, x :: l, b => by simp only [Chain, Segment, last, chain_iff (a := x) (l := l) (b := b)]; grind

/-- Writing elsewhere does not change a segment. -/
theorem Segment.set {s : Links} {x y : Nat} : ∀ {a l}, Segment s a l → (∀ z ∈ a :: l, z ≠ x ∨ z = last a l) → y ∉ l → (a :: l).Nodup →
    Segment (setNext s x y) a l
  | _, [], _, _, _, _ => trivial
  | a, z :: l, h, hx, hy, hn => by
    obtain ⟨h1, h2, h3⟩ := h
    have hne : a ≠ last z l := fun e => by
      have := last_mem z l; rw [← e] at this; exact (List.nodup_cons.1 hn).1 this
    refine ⟨?_, ?_, ?_⟩
    · rcases hx a (by simp) with h | h
      · simp [setNext, upd, h, h1]
      · exact absurd h hne
    · simp at hy
      simp [setNext, upd, Ne.symm hy.1, h2]
    · refine Segment.set h3 (fun w hw => ?_) (by simp at hy; exact hy.2) (List.nodup_cons.1 hn).2
      exact hx w (List.mem_cons_of_mem _ hw)

theorem segment_append {s : Links} : ∀ {a l b m}, Segment s a l → Segment s b m → s.next (last a l) = b → s.prev b = last a l →
    Segment s a (l ++ b :: m)
  | _, [], _, _, _, h2, h3, h4 => ⟨h3, h4, h2⟩
  | _, _ :: _, _, _, h1, h2, h3, h4 => ⟨h1.1, h1.2.1, segment_append h1.2.2 h2 h3 h4⟩

theorem last_append : ∀ {a l b m}, last a (l ++ b :: m) = last b m
  | _, [], _, _ => rfl
  | _, x :: l, b, m => by simp only [List.cons_append, last]; exact last_append

end Verif.SetNext
