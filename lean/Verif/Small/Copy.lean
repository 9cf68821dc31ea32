/-!
# `copy` and `move` (include/stlab/utility.hpp lines 118-141)

`copy` initialises the result with braces (line 127). Which constructor this calls is decided by the rules of the language (dcl.init.list, over.match.list,
with the resolution of core issues 1467 and 2137): an aggregate is copied from an object of its own type; otherwise the constructors from
`std::initializer_list<E>` are tried first, with the object as the only element, and the copy constructor only if none of them can be called.

Simplification: at most one constructor from an initializer list; constructors do not throw; arrays and functions, which decay to pointers, are left out.
-/

namespace Verif.Copy

/-- A constructor of a class with values `V` from `std::initializer_list<E>`. -/
structure FromList (V : Type) where
  E : Type
  /-- the implicit conversion from the class itself to `E`, if there is one -/
  conv : Option (V → E)
  /-- the value constructed from the elements -/
  make : List E → V

/-- What initialisation depends on, for a class with values `V`. -/
structure Class (V : Type) where
  aggregate : Bool := false
  /-- the copy constructor -/
  copyCtor : V → V := id
  fromList : Option (FromList V) := none

/-- `X{x}` for an object `x` of class `X`. -/
def brace {V : Type} (X : Class V) (x : V) : V :=
  if X.aggregate then X.copyCtor x
  else match X.fromList with
    | none => X.copyCtor x
    | some f => match f.conv with
      | none => X.copyCtor x
      | some c => f.make [c x]

/-- The template parameter `T` that is deduced for a parameter `T&&` from an argument of type `X`, as far as it matters: whether it is a reference and
whether it is `const`. -/
structure Param where
  ref : Bool
  const : Bool
  deriving DecidableEq, Repr

/-- An argument: an lvalue or an rvalue, of `const` type or not. -/
structure Arg where
  lvalue : Bool
  const : Bool
  deriving DecidableEq, Repr

/-- Deduction for a forwarding reference: `X&` or `const X&` for an lvalue, `X` or `const X` for an rvalue. -/
def deduce (a : Arg) : Param := ⟨a.lvalue, a.const⟩

/-- `std::decay_t`. -/
def decay (_ : Param) : Param := ⟨false, false⟩

/-- `copy`, lines 122-128: not compiled (`none`) if the assertion in line 126 fails, otherwise the value that is returned. -/
def copy {V : Type} (X : Class V) (a : Arg) (x : V) : Option V :=
  if decay (deduce a) = deduce a then none else some (brace X x)

/-- What an argument leaves behind. -/
inductive Expr where
  /-- an lvalue, or a `const` rvalue, of the type: initialisation from it copies -/
  | copies
  /-- an rvalue that is not `const`: initialisation from it moves -/
  | moves
  deriving DecidableEq, Repr

/-- How initialisation treats an rvalue reference to a type that is `const` or not. -/
def rvalue (const : Bool) : Expr := if const then .copies else .moves

/-- `move`, lines 132-138. -/
def move (a : Arg) : Option Expr := if a.const then none else some (rvalue a.const)

/-- `move_if<P>`, lines 33-47 and 106-109: the result type is `X&&` or `X&` with the `const` of the argument. -/
def moveIf (p : Bool) (a : Arg) : Expr := if p then rvalue a.const else .copies

/-- **C115**, without lists: if no constructor from an initializer list takes an object of the class as its element, or the class is an aggregate, `copy`
returns what the copy constructor makes. -/
theorem c115_copy_partial {V : Type} (X : Class V) (h : X.aggregate = true ∨ ∀ f, X.fromList = some f → f.conv = none) {a : Arg} {x y : V}
    (hc : copy X a x = some y) : y = X.copyCtor x := by
  simp only [copy] at hc
  split at hc
  · cases hc
  · cases hc
    simp only [brace]
    split
    · rfl
    · next ha =>
      rcases h with h | h
      · exact absurd h ha
      · split
        · rfl
        · next f hf => rw [h f hf]

/-- A dynamically typed value, as in `std::any`: a number or a list. -/
inductive Any where
  | num (n : Nat)
  | list (l : List Any)

/-- `std::vector<std::any>`: it can be constructed from a list of `std::any`, and a `std::any` can be made from a vector. -/
def anys : Class (List Any) := { fromList := some ⟨Any, some Any.list, id⟩ }

theorem anys_copy {a : Arg} {x y : List Any} (h : copy anys a x = some y) : y = [.list x] := by
  simp only [copy] at h
  split at h
  · cases h
  · cases h; rfl

/-- **C115** is false for classes with such a constructor: no copy of a `std::vector<std::any>` is equal to the original. -/
theorem c115_copy_counterexample {a : Arg} {x y : List Any} (h : copy anys a x = some y) : y ≠ x := by
  have := anys_copy h
  subst this
  intro e
  have := congrArg sizeOf e
  simp at this
  omega

/-- **C115** is false in general, whatever value is copied: the result has one element, which holds the original. -/
theorem c115_nests_counterexample (x : List Any) : copy anys ⟨true, false⟩ x = some [.list x] ∧ anys.copyCtor x = x := ⟨rfl, rfl⟩

/-- **C115**: `copy` is not compiled for an rvalue that is not `const`, and for no other argument. -/
theorem c115_rejects {V : Type} (X : Class V) (a : Arg) (x : V) : copy X a x = none ↔ a.lvalue = false ∧ a.const = false := by
  obtain ⟨l, c⟩ := a
  cases l <;> cases c <;> simp [copy, decay, deduce]

/-- **C115**: if `move` is compiled, its result is moved from; it is compiled for all arguments that are not `const`. -/
theorem c115_move (a : Arg) : move a = none ∧ a.const = true ∨ move a = some .moves ∧ a.const = false := by
  obtain ⟨l, c⟩ := a
  cases c <;> simp [move, rvalue]

/-- **C115**: the result of `move_if` is moved from exactly if the condition is true and the argument is not `const`. -/
theorem c115_move_if (p : Bool) (a : Arg) : moveIf p a = .moves ↔ p = true ∧ a.const = false := by
  obtain ⟨l, c⟩ := a
  cases p <;> cases c <;> simp [moveIf, rvalue]

/-- A vector of numbers has a constructor from a list, which does not take a vector as element; `copy` of an lvalue copies it. -/
example : (∀ f, ({ fromList := some ⟨Nat, none, id⟩ } : Class (List Nat)).fromList = some f → f.conv = none) ∧
    copy ({ fromList := some ⟨Nat, none, id⟩ } : Class (List Nat)) ⟨true, false⟩ [1, 2] = some [1, 2] := by
  refine ⟨?_, rfl⟩
  intro f h
  cases h
  rfl

/-- A `const` rvalue is copied without complaint. -/
example : copy ({} : Class Nat) ⟨false, true⟩ 4 = some 4 := rfl

example : copy anys ⟨true, true⟩ [] = some [.list []] := rfl

end Verif.Copy
