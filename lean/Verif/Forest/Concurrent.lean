import Verif.Forest.Props2

/-!
# Several threads read forests at the same time (include/stlab/forest.hpp)

`size() const` may write: it stores the number of nodes in the mutable atomic member `_size` (line 908) if it is not known. Here any
number of threads call `size()` and `operator==` on the same forests at the same time. Each access of `_size` is one step. The
nodes are not written by these calls, so a walk over them is one step. Simplified: in `x.size() != y.size()` (line 919) `x.size()` is
evaluated first (the order is unspecified).
-/

namespace Verif.Forest

variable {T : Type}

inductive Call where
  | size (t : Ptr)
  | equal (x y : Ptr)
  deriving DecidableEq, Repr

/-- What to do with the result of `size()`. -/
inductive Cont where
  | ret
  /-- `x.size()` in line 919 -/
  | first (x y : Ptr)
  /-- `y.size()` in line 919; `a` is what `x.size()` returned -/
  | second (x y : Ptr) (a : Nat)
  deriving DecidableEq, Repr

inductive Pc where
  | idle
  /-- `_size != 0` (line 819, from 955) -/
  | valid (t : Ptr) (k : Cont)
  /-- `empty()` (lines 819-822) -/
  | test (t : Ptr) (k : Cont)
  /-- `std::distance` (lines 956-959) -/
  | walk (t : Ptr) (k : Cont)
  /-- `_size = n` (line 959) -/
  | store (t : Ptr) (n : Nat) (k : Cont)
  /-- `return _size` (line 962) -/
  | load (t : Ptr) (k : Cont)
  /-- the loop of `operator==` (lines 921-924) -/
  | loop (x y : Ptr)
  deriving DecidableEq, Repr

inductive Ret where
  | size (n : Nat)
  | equal (b : Bool)
  deriving DecidableEq, Repr

/-- `log` has what the calls returned, the last one first. -/
structure Readers (T : Type) where
  W : World T
  pc : Nat → Pc
  log : List (Call × Ret)

inductive ROut (T : Type) where
  | no
  | undefined
  | ok (s : Readers T)

def Readers.goto (s : Readers T) (i : Nat) (p : Pc) : Readers T := { s with pc := fun j => if j = i then p else s.pc j }

/-- A call returns. -/
def Readers.leave (s : Readers T) (i : Nat) (c : Call) (r : Ret) : Readers T := { s.goto i .idle with log := (c, r) :: s.log }

/-- `size()` returns `n` (line 962), to the user or to `operator==` (line 919). -/
def Readers.sized (s : Readers T) (i : Nat) (t : Ptr) (n : Nat) : Cont → Readers T
  | .ret => s.leave i (.size t) (.size n)
  | .first x y => s.goto i (.valid y (.second x y n))
  | .second x y a => if a ≠ n then s.leave i (.equal x y) (.equal false) else s.goto i (.loop x y)

/-- The next step of thread `i` in its call: `size()` (lines 953-963), `operator==` (lines 917-927). -/
def Readers.next [DecidableEq T] (s : Readers T) (i : Nat) : ROut T :=
  match s.pc i with
  | .idle => .no
  | .valid t k => .ok (s.goto i (if s.W.size t ≠ 0 then .load t k else .test t k))
  | .test t k =>
    match isEmpty s.W.heap t with
    | none => .undefined
    | some e => .ok (s.goto i (if e then .load t k else .walk t k))
  | .walk t k =>
    match (do
      let b ← begin_ s.W.heap t
      let first ← findEdge s.W.heap b .leading
      let last ← findEdge s.W.heap (end_ t) .leading
      edgeDistance s.W.heap .leading first last) with
    | none => .undefined
    | some n => .ok (s.goto i (.store t n k))
  | .store t n k => .ok { s.goto i (.load t k) with W := s.W.setSize t n }
  | .load t k => .ok (s.sized i t (s.W.size t) k)
  | .loop x y =>
    match (do
      let first ← begin_ s.W.heap x
      let pos ← begin_ s.W.heap y
      eqLoop s.W.heap first (end_ x) pos) with
    | none => .undefined
    | some r => .ok (s.leave i (.equal x y) (.equal r))

inductive RAct where
  | call (i : Nat) (c : Call)
  | next (i : Nat)
  deriving DecidableEq, Repr

/-- Where a call begins. -/
def Call.start : Call → Pc
  | .size t => .valid t .ret
  | .equal x y => .valid x (.first x y)

/-- The forests a call is about. -/
def Call.forests : Call → List Ptr
  | .size t => [t]
  | .equal x y => [x, y]

/-- A thread that is idle may call; the forests exist. -/
inductive RStep [DecidableEq T] : Readers T → RAct → ROut T → Prop
  | call {s : Readers T} {i : Nat} {c : Call} : s.pc i = .idle → (∀ t ∈ c.forests, IsForest s.W t) →
      RStep s (.call i c) (.ok (s.goto i c.start))
  | next {s : Readers T} {i : Nat} : s.pc i ≠ .idle → RStep s (.next i) (s.next i)

/-- What any number of threads can reach from `W` by calling `size` and `==`. -/
inductive Reads [DecidableEq T] (W : World T) : Readers T → Prop
  | start : Reads W ⟨W, fun _ => .idle, []⟩
  | step {s s' : Readers T} {a : RAct} : Reads W s → RStep s a (.ok s') → Reads W s'

end Verif.Forest
