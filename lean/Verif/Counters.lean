/-!
# The counters of test/model.hpp

`annotate_counters` and `annotate`, include/stlab/test/model.hpp lines 30-106: the types with which the tests of the library
(and programs that use the header) count how often a value is copied, moved and destroyed, and wait until it is gone.

One counters object, any number of `annotate` objects that refer to it, any number of threads. The atomic operations are
single steps; `remaining()` is three of them, `~annotate` an increment and a notification. Simplifications: the counters are
exact numbers (`remaining()` is taken modulo `2^64`, which is the same as wrapping every counter); `std::condition_variable`
by its contract (release and sleep in one step, `notify_one` wakes one of the sleepers, spurious wake-ups); the assignments,
`swap` and `==` are two increments each, done here in one step, as nothing but `operator<<` reads those counters;
`invoke_waiting` is `Verif.ThreadPoolAwait`.
-/

namespace Verif.Counters

/-- What a thread does. -/
inductive Pc where
  /-- outside the functions of this file -/
  | idle
  /-- in `~annotate`, between lines 73 and 74 -/
  | notifying
  /-- in `wait(count)`, about to lock `_mutex`: line 47 -/
  | locking (count : Nat)
  /-- in the predicate of line 48, `_mutex` locked; what it has read of `_copy_ctor`, `_move_ctor` and `_dtor` (line 43; the
  order of the three reads is not specified) -/
  | reading (count : Nat) (copy move dtor : Option Nat)
  /-- in `_condition.wait`, asleep, `_mutex` released -/
  | asleep (count : Nat)
  /-- in `_condition.wait`, awake, about to lock `_mutex` again -/
  | woken (count : Nat)
  /-- `wait(count)` has returned -/
  | returned (count : Nat)
  deriving DecidableEq, Repr

structure St where
  /-- `_dtor`, line 31 -/
  dtor : Nat := 0
  /-- `_copy_ctor`, line 32 -/
  copy : Nat := 0
  /-- `_move_ctor`, line 33 -/
  move : Nat := 0
  /-- `_copy_assign_lhs`, line 34 -/
  copyLhs : Nat := 0
  /-- `_copy_assign_rhs`, line 35 -/
  copyRhs : Nat := 0
  /-- `_move_assign_lhs`, line 36 -/
  moveLhs : Nat := 0
  /-- `_move_assign_rhs`, line 37 -/
  moveRhs : Nat := 0
  /-- `_swap`, line 38 -/
  swaps : Nat := 0
  /-- `_equality`, line 39 -/
  equals : Nat := 0
  /-- the owner of `_mutex`, line 40 -/
  owner : Option Nat := none
  pc : Nat → Pc := fun _ => .idle
  /-- the threads asleep in `_condition`, line 41 -/
  sleepers : List Nat := []
  /-- the `annotate` objects that exist -/
  objs : List Nat := []
  /-- the counters object has been destroyed -/
  gone : Bool := false
  /-- a function was called on the destroyed counters -/
  ub : Bool := false

def init : St := {}

/-- The value of `_copy_ctor + _move_ctor - _dtor + 1` (line 43) in `std::size_t`, for three values read. -/
def remainingOf (copy move dtor : Nat) : Int := ((copy : Int) + move - dtor + 1) % 2 ^ 64

/-- `remaining()` if nothing happens during the call. -/
def St.remaining (s : St) : Int := remainingOf s.copy s.move s.dtor

def St.set (s : St) (t : Nat) (p : Pc) : St := { s with pc := fun u => if u = t then p else s.pc u }

inductive Act where
  /-- `annotate(counters)`, line 69; the new object gets the number `o` -/
  | make (o : Nat)
  /-- copy construction of `o` from `x`, line 78 -/
  | copy (o x : Nat)
  /-- move construction, line 79 -/
  | move (o x : Nat)
  /-- `x = y`, lines 81-86 -/
  | copyAssign (x y : Nat)
  /-- `x = std::move(y)`, lines 87-91 -/
  | moveAssign (x y : Nat)
  /-- `swap(x, y)`, lines 93-96 -/
  | swap (x y : Nat)
  /-- `x == y`, lines 98-102 -/
  | equal (x y : Nat)
  /-- thread `t` destroys `o`: line 73 -/
  | destroy (t o : Nat)
  /-- line 74; `w` is the sleeper that is woken -/
  | notify (t : Nat) (w : Option Nat)
  /-- thread `t` calls `wait(count)`, line 45 -/
  | wait (t count : Nat)
  /-- line 47, or the lock at the end of the sleep -/
  | lock (t : Nat)
  /-- line 43: `_copy_ctor` -/
  | readCopy (t : Nat)
  /-- line 43: `_move_ctor` -/
  | readMove (t : Nat)
  /-- line 43: `_dtor` -/
  | readDtor (t : Nat)
  /-- line 48: the predicate has its value; return, or release the mutex and sleep -/
  | decide (t : Nat)
  /-- a spurious wake-up -/
  | spurious (t : Nat)
  /-- thread `t`, whose `wait` returned, destroys the counters -/
  | drop (t : Nat)
  deriving DecidableEq, Repr

/-- An operation on the counters: undefined behaviour if they are gone. -/
def St.use (s : St) (s' : St) : Option St := if s.gone then some { s with ub := true } else some s'

/-- The wake-up of `notify_one` (line 74): one of the sleepers, if there is one. -/
def St.wake (s : St) (w : Option Nat) : Option St :=
  match w with
  | some u => match s.pc u with
    | .asleep c => some { s.set u (.woken c) with sleepers := s.sleepers.erase u }
    | _ => none
  | none => if s.sleepers = [] then some s else none

def step (s : St) : Act → Option St
  | .make o => if o ∈ s.objs then none else s.use { s with objs := o :: s.objs }
  | .copy o x =>
    if x ∈ s.objs ∧ o ∉ s.objs then s.use { s with copy := s.copy + 1, objs := o :: s.objs } else none
  | .move o x =>
    if x ∈ s.objs ∧ o ∉ s.objs then s.use { s with move := s.move + 1, objs := o :: s.objs } else none
  | .copyAssign x y =>
    if x ∈ s.objs ∧ y ∈ s.objs then
      if x = y then some s else s.use { s with copyLhs := s.copyLhs + 1, copyRhs := s.copyRhs + 1 }
    else none
  | .moveAssign x y =>
    if x ∈ s.objs ∧ y ∈ s.objs then s.use { s with moveLhs := s.moveLhs + 1, moveRhs := s.moveRhs + 1 } else none
  | .swap x y => if x ∈ s.objs ∧ y ∈ s.objs then s.use { s with swaps := s.swaps + 2 } else none
  | .equal x y => if x ∈ s.objs ∧ y ∈ s.objs then s.use { s with equals := s.equals + 2 } else none
  | .destroy t o =>
    if o ∈ s.objs ∧ s.pc t = .idle then
      s.use { s.set t .notifying with dtor := s.dtor + 1, objs := s.objs.erase o }
    else none
  | .notify t w =>
    match s.pc t with
    | .notifying => match s.wake w with
      | some s' => s.use (s'.set t .idle)
      | none => none
    | _ => none
  | .wait t c =>
    match s.pc t with
    | .idle | .returned _ => s.use (s.set t (.locking c))
    | _ => none
  | .lock t =>
    match s.pc t, s.owner with
    | .locking c, none | .woken c, none => s.use { s.set t (.reading c none none none) with owner := some t }
    | _, _ => none
  | .readCopy t =>
    match s.pc t with
    | .reading c none m d => s.use (s.set t (.reading c (some s.copy) m d))
    | _ => none
  | .readMove t =>
    match s.pc t with
    | .reading c v none d => s.use (s.set t (.reading c v (some s.move) d))
    | _ => none
  | .readDtor t =>
    match s.pc t with
    | .reading c v m none => s.use (s.set t (.reading c v m (some s.dtor)))
    | _ => none
  | .decide t =>
    match s.pc t with
    | .reading c (some v) (some m) (some d) =>
      if (c : Int) = remainingOf v m d then s.use { s.set t (.returned c) with owner := none }
      else s.use { s.set t (.asleep c) with owner := none, sleepers := t :: s.sleepers }
    | _ => none
  | .spurious t =>
    match s.pc t with
    | .asleep c => s.use { s.set t (.woken c) with sleepers := s.sleepers.erase t }
    | _ => none
  | .drop t =>
    match s.pc t with
    | .returned _ => if s.objs = [] ∧ s.gone = false then some { s with gone := true } else none
    | _ => none

def exec (s : St) : List Act → Option St
  | [] => some s
  | a :: as => match step s a with
    | some s' => exec s' as
    | none => none

end Verif.Counters
