/-!
# `scope` (include/stlab/scope.hpp)

`scope<T>(args..., f)` constructs an object of type `T` from all arguments but the last, calls the last, and destroys the object (lines 29-37,
43-47); `scope<T>(mutex, f)` (lines 50-54) does the same with one argument. The code that is called is a small language, in which such calls may be
nested; there may be several threads. What C++ adds is modelled, too: a destructor runs when the block is left, also by an exception, and
before the function returns the result.

Simplifications: the results of functions are left out, as they are only passed on; destructors do not throw.
-/

namespace Verif.Scope

/-- What `T` and the arguments of its constructor are. -/
inductive Guard where
  /-- a lock of mutex `m`, such as `std::lock_guard<std::mutex>` -/
  | lock (m : Nat)
  /-- any other object; its constructor may throw -/
  | obj (n : Nat) (throws : Option Nat)
  deriving DecidableEq, Repr

inductive Prog where
  | skip
  /-- does something that can be seen -/
  | act (n : Nat)
  | throw (e : Nat)
  | seq (p q : Prog)
  /-- `scope<T>(args..., p)` -/
  | scope (g : Guard) (p : Prog)
  /-- `try { p } catch (...) { q }` -/
  | tryCatch (p q : Prog)
  deriving DecidableEq, Repr

inductive Event where
  | act (n : Nat)
  /-- the object is constructed -/
  | enter (g : Guard)
  /-- ... destroyed -/
  | leave (g : Guard)
  deriving DecidableEq, Repr

inductive Mode where
  | run (p : Prog)
  /-- has returned -/
  | ret
  /-- an exception is passed on -/
  | exc (e : Nat)
  deriving DecidableEq, Repr

inductive Frame where
  /-- what follows -/
  | next (q : Prog)
  /-- the local variable `scoped` (lines 31, 52) -/
  | guard (g : Guard)
  | handler (q : Prog)
  deriving DecidableEq, Repr

structure Thread where
  mode : Mode
  stack : List Frame
  trace : List Event
  deriving Repr

structure St where
  th : Nat → Thread
  owner : Nat → Option Nat

def upd {α : Type} (f : Nat → α) (k : Nat) (x : α) : Nat → α := fun i => if i = k then x else f i

def init (ps : Nat → Prog) : St := ⟨fun t => ⟨.run (ps t), [], []⟩, fun _ => none⟩

inductive Out (α : Type) where
  /-- waits, or has ended -/
  | no
  | ok (s : α)
  /-- undefined: a thread locks a mutex that it owns -/
  | ub
  deriving Repr

/-- Thread `t` goes on. -/
def put (s : St) (t : Nat) (m : Mode) (st : List Frame) (tr : List Event) : St := { s with th := upd s.th t ⟨m, st, tr⟩ }

/-- The constructor of `scoped`, lines 31 and 52, and the call, lines 36 and 53. -/
def enter (s : St) (t : Nat) (g : Guard) (p : Prog) : Out St :=
  let x := s.th t
  match g with
  | .lock m =>
    match s.owner m with
    | none => .ok { put s t (.run p) (.guard g :: x.stack) (x.trace ++ [.enter g]) with owner := upd s.owner m (some t) }
    | some u => if u = t then .ub else .no
  | .obj _ none => .ok (put s t (.run p) (.guard g :: x.stack) (x.trace ++ [.enter g]))
  | .obj _ (some e) => .ok (put s t (.exc e) x.stack x.trace)

/-- The destructor of `scoped`, lines 37 and 54. -/
def leave (s : St) (t : Nat) (g : Guard) (m : Mode) (rest : List Frame) : St :=
  let s := put s t m rest ((s.th t).trace ++ [.leave g])
  match g with
  | .lock n => { s with owner := upd s.owner n none }
  | .obj _ _ => s

def step (s : St) (t : Nat) : Out St :=
  let x := s.th t
  match x.mode with
  | .run .skip => .ok (put s t .ret x.stack x.trace)
  | .run (.act n) => .ok (put s t .ret x.stack (x.trace ++ [.act n]))
  | .run (.throw e) => .ok (put s t (.exc e) x.stack x.trace)
  | .run (.seq p q) => .ok (put s t (.run p) (.next q :: x.stack) x.trace)
  | .run (.scope g p) => enter s t g p
  | .run (.tryCatch p q) => .ok (put s t (.run p) (.handler q :: x.stack) x.trace)
  | .ret => match x.stack with
    | [] => .no
    | .next q :: st => .ok (put s t (.run q) st x.trace)
    | .guard g :: st => .ok (leave s t g .ret st)
    | .handler _ :: st => .ok (put s t .ret st x.trace)
  | .exc e => match x.stack with
    | [] => .no
    | .next _ :: st => .ok (put s t (.exc e) st x.trace)
    | .guard g :: st => .ok (leave s t g (.exc e) st)
    | .handler q :: st => .ok (put s t (.run q) st x.trace)

inductive Reachable (ps : Nat → Prog) : St → Prop where
  | init : Reachable ps (init ps)
  | step {s s' : St} {t : Nat} : Reachable ps s → step s t = .ok s' → Reachable ps s'

/-- The thread has ended. -/
def Thread.ended (x : Thread) : Bool :=
  match x.mode, x.stack with
  | .ret, [] | .exc _, [] => true
  | _, _ => false

end Verif.Scope
