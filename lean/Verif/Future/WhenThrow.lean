import Verif.Future.WhenProps

/-!
# Results whose copy throws, in `when_all` and `when_any` (include/stlab/concurrency/future.hpp lines 1063-1611)

`Verif.Future.When` with one more step: the result of an argument cannot be stored, as copying or moving it throws (lines 1051, 1080, 1132,
1320, 1329). The exception leaves the critical section, which unlocks `_guard`, and the continuation (lines 1223-1227, 1509-1513), and becomes
the exception of the future of the continuation (line 1025), which is in `_holds`, where nobody looks. What the critical section has not done
yet is not done: `_remaining` (lines 1081, 1455) and `_index` (line 1133) are not changed, and `_f` is not called; `single_trigger` has
already reset the other holds and set `_single_event` (lines 1430-1433).

Simplification: in the trace, an argument of which the result is lost is an event `discarded`, as for a continuation that the executor drops; `thrown` tells them
apart.
-/

namespace Verif.When.Throw

open Verif.Shared (Err Outcome upd)

structure XSt where
  b : St
  /-- the arguments of which the results could not be stored -/
  thrown : List Nat := []

inductive XAct where
  | base (a : Act)
  /-- the critical section for argument `i`, in which storing the result throws -/
  | throw (i : Nat)
  deriving DecidableEq, Repr

inductive XOut where
  | no
  | ub
  | ok (s : XSt)

/-- Does the critical section store a result? Lines 1079, 1131, 1454, 1429. -/
def stores (m : Mode) (c : Ctx) : Bool :=
  match m with
  | .allPack => c.exc = none
  | .anyPack => c.index = none
  | .allRange => true
  | .anyRange => c.single = false

/-- What is left of the critical section if storing throws. -/
def lost (m : Mode) (s : St) (i : Nat) : St :=
  let s := { s with pc := upd s.pc i .lost, running := s.running.erase i, trace := s.trace ++ [.discarded i] }
  match m with
  | .anyRange => { s with ctx := { s.ctx with single := true }, hold := resets (.allBut i) s.hold }
  | _ => s

def xstep (m : Mode) (n : Nat) (s : XSt) : XAct → XOut
  | .base a => match step m n s.b a with
    | .ok b => .ok { s with b := b }
    | .ub => .ub
    | .no => .no
  | .throw i => match s.b.pc i with
    | .running (.val _) => if stores m s.b.ctx then .ok ⟨lost m s.b i, i :: s.thrown⟩ else .no
    | _ => .no

inductive XReachable (m : Mode) (n : Nat) : XSt → Prop where
  | init : XReachable m n ⟨init n, []⟩
  | step {s s' : XSt} {a : XAct} : XReachable m n s → xstep m n s a = .ok s' → XReachable m n s'

def xexec (m : Mode) (n : Nat) (s : XSt) : List XAct → Option XSt
  | [] => some s
  | a :: as => match xstep m n s a with
    | .ok s' => xexec m n s' as
    | _ => none

end Verif.When.Throw
