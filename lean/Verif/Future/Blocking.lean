import Verif.Future.AwaitProps

/-!
# C101: the deprecated names of `await` and `await_for` (include/stlab/concurrency/await.hpp, lines 144-162)

The functions call `await` and `await_for`, of which `Verif.Future.Await` is the model; here is what their callers get.
-/

namespace Verif.Await.Blocking

open Verif.Shared (Err Outcome)

/-- What the caller gets. -/
inductive Result where
  /-- a value, or an exception is thrown -/
  | outcome (o : Outcome)
  /-- a future; `none` as long as it is not ready -/
  | future (x : Option Outcome)
  /-- `std::nullopt` -/
  | nothing
  /-- the end of a function is reached that has to return something -/
  | undefined
  deriving DecidableEq, Repr

/-- `blocking_get(x)`, lines 146-150. -/
def blockingGet (s : Plain.St) : Option Result :=
  match s.w with
  | .ret o => some (.outcome o)
  | _ => none

/-- The future that `await_for` returns. (`hold` never has the exception "not an error" then, see `c38_for_hold`.) -/
def awaitFor (s : Timed.St) : Option Result :=
  match s.w with
  | .direct o | .retRes o => some (.future (some o))
  | .retHold => match s.hold with
    | some (.out o) => some (.future (some o))
    | some .notAnError => some (.future (some (.exc .broken)))
    | none => some (.future none)
  | _ => none

/-- `blocking_get_for(x, timeout)`, lines 152-156: what `await_for` returns is dropped, and there is no `return`. -/
def blockingGetFor (s : Timed.St) : Option Result := (awaitFor s).map fun _ => .undefined

/-- `get_try()` of a future, see `Verif.Future.Handle`. -/
def getTry : Result → Result
  | .future (some o) => .outcome o
  | .future none => .nothing
  | r => r

/-- `blocking_get(x, timeout)`, lines 158-162. -/
def blockingGetTimeout (s : Timed.St) : Option Result := (blockingGetFor s).map getTry

/-- `blocking_get_for` with the missing `return`. -/
def repairedFor (s : Timed.St) : Option Result := awaitFor s

/-- ... and `blocking_get(x, timeout)` then. -/
def repairedTimeout (s : Timed.St) : Option Result := (repairedFor s).map getTry

/-- `blocking_get(x)` gives the outcome of the future. -/
theorem c101_blocking_get {s : Plain.St} (r : Plain.Reachable s) {x : Result} (h : blockingGet s = some x) :
    ∃ o, s.x = some o ∧ x = .outcome o := by
  unfold blockingGet at h
  split at h
  · next o hw => cases h; exact ⟨o, Plain.c38_await_outcome r hw, rfl⟩
  · cases h

example : ∃ s, Plain.Reachable s ∧ blockingGet s = some (.outcome (.val 7)) :=
  ⟨_, ⟨[.w, .w, .w, .w, .resolve (.val 7), .l, .l, .l, .l, .w, .w, .w], rfl⟩, rfl⟩

/-- **Never**: whenever `await_for` returns, for whatever future and time-out, the caller of `blocking_get_for` gets nothing that is defined,
nor does that of `blocking_get` with a time-out. -/
theorem c101_blocking_get_for_counterexample (s : Timed.St) (h : s.w.returned = true) :
    blockingGetFor s = some .undefined ∧ blockingGetTimeout s = some .undefined := by
  obtain ⟨r, hr⟩ : ∃ r, awaitFor s = some r := by
    unfold Timed.WPc.returned at h
    unfold awaitFor
    cases hw : s.w with
    | direct o => exact ⟨_, rfl⟩
    | retRes o => exact ⟨_, rfl⟩
    | retHold =>
      simp only
      cases s.hold with
      | none => exact ⟨_, rfl⟩
      | some x => cases x <;> exact ⟨_, rfl⟩
    | _ => rw [hw] at h; cases h
  simp [blockingGetTimeout, blockingGetFor, hr, getTry]

/-- Such states are reached, with futures that are ready, get ready, or do not. -/
example : (∃ s, Timed.Reachable s ∧ s.w = .direct (.val 7)) ∧ (∃ s, Timed.Reachable s ∧ s.w = .retRes (.val 7)) ∧
    ∃ s, Timed.Reachable s ∧ s.w = .retHold :=
  ⟨⟨_, ⟨[.resolve (.val 7), .w], rfl⟩, rfl⟩,
    ⟨_, ⟨[.w, .w, .w, .w, .resolve (.val 7), .l, .l, .l, .l, .l, .w, .w, .w, .w], rfl⟩, rfl⟩,
    ⟨_, ⟨[.w, .w, .w, .w, .timeout, .w, .w], rfl⟩, rfl⟩⟩

/-- With the missing `return`, `blocking_get_for` gives a future that has the outcome of the argument, if it is ready, and `blocking_get`
this outcome; `nullopt` only if the future that `await_for` returned is not ready. -/
theorem c101_repaired_partial {s : Timed.St} (r : Timed.Reachable s) {x : Result} (h : repairedFor s = some x) :
    (∃ o, s.x = some o ∧ x = .future (some o) ∧ repairedTimeout s = some (.outcome o)) ∨
      (x = .future none ∧ s.hold = none ∧ repairedTimeout s = some .nothing) := by
  have ht : repairedTimeout s = some (getTry x) := by rw [repairedTimeout, h]; rfl
  rw [ht]
  unfold repairedFor awaitFor at h
  split at h
  · next o hw => cases h; exact .inl ⟨o, Timed.c38_for_ready r (.inl hw), rfl, rfl⟩
  · next o hw => cases h; exact .inl ⟨o, Timed.c38_for_ready r (.inr hw), rfl, rfl⟩
  · next hw =>
    split at h
    · next o hh =>
      cases h
      obtain ⟨o', h1, h2⟩ := Timed.c38_for_hold r hw hh
      cases h1
      exact .inl ⟨o, h2, rfl, rfl⟩
    · next hh =>
      obtain ⟨o', h1, h2⟩ := Timed.c38_for_hold r hw hh
      cases h1
    · next hh => cases h; exact .inr ⟨rfl, hh, rfl⟩
  · cases h

end Verif.Await.Blocking
