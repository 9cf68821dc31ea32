import Verif.Future.MoveOnly

/-!
# Futures with a move-only result: C30, C31, C34, C55
-/

namespace Verif.MoveOnly

open Verif.Shared (Err Outcome Seen)

/-- The values read. -/
def isVal : Event → Bool
  | .saw (.out (.val _)) => true
  | _ => false

/-- The state has been detached and nothing attached since. -/
def detachedLast : List Event → Bool
  | t => t.foldl (fun b e => match e with | .detached => true | .attached _ => false | _ => b) false

structure Inv (s : St) : Prop where
  so : ∀ k, s.slot = .cont k → (s.own = .cont k ∧ s.cpc k = .queued) ∨ (s.own = .nobody ∧ s.cpc k = .canceled)
  ow : ∀ k, s.own = .cont k → s.cpc k = .queued ∨ s.cpc k = .sched
  cq : ∀ k, s.cpc k = .queued → s.own = .cont k ∧ s.result = none ∧ s.slot = .cont k
  cs : ∀ k, s.cpc k = .sched → s.own = .cont k ∧ s.result ≠ none
  rs : s.result ≠ none → s.slot = .empty ∧ s.prod = .done
  rt : ∀ o, .resolved o ∈ s.trace ↔ s.result = some o
  one : s.trace.countP isVal = 0 ∨ (s.trace.countP isVal = 1 ∧ s.moved = true)
  val : ∀ v, .saw (.out (.val v)) ∈ s.trace → s.result = some (.val v)
  exc : ∀ e, .saw (.out (.exc e)) ∈ s.trace → s.result = some (.exc e)
  mv : .saw .movedFrom ∈ s.trace → s.moved = true ∧ ∀ e, s.result ≠ some (.exc e)
  mo : s.moved = true → ∀ v, s.result = some (.val v) → 1 = s.trace.countP isVal
  mr : s.moved = true → s.result ≠ none
  dl : detachedLast s.trace = true → s.slot = .det ∨ s.result ≠ none
  run : ∀ k, .ran k ∈ s.trace ↔ s.cpc k = .done
  run1 : ∀ k, s.trace.count (.ran k) ≤ 1
  inv : s.trace.count .invoked ≤ 1
  invp : .invoked ∈ s.trace → s.prod ≠ .idle
  skp : .skipped ∈ s.trace → s.prod = .done ∧ s.own = .nobody ∧ s.slot ≠ .det ∧ s.result = none
  sd : s.slot = .det → .detached ∈ s.trace
  ir : s.prod = .running → .invoked ∈ s.trace
  dn : s.prod = .done → s.own ≠ .nobody → s.result ≠ none

theorem Inv.init : Inv {} := by constructor <;> simp [detachedLast]

theorem detachedLast_append (t u : List Event) :
    detachedLast (t ++ u) = u.foldl (fun b e => match e with | .detached => true | .attached _ => false | _ => b)
      (detachedLast t) := by simp [detachedLast, List.foldl_append]

attribute [local grind] Inv
attribute [local grind =] List.count_append List.count_cons List.count_nil upd alive see detachedLast_append isVal

theorem isVal_iff (e : Event) : isVal e = true ↔ ∃ v, e = .saw (.out (.val v)) := by
  unfold isVal; split <;> simp_all

theorem countP_inv_pos {t : List Event} {p : Event → Bool} : 0 < t.countP p ↔ ∃ e ∈ t, p e = true := List.countP_pos_iff

theorem Inv.resolve {s : St} (I : Inv s) (hp : s.prod ≠ .done) (o : Outcome) : Inv (resolve s o) := by
  have hr : s.result = none := by grind
  have hc : s.trace.countP isVal = 0 := by
    refine Classical.byContradiction fun h => ?_
    obtain ⟨e, he, hv⟩ := countP_inv_pos.1 (Nat.pos_of_ne_zero h)
    obtain ⟨v, rfl⟩ := (isVal_iff e).1 hv
    have := I.val v he
    grind
  unfold MoveOnly.resolve
  cases hs : s.slot <;> simp only [] <;> (try split) <;> constructor <;> grind

set_option maxHeartbeats 1000000 in
theorem Inv.step {s s' : St} (I : Inv s) {a : Act} (e : step s a = some s') : Inv s' := by
  have hc : ∀ k, .ran k ∉ s.trace → s.trace.count (.ran k) = 0 := by
    intro k h; exact List.count_eq_zero.2 h
  have hi : .invoked ∉ s.trace → s.trace.count .invoked = 0 := by
    intro h; exact List.count_eq_zero.2 h
  have hv := isVal_iff
  cases a <;> simp only [MoveOnly.step] at e <;> (repeat' split at e) <;> cases e
  case finish => exact I.resolve (by grind) _
  case dropTask.isTrue.isTrue => exact I.resolve (by grind) _
  all_goals constructor <;> grind

theorem Reachable.inv {s : St} : Reachable s → Inv s := by
  rintro ⟨as, e⟩
  have I := Inv.init
  generalize ({} : St) = s0 at *
  induction as generalizing s0 with
  | nil => simp only [exec, Option.some.injEq] at e; exact e ▸ I
  | cons a as ih =>
    simp only [exec] at e
    cases h : step s0 a with
    | none => simp [h] at e
    | some s1 => simp only [h, Option.bind_some] at e; exact ih _ e (I.step h)

/-! ## C55: a move-only result is delivered once -/

/-- At most one reader gets the value, be it a continuation or a call of `get_try`. -/
theorem c55_value_once {s : St} (r : Reachable s) : s.trace.countP isVal ≤ 1 := by
  have := r.inv.one; omega

/-- What readers get is what the future was resolved with, unless the value has been moved out. -/
theorem c55_outcome {s : St} (r : Reachable s) {o : Outcome} (h : .saw (.out o) ∈ s.trace) : .resolved o ∈ s.trace := by
  have I := r.inv
  cases o with
  | val v => exact (I.rt _).2 (I.val v h)
  | exc e => exact (I.rt _).2 (I.exc e h)

/-- The first reader gets it: if a reader finds it gone, then somebody else has got it, and it was not an exception. -/
theorem c55_not_lost {s : St} (r : Reachable s) (h : .saw .movedFrom ∈ s.trace) :
    ∃ v, .saw (.out (.val v)) ∈ s.trace := by
  have I := r.inv
  obtain ⟨hm, he⟩ := I.mv h
  have hr := I.mr hm
  cases hres : s.result with
  | none => exact absurd hres hr
  | some o =>
    cases o with
    | exc e => exact absurd hres (he e)
    | val v =>
      have h1 := I.mo hm v hres
      obtain ⟨e, hm, hv⟩ := countP_inv_pos.1 (by omega : 0 < s.trace.countP isVal)
      obtain ⟨v', rfl⟩ := (isVal_iff e).1 hv
      exact ⟨v', hm⟩

/-- The value goes to the continuation. -/
example : (exec {} [.attach 0 .thn, .invoke, .finish (.val 3), .run 0]).map (·.trace) =
    some [.attached 0, .invoked, .resolved (.val 3), .saw (.out (.val 3)), .ran 0] := by decide

/-- The user has read the value when the continuation is attached. -/
example : (exec {} [.invoke, .finish (.val 3), .get, .attach 0 .thn, .run 0]).map (·.trace) =
    some [.invoked, .resolved (.val 3), .saw (.out (.val 3)), .attached 0, .saw .movedFrom, .ran 0] := by decide

/-! ## C30 -/

/-- A future is resolved at most once, also with a move-only result. -/
theorem c30_move_only_resolved_once {s : St} (r : Reachable s) {o o' : Outcome} (h : .resolved o ∈ s.trace)
    (h' : .resolved o' ∈ s.trace) : o = o' := by
  have I := r.inv
  have := (I.rt o).1 h
  have := (I.rt o').1 h'
  simp_all

/-- Not every reader sees the same outcome: calling `get_try` twice on a future, which is `const`, gives the value and
then what is left of it. -/
theorem c30_move_only_counterexample : ∃ s, Reachable s ∧ .saw (.out (.val 3)) ∈ s.trace ∧ .saw .movedFrom ∈ s.trace :=
  ⟨(exec {} [.invoke, .finish (.val 3), .get, .get]).getD {}, ⟨[.invoke, .finish (.val 3), .get, .get], rfl⟩, by decide,
    by decide⟩

/-! ## C31 -/

/-- With a move-only result there is one continuation at a time, and it is called at most once. -/
theorem c31_move_only_once {s : St} (r : Reachable s) (k : Nat) : s.trace.count (.ran k) ≤ 1 := r.inv.run1 k

/-- Once the future is ready no continuation waits in it any more, and none is called before. -/
theorem c31_move_only_scheduled {s : St} (r : Reachable s) (k : Nat) :
    (s.result ≠ none → s.cpc k ≠ .queued) ∧ (s.cpc k = .sched → s.result ≠ none) :=
  ⟨fun h hq => h (r.inv.cq k hq).2.1, fun h => (r.inv.cs k h).2⟩

/-! ## C33 -/

/-- If the packaged task is destroyed without having been called while there is a future, the future becomes ready with
`broken_promise`. -/
theorem c33_move_only_broken {s s' : St} (ho : s.own ≠ .nobody) (e : step s .dropTask = some s') :
    .resolved (.exc .broken) ∈ s'.trace ∧ s'.result = some (.exc .broken) := by
  simp only [step] at e
  split at e
  · split at e
    · cases e; simp [resolve]
    · rename_i h; simp [alive, ho] at h
  · cases e

/-- So the future does not wait for a packaged task that is gone: if it has been called and has returned, or been destroyed,
then the future is ready. -/
theorem c33_move_only_ready {s : St} (r : Reachable s) (ho : s.own ≠ .nobody) (hp : s.prod = .done) :
    ∃ o, .resolved o ∈ s.trace := by
  cases h : s.result with
  | none => exact absurd h (r.inv.dn hp ho)
  | some o => exact ⟨o, (r.inv.rt o).2 h⟩

example : (exec {} [.attach 0 .rcv, .dropTask]).map (fun s => (s.own, s.prod, s.trace)) =
    some (.cont 0, .done, [.attached 0, .resolved (.exc .broken)]) := by decide

/-! ## C34 -/

/-- The function of the packaged task is not skipped while a future exists, be it held by the user or by a continuation,
or after `detach()` as long as nothing is attached afterwards. -/
theorem c34_move_only_detached_partial {s : St} (r : Reachable s) (h : .skipped ∈ s.trace) :
    s.own = .nobody ∧ detachedLast s.trace = false := by
  have I := r.inv
  obtain ⟨-, ho, hs, hr⟩ := I.skp h
  refine ⟨ho, ?_⟩
  cases hd : detachedLast s.trace with
  | false => rfl
  | true => rcases I.dl hd with h | h <;> contradiction

/-- `detach()` does not protect the packaged task if a continuation is attached afterwards: that replaces the entry made
by `detach()`, and when the future of the continuation is destroyed nothing owns the state. The packaged task is called,
and its function is not. -/
theorem c34_move_only_detached_counterexample : ∃ s, Reachable s ∧
    s.trace = [.detached, .attached 0, .skipped] :=
  ⟨(exec {} [.detach, .attach 0 .thn, .dropCont 0, .invoke]).getD {}, ⟨[.detach, .attach 0 .thn, .dropCont 0, .invoke], rfl⟩,
    by decide⟩

/-- If the last future is destroyed before the packaged task is called, and `detach()` has not been called, then its
function is not called any more, whatever happens afterwards. -/
theorem c34_move_only_not_called {s s' : St} (r : Reachable s) (hp : .invoked ∉ s.trace) (ho : s.own = .nobody)
    (hd : .detached ∉ s.trace) {as : List Act} (e : exec s as = some s') : .invoked ∉ s'.trace := by
  have I := r.inv
  have hs : s.slot ≠ .det := fun h => hd (I.sd h)
  have hr : s.prod ≠ .running := fun h => hp (I.ir h)
  have key : ∀ (as : List Act) (s : St), Inv s → .invoked ∉ s.trace → s.own = .nobody → s.slot ≠ .det → s.prod ≠ .running →
      exec s as = some s' → .invoked ∉ s'.trace := by
    intro as
    induction as with
    | nil => intro s _ h _ _ _ e; simp only [exec, Option.some.injEq] at e; exact e ▸ h
    | cons a as ih =>
      intro s I h1 h2 h3 h4 e
      simp only [exec] at e
      cases h : step s a with
      | none => simp [h] at e
      | some s1 =>
        simp only [h, Option.bind_some] at e
        refine ih s1 (I.step h) ?_ ?_ ?_ ?_ e
        all_goals
          clear ih e
          cases a <;> simp only [step] at h <;> (repeat' split at h) <;> cases h <;> grind
  exact key as s I hp ho hs hr e

example : ∃ s, exec {} [.attach 0 .thn, .dropCont 0] = some s ∧ s.own = .nobody ∧ s.trace = [.attached 0] :=
  ⟨_, rfl, rfl, rfl⟩

/-- Destroying the future of a continuation that has not been called cancels it for good. -/
theorem c34_move_only_canceled {s : St} (r : Reachable s) {k : Nat} (h : s.cpc k = .canceled) : .ran k ∉ s.trace := by
  intro hr; have := (r.inv.run k).1 hr; simp_all

/-- ... since it stays canceled. -/
theorem c34_move_only_stays_canceled {s s' : St} {a : Act} (e : step s a = some s') {k : Nat} (h : s.cpc k = .canceled) :
    s'.cpc k = .canceled := by
  have hr : ∀ o, (MoveOnly.resolve s o).cpc k = .canceled := by
    intro o; unfold MoveOnly.resolve; cases hs : s.slot <;> simp only [] <;> grind
  cases a <;> simp only [step] at e <;> (repeat' split at e) <;> cases e <;> grind

example : (exec {} [.attach 0 .rcv, .dropCont 0, .dropTask]).map (·.trace) = some [.attached 0, .skipped] := by decide

/-- `detach(f)` keeps the state alive. -/
example : (exec {} [.attach 0 .det, .dropTask, .run 0, .get]).map (·.trace) =
    some [.attached 0, .resolved (.exc .broken), .ran 0, .saw (.out (.exc .broken))] := by decide

end Verif.MoveOnly
