import Verif.NoThread

/-!
# C82: when the system refuses to create a thread
-/

namespace Verif.NoThread

open Verif.Shared (Err Outcome)

/-! ## The constructor -/

theorem construct_ok {fails : Nat → Bool} {n : Nat} (h : ∀ k < n, fails k = false) : construct fails n = .ok (List.range n) := by
  induction n with
  | zero => rfl
  | succ n ih =>
    rw [construct, ih fun k hk => h k (Nat.lt_succ_of_lt hk)]
    simp only [h n (Nat.lt_succ_self n), Bool.false_eq_true, if_false, List.range_succ]

theorem construct_stays {fails : Nat → Bool} {k : Nat} {m : Made} (hm : ∀ ts, m ≠ .ok ts) (h : construct fails k = m) {n : Nat} (hn : k ≤ n) :
    construct fails n = m := by
  induction n with
  | zero => obtain rfl : k = 0 := by omega
            exact h
  | succ n ih =>
    by_cases e : k = n + 1
    · exact e ▸ h
    · rw [construct, ih (by omega)]
      split
      · rename_i h; exact absurd rfl (hm _)
      · rfl

/-- **C82**, partly: the constructor makes all its threads, or throws if the first one is refused. Missing: that it throws if a later one is refused. -/
theorem c82_construct_partial (fails : Nat → Bool) (n : Nat) :
    ((∀ k < n, fails k = false) → construct fails n = .ok (List.range n)) ∧ (0 < n → fails 0 = true → construct fails n = .throws) := by
  refine ⟨construct_ok, fun hn h => ?_⟩
  refine construct_stays (k := 1) (by intro ts h; cases h) ?_ hn
  simp [construct, h, unwound]

/-- **C82** fails: if a thread but not the first one is refused, the program is terminated, for all sizes of the pool. -/
theorem c82_construct_counterexample {fails : Nat → Bool} {k n : Nat} (h0 : 0 < k) (hk : k < n) (h : fails k = true) (hb : ∀ j < k, fails j = false) :
    construct fails n = .terminates := by
  refine construct_stays (k := k + 1) (by intro ts h; cases h) ?_ hk
  rw [construct, construct_ok hb]
  simp only [h, if_true, unwound]
  rw [if_neg]
  intro e
  have := congrArg List.length e
  simp at this
  omega

example : construct (fun k => k == 2) 3 = .terminates := by decide
example : construct (fun _ => false) 3 = .ok [0, 1, 2] := by decide
example : construct (fun _ => true) 3 = .throws := by decide

/-! ## `add_thread()` -/

/-- **C82**: after any calls of `add_thread()`, whichever were refused, the indices of the threads are their places in `_threads`, so that no two have the
same waiter, and there are no more than the limit; the number of threads is what was accepted. -/
theorem c82_add_thread {limit n : Nat} (hn : n ≤ limit) (refused : List Bool) :
    addThreads limit (List.range n) refused = List.range (min limit (n + refused.count false)) := by
  induction refused generalizing n with
  | nil => simp [addThreads, Nat.min_eq_right hn]
  | cons r rs ih =>
    rw [addThreads, List.foldl_cons]
    by_cases e : n = limit
    · subst e
      have : (addThread n r (List.range n)).1 = List.range n := by simp [addThread]
      rw [this]
      have := ih (n := n) hn
      rw [addThreads] at this
      rw [this, Nat.min_eq_left (by omega), Nat.min_eq_left (by omega)]
    · cases r with
      | true =>
        have : (addThread limit true (List.range n)).1 = List.range n := by simp [addThread, e]
        rw [this]
        have := ih hn
        rw [addThreads] at this
        rw [this]; simp
      | false =>
        have : (addThread limit false (List.range n)).1 = List.range (n + 1) := by simp [addThread, e, List.range_succ]
        rw [this]
        have := ih (n := n + 1) (by omega)
        rw [addThreads] at this
        rw [this]; congr 2; simp; omega

/-- It throws exactly if it needed a thread and got none, and then nothing changed. -/
theorem c82_add_thread_throws (limit : Nat) (refused : Bool) (threads : List Nat) :
    ((addThread limit refused threads).2 = true ↔ refused = true ∧ threads.length ≠ limit) ∧
    ((addThread limit refused threads).2 = true → (addThread limit refused threads).1 = threads) := by
  unfold addThread
  split
  · simp_all
  · split <;> simp_all

example : addThreads 5 [0, 1] [false, true, false] = [0, 1, 2, 3] := by decide

/-! ## `await` -/

namespace Plain

structure Inv (s : St) : Prop where
  mw : s.mutex = some .w ↔ s.w = .pred ∨ s.w = .invoke
  ml : s.mutex = some .l ↔ s.l = .assign ∨ s.l = .notify ∨ s.l = .unlock
  l0 : s.l = .none ↔ s.w = .check ∨ s.w = .attach ∨ (∃ o, s.w = .ret o ∧ s.l = .none)
  lx : s.l = .lock ∨ s.l = .assign ∨ s.l = .notify ∨ s.l = .unlock ∨ s.l = .done → s.x ≠ none
  lq : s.l = .queued → s.x = none
  lc : s.l = .cancelled → s.w = .threw
  re : s.result ≠ none → s.result = s.x ∧ (s.l = .notify ∨ s.l = .unlock ∨ s.l = .done)
  rt : ∀ o, s.w = .ret o → s.x = some o ∧ (s.l = .none ∨ s.l = .done)
  inl : s.w = .inl → s.x ≠ none ∧ s.l ≠ .none ∧ s.l ≠ .queued

theorem Inv.init : Inv {} := by constructor <;> simp

attribute [local grind] Inv
attribute [local grind =] LPc.busy

theorem busy_iff (l : LPc) : l.busy = false ↔ l = .none ∨ l = .queued ∨ l = .cancelled ∨ l = .done := by
  cases l <;> simp [LPc.busy]

theorem gone_iff (w : WPc) : w.gone = true ↔ (∃ o, w = .ret o) ∨ w = .threw := by
  cases w <;> simp [WPc.gone]

theorem Inv.step {s s' : St} (I : Inv s) {a : Act} (e : step s a = .ok s') : Inv s' := by
  have hg := gone_iff s.w
  cases a <;> simp only [Plain.step] at e <;> (repeat' split at e) <;> cases e <;> constructor <;> grind

theorem Reachable.inv {s : St} (h : Reachable s) : Inv s := by
  induction h with
  | init => exact .init
  | step _ hs ih => exact ih.step hs

theorem Calm.reachable {s : St} (h : Calm s) : Reachable s := by
  induction h with
  | init => exact .init
  | step _ _ hs ih => exact .step ih hs

structure Quiet (s : St) : Prop where
  un : s.w = .unwind → s.l = .queued ∨ s.l = .done
  th : s.w = .threw → s.l = .cancelled ∨ s.l = .done

attribute [local grind] Quiet

theorem Quiet.step {s s' : St} (I : Inv s) (Q : Quiet s) {a : Act} (hc : calm s a) (e : step s a = .ok s') : Quiet s' := by
  have hb := busy_iff s.l
  have hg := gone_iff s.w
  cases a <;> simp only [Plain.step] at e <;> simp only [calm] at hc <;> (repeat' split at e) <;> cases e <;> constructor <;> grind

theorem Calm.quiet {s : St} (h : Calm s) : Quiet s := by
  induction h with
  | init => constructor <;> simp
  | step h hc hs ih => exact ih.step h.reachable.inv hc hs

/-- **C82**, partly: the continuation of `await` does not use local variables that are gone, unless the future is resolved at the time the exception is
thrown. Missing: the same without this condition, which is false. -/
theorem c82_await_partial {s : St} (h : Calm s) (a : Act) : step s a ≠ .ub := by
  have I := h.reachable.inv
  have Q := h.quiet
  have hg := gone_iff s.w
  intro e
  cases a <;> simp only [step] at e <;> (repeat' split at e) <;> cases e <;> grind

/-- **C82**: what `await` returns is the outcome of the future, also if threads may be refused. -/
theorem c82_await_outcome {s : St} (h : Reachable s) {o : Outcome} (hw : s.w = .ret o) : s.x = some o := (h.inv.rt o hw).1

def run (s : St) : List Act → Option St
  | [] => some s
  | a :: as => match step s a with
    | .ok s' => run s' as
    | _ => none

theorem reachable_run {s s' : St} (h : Reachable s) {as : List Act} (e : run s as = some s') : Reachable s' := by
  induction as generalizing s with
  | nil => simp [run] at e; exact e ▸ h
  | cons a as ih =>
    simp only [run] at e
    split at e
    · rename_i s1 hs
      exact ih (.step h hs) e
    · cases e

/-- **C82** fails: the future is resolved while `await` is in `add_thread()`. The continuation waits for `m`, which is destroyed with the exception; then it
uses it. -/
theorem c82_await_counterexample : ∃ s, Reachable s ∧ s.w = .threw ∧ step s .l = .ub := by
  refine ⟨{ x := some (.val 3), w := .threw, l := .lock }, ?_, rfl, rfl⟩
  exact reachable_run .init (as := [.w, .w, .w, .resolve (.val 3), .refuse, .w]) rfl

/-- The exception is thrown although the result is there: the future became ready before `await` locked `m`. -/
theorem c82_await_needless_counterexample : ∃ s, Reachable s ∧ s.w = .threw ∧ s.result = some (.val 3) := by
  refine ⟨{ x := some (.val 3), w := .threw, l := .done, result := some (.val 3) }, ?_, rfl, rfl⟩
  exact reachable_run .init (as := [.w, .w, .resolve (.val 3), .l, .l, .l, .l, .w, .refuse, .w]) rfl

/-- A thread is refused, then the future is resolved: nothing happens. -/
example : Calm { x := some (.val 3), w := .threw, l := .cancelled } := by
  refine .step (a := .resolve (.val 3)) (.step (a := .w) (.step (a := .refuse) (.step (a := .w) (.step (a := .w) (.step (a := .w) .init ?_ rfl) ?_ rfl) ?_ rfl) ?_ rfl) ?_ rfl) ?_ rfl
  all_goals simp [calm, LPc.busy]

/-- No wake-up is lost, with any refusals: if `await` sleeps although the result is there, it is notified or is about to be. -/
theorem c82_await_woken {s : St} (h : Reachable s) (hw : s.w = .asleep) (hr : s.result ≠ none) : s.notified = true ∨ s.l = .notify := by
  induction h with
  | init => cases hw
  | step h hs ih =>
    have I := h.inv
    rename_i s s' a
    cases a <;> simp only [step] at hs <;> (repeat' split at hs) <;> cases hs <;> grind

example : ∃ s, Reachable s ∧ s.w = .asleep ∧ s.result ≠ none ∧ s.notified = true :=
  ⟨_, reachable_run .init (as := [.w, .w, .w, .w, .w, .resolve (.val 3), .l, .l, .l]) rfl, rfl, by simp, rfl⟩

end Plain

/-! ## `await_for` -/

namespace Timed

theorem gone_iff (w : WPc) : w.gone = true ↔ (∃ o, w = .direct o) ∨ (∃ o, w = .retRes o) ∨ w = .retHold ∨ w = .threw := by
  cases w <;> simp [WPc.gone]

theorem lp_step {s s' : St} (I : s.l = .lock ∨ s.l = .crit ∨ s.l = .notify → s.lp = true) {a : Act} (e : step s a = .ok s') :
    s'.l = .lock ∨ s'.l = .crit ∨ s'.l = .notify → s'.lp = true := by
  cases a <;> simp only [step] at e <;> (repeat' split at e) <;> cases e <;> grind

/-- **C82**: the continuation of `await_for` never uses what is gone, with any refusals. -/
theorem c82_await_for {s : St} (h : Reachable s) (a : Act) : step s a ≠ .ub := by
  have I : s.l = .lock ∨ s.l = .crit ∨ s.l = .notify → s.lp = true := by
    induction h with
    | init => simp
    | step _ hs ih => exact lp_step ih hs
  intro e
  cases a <;> simp only [step] at e <;> (repeat' split at e) <;> cases e <;> simp_all [alive]

structure Inv (s : St) : Prop where
  x : s.l ≠ .none → s.l ≠ .queued → s.l ≠ .cancelled → s.x ≠ none
  early : s.w = .check ∨ s.w = .attach → s.l = .none
  before : s.l = .none ∨ s.l = .queued ∨ s.l = .cancelled ∨ s.l = .weak ∨ s.l = .lock ∨ s.l = .crit → s.result = none ∧ ∀ o, s.w ≠ .retRes o
  timed : s.timedOut = true → s.w = .fin ∨ s.w = .retHold
  timedRes : s.timedOut = true → s.result = none
  held : s.mutex = some .l ↔ s.l = .crit
  holds : s.mutex = some .w ↔ s.w = .invoke ∨ s.w = .pred ∨ s.w = .fin
  pass : s.l = .ret true → s.result = none ∧ ∀ o, s.w ≠ .retRes o
  given : s.l = .notify ∨ s.l = .ret false → s.result = s.x ∨ ∃ o, s.w = .retRes o ∧ s.x = some o
  res : ∀ o, s.w = .direct o ∨ s.w = .retRes o ∨ s.result = some o → s.x = some o
  threw : s.w = .threw → s.l ≠ .queued
  inl : s.w = .inl → s.l ≠ .none ∧ s.l ≠ .queued ∧ s.l ≠ .cancelled
  lnone : s.l = .none → s.w = .check ∨ s.w = .attach ∨ ∃ o, s.w = .direct o
  direct : ∀ o, s.w = .direct o → s.l = .none
  cancelled : s.l = .cancelled → s.w = .threw
  fin : s.w = .fin → s.timedOut = false → s.result ≠ none

theorem Inv.init : Inv {} := by constructor <;> simp

attribute [local grind] Inv

theorem Inv.step {s s' : St} (I : Inv s) {a : Act} (e : step s a = .ok s') : Inv s' := by
  cases a <;> simp only [Timed.step] at e <;> (repeat' split at e) <;> cases e <;> constructor <;> grind

theorem Reachable.inv {s : St} (h : Reachable s) : Inv s := by
  induction h with
  | init => exact .init
  | step _ hs ih => exact ih.step hs

/-- What `await_for` returns is the result of the future. The continuation passes the future on exactly when `await_for` has not got and
will not get the result. -/
theorem c82_await_for_outcome {s : St} (h : Reachable s) :
    (∀ o, s.w = .direct o ∨ s.w = .retRes o → s.x = some o) ∧
    (s.l = .ret true → s.result = none ∧ ∀ o, s.w ≠ .retRes o) ∧
    (s.l = .ret false → s.result = s.x ∨ ∃ o, s.w = .retRes o ∧ s.x = some o) := by
  have I := h.inv
  exact ⟨fun o ho => I.res o (by grind), I.pass, fun hl => I.given (.inr hl)⟩

/-- If the future is not resolved when the exception leaves `await_for`, the continuation never begins. -/
theorem c82_await_for_cancelled {s : St} (h : Reachable s) (hw : s.w = .threw) :
    (s.x = none → s.l = .cancelled) ∧ (s.l = .cancelled → ∀ a s', step s a = .ok s' → s'.w = .threw ∧ s'.l = .cancelled) := by
  have I := h.inv
  refine ⟨fun hx => ?_, fun hl a s' e => ?_⟩
  · by_cases h1 : s.l = .cancelled
    · exact h1
    · by_cases h2 : s.l = .none
      · rcases I.lnone h2 with h3 | h3 | ⟨o, h3⟩ <;> simp [hw] at h3
      · exact absurd hx (I.x h2 (I.threw hw) h1)
  · cases a <;> simp only [step] at e <;> (repeat' split at e) <;> cases e <;> grind

def LPc.rank : LPc → Nat
  | .weak => 5
  | .lock => 4
  | .crit => 3
  | .notify => 2
  | .ret _ => 1
  | _ => 0

/-- The continuation, once it has begun, ends after at most five steps of its own, and it waits only for the mutex while `await_for`
has it; the thread in `await_for` then can go on itself. -/
theorem c82_await_for_ends {s : St} (h : Reachable s) (hl : 0 < s.l.rank) :
    (∃ s', step s .l = .ok s' ∧ s'.l.rank < s.l.rank) ∨ (s.mutex = some .w ∧ ∃ s', step s .w = .ok s' ∧ s'.l = s.l) := by
  have I := h.inv
  have hn := c82_await_for h .l
  have hm : s.mutex = none ∨ s.mutex = some .w ∨ s.mutex = some .l := by
    rcases s.mutex with _ | _ | _ <;> simp
  rcases hm with hm | hm | hm
  · left
    cases e : s.l <;> simp only [e, LPc.rank] at hl <;> (try omega) <;> simp only [step, e] at hn ⊢ <;> (repeat' split) <;> simp_all [LPc.rank]
  · by_cases hk : s.l = .lock
    · right
      refine ⟨hm, ?_⟩
      rcases I.holds.1 hm with hw | hw | hw <;> simp only [step, hw] <;> (repeat' split) <;> simp
    · left
      cases e : s.l <;> simp only [e, LPc.rank] at hl <;> (try omega) <;> simp only [step, e] at hn ⊢ <;> (repeat' split) <;>
        simp_all [LPc.rank]
  · left
    have hc := I.held.1 hm
    simp only [step, hc] at hn ⊢
    (repeat' split) <;> simp_all [LPc.rank]

/-- The hypotheses of `c82_await_for_ends` when the thread in `await_for` owns the mutex. -/
example : ∃ s, Reachable s ∧ s.l = .lock ∧ s.mutex = some .w ∧ s.w = .invoke := by
  refine ⟨{ x := some (.val 3), w := .invoke, l := .lock, lp := true, mutex := some .w }, ?_, rfl, rfl, rfl⟩
  exact .step (a := .l) (.step (a := .resolve (.val 3)) (.step (a := .w) (.step (a := .w) (.step (a := .w) .init rfl) rfl) rfl) rfl) rfl

/-- The hypotheses of `c82_await_for_cancelled`. -/
example : ∃ s, Reachable s ∧ s.w = .threw ∧ s.x = none ∧ ∃ s', step s (.resolve (.val 3)) = .ok s' := by
  refine ⟨{ w := .threw, l := .cancelled }, ?_, rfl, rfl, _, rfl⟩
  exact .step (a := .w) (.step (a := .refuse) (.step (a := .w) (.step (a := .w) (.step (a := .w) .init rfl) rfl) rfl) rfl) rfl

/-- The same moment as in `Plain.c82_await_counterexample`: the continuation goes on, with its own reference. -/
example : ∃ s, Reachable s ∧ s.w = .threw ∧ s.l = .lock ∧ ∃ s', step s .l = .ok s' := by
  refine ⟨{ x := some (.val 3), w := .threw, l := .lock, lp := true }, ?_, rfl, rfl, _, rfl⟩
  exact .step (a := .w) (.step (a := .refuse) (.step (a := .l) (.step (a := .resolve (.val 3)) (.step (a := .w) (.step (a := .w) (.step (a := .w) .init rfl) rfl) rfl) rfl) rfl) rfl) rfl

/-- No wake-up is lost, with any refusals: if `await_for` sleeps although the result is there, it is notified or is about to be. -/
theorem c82_await_for_woken {s : St} (h : Reachable s) (hw : s.w = .asleep) (hr : s.result ≠ none) : s.notified = true ∨ s.l = .notify := by
  induction h with
  | init => cases hw
  | step h hs ih =>
    have I := h.inv
    rename_i s s' a
    cases a <;> simp only [step] at hs <;> (repeat' split at hs) <;> cases hs <;> grind

example : ∃ s, Reachable s ∧ s.w = .asleep ∧ s.result ≠ none ∧ s.notified = true := by
  refine ⟨{ x := some (.val 3), w := .asleep, l := .ret false, lp := true, result := some (.val 3), notified := true }, ?_, rfl, by simp, rfl⟩
  exact .step (a := .l) (.step (a := .l) (.step (a := .l) (.step (a := .l) (.step (a := .resolve (.val 3)) (.step (a := .w) (.step (a := .w) (.step (a := .w)
    (.step (a := .w) (.step (a := .w) .init rfl) rfl) rfl) rfl) rfl) rfl) rfl) rfl) rfl) rfl

end Timed

end Verif.NoThread
