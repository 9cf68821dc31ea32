import Verif.Future.SharedProps

/-!
# C63: futures that are ready from the start

include/stlab/concurrency/ready_future.hpp and `future_with_broken_promise` (future.hpp lines 1033-1041), as the beginning of an
execution of the shared state of Shared.lean. After that, anybody may do anything with the future.
-/

namespace Verif.Shared

/-- `make_ready_future(v, executor)`, ready_future.hpp lines 28-33 (36-40 without a value): the packaged task 0 is called,
its function returns the argument, the promise 1 is set and destroyed, the call returns and the task is destroyed. -/
def makeReady (v : Nat) : List Act :=
  [.invoke 0 1, .setVal 1 v, .rWrite 1, .rLock 1, .rEnd 1, .destroy 1, .invEnd 0, .destroy 0]

/-- `make_exceptional_future(e, executor)`, ready_future.hpp lines 46-51, 57-61. -/
def makeExceptional (e : Nat) : List Act := [.setExc 0 e, .rWrite 0, .rLock 0, .rEnd 0, .destroy 0]

/-- `future_with_broken_promise`, future.hpp lines 1033-1041: there is no task, the state is written directly. -/
def brokenPromise : St := { exc := some .broken, ready := true, handle := fun _ => .none, trace := [.resolved (.exc .broken)] }

theorem trace_step {s s' : St} {a : Act} (h : step s a = .ok s') : ∃ t, s'.trace = s.trace ++ t := by
  cases a <;> simp only [step, startRes] at h <;> (repeat' split at h) <;> cases h <;>
    first | exact ⟨[], (List.append_nil _).symm⟩ | exact ⟨_, rfl⟩

theorem trace_exec : ∀ {as : List Act} {s s' : St}, exec s as = some s' → ∃ t, s'.trace = s.trace ++ t
  | [], s, s', h => by cases h; exact ⟨[], (List.append_nil _).symm⟩
  | a :: as, s, s', h => by
    simp only [exec] at h
    split at h
    · rename_i s1 h1
      obtain ⟨t1, e1⟩ := trace_step h1
      obtain ⟨t2, e2⟩ := trace_exec h
      exact ⟨t1 ++ t2, by rw [e2, e1, List.append_assoc]⟩
    · cases h

theorem exec_append : ∀ {as bs : List Act} {s s1 : St}, exec s as = some s1 → exec s (as ++ bs) = exec s1 bs
  | [], _, _, _, h => by cases h; rfl
  | a :: as, bs, s, s1, h => by
    simp only [exec, List.cons_append] at h ⊢
    split at h
    · exact exec_append h
    · cases h

/-- What holds for a future that has been resolved with `o` before anybody could use it. -/
structure ReadyWith (o : Outcome) (s : St) : Prop where
  ready : s.ready = true
  got : ∀ f x, .got f x ∈ s.trace → x = .out o
  ran : ∀ k x, .ran k x ∈ s.trace → x = .out o
  seen : ∀ f, .notReady f ∉ s.trace
  once : ∀ o', .resolved o' ∈ s.trace → o' = o

theorem readyWith {as bs : List Act} {s0 s : St} {o : Outcome} (h0 : exec init as = some s0) (hr : s0.ready = true)
    (ht : s0.trace.filter (· ≠ .invoked) = [.resolved o]) (h : exec s0 bs = some s) : ReadyWith o s := by
  have hR : Reachable s := ⟨as ++ bs, by rw [exec_append h0]; exact h⟩
  obtain ⟨t, et⟩ := trace_exec h
  obtain ⟨o', h1, h2, h3⟩ := c30_same_outcome hR
  have hm : .resolved o ∈ s0.trace := by
    have : .resolved o ∈ s0.trace.filter (· ≠ .invoked) := by rw [ht]; simp
    exact (List.mem_filter.1 this).1
  have ho : o = o' := h3 o (by rw [et]; simp [hm])
  subst ho
  refine ⟨c30_stays_ready hr h, h1, h2, fun f hf => ?_, h3⟩
  obtain ⟨u, w, hw⟩ := List.append_of_mem hf
  have hn : .notReady f ∉ s0.trace := by
    intro hf
    have : .notReady f ∈ s0.trace.filter (· ≠ .invoked) := List.mem_filter.2 ⟨hf, by simp⟩
    rw [ht] at this; simp at this
  have : .resolved o ∈ u := by
    rw [hw] at et
    rcases List.append_eq_append_iff.1 et with ⟨c, e1, e2⟩ | ⟨c, e1, e2⟩
    · rcases c with _ | ⟨x, c⟩
      · simp at e1; rw [e1] at hm; exact hm
      · rw [e1] at hn; simp at e2; simp [e2.1] at hn
    · rw [e1]; simp [hm]
  exact c30_ready_seen hR u w f hw o this

/-- **C63**: a future made by `make_ready_future` is ready, and whatever is done with it, whoever reads it or continues from it
gets the value; nobody finds it not ready. -/
theorem c63_ready {v : Nat} {as : List Act} {s : St} (h : exec init (makeReady v ++ as) = some s) : ReadyWith (.val v) s := by
  have h0 : exec init (makeReady v) = some ((exec init (makeReady v)).get rfl) := rfl
  rw [exec_append h0] at h
  exact readyWith h0 rfl rfl h

/-- **C63**: the same for `make_exceptional_future` with the exception. -/
theorem c63_exceptional {e : Nat} {as : List Act} {s : St} (h : exec init (makeExceptional e ++ as) = some s) :
    ReadyWith (.exc (.user e)) s := by
  have h0 : exec init (makeExceptional e) = some ((exec init (makeExceptional e)).get rfl) := rfl
  rw [exec_append h0] at h
  exact readyWith h0 rfl rfl h

/-- **C63**: the same for `future_with_broken_promise` with the error `broken_promise`. -/
theorem c63_broken {as : List Act} {s : St} (h : exec brokenPromise as = some s) : ReadyWith (.exc .broken) s := by
  have h0 : exec init [.destroy 0, .rWrite 0, .rLock 0, .rEnd 0] = some brokenPromise := by
    simp [exec, step, init, brokenPromise, startRes, upd]
    refine ⟨?_, ?_⟩ <;> funext k <;> grind [upd]
  exact readyWith h0 rfl rfl h

/-- **C63**: nothing undefined happens with such a future. -/
theorem c63_no_undefined {v e : Nat} {as : List Act} {s : St} (h : exec init (makeReady v ++ as) = some s ∨
    exec init (makeExceptional e ++ as) = some s) (a : Act) : step s a ≠ .ub := by
  rcases h with h | h <;> exact c30_no_undefined ⟨_, h⟩ a

/-- A ready future is copied, read, and continued from. -/
def useIt : List Act := [.copy 0 1, .getTry 1 false, .gLock 1, .attach 0 7 true, .gRead 1, .cLock 7, .cDirect 7, .run 7, .cCheck 7, .cRead 7]

example : ∃ s, exec init (makeReady 5 ++ useIt) = some s ∧ .got 1 (.out (.val 5)) ∈ s.trace ∧ .ran 7 (.out (.val 5)) ∈ s.trace :=
  ⟨(exec init (makeReady 5 ++ useIt)).get (by decide), (Option.some_get _).symm, by decide, by decide⟩

example : ∃ s, exec init (makeExceptional 5 ++ useIt) = some s ∧ .ran 7 (.out (.exc (.user 5))) ∈ s.trace :=
  ⟨(exec init (makeExceptional 5 ++ useIt)).get (by decide), (Option.some_get _).symm, by decide⟩

example : ∃ s, exec brokenPromise useIt = some s ∧ .ran 7 (.out (.exc .broken)) ∈ s.trace :=
  ⟨(exec brokenPromise useIt).get (by decide), (Option.some_get _).symm, by decide⟩

end Verif.Shared
