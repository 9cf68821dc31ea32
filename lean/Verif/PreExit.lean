/-!
# `pre_exit` (src/pre_exit.cpp)

State machine of the pre-exit stack, with any number of threads (and running handlers) registering
handlers at any moment.  Each registration gets a ghost serial number so that one function pointer
may be registered several times.
-/

namespace Verif.PreExit

/-- What an observer sees: a registration, the start of a handler, the return of `pre_exit()`. -/
inductive Event (H : Type) where
  | reg (serial : Nat) (h : H)
  | run (serial : Nat) (h : H)
  | ret
  deriving DecidableEq, Repr

/-- Where the thread executing `stlab_pre_exit()` is. -/
inductive Phase where
  | notStarted
  | inLoop      -- about to call `_s.pop()`
  | inHandler   -- executing `f()`
  | returned
  deriving DecidableEq, Repr

/-- `pre_exit_stack_t` (src/pre_exit.cpp:19-51): `_stack` (head = back of the vector) and `_closed`.
`next`, `trace` are ghost; `phase` is the program counter of `stlab_pre_exit`. -/
structure St (H : Type) where
  stack : List (Nat × H) := []
  closed : Bool := false
  phase : Phase := .notStarted
  next : Nat := 0
  trace : List (Event H) := []

/-- Actions of the environment / the exiting thread. -/
inductive Act (H : Type) where
  | atPreExit (h : H)   -- any thread, or the running handler, calls `at_pre_exit(h)`
  | callPreExit         -- `pre_exit()` is entered
  | pop                 -- one evaluation of `while (auto f = _s.pop())`
  | handlerReturns      -- `f()` returns

/-- src/pre_exit.cpp:27-33 `push`: precondition (assert) that the stack is not closed. A violated
assertion is the outcome `none`. Handlers are non-null function pointers. -/
def push {H : Type} (s : St H) (h : H) : Option (St H) :=
  if s.closed then none
  else some { s with stack := (s.next, h) :: s.stack, next := s.next + 1,
                     trace := s.trace ++ [.reg s.next h] }

/-- src/pre_exit.cpp:36-46 `pop` as used by the loop in `stlab_pre_exit` (lines 60-65): an empty stack
closes it and ends the loop, otherwise the back element is removed and called. -/
def pop {H : Type} (s : St H) : Option (St H) :=
  match s.stack with
  | [] => if s.closed then none
          else some { s with closed := true, phase := .returned, trace := s.trace ++ [.ret] }
  | (n, h) :: rest =>
      some { s with stack := rest, phase := .inHandler, trace := s.trace ++ [.run n h] }

/-- One action. `none` = assertion failure, or the action is not possible in this phase.
`callPreExit` after return is allowed by the language; it then runs `pop` on the closed stack and
hits the assertion (src/pre_exit.cpp:39). -/
def step {H : Type} (s : St H) : Act H → Option (St H)
  | .atPreExit h => push s h
  | .callPreExit =>
      match s.phase with
      | .notStarted => some { s with phase := .inLoop }
      | .returned => some { s with phase := .inLoop }
      | _ => none
  | .pop => match s.phase with
      | .inLoop => pop s
      | _ => none
  | .handlerReturns => match s.phase with
      | .inHandler => some { s with phase := .inLoop }
      | _ => none

/-- Run a list of actions. -/
def exec {H : Type} (s : St H) : List (Act H) → Option (St H)
  | [] => some s
  | a :: as => (step s a).bind (exec · as)

/-! ## Specification (on traces only) -/

/-- Serial `n` has been registered in trace `t`. -/
def Registered {H : Type} (t : List (Event H)) (n : Nat) : Prop := ∃ h, Event.reg n h ∈ t

/-- Serial `n` has been run in trace `t`. -/
def Ran {H : Type} (t : List (Event H)) (n : Nat) : Prop := ∃ h, Event.run n h ∈ t

/-! ## Invariant -/

/-- Invariant tying the stack to the trace. -/
structure Inv {H : Type} (s : St H) : Prop where
  reg_lt : ∀ n h, Event.reg n h ∈ s.trace → n < s.next
  stack_reg : ∀ n h, (n, h) ∈ s.stack → Event.reg n h ∈ s.trace
  stack_not_run : ∀ n h, (n, h) ∈ s.stack → ¬ Ran s.trace n
  run_reg : ∀ n h, Event.run n h ∈ s.trace → Event.reg n h ∈ s.trace
  complete : ∀ n h, Event.reg n h ∈ s.trace → (n, h) ∈ s.stack ∨ Ran s.trace n
  sorted : s.stack.Pairwise (fun a b => b.1 < a.1)
  ret_closed : Event.ret ∈ s.trace ↔ s.closed = true
  closed_empty : s.closed = true → s.stack = []

theorem inv_init {H : Type} : Inv ({} : St H) := by
  constructor <;> simp [Ran]

theorem inv_step {H : Type} {s s' : St H} {a : Act H} (hi : Inv s) (hs : step s a = some s') :
    Inv s' := by
  obtain ⟨h1, h2, h3, h4, h5, h6, h7, h8⟩ := hi
  cases a with
  | atPreExit h =>
    simp only [step, push] at hs
    split at hs
    · simp at hs
    · rename_i hc
      simp only [Option.some.injEq] at hs
      subst hs
      have key : ∀ n h', (n, h') ∈ s.stack → n < s.next := fun n h' hm => h1 n h' (h2 n h' hm)
      constructor
      · intro n h' hm
        simp only [List.mem_append, List.mem_singleton, Event.reg.injEq] at hm
        rcases hm with hm | ⟨rfl, rfl⟩
        · have := h1 n h' hm; simp only; omega
        · simp
      · intro n h' hm
        simp only [List.mem_cons, Prod.mk.injEq] at hm
        rcases hm with ⟨rfl, rfl⟩ | hm
        · simp
        · simp [h2 n h' hm]
      · rintro n h' hm ⟨h'', hr⟩
        simp only [List.mem_append, List.mem_singleton, reduceCtorEq, or_false] at hr
        simp only [List.mem_cons, Prod.mk.injEq] at hm
        rcases hm with ⟨rfl, rfl⟩ | hm
        · have := h1 _ _ (h4 _ _ hr); omega
        · exact h3 n h' hm ⟨h'', hr⟩
      · intro n h' hm
        simp only [List.mem_append, List.mem_singleton, reduceCtorEq, or_false] at hm
        simp [h4 n h' hm]
      · intro n h' hm
        simp only [List.mem_append, List.mem_singleton, Event.reg.injEq] at hm
        rcases hm with hm | ⟨rfl, rfl⟩
        · rcases h5 n h' hm with h | ⟨x, h⟩
          · left; simp [h]
          · right; exact ⟨x, by simp [h]⟩
        · left; simp
      · simp only [List.pairwise_cons]
        refine ⟨?_, h6⟩
        rintro ⟨n, h'⟩ hm
        exact key n h' hm
      · simp [h7]
      · intro hcl; exact absurd hcl hc
  | callPreExit =>
    simp only [step] at hs
    split at hs <;> simp at hs <;> subst hs <;> exact ⟨h1, h2, h3, h4, h5, h6, h7, h8⟩
  | handlerReturns =>
    simp only [step] at hs
    split at hs <;> simp at hs
    subst hs; exact ⟨h1, h2, h3, h4, h5, h6, h7, h8⟩
  | pop =>
    simp only [step] at hs
    split at hs
    · simp only [pop] at hs
      split at hs
      · rename_i hst
        split at hs
        · simp at hs
        · simp only [Option.some.injEq] at hs
          subst hs
          constructor
          · intro n h' hm; simp only [List.mem_append, List.mem_singleton, reduceCtorEq, or_false] at hm; exact h1 n h' hm
          · simp [hst]
          · simp [hst]
          · intro n h' hm; simp only [List.mem_append, List.mem_singleton, reduceCtorEq, or_false] at hm ⊢; exact h4 n h' hm
          · intro n h' hm; simp only [List.mem_append, List.mem_singleton, reduceCtorEq, or_false] at hm
            rcases h5 n h' hm with h | ⟨x, h⟩
            · simp [hst] at h
            · right; exact ⟨x, by simp [h]⟩
          · simp [hst]
          · simp
          · simp [hst]
      · rename_i n h rest hst
        simp only [Option.some.injEq] at hs
        subst hs
        rw [hst] at h6
        rw [List.pairwise_cons] at h6
        constructor
        · intro m h' hm; simp only [List.mem_append, List.mem_singleton, reduceCtorEq, or_false] at hm; exact h1 m h' hm
        · intro m h' hm
          have : (m, h') ∈ s.stack := by rw [hst]; simp [show (m, h') ∈ rest from hm]
          simp [h2 m h' this]
        · rintro m h' hm ⟨x, hr⟩
          have : (m, h') ∈ s.stack := by rw [hst]; simp [show (m, h') ∈ rest from hm]
          simp only [List.mem_append, List.mem_singleton, Event.run.injEq] at hr
          rcases hr with hr | ⟨rfl, rfl⟩
          · exact h3 m h' this ⟨x, hr⟩
          · have := h6.1 _ hm; simp at this
        · intro m h' hm
          simp only [List.mem_append, List.mem_singleton, Event.run.injEq] at hm
          rcases hm with hm | ⟨rfl, rfl⟩
          · simp [h4 m h' hm]
          · have : (m, h') ∈ s.stack := by rw [hst]; simp
            simp [h2 m h' this]
        · intro m h' hm
          simp only [List.mem_append, List.mem_singleton, reduceCtorEq, or_false] at hm
          rcases h5 m h' hm with hx | ⟨x, hx⟩
          · rw [hst] at hx
            simp only [List.mem_cons, Prod.mk.injEq] at hx
            rcases hx with ⟨rfl, rfl⟩ | hx
            · right; exact ⟨h', by simp⟩
            · left; exact hx
          · right; exact ⟨x, by simp [hx]⟩
        · exact h6.2
        · simp [h7]
        · intro hc
          have := h8 hc
          rw [hst] at this; simp at this
    all_goals simp at hs

theorem inv_exec {H : Type} {s s' : St H} {as : List (Act H)} (hi : Inv s)
    (hs : exec s as = some s') : Inv s' := by
  induction as generalizing s with
  | nil => simp [exec] at hs; subst hs; exact hi
  | cons a as ih =>
    simp only [exec, Option.bind_eq_some_iff] at hs
    obtain ⟨s1, h1, h2⟩ := hs
    exact ih (inv_step hi h1) h2

/-- The trace grows by at most one event per step. -/
theorem step_trace {H : Type} {s s' : St H} {a : Act H} (hs : step s a = some s') :
    s'.trace = s.trace ∨ ∃ e, s'.trace = s.trace ++ [e] := by
  cases a <;> simp only [step, push, pop] at hs <;> (repeat' split at hs) <;> simp at hs <;>
    subst hs <;> simp

/-- Any event of the trace was appended by a step from a state in which the earlier part was the
trace. -/
theorem trace_split {H : Type} {s s' : St H} {as : List (Act H)} (hs : exec s as = some s')
    {pre post : List (Event H)} {e : Event H} (ht : s'.trace = pre ++ e :: post)
    (hlen : s.trace.length ≤ pre.length) :
    ∃ as1 a as2 s1 s2, as = as1 ++ a :: as2 ∧ exec s as1 = some s1 ∧ step s1 a = some s2 ∧
      s1.trace = pre ∧ s2.trace = pre ++ [e] := by
  induction as generalizing s with
  | nil =>
    simp [exec] at hs; subst hs
    rw [ht] at hlen; simp at hlen; omega
  | cons a as ih =>
    simp only [exec, Option.bind_eq_some_iff] at hs
    obtain ⟨s1, h1, h2⟩ := hs
    -- the final trace extends s1.trace
    have ext : ∀ (as : List (Act H)) (u v : St H), exec u as = some v → ∃ q, v.trace = u.trace ++ q := by
      intro as
      induction as with
      | nil => intro u v h; simp [exec] at h; subst h; exact ⟨[], by simp⟩
      | cons b bs ihb =>
        intro u v h
        simp only [exec, Option.bind_eq_some_iff] at h
        obtain ⟨w, hw1, hw2⟩ := h
        obtain ⟨q, hq⟩ := ihb w v hw2
        rcases step_trace hw1 with h | ⟨x, h⟩
        · exact ⟨q, by rw [hq, h]⟩
        · exact ⟨x :: q, by rw [hq, h]; simp⟩
    by_cases hl : s1.trace.length ≤ pre.length
    · obtain ⟨as1, b, as2, t1, t2, e1, e2, e3, e4, e5⟩ := ih h2 hl
      refine ⟨a :: as1, b, as2, t1, t2, by simp [e1], ?_, e3, e4, e5⟩
      simp [exec, h1, e2]
    · obtain ⟨q, hq⟩ := ext as s1 s' h2
      rcases step_trace h1 with h | ⟨x, h⟩
      · rw [h] at hl; exact absurd hlen hl
      · have hlp : pre.length = s.trace.length := by
          have : s1.trace.length = s.trace.length + 1 := by rw [h]; simp
          omega
        rw [ht, h] at hq
        have hq' : pre ++ e :: post = s.trace ++ (x :: q) := by rw [hq]; simp
        obtain ⟨rfl, hq''⟩ := List.append_inj hq' hlp
        simp only [List.cons.injEq] at hq''
        obtain ⟨rfl, _⟩ := hq''
        exact ⟨[], a, as, s, s1, by simp, by simp [exec], h1, rfl, h⟩

end Verif.PreExit
