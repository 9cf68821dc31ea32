import Verif.PreExit

/-!
# Properties of `pre_exit` (C24)
-/

namespace Verif.PreExit

/-- C24 (order). Whenever a handler is run: it had been registered, it had not been run before, and
every registration made later than its own had already been run. Holds for every execution, with
registrations by any thread or handler at any moment. -/
theorem pre_exit_lifo {H : Type} {as : List (Act H)} {s : St H} (hs : exec {} as = some s)
    {pre post : List (Event H)} {n : Nat} {h : H} (ht : s.trace = pre ++ Event.run n h :: post) :
    Event.reg n h ∈ pre ∧ ¬ Ran pre n ∧ ∀ m, Registered pre m → n < m → Ran pre m := by
  obtain ⟨as1, a, as2, s1, s2, -, e2, e3, e4, e5⟩ := trace_split hs ht (by simp)
  have hi := inv_exec inv_init e2
  cases a <;> simp only [step, push, pop] at e3 <;> (repeat' split at e3) <;> simp at e3 <;>
    subst e3 <;> simp [e4] at e5
  rename_i m h' rest hst
  obtain ⟨rfl, rfl⟩ := e5
  subst e4
  refine ⟨hi.stack_reg _ _ (by rw [hst]; simp), hi.stack_not_run _ h' (by rw [hst]; simp), ?_⟩
  rintro k ⟨x, hk⟩ hlt
  rcases hi.complete k x hk with hm | hm
  · have hsort := hi.sorted
    rw [hst] at hsort hm
    rw [List.pairwise_cons] at hsort
    simp only [List.mem_cons, Prod.mk.injEq] at hm
    rcases hm with ⟨rfl, rfl⟩ | hm
    · omega
    · have := hsort.1 _ hm; simp at this; omega
  · exact hm

/-- C24 (completeness). When `pre_exit()` returns, every handler registered until then has been run,
and the serial numbers run are pairwise distinct (exactly once, with `pre_exit_lifo`). -/
theorem pre_exit_runs_all {H : Type} {as : List (Act H)} {s : St H} (hs : exec {} as = some s)
    {pre post : List (Event H)} (ht : s.trace = pre ++ Event.ret :: post) :
    ∀ m, Registered pre m → Ran pre m := by
  obtain ⟨as1, a, as2, s1, s2, -, e2, e3, e4, e5⟩ := trace_split hs ht (by simp)
  have hi := inv_exec inv_init e2
  cases a <;> simp only [step, push, pop] at e3 <;> (repeat' split at e3) <;> simp at e3 <;>
    subst e3 <;> simp [e4] at e5
  rename_i hst _
  subst e4
  rintro m ⟨x, hm⟩
  rcases hi.complete m x hm with h | h
  · simp [hst] at h
  · exact h

/-- C24 (no late work). After `pre_exit()` returned, no handler is ever run, and an attempt to
register one, or to evaluate the loop of a second `pre_exit()`, is an assertion failure. -/
theorem pre_exit_closed {H : Type} {as : List (Act H)} {s : St H} (hs : exec {} as = some s)
    (hr : Event.ret ∈ s.trace) :
    (∀ h, step s (.atPreExit h) = none) ∧ step s .pop = none := by
  have hi := inv_exec inv_init hs
  have hc := hi.ret_closed.mp hr
  have he := hi.closed_empty hc
  refine ⟨fun h => by simp [step, push, hc], ?_⟩
  simp only [step]
  split <;> simp [pop, he, hc]

/-- C24 (progress). Once entered and not in a handler, the loop can always take its next step until
it returns: it never blocks. -/
theorem pre_exit_progress {H : Type} {as : List (Act H)} {s : St H} (hs : exec {} as = some s)
    (hp : s.phase = .inLoop) (hn : Event.ret ∉ s.trace) : ∃ s', step s .pop = some s' := by
  have hi := inv_exec inv_init hs
  have hc : s.closed = false := by
    cases h : s.closed
    · rfl
    · exact absurd (hi.ret_closed.mpr h) hn
  simp only [step, hp, pop]
  split
  · simp [hc]
  · simp

/-- The steps of the thread in `pre_exit()`: take a handler and run it, `k` times, then find the stack empty. -/
def loopActs {H : Type} : Nat → List (Act H)
  | 0 => [.pop]
  | k + 1 => .pop :: .handlerReturns :: loopActs k

theorem loop_returns {H : Type} (l : List (Nat × H)) (s : St H) (hst : s.stack = l) (hp : s.phase = .inLoop)
    (hc : s.closed = false) :
    ∃ s', exec s (loopActs l.length) = some s' ∧ s'.phase = .returned ∧ s'.closed = true ∧
      s'.trace = s.trace ++ l.map (fun x => Event.run x.1 x.2) ++ [.ret] := by
  induction l generalizing s with
  | nil => exact ⟨{ s with closed := true, phase := .returned, trace := s.trace ++ [.ret] },
      by simp [loopActs, exec, step, hp, pop, hst, hc], rfl, rfl, by simp⟩
  | cons x l ih =>
    obtain ⟨s', h1, h2, h3, h4⟩ := ih { s with stack := l, phase := .inLoop, trace := s.trace ++ [.run x.1 x.2] } rfl rfl hc
    refine ⟨s', ?_, h2, h3, ?_⟩
    · simpa [loopActs, exec, step, hp, pop, hst] using h1
    · rw [h4]; simp

/-- C24 (termination). If no more handlers are registered and the handlers return, `pre_exit()` runs the handlers
registered and not yet run, latest first, and returns. -/
theorem pre_exit_returns {H : Type} {as : List (Act H)} {s : St H} (hs : exec {} as = some s)
    (hp : s.phase = .inLoop) (hn : Event.ret ∉ s.trace) :
    ∃ l : List (Nat × H), (∀ n h, (n, h) ∈ l ↔ Event.reg n h ∈ s.trace ∧ ¬ Ran s.trace n) ∧
      l.Pairwise (fun a b => b.1 < a.1) ∧
      ∃ s', exec s (loopActs l.length) = some s' ∧ s'.phase = .returned ∧
        s'.trace = s.trace ++ l.map (fun x => Event.run x.1 x.2) ++ [.ret] := by
  have hi := inv_exec inv_init hs
  have hc : s.closed = false := by
    cases h : s.closed
    · rfl
    · exact absurd (hi.ret_closed.mpr h) hn
  obtain ⟨s', h1, h2, -, h4⟩ := loop_returns s.stack s rfl hp hc
  refine ⟨s.stack, fun n h => ⟨fun hm => ⟨hi.stack_reg n h hm, hi.stack_not_run n h hm⟩, fun hm => ?_⟩, hi.sorted, s', h1, h2, h4⟩
  exact (hi.complete n h hm.1).resolve_right hm.2

example : ∃ s, exec ({} : St String) [.atPreExit "a", .atPreExit "b", .callPreExit, .pop, .atPreExit "c", .handlerReturns] =
    some s ∧ s.phase = .inLoop ∧ Event.ret ∉ s.trace ∧
    (exec s (loopActs 2)).map (·.trace.drop 4) = some [.run 2 "c", .run 0 "a", .ret] :=
  ⟨_, rfl, rfl, by decide, by decide⟩

/-- A run with two handlers, the second of which registers a third. -/
example : (exec ({} : St String)
    [.atPreExit "a", .atPreExit "b", .callPreExit, .pop, .atPreExit "c", .handlerReturns, .pop,
     .handlerReturns, .pop, .handlerReturns, .pop]).map (·.trace) =
    some [.reg 0 "a", .reg 1 "b", .run 1 "b", .reg 2 "c", .run 2 "c", .run 0 "a", .ret] := by
  decide

end Verif.PreExit
