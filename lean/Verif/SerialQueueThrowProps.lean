import Verif.SerialQueueThrow

/-!
# C90: what a serial queue does when the underlying executor throws
-/

namespace Verif.SerialQueue.Throw

open Verif.SerialQueue

/-- `_running` is set, and nobody is there to run anything. -/
structure Wedged (s : St) : Prop where
  running : s.running = true
  queue : s.queue ≠ []
  kicks : s.kicks = 0
  pending : s.pending = 0
  jobs : s.jobs = []

/-- `b` is the state of a queue whose executor has done nothing wrong but is slow: `s` is the same, or `s` is wedged and `b` has a thread
or a job left that `s` has lost. -/
def Slow (s b : St) : Prop :=
  s = b ∨ (Wedged s ∧ ((s = { b with kicks := 0 } ∧ b.kicks = 1 ∧ b.pending = 0) ∨ (s = { b with pending := 0 } ∧ b.pending = 1 ∧ b.kicks = 0)))

theorem exec_snoc {m : Mode} {s s' s'' : St} {as : List SerialQueue.Act} {a : SerialQueue.Act} (h : SerialQueue.exec m s as = some s')
    (e : SerialQueue.step m s' a = .ok s'') : SerialQueue.exec m s (as ++ [a]) = some s'' := by
  induction as generalizing s with
  | nil => simp only [SerialQueue.exec, Option.some.injEq] at h; subst h; simp [SerialQueue.exec, e]
  | cons b as ih =>
    simp only [SerialQueue.exec, List.cons_append] at h ⊢
    split at h
    · exact ih h
    · cases h

theorem reachable_snoc {m : Mode} {s s' : St} {a : SerialQueue.Act} (h : SerialQueue.Reachable m s)
    (e : SerialQueue.step m s a = .ok s') : SerialQueue.Reachable m s' := by
  obtain ⟨as, h⟩ := h
  exact ⟨_, exec_snoc h e⟩

/-- Only `enqueue` is possible in a queue that is wedged. -/
theorem Wedged.step {m : Mode} {s s' : St} (w : Wedged s) {a : Act} (e : step m s a = .ok s') :
    Wedged s' ∧ (s' = s ∨ (a = .base .enqueue ∧ SerialQueue.step m s .enqueue = .ok s')) := by
  obtain ⟨h1, h2, h3, h4, h5⟩ := w
  cases a with
  | base a =>
    cases a <;> simp [Throw.step, SerialQueue.step, h3, h4, h5, h1] at e
    subst e
    exact ⟨⟨rfl, by simp, rfl, rfl, rfl⟩, .inr ⟨rfl, by simp [SerialQueue.step, h1, h3, h4, h5]⟩⟩
  | full => simp [Throw.step] at e; subst e; exact ⟨⟨h1, h2, h3, h4, h5⟩, .inl rfl⟩
  | refuse => simp [Throw.step, h3] at e
  | refuseNext i => simp [Throw.step, h5] at e
  | discard => simp [Throw.step, h4] at e

theorem slow_step {m : Mode} {s s' b : St} (hb : SerialQueue.Reachable m b) (h : Slow s b) {a : Act} (e : step m s a = .ok s') :
    ∃ b', SerialQueue.Reachable m b' ∧ Slow s' b' := by
  rcases h with rfl | ⟨w, h⟩
  · have T := hb.inv.token
    cases a with
    | base a =>
      simp only [Throw.step] at e
      split at e <;> cases e
      next e => exact ⟨_, reachable_snoc hb e, .inl rfl⟩
    | full => simp [Throw.step] at e; subst e; exact ⟨_, hb, .inl rfl⟩
    | refuse =>
      simp only [Throw.step] at e
      split at e <;> cases e
      next hk =>
      refine ⟨s, hb, .inr ?_⟩
      cases T with
      | kick h1 h2 h3 h4 h5 => exact ⟨⟨h1, h2, by simp [h3], h4, h5⟩, .inl ⟨by simp [h3], h3, h4⟩⟩
      | idle _ _ h | pending _ _ h | job _ _ h => exact absurd h hk
    | refuseNext i => simp only [Throw.step] at e; split at e <;> cases e
    | discard =>
      simp only [Throw.step] at e
      split at e <;> cases e
      next hk =>
      refine ⟨s, hb, .inr ?_⟩
      cases T with
      | pending h1 h2 h3 h4 h5 => exact ⟨⟨h1, h2, h3, by simp [h4], h5⟩, .inr ⟨by simp [h4], h4, h3⟩⟩
      | idle _ _ _ h | kick _ _ _ h | job _ _ _ h => exact absurd h hk
  · obtain ⟨w', h' | ⟨rfl, h'⟩⟩ := w.step e
    · subst h'; exact ⟨b, hb, .inr ⟨w, h⟩⟩
    · have hr : b.running = true := by
        rcases h with ⟨h, _⟩ | ⟨h, _⟩ <;> simpa [h] using w.running
      obtain ⟨b', hb'⟩ : ∃ b', SerialQueue.step m b .enqueue = .ok b' := ⟨_, rfl⟩
      refine ⟨b', reachable_snoc hb hb', .inr ⟨w', ?_⟩⟩
      simp only [SerialQueue.step, SerialQueue.Out.ok.injEq] at hb' h'
      subst hb' h'
      rcases h with ⟨h, h2, h3⟩ | ⟨h, h2, h3⟩ <;> subst h <;> simp [hr, h2, h3]

theorem slow {m : Mode} {s : St} (h : Reachable m s) : ∃ b, SerialQueue.Reachable m b ∧ Slow s b := by
  obtain ⟨as, h⟩ := h
  have key : ∀ (as : List Act) (s0 b0 : St), SerialQueue.Reachable m b0 → Slow s0 b0 → exec m s0 as = some s →
      ∃ b, SerialQueue.Reachable m b ∧ Slow s b := by
    intro as
    induction as with
    | nil => intro s0 b0 hb hs h; cases h; exact ⟨b0, hb, hs⟩
    | cons a as ih =>
      intro s0 b0 hb hs h
      simp only [exec] at h
      split at h
      · next s1 e =>
        obtain ⟨b1, hb1, hs1⟩ := slow_step hb hs e
        exact ih s1 b1 hb1 hs1 h
      · cases h
  exact key as {} {} ⟨[], rfl⟩ (.inl rfl) h

/-- **C90**, partly: whatever the executor does, what is observed could also be observed with an executor that is merely slow. In particular the
tasks are started in the order they were queued in, each at most once and not overlapping; and nothing undefined happens.
Missing: that the tasks are run, which is false (`c90_refuse_counterexample`). -/
theorem c90_safe_partial {m : Mode} {s : St} (h : Reachable m s) :
    (∃ b, SerialQueue.Reachable m b ∧ b.trace = s.trace) ∧
    (started s.trace <+: submitted s.trace ∧ (started s.trace).Nodup) ∧
    (∀ pre mid post a b, s.trace = pre ++ .start a :: mid ++ .start b :: post → Event.finish a ∈ mid) ∧
    ∀ a, step m s a ≠ .ub := by
  obtain ⟨b, hb, hs⟩ := slow h
  have ht : b.trace = s.trace := by
    rcases hs with rfl | ⟨_, ⟨h, _⟩ | ⟨h, _⟩⟩
    · rfl
    all_goals rw [h]
  refine ⟨⟨b, hb, ht⟩, ?_, ?_, ?_⟩
  · rw [← ht]; exact ⟨(c21_order hb).1, (c21_order hb).2.2⟩
  · intro pre mid post x y e
    exact c22_no_overlap hb (ht.trans e)
  · intro a e
    rcases hs with rfl | ⟨w, _⟩
    · cases a <;> simp only [step] at e
      · split at e <;> cases e
        next e => exact c23_no_undefined hb _ e
      all_goals (try split at e) <;> cases e
    · obtain ⟨h1, h2, h3, h4, h5⟩ := w
      rcases a with (_ | _ | _ | _) | _ | _ | _ | _ <;> simp [step, SerialQueue.step, h1, h3, h4, h5] at e

/-- Calls of `enqueue` that fail because `emplace_back` throws have no effect at all, in particular none on tasks queued later: without
them everything is the same. -/
theorem c90_full (m : Mode) (as : List Act) (s : St) : exec m s as = exec m s (as.filter (· ≠ .full)) := by
  induction as generalizing s with
  | nil => rfl
  | cons a as ih =>
    by_cases h : a = .full
    · subst h
      simp only [List.filter, ne_eq, not_true_eq_false, decide_false]
      exact ih s
    · simp only [ne_eq, h, not_false_eq_true, decide_true, List.filter_cons_of_pos, exec]
      split
      · exact ih _
      · rfl

theorem wedged_exec {m : Mode} : ∀ {as : List Act} {s s' : St}, Wedged s → exec m s as = some s' →
    Wedged s' ∧ started s'.trace = started s.trace ∧ finished s'.trace = finished s.trace
  | [], s, s', w, h => by cases h; exact ⟨w, rfl, rfl⟩
  | a :: as, s, s', w, h => by
    simp only [exec] at h
    split at h
    · next s1 e =>
      obtain ⟨w1, h1⟩ := w.step e
      obtain ⟨w2, h2, h3⟩ := wedged_exec w1 h
      refine ⟨w2, h2.trans ?_, h3.trans ?_⟩
      all_goals
        rcases h1 with rfl | ⟨_, h1⟩
        · rfl
        · simp only [SerialQueue.step, SerialQueue.Out.ok.injEq] at h1
          subst h1
          simp [started, finished]
    · cases h

/-- **C90** fails: when the executor throws in `enqueue`, or destroys a job, no task is ever started again, whatever happens later: neither the
one whose `enqueue` has thrown, though it is in the queue, nor any task queued later, by any thread. -/
theorem c90_refuse_counterexample {m : Mode} {s s1 s' : St} (h : Reachable m s) {a : Act} (ha : a = .refuse ∨ a = .discard)
    (e : step m s a = .ok s1) {as : List Act} (e' : exec m s1 as = some s') :
    s1.queue ≠ [] ∧ started s'.trace = started s.trace ∧ finished s'.trace = finished s.trace := by
  obtain ⟨b, hb, hs⟩ := slow h
  have w : Wedged s1 ∧ s1.trace = s.trace := by
    rcases hs with rfl | ⟨w, _⟩
    · rcases ha with rfl | rfl <;> simp only [step] at e <;> split at e <;> cases e
      · next hk =>
        cases hb.inv.token with
        | kick h1 h2 h3 h4 h5 => exact ⟨⟨h1, h2, by simp [h3], h4, h5⟩, rfl⟩
        | idle _ _ h | pending _ _ h | job _ _ h => exact absurd h hk
      · next hk =>
        cases hb.inv.token with
        | pending h1 h2 h3 h4 h5 => exact ⟨⟨h1, h2, h3, by simp [h4], h5⟩, rfl⟩
        | idle _ _ _ h | kick _ _ _ h | job _ _ _ h => exact absurd h hk
    · rcases ha with rfl | rfl <;> simp [step, w.kicks, w.pending] at e
  obtain ⟨_, h2, h3⟩ := wedged_exec w.1 e'
  exact ⟨w.1.queue, by rw [h2, w.2], by rw [h3, w.2]⟩

/-- Such an execution: the first `enqueue` throws, the second one does not, but its task is not run either; nobody is left who could
do anything. -/
example : ((exec .single {} [.base .enqueue, .refuse, .base .enqueue]).map fun s => (s.trace, s.queue, s.running, s.kicks, s.pending, s.jobs)) =
    some ([.submit 0, .submit 1], [0, 1], true, 0, 0, []) := rfl

/-- **C90** fails: when the executor throws as a job gives it the next one, the program is terminated. This can happen in both modes. -/
theorem c90_terminate_counterexample (m : Mode) : ∃ s, Reachable m s ∧ step m s (.refuseNext 0) = .terminate := by
  cases m <;>
  exact ⟨_, ⟨[.base .enqueue, .base .kick, .base .runJob, .base (.advance 0), .base .enqueue, .base (.advance 0), .base (.advance 0),
    .base (.advance 0)], rfl⟩, rfl⟩

/-- **C90**, partly: an executor that throws only when it is given a job by `enqueue`, after the queue has become empty again, leaves what came
before complete: everything queued before has been run. -/
theorem c90_before_partial {m : Mode} {s s1 : St} (h : SerialQueue.Reachable m s) (e : step m s .refuse = .ok s1) :
    started s.trace = finished s.trace ∧ submitted s.trace = started s.trace ++ s.queue := by
  have I := h.inv
  simp only [step] at e
  split at e <;> cases e
  next hk =>
  cases I.token with
  | kick h1 h2 h3 h4 h5 =>
    have h6 := I.fin
    have h7 := I.order
    simp [h5, current, localTasks] at h6 h7
    exact ⟨h6.symm, by rw [I.subs, ← h7]⟩
  | idle _ _ h | pending _ _ h | job _ _ h => exact absurd h hk

/-- The hypotheses of `c90_before_partial`: a task has been run, another one is refused. -/
example : ∃ s s1, SerialQueue.Reachable .single s ∧ step .single s .refuse = .ok s1 ∧ s.trace = [.submit 0, .start 0, .finish 0, .submit 1] :=
  ⟨_, _, ⟨[.enqueue, .kick, .runJob, .advance 0, .advance 0, .advance 0, .advance 0, .enqueue], rfl⟩, rfl, rfl⟩

end Verif.SerialQueue.Throw
