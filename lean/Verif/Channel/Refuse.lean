import Verif.Channel.Props

/-!
# C90 for channels: an executor that throws or loses jobs (include/stlab/concurrency/channel.hpp, lines 1123-1128)

`run` calls the executor of the process after `_process_running` was set (lines 612-625, 600-610, 790-802). If it throws there, what the caller
has done before stays done: the message is in the queue and the process is marked as running. This is the state in which the job exists but is
never run, so no state of its own is needed for it. For a call by `sender::operator()`, `sender::close()` or
`receiver::set_ready()` the exception reaches the user; destructors and the jobs of processes are `noexcept`.
-/

namespace Verif.Channel.Refuse

variable {G : Net} {s s' : St}

theorem run_pc {i j : Nat} {x : St} (h : j ≠ x.next) : (run i x).pc j = x.pc j := by simp [run, upd, h]

theorem ctsCrit_pc {u j : Nat} {c : Credit} {x : St} (h : j ≠ x.next) : (ctsCrit G u c x).pc j = x.pc j := by
  unfold ctsCrit
  simp only
  repeat' split
  all_goals first | rfl | exact run_pc h

theorem enqueue_pc {d k j : Nat} {m : Msg} {x : St} (h : j ≠ x.next) : (enqueue d k m x).pc j = x.pc j := by
  unfold enqueue
  simp only
  split
  · exact run_pc h
  · rfl

theorem goto_pc {j j' : Nat} {p : Pc} {x : St} (h : j ≠ j') : (goto j' p x).pc j = x.pc j := by simp [goto, upd, h]

theorem ctsCrit_calls {u : Nat} {c : Credit} {x : St} : (ctsCrit G u c x).calls = x.calls := by
  unfold ctsCrit run
  simp only
  repeat' split
  all_goals rfl

theorem enqueue_calls {d k : Nat} {m : Msg} {x : St} : (enqueue d k m x).calls = x.calls := by
  unfold enqueue run
  simp only
  split <;> rfl

/-- While the job of a process waits for the executor to begin it, the function of the process is not called. -/
theorem waits_step {a : Act} {i j : Nat} (I : Inv G s) (hj : s.pc j = .pop i) (ha : a ≠ .job j)
    (h : step G s a = some s') : s'.pc j = .pop i ∧ s'.calls i = s.calls i := by
  have hlt : j ≠ s.next := by rintro rfl; have := I.fr _ (Nat.le_refl _); simp [hj] at this
  have hm := (I.mn i j).1 (by rw [hj]; rfl)
  have huniq : ∀ j', (s.pc j').of = some i → j' = j := by
    intro j' h'
    have := (I.mn i j').1 h'
    rw [hm] at this
    exact (Option.some.inj this).symm
  cases a with
  | job j' =>
    have hne : j ≠ j' := by rintro rfl; exact ha rfl
    simp only [step, stepJob] at h
    split at h
    all_goals (try split at h)
    all_goals first | cases h | (simp only [Option.some.injEq] at h; subst h)
    all_goals (try simp only [popCrit, taskDone])
    all_goals (try split)
    all_goals (try split)
    all_goals (try simp only [goto_pc hne, ctsCrit_pc hlt, enqueue_pc hlt, hj, true_and])
    all_goals (try simp [goto, ctsCrit_calls, enqueue_calls, run, upd, hlt, hj])
    · next e =>
      intro h
      subst h
      exact absurd (huniq j' (by rw [e]; rfl)).symm hne
    · rw [ctsCrit_pc (by exact hlt)]
      exact hj
  | ret j' r =>
    simp only [step] at h
    split at h <;> cases h
    next e =>
    have hne : j ≠ j' := by rintro rfl; simp [hj] at e
    exact ⟨by rw [goto_pc hne]; exact hj, rfl⟩
  | send d n m =>
    simp only [step] at h
    split at h <;> cases h
    exact ⟨by rw [enqueue_pc hlt]; exact hj, by rw [enqueue_calls]⟩
  | copySender d n n' => simp only [step] at h; split at h <;> cases h; exact ⟨hj, rfl⟩
  | dropSender d n =>
    simp only [step] at h
    (repeat' split at h) <;> cases h <;> simp [upd, hlt, hj]
  | copyRecv d => simp only [step] at h; split at h <;> cases h; exact ⟨hj, rfl⟩
  | dropRecv d =>
    simp only [step] at h
    (repeat' split at h) <;> cases h <;> simp [upd, hlt, hj]

theorem reachable_snoc {a : Act} (h : Reachable G s) (e : step G s a = some s') : Reachable G s' := by
  obtain ⟨as, h⟩ := h
  refine ⟨as ++ [a], ?_⟩
  have : ∀ (as : List Act) (x : St), exec G x as = some s → exec G x (as ++ [a]) = some s' := by
    intro as
    induction as with
    | nil => intro x h; cases h; simp [exec, e]
    | cons b as ih =>
      intro x h
      simp only [exec, List.cons_append, Option.bind_eq_some_iff] at h ⊢
      obtain ⟨y, h1, h2⟩ := h
      exact ⟨y, h1, ih y h2⟩
  exact this as _ h

/-- **C90** fails for channels too: when the executor has not taken or has lost the job `j` of a process, the function of the process is never called
again, whatever is sent to the process, by anyone, and whatever else happens. -/
theorem c90_channel_counterexample (W : G.Wf) (T : G.Tight) (h : Reachable G s) {i j : Nat} (hj : s.pc j = .pop i) {as : List Act}
    (ha : .job j ∉ as) (e : exec G s as = some s') : s'.calls i = s.calls i ∧ ∀ j', s'.pc j' ≠ .busy i := by
  induction as generalizing s with
  | nil =>
    cases e
    refine ⟨rfl, fun j' h' => ?_⟩
    have I := h.inv W T
    have h1 := (I.mn i j).1 (by rw [hj]; rfl)
    have h2 := (I.mn i j').1 (by rw [h']; rfl)
    rw [h1] at h2
    cases h2
    simp [hj] at h'
  | cons a as ih =>
    simp only [exec, Option.bind_eq_some_iff] at e
    obtain ⟨s1, e1, e2⟩ := e
    simp only [List.mem_cons, not_or] at ha
    obtain ⟨h1, h2⟩ := waits_step (h.inv W T) hj (Ne.symm ha.1) e1
    rw [← h2]
    exact ih (reachable_snoc h e1) h1 ha.2 e2

/-- Such an execution: the first job of process 0 is lost; two more messages are sent, and they stay in the queue, with nothing else to be done. -/
example : ((exec (pipe 1) (init (pipe 1)) [.dropRecv 1, .job 0, .dropRecv 0, .job 1, .send 0 0 (.val 5)]).bind fun s =>
    (exec (pipe 1) s [.send 0 0 (.val 6), .send 0 0 (.val 7)]).map fun s' =>
      (s.pc 2, s'.q 0 0, s'.running 0, s'.calls 0, (List.range s'.next).map s'.pc)) =
    some (.pop 0, [.val 5, .val 6, .val 7], true, [], [.none, .none, .pop 0]) := rfl

end Verif.Channel.Refuse
