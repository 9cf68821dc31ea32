import Verif.Channel.ProcessLocked

/-!
# C67: processes that await with a time-out

`c67_in_order` and `c67_rest` hold for every process object, the others for those that never delay a `yield`.
-/

namespace Verif.Process

open Verif.Channel (Msg upd)

variable {σ : Type} {P : Proc σ} {n : Nat} {s s' : St σ}

/-- **C67**, the messages are given to the process object in the order they were sent in, each once: what has been given to it
is a prefix of what has been sent; and the rest is in the queue, apart from one message that a thread has taken out and is going
to give to it. -/
theorem c67_in_order (h : Reachable P n s) :
    s.inp = s.took ++ s.q ∨ ∃ j m, s.pc j = .handle m ∧ s.inp = s.took ++ m :: s.q := by
  have hi := (wide h).hi
  rcases hm : s.lock with _ | j
  · left; simpa [hold, hm, Pc.pend] using hi
  · simp only [hold, hm] at hi
    rcases hp : s.pc j <;> simp [hp, Pc.pend] at hi
    case handle m => exact .inr ⟨j, m, hp, hi⟩
    all_goals exact .inl hi

/-- **C67**, nothing is forgotten: when everything has come to rest and there are receivers, every message has been given to
the process object; and if there is a sender, the process object is in an `await` state or has not been touched, and the next
message is going to start it again. -/
theorem c67_rest (h : Reachable P n s) (hr : s.ready = true) (hq : Quiet s) :
    s.took = s.inp ∧ (s.snd ≠ 0 → (∃ x, s.proc = some x ∧ ((P.state x).isYield = false ∨ x = P.start)) ∧
      ∀ m, ∃ j s', step P n s (.send m) = .ok s' ∧ s'.pc j = .start) := by
  have hw := wide h
  have h0 : s.inp = s.took ++ s.q := by
    rcases c67_in_order h with h | ⟨j, m, hj, -⟩
    · exact h
    · rw [(hq j).1] at hj; cases hj
  by_cases ho : Over s
  · exact ⟨by simp [h0, hw.dr ho], fun hs => absurd ho.1 hs⟩
  have hsu : s.susp = 0 := by
    rcases sp h with h | ⟨a, b, e1, -, e3, e4⟩
    · exact absurd h ho
    · have ha : a = 0 := by
        by_cases ha : a = 0
        · exact ha
        · obtain ⟨j, hj⟩ := e3 ha
          rw [(hq j).1] at hj; cases hj
      have hb : b = fun _ => 0 := by
        funext k
        by_cases hb : b k = 0
        · exact hb
        · rcases (e4 k).2 hb with h | h | ⟨j, h⟩
          · exact absurd (hq k).2.1 h
          · exact absurd (hq k).2.2 h
          · rw [(hq j).1] at h; cases h
      rw [ha, hb, sumTo_zero] at e1; omega
  have hl : ¬ Live none s := by
    rintro (h | h | ⟨i, -, h⟩)
    · exact ho h
    · omega
    · rw [(hq i).1] at h; cases h
  have hrn : s.running = false := by
    rcases hrn : s.running with _ | _
    · rfl
    · rcases (busy h).w hrn with h | ⟨⟨j, h⟩, -⟩
      · exact absurd h hl
      · rw [(hq j).1] at h; rcases h with h | h <;> cases h
  have hc : s.q = [] := by
    rcases hw.nq hrn hr with ⟨j, hj⟩ | h
    · rw [(hq j).1] at hj; cases hj
    · exact h.1
  refine ⟨by simp [h0, hc], fun hs => ⟨?_, fun m => ⟨s.next, _, by simp [step, hs]; rfl, by simp [enqueue, hr, hrn, run, spawn, upd]⟩⟩⟩
  rcases hx : s.proc with _ | x
  · exact absurd (hw.pr hx) ho
  · refine ⟨x, rfl, ?_⟩
    rcases (busy h).a hrn with h | h
    · exact h x hx
    · exact absurd h hl

/-- Nothing is going on, except that time-outs may have been set. -/
def Waiting (s : St σ) : Prop := ∀ k, (s.pc k = .none ∨ s.pc k = .timeout) ∧ s.dq k = [] ∧ s.cts k = .none

/-- **C67**, a message that arrives while the process waits for a time-out starts the process at once.

Missing: messages that arrive just before the time-out is set, see `c67_late_counterexample`. -/
theorem c67_wakes_partial (h : Reachable P n s) (hr : s.ready = true) (hq : Waiting s) (hs : s.snd ≠ 0) (m : Msg) :
    ∃ j s', step P n s (.send m) = .ok s' ∧ s'.pc j = .start := by
  have ho : ¬ Over s := fun h => hs h.1
  have hsu : s.susp = 0 := by
    rcases sp h with h | ⟨a, b, e1, -, e3, e4⟩
    · exact absurd h ho
    · have ha : a = 0 := by
        by_cases ha : a = 0
        · exact ha
        · obtain ⟨j, hj⟩ := e3 ha
          rcases (hq j).1 with h | h <;> rw [h] at hj <;> cases hj
      have hb : b = fun _ => 0 := by
        funext k
        by_cases hb : b k = 0
        · exact hb
        · rcases (e4 k).2 hb with h | h | ⟨j, h⟩
          · exact absurd (hq k).2.1 h
          · exact absurd (hq k).2.2 h
          · rcases (hq j).1 with h1 | h1 <;> rw [h1] at h <;> cases h
      rw [ha, hb, sumTo_zero] at e1; omega
  have hl : ¬ Live none s := by
    rintro (h | h | ⟨i, -, h⟩)
    · exact ho h
    · omega
    · rcases (hq i).1 with h1 | h1 <;> rw [h1] at h <;> cases h
  have hra : s.running = false ∨ s.active = true := by
    rcases hrn : s.running with _ | _
    · exact .inl rfl
    · rcases (busy h).w hrn with h | h
      · exact absurd h hl
      · exact .inr h.2
  exact ⟨s.next, _, by simp [step, hs]; rfl, by simp [enqueue, hr, hra, run, spawn, upd]⟩

theorem InMember.holds (hP : Undelayed P) (h : Reachable P n s) {j : Nat} (hj : InMember (s.pc j)) : s.lock = some j := by
  refine ((wide h).lk j).1 ?_
  have := (locked hP h).nl j
  rcases hj with hj | ⟨_, hj⟩ | ⟨_, hj⟩ | ⟨b, hj⟩ <;> rw [hj] at this ⊢
  · rfl
  · rfl
  · rfl
  · cases b <;> simp_all [Pc.isLater, Pc.holds]

/-- **C67**, member functions of the process object are called one at a time.

Missing: processes that also delay a `yield`, see `c67_two_yields_counterexample`; and that the state is not asked for at the same
time, see `c67_state_counterexample`. -/
theorem c67_one_at_a_time_partial (hP : Undelayed P) (h : Reachable P n s) {i j : Nat} (hi : InMember (s.pc i)) (hj : InMember (s.pc j)) :
    i = j := by
  have h1 := hi.holds hP h
  rw [hj.holds hP h] at h1
  exact (Option.some.inj h1).symm

/-- **C67**, every result is sent to every receiver, in the order in which they were yielded: what receiver `k` has been sent
are all results, apart from the last one if a thread is on its way to send that.

Missing: processes that also delay a `yield`, see `c67_order_counterexample`. -/
theorem c67_results_partial (hP : Undelayed P) (h : Reachable P n s) {k : Nat} (hk : k < n) :
    s.sent k = s.outs ∨
    ∃ j b r, (s.pc j = .bcast b r ∨ ∃ i, i ≤ k ∧ s.pc j = .send b r i) ∧ s.sent k ++ [r] = s.outs := by
  have ho := (locked hP h).ou k hk
  rcases hm : s.lock with _ | j
  · left; simp [hold, hm, Pc.unsent] at ho; exact ho.symm
  · simp only [hold, hm] at ho
    rcases hp : s.pc j <;> simp [hp, Pc.unsent] at ho
    case bcast b r => exact .inr ⟨j, b, r, .inl hp, ho.symm⟩
    case send b r i =>
      by_cases hik : i ≤ k
      · rw [if_pos hik] at ho; exact .inr ⟨j, b, r, .inr ⟨i, hik, hp⟩, ho.symm⟩
      · rw [if_neg hik] at ho; exact .inl (by simpa using ho.symm)
    all_goals exact .inl ho.symm

/-- **C67**, the members are called in the state they are meant for: `await`, `set_error` and `close` in an `await` state, and
`yield` in a `yield` state or when the time to await has expired; when a time-out is up it is called in an `await` state.

Missing: that the process object still waits for the time-out then, see `c67_cancel_counterexample`. -/
theorem c67_state_partial (hP : Undelayed P) (h : Reachable P n s) {j : Nat} (hj : InMember (s.pc j)) :
    ∃ x, s.proc = some x ∧
      ((s.pc j = .inYield .step → P.state x = .now ∨ P.state x = .expired) ∧ (s.pc j ≠ .inYield .step → (P.state x).isYield = false)) := by
  have hl := hj.holds hP h
  have hh : hold s = s.pc j := by simp [hold, hl]
  have hL := locked hP h
  have ys := hL.ys
  have yt := hL.yt
  have ay := hL.ay
  rw [hh] at ys yt ay
  rcases hj with hj | ⟨_, hj⟩ | ⟨_, hj⟩ | ⟨b, hj⟩
  · obtain ⟨x, hx, h1⟩ := ay (by rw [hj]; rfl)
    exact ⟨x, hx, by simp [hj], fun _ => h1⟩
  · obtain ⟨x, hx, h1⟩ := ay (by rw [hj]; rfl)
    exact ⟨x, hx, by simp [hj], fun _ => h1⟩
  · obtain ⟨x, hx, h1⟩ := ay (by rw [hj]; rfl)
    exact ⟨x, hx, by simp [hj], fun _ => h1⟩
  · cases b
    · obtain ⟨x, hx, h1⟩ := ys hj
      exact ⟨x, hx, fun _ => h1, by simp [hj]⟩
    · have := hL.nl j; rw [hj] at this; cases this
    · obtain ⟨x, hx, h1⟩ := yt hj
      exact ⟨x, hx, by simp [hj], fun _ => h1⟩

/-! ## Examples -/

theorem timed_undelayed : Undelayed timed := by
  intro x; simp only [timed]; repeat' split
  all_goals simp

theorem quiet_of_lt (h : Reachable P n s) (h1 : ∀ k < s.next, s.pc k = .none) (h2 : ∀ k, s.dq k = [] ∧ s.cts k = .none) : Quiet s := by
  intro k
  refine ⟨?_, h2 k⟩
  by_cases hk : k < s.next
  · exact h1 k hk
  · exact (wide h).fr k (by omega)

/-- 1 is sent, and then the process waits for the time-out. -/
def waiting : List Act := [.ready, .job 0, .send (.val 1)] ++ jobs 1 10

/-- `c67_one_at_a_time_partial`, `c67_state_partial`, `c67_in_order`: the time is up, and the process is in `yield`. -/
example : ∃ s, Reachable timed 1 s ∧ s.pc 2 = .inYield .timeout ∧ InMember (s.pc 2) ∧ s.took = [.val 1] :=
  ⟨((exec timed 1 (init timed) (waiting ++ jobs 2 2)).get rfl), exec_reachable .init (Option.some_get _).symm, rfl,
    .inr (.inr (.inr ⟨_, rfl⟩)), rfl⟩

/-- `c67_results_partial`: and its result is being sent. -/
example : ∃ s, Reachable timed 2 s ∧ s.pc 2 = .send .timeout (.val 1) 1 ∧ s.sent 0 = [.val 1] ∧ s.sent 1 = [] ∧ s.outs = [.val 1] :=
  ⟨((exec timed 2 (init timed) (waiting ++ jobs 2 5)).get rfl), exec_reachable .init (Option.some_get _).symm, rfl, rfl, rfl, rfl⟩

/-- `c67_rest`: the time is up, the result has arrived. -/
example : ∃ s, Reachable timed 1 s ∧ s.ready = true ∧ Quiet s ∧ s.snd ≠ 0 ∧ s.inp = [.val 1] ∧ s.sent 0 = [.val 1] := by
  have hr : Reachable timed 1 ((exec timed 1 (init timed) (waiting ++ jobs 2 10 ++ [.pop 0, .cts 0, .cts 0])).get rfl) :=
    exec_reachable .init (Option.some_get _).symm
  refine ⟨_, hr, rfl, quiet_of_lt hr (by decide) (fun k => ?_), by decide, rfl, rfl⟩
  rcases k with _ | k <;> exact ⟨rfl, rfl⟩

/-- `c67_wakes_partial`: the process waits for the time-out, and has been given everything. -/
example : ∃ s, Reachable timed 1 s ∧ s.ready = true ∧ Waiting s ∧ s.snd ≠ 0 ∧ s.pc 2 = .timeout ∧ s.running = true := by
  have hr : Reachable timed 1 ((exec timed 1 (init timed) waiting).get rfl) := exec_reachable .init (Option.some_get _).symm
  refine ⟨_, hr, rfl, fun k => ⟨?_, ?_, ?_⟩, by decide, rfl, rfl⟩
  · by_cases hk : 3 ≤ k
    · exact .inl ((wide hr).fr k hk)
    · have : k = 0 ∨ k = 1 ∨ k = 2 := by omega
      rcases this with rfl | rfl | rfl
      · exact .inl rfl
      · exact .inl rfl
      · exact .inr rfl
  · rcases k with _ | k <;> rfl
  · rcases k with _ | k <;> rfl

/-! ## What goes wrong -/

/-- **C67** fails in that the state of the process object is asked for only while no member function is called: two messages
arrive before the time is up, the process yields for the first one, and the receiver calls `clear_to_send` (line 837) while the
process is in `await` for the second. -/
theorem c67_state_counterexample : ∃ s, Reachable timed 1 s ∧ s.pc 4 = .inAwait 2 ∧ s.cts 0 = .second ∧ s.proc ≠ none :=
  ⟨((exec timed 1 (init timed) (waiting ++ [.send (.val 2), .send (.val 2)] ++ jobs 3 14 ++ jobs 4 4 ++
      [.pop 0, .cts 0])).get rfl), exec_reachable .init (Option.some_get _).symm, rfl, rfl, by decide⟩

/-- **C67** fails in that a time-out is cancelled by a message that arrives in time: 0 arrives and is given to the process, which
awaits forever after that; when the time is up, `yield` is called nevertheless, as the condition is only that the process is not
in a `yield` state (lines 1062-1063). -/
theorem c67_cancel_counterexample :
    ∃ s, Reachable timed 1 s ∧ s.took = [.val 1, .val 0] ∧ s.proc = some 0 ∧ timed.state 0 = .forever ∧ s.active = false ∧
      s.pc 2 = .inYield .timeout :=
  ⟨((exec timed 1 (init timed) (waiting ++ [.send (.val 0)] ++ jobs 3 11 ++ jobs 2 2)).get rfl),
    exec_reachable .init (Option.some_get _).symm, rfl, rfl, rfl, rfl, rfl⟩

/-- **C67** fails in that the process object is not used after its destruction: two messages arrive before the time is up, and
then the last sender goes; the first step takes both messages and destroys the process object, and the second one asks for its
state (line 1009). -/
theorem c67_undefined_counterexample : ∃ s, Reachable timed 1 s ∧ s.proc = none ∧ s.pc 4 = .loop ∧ step timed 1 s (.job 4) = .ub :=
  ⟨((exec timed 1 (init timed) (waiting ++ [.send (.val 0), .send (.val 0), .dropSender, .job 5] ++ jobs 3 16 ++ [.job 4])).get rfl),
    exec_reachable .init (Option.some_get _).symm, rfl, rfl, rfl⟩

/-- **C67** fails in that the receivers learn of the end: here the last sender goes before the process waits for the time-out. The
result is sent when the time is up, but then the process and its connection to the receivers remain. -/
theorem c67_close_counterexample :
    ∃ s, Reachable timed 1 s ∧ s.ready = true ∧ Quiet s ∧ s.snd = 0 ∧ s.sent 0 = [.val 1] ∧ s.down = true ∧ s.proc = some 0 := by
  have hr : Reachable timed 1 ((exec timed 1 (init timed) ([.ready, .job 0, .send (.val 1), .dropSender, .job 2] ++ jobs 1 10 ++
      jobs 3 9 ++ [.pop 0, .cts 0])).get rfl) := exec_reachable .init (Option.some_get _).symm
  refine ⟨_, hr, rfl, quiet_of_lt hr (by decide) (fun k => ?_), rfl, rfl, rfl, rfl⟩
  rcases k with _ | k <;> exact ⟨rfl, rfl⟩

/-- **C67** fails in that a message that arrives in time is given to the process at once: here it arrives when the queue has been
found empty and before the time-out is set (line 1050), so that nobody is started for it, and it waits for the time-out. -/
theorem c67_late_counterexample :
    ∃ s, Reachable timed 1 s ∧ s.ready = true ∧ Waiting s ∧ s.pc 2 = .timeout ∧ s.q = [.val 0] ∧ s.took = [.val 1] := by
  have hr : Reachable timed 1 ((exec timed 1 (init timed) ([.ready, .job 0, .send (.val 1)] ++ jobs 1 8 ++ [.send (.val 0)] ++
      jobs 1 2)).get rfl) := exec_reachable .init (Option.some_get _).symm
  refine ⟨_, hr, rfl, fun k => ⟨?_, ?_, ?_⟩, rfl, rfl, rfl⟩
  · by_cases hk : 3 ≤ k
    · exact .inl ((wide hr).fr k hk)
    · have : k = 0 ∨ k = 1 ∨ k = 2 := by omega
      rcases this with rfl | rfl | rfl
      · exact .inl rfl
      · exact .inl rfl
      · exact .inr rfl
  · rcases k with _ | k <;> rfl
  · rcases k with _ | k <;> rfl

/-- **C67** fails in that the end is handled at once, as a message is: `remove_sender` does not look at `_timeout_function_active`
(line 605), so that it waits for the time-out. -/
theorem c67_close_waits_counterexample :
    ∃ s, Reachable timed 1 s ∧ s.ready = true ∧ Waiting s ∧ s.pc 2 = .timeout ∧ s.active = true ∧ s.snd = 0 ∧ s.closeQ = true := by
  have hr : Reachable timed 1 ((exec timed 1 (init timed) (waiting ++ [.dropSender, .job 3])).get rfl) :=
    exec_reachable .init (Option.some_get _).symm
  refine ⟨_, hr, rfl, fun k => ⟨?_, ?_, ?_⟩, rfl, rfl, rfl, rfl⟩
  · by_cases hk : 4 ≤ k
    · exact .inl ((wide hr).fr k hk)
    · have : k = 0 ∨ k = 1 ∨ k = 2 ∨ k = 3 := by omega
      rcases this with rfl | rfl | rfl | rfl
      · exact .inl rfl
      · exact .inl rfl
      · exact .inr rfl
      · exact .inl rfl
  · rcases k with _ | k <;> rfl
  · rcases k with _ | k <;> rfl

/-- Awaits with a time-out after 1, and delays a `yield` after other messages. -/
def delayed : Proc Nat where
  start := 0
  state x := if x = 0 then .forever else if x = 1 then .timed else .later
  await _ v := (v, true)
  yield x := (x + 1, .val x)
  close x := (x, true)
  setError := none

/-- Two messages arrive before the time is up; each of the two steps sets a timer for the same `yield`. -/
def twoTimers : List Act := waiting ++ [.send (.val 2), .send (.val 2)] ++ jobs 3 8 ++ jobs 4 4

/-- **C67** fails in that member functions are called one at a time, if the process also delays a `yield`: two threads are in `yield`
at the same time. -/
theorem c67_two_yields_counterexample :
    ∃ s, Reachable delayed 2 s ∧ s.pc 5 = .inYield .later ∧ s.pc 6 = .inYield .later :=
  ⟨((exec delayed 2 (init delayed) (twoTimers ++ [.job 5, .job 6])).get rfl), exec_reachable .init (Option.some_get _).symm, rfl, rfl⟩

/-- **C67** fails in that all receivers get the results in the same order, if the process also delays a `yield`. -/
theorem c67_order_counterexample :
    ∃ s, Reachable delayed 2 s ∧ s.sent 0 = [.val 2, .val 3] ∧ s.sent 1 = [.val 3, .val 2] :=
  ⟨((exec delayed 2 (init delayed) (twoTimers ++ jobs 5 4 ++ jobs 6 5 ++ jobs 5 1)).get rfl), exec_reachable .init (Option.some_get _).symm, rfl, rfl⟩

end Verif.Process
