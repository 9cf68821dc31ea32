import Verif.Channel.SourceTight

/-!
# Sources: processes with `yield` and without `await` (C70)
-/

namespace Verif.Source

open Verif.Channel (Msg sumTo upd freeBuffer usub sizeMax)

variable {σ : Type} {P : Src σ} {n : Nat} {buf : Nat → Nat} {s s' : St σ}

/-- The source after `m` calls of `yield`. -/
def Src.after (P : Src σ) : Nat → σ
  | 0 => P.start
  | m + 1 => (P.yield (P.after m)).1

/-- The result of call number `m`. -/
def Src.result (P : Src σ) (m : Nat) : Msg := (P.yield (P.after m)).2

/-- In `yield` or in `broadcast`. -/
def Pc.busy : Pc → Bool
  | .inYield _ | .free .. | .send .. | .own1 _ | .own2 .. => true
  | _ => false

/-- At most one thread at a time is in `yield` or hands out a result: for sources that do not delay their results, whatever the
buffer sizes, and for all sources if some receiver has buffer size 1. -/
theorem c70_one_at_a_time_partial (hc : Prompt P ∨ Narrow n buf) (h : Reachable P n buf s) {i j : Nat}
    (hi : (s.pc i).busy = true) (hj : (s.pc j).busy = true) : i = j := by
  rcases hc with hP | hn
  · have q := Quick.of_reachable hP h
    have key : ∀ i, (s.pc i).busy = true → s.lock = some i := by
      intro i hi
      refine (q.b.lk i).mp ?_
      have := q.nt i
      revert this hi
      cases s.pc i with
      | inYield t => cases t <;> simp [Pc.busy, Pc.timed, Pc.holds]
      | free t => cases t <;> simp [Pc.busy, Pc.timed, Pc.holds]
      | send t => cases t <;> simp [Pc.busy, Pc.timed, Pc.holds]
      | own1 t => cases t <;> simp [Pc.busy, Pc.timed, Pc.holds]
      | own2 t => cases t <;> simp [Pc.busy, Pc.timed, Pc.holds]
      | _ => simp [Pc.busy]
    have := (key i hi).symm.trans (key j hj)
    exact Option.some.inj this
  · obtain ⟨o, ht, _⟩ := One.of_reachable hn h
    have key : ∀ i, (s.pc i).busy = true → o = some i := by
      intro i hi
      refine (ht i).mp ?_
      revert hi
      cases s.pc i <;> simp [Pc.busy, Pc.tok]
    have := (key i hi).symm.trans (key j hj)
    exact Option.some.inj this

/-- The source changes only in `yield`. -/
theorem step_x {a : Act} (hs : Source.step P n buf s a = some s') :
    (s'.x = s.x ∧ s'.outs = s.outs) ∨
      ((∃ j t, s.pc j = .inYield t) ∧ s'.x = (P.yield s.x).1 ∧ s'.outs = s.outs ++ [(P.yield s.x).2]) := by
  cases a with
  | job j =>
    simp only [Source.step] at hs
    unfold stepJob at hs
    split at hs
    case h_1 => cases hs
    case h_2 => dsimp only at hs; split at hs <;> cases hs <;> exact .inl ⟨rfl, rfl⟩
    case h_4 => split at hs <;> cases hs <;> exact .inl ⟨rfl, rfl⟩
    case h_6 t hp => cases hs; exact .inr ⟨⟨j, t, hp⟩, rfl, rfl⟩
    case h_10 => cases hs; left; exact ⟨crit_x .., crit_outs ..⟩
    all_goals (first | (cases hs; exact .inl ⟨rfl, rfl⟩) | (split at hs <;> cases hs <;> exact .inl ⟨rfl, rfl⟩))
  | cts k ps =>
    simp only [Source.step] at hs
    repeat' split at hs
    all_goals cases hs
    all_goals exact .inl ⟨crit_x .., crit_outs ..⟩
  | _ =>
    simp only [Source.step] at hs
    repeat' split at hs
    all_goals cases hs
    all_goals exact .inl ⟨rfl, rfl⟩

/-- The results are those of successive calls, starting with the source as it was attached. -/
theorem c70_values (h : Reachable P n buf s) :
    s.outs = (List.range s.outs.length).map P.result ∧ s.x = P.after s.outs.length := by
  induction h with
  | init => exact ⟨rfl, rfl⟩
  | step _ hs ih =>
    rcases step_x hs with ⟨h1, h2⟩ | ⟨_, h1, h2⟩
    · rw [h1, h2]; exact ih
    · rw [h1, h2, List.length_append, List.length_singleton, List.range_succ, List.map_append, ← ih.1, ih.2]
      exact ⟨rfl, rfl⟩

/-- `yield` is called only in a yield state. -/
theorem c70_when_due_partial (hc : Prompt P ∨ Narrow n buf) (h : Reachable P n buf s) {j : Nat} {t : Bool}
    (hj : s.pc j = .inYield t) : (P.state s.x).isYield = true := by
  rcases hc with hP | hn
  · have q := Quick.of_reachable hP h
    cases t with
    | true => have := q.nt j; simp [hj, Pc.timed] at this
    | false => exact q.iy j hj
  · obtain ⟨o, ht, h1⟩ := One.of_reachable hn h
    have ho := (ht j).mp (by simp [hj, Pc.tok])
    subst ho
    exact h1.iy t hj

theorem exec_reachable : ∀ {as : List Act} {s s' : St σ}, Reachable P n buf s → exec P n buf s as = some s' → Reachable P n buf s'
  | [], _, _, h, e => by cases e; exact h
  | a :: as, s, s', h, e => by
    simp only [exec] at e
    cases hs : Source.step P n buf s a with
    | none => simp [hs] at e
    | some s1 => rw [hs] at e; exact exec_reachable (.step h hs) e

/-- Each receiver gets the results in the order in which they were yielded, each once: it has got all of them, but for the last one
while this is being handed out. -/
theorem c70_in_order_partial (hc : Prompt P ∨ Narrow n buf) (h : Reachable P n buf s) {k : Nat} (hk : k < n) :
    ∃ l, s.sent k ++ l = s.outs ∧ l.length ≤ 1 ∧ ((∀ j, (s.pc j).busy = false) → l = []) := by
  have hl : ∀ p : Pc, (p.pend k).length ≤ 1 := by intro p; cases p <;> simp [Pc.pend] <;> split <;> simp
  have hb : ∀ p : Pc, p.busy = false → p.pend k = [] := by intro p; cases p <;> simp [Pc.pend, Pc.busy]
  rcases hc with hP | hn
  · have q := Quick.of_reachable hP h
    cases ho : s.lock with
    | none => exact ⟨[], by simp [q.r2 ho k hk], by simp, fun _ => rfl⟩
    | some j => exact ⟨(s.pc j).pend k, q.r1 j k hk ((q.b.lk j).mpr ho), hl _, fun h1 => hb _ (h1 j)⟩
  · obtain ⟨o, ht, h1⟩ := One.of_reachable hn h
    refine ⟨(tp s o).pend k, h1.rs k hk, hl _, fun h2 => hb _ ?_⟩
    cases o with
    | none => rfl
    | some j => exact h2 j

/-- As long as the source wants to yield, it goes on, given that the receivers take what they get and timers go off: something other
than a failing try_lock is going to happen. -/
theorem c70_goes_on_partial (hc : Prompt P ∨ Narrow n buf) (h : Reachable P n buf s) (hr : s.ready = true)
    (hy : (P.state s.x).isYield = true) : ∃ a, (∀ j, a ≠ .fail j) ∧ (Source.step P n buf s a).isSome := by
  have hb := Base.of_reachable h
  -- a thread that is not waiting for the lock can move
  have move : ∀ j, s.pc j ≠ .none → s.pc j ≠ .start → (Source.step P n buf s (.job j)).isSome := by
    intro j h1 h2
    simp only [Source.step]
    unfold stepJob
    split <;> first | contradiction | rfl | (split <;> rfl)
  have thread : ∀ j, s.pc j ≠ .none → ∃ a, (∀ j, a ≠ Act.fail j) ∧ (Source.step P n buf s a).isSome := by
    intro j h1
    by_cases h2 : s.pc j = .start
    · cases ho : s.lock with
      | none => exact ⟨.job j, by simp, by simp [Source.step, stepJob, h2, ho]⟩
      | some i =>
        have h3 := (hb.lk i).mpr ho
        exact ⟨.job i, by simp, move i (by intro e; simp [e, Pc.holds] at h3) (by intro e; simp [e, Pc.holds] at h3)⟩
    · exact ⟨.job j, by simp, move j h1 h2⟩
  -- a receiver that owes a call can move
  have recv : ∀ k, s.dq k ≠ [] ∨ 0 < s.cr k ∨ 0 < s.cy k ∨ 0 < s.ca k →
      ∃ a, (∀ j, a ≠ Act.fail j) ∧ (Source.step P n buf s a).isSome := by
    rintro k (h1 | h1 | h1 | h1)
    · refine ⟨.pop k, by simp, ?_⟩
      simp only [Source.step]
      split
      · contradiction
      · rfl
    · exact ⟨.ask k, by simp, by simp only [Source.step]; rw [if_neg (by omega)]; split <;> rfl⟩
    · exact ⟨.cts k true, by simp, by simp only [Source.step, if_true]; rw [if_neg (by omega)]; rfl⟩
    · exact ⟨.cts k false, by simp, by simp only [Source.step, Bool.false_eq_true, if_false]; rw [if_neg (by omega)]; rfl⟩
  have sum_pos : ∀ (f : Nat → Nat), 0 < sumTo n f → ∃ k, k < n ∧ 0 < f k := by
    intro f h1
    apply Classical.byContradiction
    intro h2
    have : sumTo n f = 0 := by
      have := Verif.Channel.sumTo_le (n := n) (f := f) (g := fun _ => 0) fun k hk =>
        Nat.le_of_not_lt fun h3 => h2 ⟨k, hk, h3⟩
      rw [Verif.Process.sumTo_zero] at this
      omega
    omega
  rcases hc with hP | hn
  · have q := Quick.of_reachable hP h
    have pd := Paid.of_reachable hP h
    rcases q.bz hr hy with ⟨j, hj⟩ | hs
    · exact thread j (by intro e; simp [e, Pc.tok] at hj)
    · cases ho : s.lock with
      | some j =>
        have h3 := (hb.lk j).mpr ho
        exact thread j (by intro e; simp [e, Pc.holds] at h3)
      | none =>
        simp only [Paid, hold, ho, Pc.own] at pd
        obtain ⟨k, _, hk⟩ := sum_pos (owed s .none) (by omega)
        refine recv k ?_
        simp only [owed, Pc.due, Bool.false_eq_true, or_false] at hk
        by_cases hd : s.dq k = []
        · simp only [hd, ne_eq, not_true, if_false] at hk
          omega
        · exact .inl hd
  · obtain ⟨o, ht, h1⟩ := One.of_reachable hn h
    cases o with
    | some j =>
      have := (ht j).mpr rfl
      exact thread j (by intro e; simp [e, Pc.tok] at this)
    | none =>
      have hs := h1.bz rfl hr hy
      have hse := h1.se
      simp only [tp, Pc.own] at hse
      obtain ⟨k, _, hk⟩ := sum_pos (load s .none) (by omega)
      refine recv k ?_
      simp only [load, Pc.due, Bool.false_eq_true, if_false] at hk
      by_cases hd : s.dq k = []
      · simp only [hd, List.length_nil] at hk
        omega
      · exact .inl hd

/-- Once the source awaits it is never called again. -/
theorem c70_ends_partial (hc : Prompt P ∨ Narrow n buf) (h : Reachable P n buf s) (hx : (P.state s.x).isYield = false) :
    ∀ {as : List Act} {s' : St σ}, exec P n buf s as = some s' → s'.outs = s.outs := by
  have key : ∀ as (s1 s' : St σ), Reachable P n buf s1 → s1.x = s.x → s1.outs = s.outs → exec P n buf s1 as = some s' →
      s'.outs = s.outs := by
    intro as
    induction as with
    | nil => intro s1 s' _ _ h2 e; cases e; exact h2
    | cons a as ih =>
      intro s1 s' hr h1 h2 e
      simp only [exec] at e
      cases hs : Source.step P n buf s1 a with
      | none => simp [hs] at e
      | some s2 =>
        rw [hs] at e
        have hr2 : Reachable P n buf s2 := .step hr hs
        have hne : ∀ j t, s1.pc j ≠ .inYield t := by
          intro j t hj
          have := c70_when_due_partial hc hr hj
          rw [h1, hx] at this
          cases this
        have h3 : s2.x = s1.x ∧ s2.outs = s1.outs := by
          rcases step_x hs with h3 | ⟨⟨j, t, h3⟩, _⟩
          · exact h3
          · exact absurd h3 (hne j t)
        exact ih s2 s' hr2 (h3.1.trans h1) (h3.2.trans h2) e
  intro as s' e
  exact key as s s' h rfl rfl e

/-- With a receiver of buffer size 1 the source waits for all receivers: none has more than one result in its queue, and `yield` is
called only when every receiver has taken the result before and has reported so; in particular no receiver asks for the state of the
source meanwhile. -/
theorem c70_backpressure_partial (hn : Narrow n buf) (h : Reachable P n buf s) :
    (∀ k, (s.dq k).length ≤ 1) ∧
      ∀ j t, s.pc j = .inYield t → ∀ k, s.dq k = [] ∧ s.cr k = 0 ∧ s.cy k = 0 ∧ s.ca k = 0 := by
  obtain ⟨o, ht, h1⟩ := One.of_reachable hn h
  constructor
  · intro k
    by_cases hk : k < n
    · have := h1.l1 k hk
      simp only [load] at this
      omega
    · have := h1.l0 k (by omega)
      simp only [load] at this
      omega
  · intro j t hj k
    have ho := (ht j).mp (by simp [hj, Pc.tok])
    subst ho
    have := h1.zero (h1.ea (by simp [tp, hj, Pc.early])) k
    simp only [load, Pc.due, Bool.false_eq_true, if_false] at this
    exact ⟨List.eq_nil_of_length_eq_zero (by omega), by omega, by omega, by omega⟩

/-! ### Examples -/

/-- Yields 0, 1, 2 and then awaits. -/
def three : Src Nat where
  start := 0
  state x := if x < 3 then .now else .await
  yield x := (x + 1, .val x)

/-- Waits before each result. -/
def slow : Src Nat where
  start := 0
  state x := if x < 3 then .later else .await
  yield x := (x + 1, .val x)

/-- Yields for ever. -/
def endless : Src Nat where
  start := 0
  state _ := .now
  yield x := (x + 1, .val x)

theorem three_prompt : Prompt three := by
  intro x
  simp only [three]
  split <;> simp

theorem endless_prompt : Prompt endless := by intro x; simp [endless]

/-- One step of the source with `n` receivers, by thread `j`. -/
def round (n j : Nat) : List Act := List.replicate (2 * n + 8) (.job j)

/-- Two receivers of buffer sizes 1 and 7 have got all results, and the source has come to its end. -/
example : ∃ s, Reachable three 2 (fun k => if k = 0 then 1 else 7) s ∧ s.ready = true ∧ (three.state s.x).isYield = false ∧
    s.sent 0 = [.val 0, .val 1, .val 2] ∧ s.sent 1 = [.val 0, .val 1, .val 2] ∧ s.outs = (List.range 3).map three.result :=
  ⟨(exec three 2 (fun k => if k = 0 then 1 else 7) (init three) ([.ready, .job 0] ++ round 2 1 ++
      [.pop 0, .pop 1, .ask 0, .ask 1, .cts 0 true, .cts 1 true] ++ round 2 2 ++
      [.pop 1, .ask 1, .pop 0, .cts 1 true, .ask 0, .cts 0 true] ++ round 2 3)).get rfl,
    exec_reachable .init (Option.some_get _).symm, rfl, rfl, rfl, rfl, rfl⟩

/-- In the middle of a delayed `yield`. -/
example : Narrow 1 (fun _ => 1) ∧ ∃ s, Reachable slow 1 (fun _ => 1) s ∧ s.pc 2 = .inYield true ∧ s.pc 1 = .none ∧ s.lock = none :=
  ⟨.inr ⟨0, by omega, rfl⟩, (exec slow 1 (fun _ => 1) (init slow) [.ready, .job 0, .job 1, .job 1, .job 1, .job 2]).get rfl,
    exec_reachable .init (Option.some_get _).symm, rfl, rfl, rfl⟩

/-- With buffer size 2 a source is in the middle of a `yield` while there is a result in the queue. -/
example : ∃ s, Reachable three 1 (fun _ => 2) s ∧ s.pc 2 = .inYield false ∧ s.sent 0 = [.val 0] ∧ s.outs = [.val 0] :=
  ⟨(exec three 1 (fun _ => 2) (init three) ([.ready, .job 0] ++ round 1 1 ++ [.job 2, .job 2])).get rfl,
    exec_reachable .init (Option.some_get _).symm, rfl, rfl, rfl⟩

/-! ### What is not true -/

/-- If the only receiver has buffer size 2, then it may ask for the state of the source while `yield` is being called. -/
theorem c70_state_counterexample : ∃ s, Reachable endless 1 (fun _ => 2) s ∧ s.pc 2 = .inYield false ∧ s.cr 0 = 1 :=
  ⟨(exec endless 1 (fun _ => 2) (init endless) ([.ready, .job 0] ++ round 1 1 ++ [.job 2, .job 2, .pop 0])).get rfl,
    exec_reachable .init (Option.some_get _).symm, rfl, rfl⟩

/-- A delayed source whose only receiver has buffer size 2: the receiver reports before the source itself does, so that the source is
started twice, and two threads call `yield` at the same time. -/
theorem c70_delayed_counterexample :
    ∃ s, Reachable slow 1 (fun _ => 2) s ∧ s.pc 5 = .inYield true ∧ s.pc 6 = .inYield true :=
  ⟨(exec slow 1 (fun _ => 2) (init slow) ([.ready, .job 0, .job 1, .job 1, .job 1] ++ List.replicate 6 (.job 2) ++
      [.pop 0, .ask 0, .cts 0 true] ++ List.replicate 2 (.job 2) ++ [.job 3, .job 3, .job 3, .job 4, .job 4, .job 4, .job 5, .job 6])).get rfl,
    exec_reachable .init (Option.some_get _).symm, rfl, rfl⟩

/-- With more results than fit, `free_buffer()` wraps around, and the source goes on at once. -/
theorem grow {s : St Nat} {j : Nat} (h : Reachable endless 1 (fun _ => 2) s) (hl : s.lock = none) (hp : s.pc j = .start)
    (h1 : 3 ≤ (s.dq 0).length) (h2 : (s.dq 0).length < 2 ^ 63) :
    ∃ s' j', Reachable endless 1 (fun _ => 2) s' ∧ s'.lock = none ∧ s'.pc j' = .start ∧ (s'.dq 0).length = (s.dq 0).length + 1 := by
  have hj : j < s.next := Nat.lt_of_not_le fun h3 => by simp [(Base.of_reachable h).fr j h3] at hp
  have hf : ¬ min sizeMax (freeBuffer 2 (s.dq 0).length) ≤ 1 := by
    simp only [sizeMax, freeBuffer, usub, Nat.reduceEqDiff, if_false]
    rw [if_neg (by omega)]
    omega
  have hne : s.next ≠ j := by omega
  have e : ∃ s', exec endless 1 (fun _ => 2) s (round 1 j) = some s' ∧ s'.lock = none ∧ s'.pc s.next = .start ∧
      (s'.dq 0).length = (s.dq 0).length + 1 := by
    simp [round, List.replicate, exec, Source.step, stepJob, hp, hl, goto, upd, endless, hf, back, crit, spawn, SState.isYield, hne]
  obtain ⟨s', e1, e2, e3, e4⟩ := e
  exact ⟨s', s.next, exec_reachable h e1, e2, e3, e4⟩

/-- With buffer size 2 the queue of the receiver may grow without bound, although the receiver takes messages: it takes two of
them and reports so before the source has reported itself, so that the source is started twice each time; then the queue gets longer than its
size, `free_buffer()` wraps around, and nothing stops the source any more. -/
theorem c70_backpressure_counterexample (N : Nat) (hN : N < 2 ^ 63) :
    ∃ s, Reachable endless 1 (fun _ => 2) s ∧ N ≤ (s.dq 0).length := by
  have key : ∀ m, 4 + m < 2 ^ 63 → ∃ s j, Reachable endless 1 (fun _ => 2) s ∧ s.lock = none ∧ s.pc j = .start ∧ (s.dq 0).length = 4 + m := by
    intro m
    induction m with
    | zero =>
      intro _
      exact ⟨(exec endless 1 (fun _ => 2) (init endless) ([.ready, .job 0] ++ List.replicate 7 (.job 1) ++
          [.pop 0, .ask 0, .cts 0 true] ++ List.replicate 3 (.job 1) ++ List.replicate 7 (.job 2) ++
          [.pop 0, .ask 0, .cts 0 true] ++ List.replicate 3 (.job 2) ++ round 1 3 ++ round 1 4 ++ round 1 5 ++ round 1 6)).get rfl, 7,
        exec_reachable .init (Option.some_get _).symm, rfl, rfl, rfl⟩
    | succ m ih =>
      intro hm
      obtain ⟨s, j, h1, h2, h3, h4⟩ := ih (by omega)
      obtain ⟨s', j', g1, g2, g3, g4⟩ := grow h1 h2 h3 (by omega) (by omega)
      exact ⟨s', j', g1, g2, g3, by omega⟩
  by_cases h : N ≤ 4
  · obtain ⟨s, _, h1, _, _, h4⟩ := key 0 (by omega)
    exact ⟨s, h1, by omega⟩
  · obtain ⟨s, _, h1, _, _, h4⟩ := key (N - 4) (by omega)
    exact ⟨s, h1, by omega⟩

end Verif.Source
