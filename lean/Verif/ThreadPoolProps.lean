import Verif.ThreadPoolInv

/-!
# Properties of the thread pool (C26, C53, C54)

`N` is the number of queues and worker threads (`_count`, at least 1), `limit` the thread limit. All
theorems hold at every moment of every interleaving.
-/

namespace Verif.ThreadPool

open Verif.NotificationQueue

theorem start_of_mem {t i : Nat} {tr : List Event} (h : Event.start i t ∈ tr) : 0 < tr.countP (isStart t) :=
  List.countP_pos_iff.2 ⟨_, h, by simp [isStart]⟩

theorem submit_of_pos {t : Nat} {tr : List Event} (h : 0 < tr.countP (isSubmit t)) : Event.submit t ∈ tr := by
  obtain ⟨e, he, hi⟩ := List.countP_pos_iff.1 h
  cases e <;> simp [isSubmit] at hi
  exact hi ▸ he

theorem finish_of_pos {t : Nat} {tr : List Event} (h : 0 < tr.countP (isFinish t)) : Event.finish t ∈ tr := by
  obtain ⟨e, he, hi⟩ := List.countP_pos_iff.1 h
  cases e <;> simp [isFinish] at hi
  exact hi ▸ he

/-- C26: every task is started at most once, by whichever thread, and only after it was submitted. -/
theorem c26_at_most_once {N limit : Nat} (hN : 0 < N) {s : St} (h : Reachable N limit s) (t : Nat) :
    s.trace.countP (isStart t) ≤ 1 ∧ s.trace.countP (isFinish t) ≤ s.trace.countP (isStart t) ∧
    ∀ i, Event.start i t ∈ s.trace → Event.submit t ∈ s.trace := by
  have C := (h.inv hN).counts
  have h1 := C.submit t
  have h2 := C.pushing t
  have h3 := C.queue t
  have h4 := C.call t
  refine ⟨?_, by omega, ?_⟩
  · split at h1 <;> omega
  · intro i hi
    have := start_of_mem hi
    exact submit_of_pos (by omega)

/-- C26: a task submitted and not started is still being queued by its `execute`, or waits in one of the
queues. -/
theorem c26_not_lost {N limit : Nat} (hN : 0 < N) {s : St} (h : Reachable N limit s) {t : Nat}
    (hs : Event.submit t ∈ s.trace) (hn : ∀ i, Event.start i t ∉ s.trace) :
    (∃ p ∈ s.pushing, p.task = t) ∨ ∃ k < N, ∃ e ∈ (s.q k).items, e.task = t := by
  have C := (h.inv hN).counts
  have h2 := C.pushing t
  have h3 := C.queue t
  have hs' : 0 < s.trace.countP (isSubmit t) := List.countP_pos_iff.2 ⟨_, hs, by simp [isSubmit]⟩
  have hn' : s.trace.countP (isStart t) = 0 := by
    rw [List.countP_eq_zero]
    intro e he hi
    cases e <;> simp [isStart] at hi
    rename_i i u
    exact hn i (hi ▸ he)
  by_cases hp : 0 < s.pushing.countP fun p => p.task == t
  · obtain ⟨p, hp, ht⟩ := List.countP_pos_iff.1 hp
    exact Or.inl ⟨p, hp, by simpa using ht⟩
  · obtain ⟨k, hk, hq⟩ := sumTo_pos (f := fun k => queued t (s.q k)) (n := N) (by omega)
    obtain ⟨e, he, ht⟩ := List.countP_pos_iff.1 hq
    exact Or.inr ⟨k, hk, e, he, by simpa using ht⟩

/-- C26: a worker never sleeps while its queue has a task, unless the notification is under way. -/
theorem c26_no_lost_wakeup {N limit : Nat} (hN : 0 < N) {s : St} (h : Reachable N limit s) {k : Nat}
    (hk : k < N) (hq : (s.q k).items ≠ []) (ha : s.th k = .asleep) : 0 < s.notif k := by
  rcases (h.inv hN).wake.q k hk ha with h1 | h1
  · exact absurd h1.1 hq
  · exact h1

/-! ## Progress of the workers -/

/-- The steps that bring worker `k` closer to its queue: its own, and the delivery of a notification. -/
def Own (k : Nat) (s : St) : Act → Prop
  | .tryPop i _ => i = k
  | .enter i => i = k
  | .resume i => i = k
  | .notify i => i = k ∧ s.th k = .asleep
  | _ => False

instance (k : Nat) (s : St) (a : Act) : Decidable (Own k s a) := by
  cases a <;> simp only [Own] <;> infer_instance

/-- Steps worker `k` needs at most before it takes a task. -/
def rank (N : Nat) : Pc → Nat
  | .asleep => 2
  | .awake => 1
  | .scan n => N - n + 1
  | _ => 0

theorem popNotEmpty_some {q : NQ} (h : q.items ≠ []) : ∃ e q', popNotEmpty q = some (e, q') := by
  cases hp : popNotEmpty q with
  | none => exact absurd ((c25_pop_some q).1 hp) h
  | some r => exact ⟨r.1, r.2, rfl⟩

theorem evalPop_start {s : St} {i : Nat} (h : (s.q i).items ≠ []) :
    ∃ t, (evalPop s i).trace = s.trace ++ [.start i t] := by
  unfold evalPop
  rw [if_neg (fun hc => h hc.1)]
  obtain ⟨e, q', hp⟩ := popNotEmpty_some (q := { s.q i with waiting := false }) h
  simp only [hp]
  exact ⟨_, rfl⟩

theorem evalPop_th {s : St} {i k : Nat} (h : k ≠ i) : (evalPop s i).th k = s.th k := by
  unfold evalPop
  split
  · exact upd_other _ _ h
  · split
    · exact upd_other _ _ h
    · exact upd_other _ _ h

theorem evalWait_th {N : Nat} {s : St} {i k : Nat} (h : k ≠ i) : (evalWait N s i).th k = s.th k := by
  unfold evalWait
  split
  · exact upd_other _ _ h
  · exact upd_other _ _ h

theorem rank_step {N limit : Nat} {s s' : St} (I : Inv N s) {k : Nat} (hk : k < N)
    (hq : (s.q k).items ≠ []) (hc : ∀ t, s.th k ≠ .calling t) {a : Act}
    (h : step N limit s a = some s') :
    (∃ t, s'.trace = s.trace ++ [.start k t]) ∨
    ((∀ t, s'.th k ≠ .calling t) ∧ rank N (s'.th k) + (if Own k s a then 1 else 0) ≤ rank N (s.th k)) := by
  cases a with
  | submit prio i =>
    simp only [step] at h
    split at h
    · simp only [Option.some.injEq] at h; subst h; right; simpa [Own] using hc
    · simp at h
  | tryPush j locked =>
    simp only [step] at h
    split at h
    · simp at h
    · split at h
      · simp at h
      · split at h
        · simp only [Option.some.injEq] at h; subst h; right; simpa [Own, pushTo] using hc
        · simp only [Option.some.injEq] at h; subst h; right; simpa [Own] using hc
  | push j =>
    simp only [step] at h
    split at h
    · simp at h
    · split at h
      · simp only [Option.some.injEq] at h; subst h; right; simpa [Own, pushTo] using hc
      · simp at h
  | notify j =>
    simp only [step] at h
    split at h
    · simp only [Option.some.injEq] at h; subst h
      right
      by_cases e : j = k
      · subst e
        by_cases ha : s.th j = .asleep
        · simp [Own, ha, rank]
        · simp only [ha, if_false]; simpa [Own, ha] using hc
      · have : ¬ Own k s (.notify j) := by simp [Own, e]
        simp only [this, if_false]
        split
        · simpa only [upd_other _ _ (Ne.symm e), Nat.add_zero, Nat.le_refl, and_true] using hc
        · simpa using hc
    · simp at h
  | tryPop i locked =>
    simp only [step] at h
    split at h
    · split at h
      · rename_i n hn
        have hb := I.wake.scan i n hn
        split at h
        · simp at h
        · rename_i hne
          by_cases e : i = k
          · subst e
            have hr : rank N (.scan (n + 1)) + 1 ≤ rank N (s.th i) := by rw [hn]; simp only [rank]; omega
            split at h
            · split at h
              · simp only [Option.some.injEq] at h; subst h
                right; simp only [upd_same, Own, if_true]
                exact ⟨by simp, hr⟩
              · simp only [Option.some.injEq] at h; subst h
                exact Or.inl ⟨_, rfl⟩
            · simp only [Option.some.injEq] at h; subst h
              right; simp only [upd_same, Own, if_true]
              exact ⟨by simp, hr⟩
          · have hno : ¬ Own k s (.tryPop i locked) := by simp [Own, e]
            right
            simp only [hno, if_false, Nat.add_zero]
            split at h
            · split at h
              · simp only [Option.some.injEq] at h; subst h
                simpa [upd_other _ _ (Ne.symm e)] using hc
              · simp only [Option.some.injEq] at h; subst h
                simpa [upd_other _ _ (Ne.symm e)] using hc
            · simp only [Option.some.injEq] at h; subst h
              simpa [upd_other _ _ (Ne.symm e)] using hc
      · simp at h
    · simp at h
  | enter i =>
    simp only [step] at h
    split at h
    · by_cases e : i = k
      · subst e
        simp only [hk, if_true, Option.some.injEq] at h; subst h
        left
        exact evalPop_start (s := { s with q := upd s.q i { s.q i with waiting := true } }) (by simpa using hq)
      · have hno : ¬ Own k s (.enter i) := by simp [Own, e]
        right
        simp only [hno, if_false, Nat.add_zero]
        split at h
        · simp only [Option.some.injEq] at h; subst h
          rw [evalPop_th (Ne.symm e)]; exact ⟨hc, Nat.le_refl _⟩
        · simp only [Option.some.injEq] at h; subst h
          rw [evalWait_th (Ne.symm e)]; exact ⟨hc, Nat.le_refl _⟩
    · simp at h
  | spurious i =>
    simp only [step] at h
    split at h
    · rename_i hi
      simp only [Option.some.injEq] at h; subst h
      right
      by_cases e : k = i
      · subst e; simp [Own, rank, hi.2]
      · simpa [Own, upd_other _ _ e] using hc
    · simp at h
  | resume i =>
    simp only [step] at h
    split at h
    · by_cases e : i = k
      · subst e
        simp only [hk, if_true, Option.some.injEq] at h; subst h
        exact Or.inl (evalPop_start hq)
      · have hno : ¬ Own k s (.resume i) := by simp [Own, e]
        right
        simp only [hno, if_false, Nat.add_zero]
        split at h
        · simp only [Option.some.injEq] at h; subst h
          rw [evalPop_th (Ne.symm e)]; exact ⟨hc, Nat.le_refl _⟩
        · simp only [Option.some.injEq] at h; subst h
          rw [evalWait_th (Ne.symm e)]; exact ⟨hc, Nat.le_refl _⟩
    · simp at h
  | finish i =>
    simp only [step] at h
    split at h
    · split at h
      · rename_i t ht
        simp only [Option.some.injEq] at h; subst h
        right
        by_cases e : k = i
        · subst e; exact absurd ht (hc t)
        · simpa [Own, upd_other _ _ e] using hc
      · simp at h
    · simp at h
  | wakeQ j =>
    simp only [step] at h
    split at h
    · simp only [Option.some.injEq] at h; subst h; right; simpa [Own] using hc
    · simp at h
  | wakeW j =>
    simp only [step] at h
    split at h
    · simp only [Option.some.injEq] at h; subst h; right; simpa [Own] using hc
    · simp at h
  | wNotify j =>
    simp only [step] at h
    split at h
    · simp only [Option.some.injEq] at h; subst h
      right
      have e : k ≠ N + j := by omega
      split
      · simpa [Own, upd_other _ _ e] using hc
      · simpa [Own] using hc
    · simp at h
  | addThread =>
    simp only [step] at h
    split at h
    · simp only [Option.some.injEq] at h; subst h
      have hn := I.counts.nth
      have e : k ≠ s.nth := by omega
      right; simpa [Own, upd_other _ _ e] using hc
    · simp at h
  | join =>
    simp only [step] at h
    split at h
    · simp at h
    · simp only [Option.some.injEq] at h; subst h; right; simpa [Own] using hc
  | doneQ j =>
    simp only [step] at h
    split at h
    · simp only [Option.some.injEq] at h; subst h; right; simpa [Own] using hc
    · simp at h
  | doneW j =>
    simp only [step] at h
    split at h
    · simp only [Option.some.injEq] at h; subst h; right; simpa [Own] using hc
    · simp at h

/-- C26, progress: a worker whose queue is not empty and which is neither executing a task nor has exited
can make a step towards it. -/
theorem c26_worker_enabled {N limit : Nat} (hN : 0 < N) {s : St} (h : Reachable N limit s) {k : Nat}
    (hk : k < N) (hq : (s.q k).items ≠ []) (hc : ∀ t, s.th k ≠ .calling t) (hx : s.th k ≠ .exited) :
    ∃ a s', Own k s a ∧ step N limit s a = some s' := by
  have I := h.inv hN
  have hkn : k < s.nth := Nat.lt_of_lt_of_le hk I.counts.nth
  cases ht : s.th k with
  | scan n =>
    by_cases hn : n = N
    · subst hn
      obtain ⟨s', hs'⟩ : ∃ s', step n limit s (.enter k) = some s' := by simp [step, hkn, ht, hk]
      exact ⟨.enter k, s', rfl, hs'⟩
    · refine ⟨.tryPop k false, { s with th := upd s.th k (.scan (n + 1)) }, rfl, ?_⟩
      simp [step, hkn, ht, hn]
  | asleep =>
    have := c26_no_lost_wakeup hN h hk hq ht
    obtain ⟨s', hs'⟩ : ∃ s', step N limit s (.notify k) = some s' := by simp [step, hk, this]
    exact ⟨.notify k, s', ⟨rfl, ht⟩, hs'⟩
  | awake =>
    obtain ⟨s', hs'⟩ : ∃ s', step N limit s (.resume k) = some s' := by simp [step, hkn, ht, hk]
    exact ⟨.resume k, s', rfl, hs'⟩
  | calling t => exact absurd ht (hc t)
  | exited => exact absurd ht hx

/-- Along the execution `as` from `s` the queue of worker `k` never becomes empty; `n` counts the steps of
worker `k`. -/
def Busy (N limit k : Nat) : St → List Act → Nat → Prop
  | s, [], n => (s.q k).items ≠ [] ∧ n = 0
  | s, a :: as, n => (s.q k).items ≠ [] ∧ ∃ s' m, step N limit s a = some s' ∧ Busy N limit k s' as m ∧
      n = m + if Own k s a then 1 else 0

theorem trace_mono {N limit : Nat} {s s' : St} {a : Act} (h : step N limit s a = some s') :
    s.trace <+: s'.trace := by
  cases a <;> simp only [step] at h
  case enter i =>
    repeat' split at h
    all_goals first | (simp at h; done) | skip
    all_goals
      simp only [Option.some.injEq] at h; subst h
      simp only [evalPop, evalWait]
      repeat' split
      all_goals simp
  case resume i =>
    repeat' split at h
    all_goals first | (simp at h; done) | skip
    all_goals
      simp only [Option.some.injEq] at h; subst h
      simp only [evalPop, evalWait]
      repeat' split
      all_goals simp
  all_goals (repeat' split at h)
  all_goals first | (simp at h; done) | skip
  all_goals
    simp only [Option.some.injEq] at h; subst h
    simp [pushTo]

theorem exec_mono {N limit : Nat} : ∀ {as : List Act} {s s' : St}, exec N limit s as = some s' →
    s.trace <+: s'.trace
  | [], s, s', h => by simp only [exec, Option.some.injEq] at h; subst h; exact List.prefix_rfl
  | a :: as, s, s', h => by
    simp only [exec] at h
    split at h
    · simp at h
    · rename_i s1 h1; exact (trace_mono h1).trans (exec_mono h)

theorem busy_start {N limit k : Nat} (hN : 0 < N) (hk : k < N) : ∀ {as : List Act} {s s' : St} {n : Nat},
    Inv N s → exec N limit s as = some s' → Busy N limit k s as n → (∀ t, s.th k ≠ .calling t) →
    rank N (s.th k) < n → ∃ t ev, s.trace ++ ev <+: s'.trace ∧ Event.start k t ∈ ev
  | [], s, s', n, I, he, hb, hc, hr => by simp only [Busy] at hb; omega
  | a :: as, s, s', n, I, he, hb, hc, hr => by
    obtain ⟨hq, s1, m, h1, hb1, hn⟩ := hb
    simp only [exec, h1] at he
    rcases rank_step I hk hq hc h1 with ⟨t, ht⟩ | ⟨hc1, hr1⟩
    · exact ⟨t, [.start k t], ht ▸ exec_mono he, by simp⟩
    · obtain ⟨t, ev, hp, hm⟩ := busy_start hN hk (inv_step hN I h1) he hb1 hc1 (by omega)
      obtain ⟨ev0, h0⟩ := trace_mono h1
      refine ⟨t, ev0 ++ ev, ?_, List.mem_append_right _ hm⟩
      rw [← List.append_assoc, h0]; exact hp

/-- C26, progress: after at most `N + 2` steps of its own a worker that is not executing a task starts one,
unless its queue has become empty (some other thread took the tasks) in between. -/
theorem c26_worker_progress {N limit k : Nat} (hN : 0 < N) (hk : k < N) {s s' : St} {as : List Act} {n : Nat}
    (h : Reachable N limit s) (hc : ∀ t, s.th k ≠ .calling t) (he : exec N limit s as = some s')
    (hb : Busy N limit k s as n) (hn : N + 2 ≤ n) :
    ∃ t ev, s.trace ++ ev <+: s'.trace ∧ Event.start k t ∈ ev := by
  refine busy_start hN hk (h.inv hN) he hb hc (Nat.lt_of_lt_of_le ?_ hn)
  cases s.th k <;> simp only [rank] <;> omega

/-- C26, progress: before `join`, an unstarted task always leaves the pool a step to do. -/
theorem c26_never_stuck {N limit : Nat} (hN : 0 < N) {s : St} (h : Reachable N limit s)
    (hj : Event.join ∉ s.trace) {t : Nat} (hs : Event.submit t ∈ s.trace)
    (hn : ∀ i, Event.start i t ∉ s.trace) :
    (∃ j s', (step N limit s (.tryPush j true) = some s' ∨ step N limit s (.push j) = some s')) ∨
    (∃ k < N, ∃ a s', (Own k s a ∨ a = .finish k) ∧ step N limit s a = some s') := by
  have I := h.inv hN
  rcases c26_not_lost hN h hs hn with ⟨p, hp, -⟩ | ⟨k, hk, e, he, -⟩
  · left
    obtain ⟨j, hj', hp⟩ := List.getElem_of_mem hp
    have hj2 : s.pushing[j]? = some p := by rw [List.getElem?_eq_getElem hj', hp]
    by_cases hn : p.n = N
    · exact ⟨j, pushTo s j p (p.i % N), Or.inr (by simp [step, hj2, hn])⟩
    · exact ⟨j, pushTo s j p ((p.i + p.n) % N), Or.inl (by simp [step, hj2, hn])⟩
  · right
    have hq : (s.q k).items ≠ [] := List.ne_nil_of_mem he
    have hnj : s.joining = false := by
      cases hjo : s.joining with
      | false => rfl
      | true => exact absurd (I.shut.act hjo) hj
    by_cases hc : ∃ u, s.th k = .calling u
    · obtain ⟨u, hu⟩ := hc
      have hkn : k < s.nth := Nat.lt_of_lt_of_le hk I.counts.nth
      obtain ⟨s', hs'⟩ : ∃ s', step N limit s (.finish k) = some s' := by simp [step, hkn, hu]
      exact ⟨k, hk, .finish k, s', Or.inr rfl, hs'⟩
    · obtain ⟨a, s', ho, hs'⟩ := c26_worker_enabled (limit := limit) hN h hk hq (fun t ht => hc ⟨t, ht⟩)
        ((I.shut.idle hnj).2.2.1 k)
      exact ⟨k, hk, a, s', Or.inl ho, hs'⟩

/-! ## Shutdown -/

/-- C53, the first half: when all threads have exited (so that `join` can return), every task whose
`execute` had returned before `join` was called has been executed to its end. -/
theorem c53_join_partial {N limit : Nat} (hN : 0 < N) {s : St} (h : Reachable N limit s)
    (hx : AllExited s) {t : Nat} (ht : Early t s.trace) : Event.finish t ∈ s.trace := by
  obtain ⟨C, -, S⟩ := h.inv hN
  have h2 := C.queue t
  have h3 := C.call t
  have h1 := mem_countP_pos ht.mem
  have hq : sumTo N (fun k => queued t (s.q k)) = 0 := by
    refine sumTo_zero fun k hk => ?_
    by_cases hp : 0 < queued t (s.q k)
    · exact absurd (hx k (Nat.lt_of_lt_of_le hk C.nth)) (S.early t ht k hk hp)
    · omega
  have hc : sumTo s.nth (fun i => calls t (s.th i)) = 0 :=
    sumTo_zero fun i hi => by simp [calls, hx i hi]
  exact finish_of_pos (by omega)

/-- Two workers. Task 0 runs on worker 0 when `join` is called; worker 1 is idle and exits. Task 0 then
submits task 1, which goes to the queue of worker 1. When task 0 is finished, worker 0 looks at that queue but
does not get its lock, finds its own queue empty and done, and exits. -/
def joinActs : List Act :=
  [.submit 1 0, .tryPush 0 true, .tryPop 0 true, .join, .doneQ 0, .doneQ 1,
   .tryPop 1 true, .tryPop 1 true, .enter 1,
   .submit 1 1, .tryPush 0 true,
   .finish 0, .tryPop 0 true, .tryPop 0 false, .enter 0]

def joinEnd : St := (exec 2 9 (init 2) joinActs).getD (init 2)

/-- C53 fails for tasks submitted by tasks still executing when `join` is called: all threads have
exited, `execute` of task 1 has returned, but task 1 was never started (`_q.clear()` then destroys it). -/
theorem c53_join_counterexample :
    ∃ s, Reachable 2 9 s ∧ AllExited s ∧
      s.trace = [.submit 0, .accept 0, .start 0 0, .join, .submit 1, .accept 1, .finish 0] := by
  refine ⟨joinEnd, ⟨joinActs, rfl⟩, ?_, ?_⟩
  · intro i hi
    have : i < 2 := hi
    match i, this with
    | 0, _ => decide
    | 1, _ => decide
  · decide

/-! ## Awaiting in a task -/

/-- The steps not initiated by anybody outside the pool's threads, spurious wake-ups excluded. -/
def Inside : Act → Prop
  | .submit .. | .wakeQ _ | .wakeW _ | .addThread | .join | .doneQ _ | .doneW _ | .spurious _ => False
  | _ => True

/-- Two workers. Task 0 (on worker 0) submits task 1, which goes to worker 0's queue, and awaits it:
`invoke_waiting` wakes worker 1. Worker 1 looks at all queues, but cannot lock the queue of worker 0 because
some thread is just queueing task 2 there, and goes to sleep again. -/
def awaitActs : List Act :=
  [.tryPop 1 true, .tryPop 1 true, .enter 1,
   .submit 1 0, .tryPush 0 true, .notify 0, .tryPop 0 true,
   .submit 1 0, .tryPush 0 true, .notify 0,
   .wakeQ 1, .notify 1,
   .submit 1 0,
   .resume 1, .tryPop 1 true, .tryPop 1 false, .enter 1,
   .tryPush 0 true, .notify 0]

def awaitEnd : St := (exec 2 9 (init 2) awaitActs).getD (init 2)

/-- C54 fails: task 0 awaits task 1, which waits in a queue, and nothing but the end of task 0 can happen in
the pool any more unless something outside intervenes: the await never returns. -/
theorem c54_await_counterexample :
    ∃ s, Reachable 2 9 s ∧
      s.trace = [.submit 0, .accept 0, .start 0 0, .submit 1, .accept 1, .submit 2, .accept 2] ∧
      s.nth = 2 ∧ s.th 0 = .calling 0 ∧
      ∀ a s', Inside a → step 2 9 s a = some s' → a = .finish 0 := by
  refine ⟨awaitEnd, ⟨awaitActs, rfl⟩, by decide, rfl, by decide, ?_⟩
  intro a s' hin hs
  have hth : ∀ i, i < awaitEnd.nth → awaitEnd.th i = .calling 0 ∧ i = 0 ∨ awaitEnd.th i = .asleep := by
    intro i hi
    have : i < 2 := hi
    match i, this with
    | 0, _ => left; exact ⟨by decide, rfl⟩
    | 1, _ => right; decide
  have hp : awaitEnd.pushing = [] := by decide
  cases a with
  | tryPush j l => simp [step, hp] at hs
  | push j => simp [step, hp] at hs
  | notify k =>
    simp only [step] at hs
    split at hs
    · rename_i hk
      obtain ⟨hk1, hk2⟩ := hk
      have hn0 : awaitEnd.notif 0 = 0 := by decide
      have hn1 : awaitEnd.notif 1 = 0 := by decide
      match k, hk1 with
      | 0, _ => omega
      | 1, _ => omega
    · simp at hs
  | tryPop i l =>
    simp only [step] at hs
    split at hs
    · rename_i hi
      rcases hth i hi with h | h
      · simp [h.1] at hs
      · simp [h] at hs
    · simp at hs
  | enter i =>
    simp only [step] at hs
    split at hs
    · rename_i hi
      rcases hth i hi.1 with h | h
      · simp [h.1] at hi
      · simp [h] at hi
    · simp at hs
  | resume i =>
    simp only [step] at hs
    split at hs
    · rename_i hi
      rcases hth i hi.1 with h | h
      · simp [h.1] at hi
      · simp [h] at hi
    · simp at hs
  | finish i =>
    simp only [step] at hs
    split at hs
    · rename_i hi
      rcases hth i hi with h | h
      · rw [h.2]
      · simp [h] at hs
    · simp at hs
  | wNotify j =>
    simp only [step] at hs
    split at hs
    · rename_i hj
      have : awaitEnd.wNotif j = 0 := rfl
      omega
    · simp at hs
  | submit p i => exact absurd hin (by simp [Inside])
  | wakeQ k => exact absurd hin (by simp [Inside])
  | wakeW k => exact absurd hin (by simp [Inside])
  | addThread => exact absurd hin (by simp [Inside])
  | join => exact absurd hin (by simp [Inside])
  | doneQ k => exact absurd hin (by simp [Inside])
  | doneW k => exact absurd hin (by simp [Inside])
  | spurious k => exact absurd hin (by simp [Inside])

/-- C54, what does hold: a thread that looks at the queues and gets their locks without anybody interfering
starts a task if there is one in any queue. -/
theorem c54_scan_partial {N limit : Nat} (hN : 0 < N) {s : St} {i : Nat} (hi : i < s.nth) :
    ∀ {d n : Nat}, s.th i = .scan n → n + d = N → (∃ m, n ≤ m ∧ m < N ∧ (s.q ((i + m) % N)).items ≠ []) →
    ∃ m ≤ d, ∃ s' t, exec N limit s (List.replicate m (.tryPop i true)) = some s' ∧
      s'.trace = s.trace ++ [.start i t] := by
  intro d
  induction d generalizing s with
  | zero => intro n hn hd ⟨m, h1, h2, _⟩; omega
  | succ d ih =>
    intro n hn hd ⟨m, h1, h2, hm⟩
    cases hp : popNotEmpty (s.q ((i + n) % N)) with
    | some r =>
      refine ⟨1, by omega,
        { s with
          q := upd s.q ((i + n) % N) r.2
          th := upd s.th i (.calling r.1.task)
          trace := s.trace ++ [.start i r.1.task] }, r.1.task, ?_, ?_⟩
      · simp only [List.replicate, exec, step, hi, hn, if_true, show ¬ n = N by omega, if_false, hp]
      · rfl
    | none =>
      have hemp := (c25_pop_some _).1 hp
      have hne : n ≠ m := by rintro rfl; exact hm hemp
      have hth : ({ s with th := upd s.th i (.scan (n + 1)) } : St).th i = .scan (n + 1) := by simp
      obtain ⟨m', hm', s', t, he, ht⟩ := ih (s := { s with th := upd s.th i (.scan (n + 1)) }) hi hth (by omega)
        ⟨m, by omega, h2, hm⟩
      refine ⟨m' + 1, by omega, s', t, ?_, ht⟩
      simp only [List.replicate, exec, step, hi, hn, if_true, show ¬ n = N by omega, if_false, hp]
      exact he

/-- The number of threads never exceeds the limit, and all workers are there. -/
theorem c54_limit {N limit : Nat} (hN : N ≤ limit) {s : St} (h : Reachable N limit s) : N ≤ s.nth ∧ s.nth ≤ limit := by
  obtain ⟨as, h⟩ := h
  have key : ∀ (as : List Act) (s0 : St), N ≤ s0.nth → s0.nth ≤ limit → exec N limit s0 as = some s → N ≤ s.nth ∧ s.nth ≤ limit := by
    intro as
    induction as with
    | nil => intro s0 h1 h2 h; cases h; exact ⟨h1, h2⟩
    | cons a as ih =>
      intro s0 h1 h2 h
      simp only [exec] at h
      split at h
      · cases h
      · next s1 e =>
        have : s1.nth = s0.nth ∨ (s0.nth < limit ∧ s1.nth = s0.nth + 1) := by
          cases a <;> simp only [step] at e <;> (repeat' split at e) <;> cases e <;>
            first
              | exact .inl rfl
              | (right; exact ⟨by grind, rfl⟩)
              | (left; simp only [pushTo, evalPop, evalWait]; (repeat' split) <;> rfl)
        exact ih s1 (by omega) (by omega) h
  exact key as (init N) (Nat.le_refl _) hN h

/-- The limit is reached. -/
example : ((exec 2 3 (init 2) [.addThread]).map fun s => (s.nth, (step 2 3 s .addThread).isSome)) = some (3, false) := by decide

/-! ## Concrete cases -/

/-- Three workers, two tasks of different priorities queued in the same queue, one of them stolen. -/
def poolActs : List Act :=
  [.submit 2 0, .submit 0 0, .tryPush 0 true, .tryPush 0 true, .notify 0, .tryPop 1 false, .tryPop 1 true,
   .tryPop 1 true, .tryPop 0 true]

example : ((exec 3 9 (init 3) poolActs).map St.trace) =
    some [.submit 0, .submit 1, .accept 0, .accept 1, .start 1 1, .start 0 0] := by decide

/-- `c26_no_lost_wakeup` and `c26_worker_enabled`: a sleeping worker with a queued task. -/
example : ∃ s, Reachable 1 9 s ∧ (s.q 0).items ≠ [] ∧ s.th 0 = .asleep :=
  ⟨_, ⟨[.tryPop 0 true, .enter 0, .submit 1 0, .tryPush 0 true], rfl⟩, by decide, by decide⟩

def busyStart : St :=
  (exec 1 9 (init 1) [.submit 1 0, .submit 1 0, .submit 1 0, .tryPush 0 true, .tryPush 0 true,
    .tryPush 0 true]).getD (init 1)

/-- `c26_worker_progress`: three steps of worker 0 with its queue non-empty throughout. -/
example : ∃ s' n, Reachable 1 9 busyStart ∧ (∀ t, busyStart.th 0 ≠ .calling t) ∧
    exec 1 9 busyStart [.tryPop 0 false, .enter 0, .finish 0, .tryPop 0 true] = some s' ∧
    Busy 1 9 0 busyStart [.tryPop 0 false, .enter 0, .finish 0, .tryPop 0 true] n ∧ 1 + 2 ≤ n := by
  refine ⟨_, 3, ⟨[.submit 1 0, .submit 1 0, .submit 1 0, .tryPush 0 true, .tryPush 0 true,
    .tryPush 0 true], rfl⟩, ?_, rfl, ?_, by decide⟩
  · intro t h
    have : busyStart.th 0 = .scan 0 := rfl
    rw [this] at h; simp at h
  · exact ⟨by decide, _, 2, rfl, ⟨by decide, _, 1, rfl, ⟨by decide, _, 1, rfl, ⟨by decide, _, 0, rfl,
      ⟨by decide, rfl⟩, by decide⟩, by decide⟩, by decide⟩, by decide⟩

/-- `c54_scan_partial`: a thread about to look at a queue that is not empty. -/
example : 0 < busyStart.nth ∧ busyStart.th 0 = .scan 0 ∧ 0 + 1 = 1 ∧
    ∃ m, 0 ≤ m ∧ m < 1 ∧ (busyStart.q ((0 + m) % 1)).items ≠ [] :=
  ⟨by decide, rfl, rfl, 0, by decide, by decide, by decide⟩

def doneActs : List Act :=
  [.submit 1 0, .tryPush 0 true, .join, .doneQ 0, .tryPop 0 true, .finish 0, .tryPop 0 true, .enter 0]

def doneEnd : St := (exec 1 9 (init 1) doneActs).getD (init 1)

/-- `c53_join_partial`: a pool shut down after running its task. -/
example : Reachable 1 9 doneEnd ∧ AllExited doneEnd ∧ Early 0 doneEnd.trace := by
  refine ⟨⟨doneActs, rfl⟩, ?_, ?_⟩
  · intro i hi
    have : i < 1 := hi
    match i, this with
    | 0, _ => decide
  · exact ⟨[.submit 0, .accept 0], [.join, .start 0 0, .finish 0], by decide, by decide, by decide⟩

end Verif.ThreadPool
