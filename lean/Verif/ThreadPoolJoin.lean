import Verif.ThreadPoolProps

/-!
# `join` returns (include/stlab/concurrency/default_executor.hpp:382-391)

`join` calls `done()` on every queue and on every waiter and then waits for the threads. Once it has made these calls, the threads have
only a bounded number of steps left, tasks included, and none of them sleeps for ever: if the tasks return and submit nothing more, all
threads end.
-/

namespace Verif.ThreadPool

open Verif.NotificationQueue

/-- `join` has called `done()` on all queues and on the waiters of all threads there are (lines 383-386). -/
structure Joined (N : Nat) (s : St) : Prop where
  joining : s.joining = true
  queues : ∀ k < N, (s.q k).done = true
  waiters : ∀ j, N + j < s.nth → s.wDone j = true

/-- The calls `join` makes before it waits for the threads (lines 383-386), for `W` waiters. -/
def joinCalls (N W : Nat) : List Act :=
  .join :: ((List.range N).map .doneQ ++ (List.range W).map .doneW)

/-! ## The steps that are left -/

/-- Steps a thread makes at most until it exits, if it gets no task. -/
def threadLeft (N : Nat) : Pc → Nat
  | .exited => 0
  | .awake => 1
  | .asleep => 2
  | .scan n => N - n + 3
  | .calling _ => N + 4

theorem tl_exited (N : Nat) : threadLeft N .exited = 0 := rfl
theorem tl_awake (N : Nat) : threadLeft N .awake = 1 := rfl
theorem tl_scan (N n : Nat) : threadLeft N (.scan n) = N - n + 3 := rfl
theorem tl_calling (N t : Nat) : threadLeft N (.calling t) = N + 4 := rfl

def queueLeft (N : Nat) (q : NQ) : Nat := (N + 6) * q.items.length

theorem ql_eq (N : Nat) {q q' : NQ} (h : q.items = q'.items) : queueLeft N q = queueLeft N q' := by simp only [queueLeft, h]

theorem ql_sum (N : Nat) {f : Nat → NQ} {k : Nat} {v : NQ} (h : v.items = (f k).items) (n : Nat) :
    sumTo n (fun i => queueLeft N (upd f k v i)) = sumTo n (fun i => queueLeft N (f i)) :=
  sumTo_congr fun i _ => by
    by_cases e : i = k
    · subst e; rw [upd_same]; exact ql_eq N h
    · rw [upd_other _ _ e]

def pushLeft (N : Nat) (p : Push) : Nat := N - p.n + (N + 8)

/-- A bound of the number of steps that are left, if nobody submits anything. -/
def left (N J : Nat) (s : St) : Nat :=
  sumTo N (fun k => queueLeft N (s.q k)) + sumTo N (fun k => s.notif k) + sumTo J (fun j => s.wNotif j) +
    sumTo s.nth (fun i => threadLeft N (s.th i)) + (s.pushing.map (pushLeft N)).sum

theorem sum_eraseIdx {α : Type} (f : α → Nat) : ∀ {l : List α} {j : Nat} {p : α}, l[j]? = some p →
    ((l.eraseIdx j).map f).sum + f p = (l.map f).sum
  | [], j, p, h => by simp at h
  | x :: l, 0, p, h => by simp only [List.getElem?_cons_zero, Option.some.injEq] at h; subst h; simp; omega
  | x :: l, j + 1, p, h => by
    simp only [List.getElem?_cons_succ] at h
    have := sum_eraseIdx f h
    simp only [List.eraseIdx_cons_succ, List.map_cons, List.sum_cons]; omega

theorem sum_set {α : Type} (f : α → Nat) : ∀ {l : List α} {j : Nat} {p p' : α}, l[j]? = some p →
    ((l.set j p').map f).sum + f p = (l.map f).sum + f p'
  | [], j, p, p', h => by simp at h
  | x :: l, 0, p, p', h => by simp only [List.getElem?_cons_zero, Option.some.injEq] at h; subst h; simp; omega
  | x :: l, j + 1, p, p', h => by
    simp only [List.getElem?_cons_succ] at h
    have := sum_set f (p' := p') h
    simp only [List.set_cons_succ, List.map_cons, List.sum_cons]; omega

theorem sumTo_upd_le {α : Type} (g : α → Nat) (f : Nat → α) (v : α) (k : Nat) (h : g v ≤ g (f k)) (n : Nat) :
    sumTo n (fun i => g (upd f k v i)) ≤ sumTo n (fun i => g (f i)) := by
  by_cases hk : k < n
  · have := sumTo_upd g f v k hk; omega
  · rw [sumTo_congr (g := fun i => g (f i)) fun i hi => by rw [upd_other _ _ (by omega)]]; exact Nat.le_refl _

theorem length_pop {q q' : NQ} {e : Elem} (h : popNotEmpty q = some (e, q')) : q.items.length = q'.items.length + 1 := by
  obtain ⟨hm, rfl⟩ := popNotEmpty_eq h
  exact (List.perm_cons_erase hm).length_eq

theorem queueLeft_pop {N : Nat} {q q' : NQ} {e : Elem} (h : popNotEmpty q = some (e, q')) :
    queueLeft N q = queueLeft N q' + (N + 6) := by
  simp only [queueLeft, length_pop h, Nat.mul_add, Nat.mul_one]

/-- A thread takes a task from queue `k`. -/
theorem left_take {N J : Nat} {s : St} {i k : Nat} {q' : NQ} {e : Elem} (hk : k < N) (hi : i < s.nth) {v : NQ}
    (hv : v.items = (s.q k).items) (h : popNotEmpty v = some (e, q')) (tr : List Event) :
    left N J { s with q := upd s.q k q', th := upd s.th i (.calling e.task), trace := tr } < left N J s := by
  have h1 := sumTo_upd (queueLeft N) s.q q' k hk
  have h2 := sumTo_upd (threadLeft N) s.th (.calling e.task) i hi
  have h3 : queueLeft N (s.q k) = queueLeft N v := by simp only [queueLeft, hv]
  have h4 := queueLeft_pop (N := N) h
  rw [tl_calling] at h2
  simp only [left]
  omega

/-- Worker `i` looks at its queue, which is done. -/
theorem left_evalPop {N J : Nat} {s : St} {i : Nat} (hi : i < N) (hn : i < s.nth) (hd : (s.q i).done = true)
    (h0 : 0 < threadLeft N (s.th i)) : left N J (evalPop s i) < left N J s := by
  simp only [evalPop]
  split
  · simp_all
  · split
    · have h2 := sumTo_upd (threadLeft N) s.th .exited i hn
      rw [tl_exited] at h2
      simp only [left]
      rw [ql_sum N (by rfl)]
      omega
    · rename_i e q' hp
      exact left_take hi hn (by rfl) hp _

theorem left_evalWait {N J : Nat} {s : St} {i : Nat} (hn : i < s.nth) (hd : s.wDone (i - N) = true)
    (h0 : 0 < threadLeft N (s.th i)) : left N J (evalWait N s i) < left N J s := by
  simp only [evalWait]
  split
  · simp_all
  · have h2 := sumTo_upd (threadLeft N) s.th .exited i hn
    rw [tl_exited] at h2
    simp only [left]
    omega

/-- What is done stays done, and there are finitely many notifications. -/
structure Late (N J : Nat) (s : St) : Prop extends Joined N s where
  notif : ∀ j, 0 < s.wNotif j → j < J

theorem late_q {N J : Nat} {s : St} (L : Late N J s) {k : Nat} {v : NQ} (h : v.done = (s.q k).done) (th : Nat → Pc)
    (nf : Nat → Nat) (ps : List Push) (tr : List Event) :
    Late N J { s with q := upd s.q k v, th := th, notif := nf, pushing := ps, trace := tr } := by
  refine ⟨⟨L.joining, fun i hi => ?_, L.waiters⟩, L.notif⟩
  by_cases e : i = k
  · subst e; simp only [upd_same, h]; exact L.queues i hi
  · simp only [upd_other _ _ e]; exact L.queues i hi

theorem pop_done {q q' : NQ} {e : Elem} (h : popNotEmpty q = some (e, q')) : q'.done = q.done := by
  obtain ⟨_, rfl⟩ := popNotEmpty_eq h; rfl

theorem late_evalPop {N J : Nat} {s : St} (L : Late N J s) (i : Nat) : Late N J (evalPop s i) := by
  simp only [evalPop]
  split
  · exact ⟨⟨L.joining, L.queues, L.waiters⟩, L.notif⟩
  · split
    · exact late_q L (by rfl) _ _ _ _
    · rename_i e q' hp
      exact late_q L (by have := pop_done hp; exact this) _ _ _ _

theorem late_evalWait {N J : Nat} {s : St} (L : Late N J s) (i : Nat) : Late N J (evalWait N s i) := by
  simp only [evalWait]
  split
  · exact ⟨⟨L.joining, L.queues, L.waiters⟩, L.notif⟩
  · exact ⟨⟨L.joining, L.queues, L.waiters⟩, L.notif⟩

theorem left_push {N J : Nat} {s : St} {j k : Nat} {p : Push} (hk : k < N) (hp : s.pushing[j]? = some p) :
    left N J (pushTo s j p k) < left N J s := by
  have h1 := sumTo_upd (queueLeft N) s.q (push p.task p.prio (s.q k)) k hk
  have h2 := sumTo_upd (fun n => n) s.notif (s.notif k + 1) k hk
  have h3 := sum_eraseIdx (pushLeft N) hp
  have h4 : queueLeft N (push p.task p.prio (s.q k)) = queueLeft N (s.q k) + (N + 6) := by
    simp [queueLeft, push, Nat.mul_add]
  have h5 : N + 8 ≤ pushLeft N p := by simp only [pushLeft]; omega
  simp only [left, pushTo]
  omega

/-- Every step that is left brings the end nearer. -/
theorem late_step {N limit J : Nat} (hN : 0 < N) {s s' : St} (I : Inv N s) (L : Late N J s) {a : Act} (ha : Inside a)
    (h : step N limit s a = some s') : Late N J s' ∧ left N J s' < left N J s := by
  cases a with
  | submit | wakeQ | wakeW | addThread | join | doneQ | doneW | spurious => exact absurd ha (by simp [Inside])
  | tryPush j locked =>
    simp only [step] at h
    split at h
    · simp at h
    · rename_i p hp
      split at h
      · simp at h
      · rename_i hpn
        split at h
        · simp only [Option.some.injEq] at h; subst h
          exact ⟨late_q L (by rfl) _ _ _ _, left_push (Nat.mod_lt _ hN) hp⟩
        · simp only [Option.some.injEq] at h; subst h
          refine ⟨⟨⟨L.joining, L.queues, L.waiters⟩, L.notif⟩, ?_⟩
          have h3 := sum_set (pushLeft N) (p' := { p with n := p.n + 1 }) hp
          have h4 := I.wake.push p (List.mem_of_getElem? hp)
          have h5 : pushLeft N { p with n := p.n + 1 } + 1 = pushLeft N p := by simp only [pushLeft]; omega
          simp only [left]
          omega
  | push j =>
    simp only [step] at h
    split at h
    · simp at h
    · rename_i p hp
      split at h
      · simp only [Option.some.injEq] at h; subst h
        exact ⟨late_q L (by rfl) _ _ _ _, left_push (Nat.mod_lt _ hN) hp⟩
      · simp at h
  | notify k =>
    simp only [step] at h
    split at h
    · rename_i hc
      simp only [Option.some.injEq] at h; subst h
      refine ⟨⟨⟨L.joining, L.queues, L.waiters⟩, L.notif⟩, ?_⟩
      have h2 := sumTo_upd (fun n => n) s.notif (s.notif k - 1) k hc.1
      simp only [left]
      split
      · rename_i hs
        have h5 := sumTo_upd_le (threadLeft N) s.th .awake k (by simp [hs, threadLeft]) s.nth
        omega
      · omega
    · simp at h
  | tryPop i locked =>
    simp only [step] at h
    split at h
    · rename_i hi
      split at h
      · rename_i n hn
        split at h
        · simp at h
        · rename_i hnN
          have hle := I.wake.scan i n hn
          have h2 := sumTo_upd (threadLeft N) s.th (.scan (n + 1)) i hi
          have h0 : threadLeft N (s.th i) = N - n + 3 := by simp [hn, threadLeft]
          have hscan : left N J { s with th := upd s.th i (.scan (n + 1)) } < left N J s := by
            rw [tl_scan] at h2
            simp only [left]
            omega
          split at h
          · split at h
            · simp only [Option.some.injEq] at h; subst h
              exact ⟨⟨⟨L.joining, L.queues, L.waiters⟩, L.notif⟩, hscan⟩
            · rename_i e q' hp
              simp only [Option.some.injEq] at h; subst h
              exact ⟨late_q L (by have := pop_done hp; exact this) _ _ _ _, left_take (Nat.mod_lt _ hN) hi rfl hp _⟩
          · simp only [Option.some.injEq] at h; subst h
            exact ⟨⟨⟨L.joining, L.queues, L.waiters⟩, L.notif⟩, hscan⟩
      · simp at h
    · simp at h
  | enter i =>
    simp only [step] at h
    split at h
    · rename_i hc
      split at h
      · rename_i hi
        simp only [Option.some.injEq] at h; subst h
        have L' : Late N J { s with q := upd s.q i { s.q i with waiting := true } } := late_q L (by rfl) _ _ _ _
        refine ⟨late_evalPop L' i, Nat.lt_of_lt_of_le (left_evalPop hi hc.1 ?_ ?_) ?_⟩
        · simp only [upd_same]; exact L.queues i hi
        · simp only [hc.2, threadLeft]; omega
        · simp only [left]
          rw [ql_sum N (by rfl)]
          omega
      · rename_i hi
        simp only [Option.some.injEq] at h; subst h
        have L' : Late N J { s with wWaiting := upd s.wWaiting (i - N) true } := ⟨⟨L.joining, L.queues, L.waiters⟩, L.notif⟩
        refine ⟨late_evalWait L' i, Nat.lt_of_lt_of_le (left_evalWait hc.1 ?_ ?_) ?_⟩
        · exact L.waiters _ (by omega)
        · simp only [hc.2, threadLeft]; omega
        · exact Nat.le_refl _
    · simp at h
  | resume i =>
    simp only [step] at h
    split at h
    · rename_i hc
      split at h
      · rename_i hi
        simp only [Option.some.injEq] at h; subst h
        exact ⟨late_evalPop L i, left_evalPop hi hc.1 (L.queues i hi) (by simp [hc.2, threadLeft])⟩
      · rename_i hi
        simp only [Option.some.injEq] at h; subst h
        exact ⟨late_evalWait L i, left_evalWait hc.1 (L.waiters _ (by omega)) (by simp [hc.2, threadLeft])⟩
    · simp at h
  | finish i =>
    simp only [step] at h
    split at h
    · rename_i hi
      split at h
      · rename_i t ht
        simp only [Option.some.injEq] at h; subst h
        refine ⟨⟨⟨L.joining, L.queues, L.waiters⟩, L.notif⟩, ?_⟩
        have h2 := sumTo_upd (threadLeft N) s.th (.scan 0) i hi
        simp only [left]
        rw [ht, tl_calling, tl_scan] at h2
        omega
      · simp at h
    · simp at h
  | wNotify j =>
    simp only [step] at h
    split at h
    · rename_i hc
      simp only [Option.some.injEq] at h; subst h
      have hj := L.notif j hc
      have h2 := sumTo_upd (fun n => n) s.wNotif (s.wNotif j - 1) j hj
      refine ⟨⟨⟨L.joining, L.queues, L.waiters⟩, fun i hi => ?_⟩, ?_⟩
      · by_cases e : i = j
        · subst e; exact hj
        · simp only [upd_other _ _ e] at hi; exact L.notif i hi
      · simp only [left]
        split
        · rename_i hs
          have h5 := sumTo_upd_le (threadLeft N) s.th .awake (N + j) (by simp [hs, threadLeft]) s.nth
          omega
        · omega
    · simp at h

theorem late_exec {N limit J : Nat} (hN : 0 < N) : ∀ {as : List Act} {s s' : St}, Inv N s → Late N J s → (∀ a ∈ as, Inside a) →
    exec N limit s as = some s' → Late N J s' ∧ left N J s' + as.length ≤ left N J s
  | [], s, s', _, L, _, h => by simp only [exec, Option.some.injEq] at h; subst h; exact ⟨L, Nat.le_refl _⟩
  | a :: as, s, s', I, L, ha, h => by
    simp only [exec] at h
    split at h
    · simp at h
    · rename_i s1 h1
      obtain ⟨L1, h2⟩ := late_step hN I L (ha a (by simp)) h1
      obtain ⟨L2, h3⟩ := late_exec hN (inv_step hN I h1) L1 (fun b hb => ha b (by simp [hb])) h
      exact ⟨L2, by simp only [List.length_cons]; omega⟩

/-- Only finitely many waiters have a notification coming. -/
theorem finite_notif {N limit : Nat} {s s' : St} {J : Nat} (hJ : ∀ j, 0 < s.wNotif j → j < J) {a : Act}
    (h : step N limit s a = some s') : ∃ J', ∀ j, 0 < s'.wNotif j → j < J' := by
  cases a with
  | wakeW j =>
    simp only [step] at h
    split at h
    · simp only [Option.some.injEq] at h; subst h
      refine ⟨max J (j + 1), fun i hi => ?_⟩
      by_cases e : i = j
      · omega
      · simp only [upd_other _ _ e] at hi; have := hJ i hi; omega
    · simp at h
  | doneW j =>
    simp only [step] at h
    split at h
    · simp only [Option.some.injEq] at h; subst h
      refine ⟨max J (j + 1), fun i hi => ?_⟩
      by_cases e : i = j
      · omega
      · simp only [upd_other _ _ e] at hi; have := hJ i hi; omega
    · simp at h
  | wNotify j =>
    simp only [step] at h
    split at h
    · rename_i hc
      simp only [Option.some.injEq] at h; subst h
      refine ⟨J, fun i hi => ?_⟩
      by_cases e : i = j
      · subst e; exact hJ i hc
      · simp only [upd_other _ _ e] at hi; exact hJ i hi
    · simp at h
  | enter i =>
    refine ⟨J, ?_⟩
    simp only [step] at h
    repeat' split at h
    all_goals first | (simp at h; done) | skip
    · simp only [Option.some.injEq] at h; subst h; rw [(evalPop_rest' _ i)]; exact hJ
    · simp only [Option.some.injEq] at h; subst h; rw [(evalWait_rest' N _ i)]; exact hJ
  | resume i =>
    refine ⟨J, ?_⟩
    simp only [step] at h
    repeat' split at h
    all_goals first | (simp at h; done) | skip
    · simp only [Option.some.injEq] at h; subst h; rw [(evalPop_rest' _ i)]; exact hJ
    · simp only [Option.some.injEq] at h; subst h; rw [(evalWait_rest' N _ i)]; exact hJ
  | _ =>
    refine ⟨J, ?_⟩
    simp only [step] at h
    repeat' split at h
    all_goals first | (simp at h; done) | skip
    all_goals
      simp only [Option.some.injEq] at h; subst h
      simpa [pushTo] using hJ
where
  evalPop_rest' (s : St) (i : Nat) : (evalPop s i).wNotif = s.wNotif := by
    simp only [evalPop]; repeat' split
    all_goals rfl
  evalWait_rest' (N : Nat) (s : St) (i : Nat) : (evalWait N s i).wNotif = s.wNotif := by
    simp only [evalWait]; repeat' split
    all_goals rfl

theorem finite_exec {N limit : Nat} : ∀ {as : List Act} {s s' : St} {J : Nat}, (∀ j, 0 < s.wNotif j → j < J) →
    exec N limit s as = some s' → ∃ J', ∀ j, 0 < s'.wNotif j → j < J'
  | [], s, s', J, hJ, h => by simp only [exec, Option.some.injEq] at h; subst h; exact ⟨J, hJ⟩
  | a :: as, s, s', J, hJ, h => by
    simp only [exec] at h
    split at h
    · simp at h
    · rename_i s1 h1
      obtain ⟨J1, hJ1⟩ := finite_notif hJ h1
      exact finite_exec hJ1 h

/-! ## The theorems -/

theorem exec_append {N limit : Nat} : ∀ {as bs : List Act} {s s1 : St}, exec N limit s as = some s1 →
    exec N limit s (as ++ bs) = exec N limit s1 bs
  | [], bs, s, s1, h => by simp only [exec, Option.some.injEq] at h; subst h; rfl
  | a :: as, bs, s, s1, h => by
    simp only [exec] at h
    rw [List.cons_append, exec]
    cases h2 : step N limit s a with
    | none => simp [h2] at h
    | some s2 => simp only [h2] at h; exact exec_append h

theorem doneQ_calls {N limit : Nat} : ∀ (M : Nat) {s : St}, M ≤ N → s.joining = true → ∃ s',
    exec N limit s ((List.range M).map .doneQ) = some s' ∧ s'.joining = true ∧ (∀ k < M, (s'.q k).done = true) ∧
      s'.nth = s.nth ∧ s'.th = s.th ∧ s'.trace = s.trace ∧ s'.wDone = s.wDone ∧ ∀ k, (s'.q k).items = (s.q k).items
  | 0, s, _, hj => ⟨s, rfl, hj, fun k hk => by omega, rfl, rfl, rfl, rfl, fun _ => rfl⟩
  | M + 1, s, hM, hj => by
    obtain ⟨s1, h1, h2, h3, h4, h5, h6, h7, h8⟩ := doneQ_calls M (N := N) (limit := limit) (s := s) (by omega) hj
    refine ⟨{ s1 with q := upd s1.q M { s1.q M with done := true }, notif := upd s1.notif M (s1.notif M + 1) }, ?_, h2, ?_, h4, h5, h6, h7, ?_⟩
    · rw [List.range_succ, List.map_append, exec_append h1]
      simp [exec, step, h2, show M < N by omega]
    · intro k hk
      by_cases e : k = M
      · subst e; simp
      · simp only [upd_other _ _ e]; exact h3 k (by omega)
    · intro k
      by_cases e : k = M
      · subst e; simp [h8]
      · simp only [upd_other _ _ e]; exact h8 k

theorem doneW_calls {N limit : Nat} : ∀ (M : Nat) {s : St}, s.joining = true → ∃ s',
    exec N limit s ((List.range M).map .doneW) = some s' ∧ s'.joining = true ∧ (∀ j < M, s'.wDone j = true) ∧
      s'.nth = s.nth ∧ s'.th = s.th ∧ s'.trace = s.trace ∧ s'.q = s.q
  | 0, s, hj => ⟨s, rfl, hj, fun k hk => by omega, rfl, rfl, rfl, rfl⟩
  | M + 1, s, hj => by
    obtain ⟨s1, h1, h2, h3, h4, h5, h6, h7⟩ := doneW_calls M (N := N) (limit := limit) (s := s) hj
    refine ⟨{ s1 with wDone := upd s1.wDone M true, wNotif := upd s1.wNotif M (s1.wNotif M + 1) }, ?_, h2, ?_, h4, h5, h6, h7⟩
    · rw [List.range_succ, List.map_append, exec_append h1]
      simp [exec, step, h2]
    · intro k hk
      by_cases e : k = M
      · subst e; simp
      · simp only [upd_other _ _ e]; exact h3 k (by omega)

/-- C53: `join` can always make its calls of `done()`; afterwards all queues and waiters are done, and nothing else has changed. -/
theorem c53_join_calls {N limit : Nat} {s : St} (hj : s.joining = false) {W : Nat} (hW : s.nth ≤ N + W) :
    ∃ s', exec N limit s (joinCalls N W) = some s' ∧ Joined N s' ∧ s'.th = s.th ∧ s'.nth = s.nth ∧
      (∀ k, (s'.q k).items = (s.q k).items) ∧ s'.trace = s.trace ++ [.join] := by
  obtain ⟨s1, h1, h2, h3, h4, h5, h6, -, h8⟩ := doneQ_calls (N := N) (limit := limit) N
    (s := { s with joining := true, trace := s.trace ++ [.join] }) (Nat.le_refl _) rfl
  obtain ⟨s2, g1, g2, g3, g4, g5, g6, g7⟩ := doneW_calls (N := N) (limit := limit) W (s := s1) h2
  refine ⟨s2, ?_, ⟨g2, fun k hk => by rw [g7]; exact h3 k hk, fun j hj' => g3 j ?_⟩, by rw [g5, h5], by rw [g4, h4],
    fun k => by rw [g7]; exact h8 k, by rw [g6, h6]⟩
  · have e : step N limit s .join = some { s with joining := true, trace := s.trace ++ [.join] } := by simp [step, hj]
    simp only [joinCalls, exec, e]
    rw [exec_append h1, g1]
  · rw [g4, h4] at hj'; simp only at hj'; omega

/-- C53: `join` returns. Once it has called `done()` on the queues and waiters, the pool makes only a bounded number of steps, whatever
the order — tasks that are running, being submitted or queued included — unless new tasks are submitted. -/
theorem c53_join_bounded {N limit : Nat} (hN : 0 < N) {s : St} (h : Reachable N limit s) (hj : Joined N s) :
    ∃ B, ∀ as s', (∀ a ∈ as, Inside a) → exec N limit s as = some s' → as.length ≤ B ∧ Joined N s' := by
  obtain ⟨as0, h0⟩ := h
  obtain ⟨J, hJ⟩ := finite_exec (J := 0) (by simp [init]) h0
  have I := inv_exec hN (inv_init N) h0
  refine ⟨left N J s, fun as s' ha he => ?_⟩
  obtain ⟨L, hl⟩ := late_exec hN I ⟨hj, hJ⟩ ha he
  exact ⟨by omega, L.toJoined⟩

/-- C53: and it does not stop before all threads have ended: as long as one has not, it can go on, or a notification for it is coming,
or it is executing a task (which may end). -/
theorem c53_join_not_stuck {N limit : Nat} (hN : 0 < N) {s : St} (h : Reachable N limit s) (hj : Joined N s) {i : Nat}
    (hi : i < s.nth) (hx : s.th i ≠ .exited) : ∃ a s', Inside a ∧ step N limit s a = some s' ∧ s'.th i ≠ s.th i := by
  have I := h.inv hN
  cases ht : s.th i with
  | scan n =>
    by_cases hn : n = N
    · subst hn
      by_cases hin : i < n
      · refine ⟨.enter i, _, trivial, (by simp only [step, hi, ht, hin, and_self, if_true]; rfl), ?_⟩
        simp only [evalPop, upd_same, hj.queues i hin]
        split
        · simp_all
        · split <;> simp
      · refine ⟨.enter i, _, trivial, (by simp only [step, hi, ht, hin, and_self, if_true, if_false]; rfl), ?_⟩
        simp only [evalWait, upd_same, hj.waiters (i - n) (by omega)]
        simp
    · exact ⟨.tryPop i false, { s with th := upd s.th i (.scan (n + 1)) }, trivial, by simp [step, hi, ht, hn], by simp⟩
  | asleep =>
    by_cases hin : i < N
    · have h1 : 0 < s.notif i := by
        rcases I.wake.q i hin ht with h1 | h1
        · simp [hj.queues i hin] at h1
        · exact h1
      refine ⟨.notify i, _, trivial, (by simp only [step, hin, h1, and_self, if_true, ht]; rfl), ?_⟩; simp
    · have e : N + (i - N) = i := by omega
      have h1 : 0 < s.wNotif (i - N) := by
        rcases I.wake.w (i - N) (by rw [e]; exact ht) with h1 | h1
        · simp [hj.waiters (i - N) (by omega)] at h1
        · exact h1
      refine ⟨.wNotify (i - N), _, trivial, (by simp only [step, h1, if_true, e, ht]; rfl), ?_⟩; simp
  | awake =>
    by_cases hin : i < N
    · refine ⟨.resume i, _, trivial, (by simp only [step, hi, ht, hin, and_self, if_true]; rfl), ?_⟩
      simp only [evalPop, hj.queues i hin]
      split
      · simp_all
      · split <;> simp
    · refine ⟨.resume i, _, trivial, (by simp only [step, hi, ht, hin, and_self, if_true, if_false]; rfl), ?_⟩
      simp only [evalWait, hj.waiters (i - N) (by omega)]
      simp
  | calling t => refine ⟨.finish i, _, trivial, (by simp only [step, hi, ht, if_true]; rfl), ?_⟩; simp
  | exited => exact absurd ht hx

def beforeJoin : List Act :=
  [.addThread, .addThread, .tryPop 0 true, .enter 0, .tryPop 1 true, .enter 1, .submit 1 0, .tryPush 0 true, .tryPop 2 true,
   .submit 1 0, .tryPush 0 true]

def beforeJoinEnd : St := (exec 1 9 (init 1) beforeJoin).getD (init 1)

/-- A worker and an expansion thread asleep, a task running on a third thread, one queued; then `join`. -/
example : ∃ s, Reachable 1 9 s ∧ Joined 1 s ∧ s.nth = 3 ∧ s.th 0 = .asleep ∧ s.th 1 = .asleep ∧ s.th 2 = .calling 0 ∧
    (s.q 0).items ≠ [] := by
  obtain ⟨s, h1, h2, h3, h4, h5, -⟩ := c53_join_calls (N := 1) (limit := 9) (s := beforeJoinEnd) rfl (W := 8) (by decide)
  have h0 : exec 1 9 (init 1) beforeJoin = some beforeJoinEnd := rfl
  refine ⟨s, ⟨beforeJoin ++ joinCalls 1 8, by rw [exec_append h0]; exact h1⟩, h2, h4, ?_, ?_, ?_, ?_⟩
  · rw [h3]; rfl
  · rw [h3]; rfl
  · rw [h3]; rfl
  · rw [h5]; decide

end Verif.ThreadPool
