import Verif.PoolThreads

/-!
# C62: threads of the pool
-/

namespace Verif.PoolThreads

variable {c limit : Nat} {late : Bool} {s s' : St}

/-! ## Sizes -/

/-- **C62**, sizes: there is at least one worker, the limit is odd and exceeds four times
the number of cores, and the number of waiters `_thread_limit - _count` (line 344) does not wrap around. -/
theorem c62_sizes (max hw h : Nat) (hh : hardwareConcurrency max hw = some h) :
    1 ≤ h ∧ 1 ≤ count h ∧ count h < threadLimit h ∧ 4 * h < threadLimit h ∧ threadLimit h % 2 = 1 ∧
      (0 < hw → h ≤ hw) ∧ (0 < max → h ≤ max) := by
  have h1 : 1 ≤ h ∧ (0 < hw → h ≤ hw) ∧ (0 < max → h ≤ max) := by
    simp only [hardwareConcurrency, clamp] at hh
    repeat' split at hh
    all_goals cases hh
    all_goals refine ⟨?_, ?_, ?_⟩ <;> first | omega | (simp only [Nat.max_def]; split <;> omega)
  refine ⟨h1.1, ?_, ?_, ?_, ?_, h1.2⟩ <;> simp only [count, threadLimit, Nat.max_def] <;> split <;> (try split) <;> omega

/-- Eight cores, no maximum; then a maximum of two. -/
example : hardwareConcurrency 0 8 = some 8 ∧ count 8 = 7 ∧ threadLimit 8 = 33 ∧ hardwareConcurrency 2 8 = some 2 :=
  ⟨rfl, rfl, rfl, rfl⟩

/-- **C62** fails in that the sizes are always defined: if a maximum is set and the number of cores is unknown, line 324 calls
`std::clamp` with bounds 1 and 0. -/
theorem c62_sizes_counterexample (max : Nat) (h : 0 < max) : hardwareConcurrency max 0 = none := by
  simp [hardwareConcurrency, h, clamp]

/-- **C62**, otherwise they are defined. -/
theorem c62_sizes_partial (max hw : Nat) (h : max = 0 ∨ 0 < hw) : ∃ k, hardwareConcurrency max hw = some k := by
  simp only [hardwareConcurrency, clamp]
  repeat' split
  all_goals first | exact ⟨_, rfl⟩ | omega

/-- A maximum of one with four cores. -/
example : (1 = 0 ∨ 0 < 4) ∧ hardwareConcurrency 1 4 = some 1 := ⟨.inr (by decide), rfl⟩

/-! ## The limit -/

structure Inv (c limit : Nat) (s : St) : Prop where
  le : s.n ≤ limit
  co : c ≤ s.n
  nn : ∀ i, s.pc i = .none ↔ s.n ≤ i

theorem Inv.step (h : Inv c limit s) {a : Act} (hs : step c limit s a = .ok s') : Inv c limit s' := by
  obtain ⟨le, co, nn⟩ := h
  cases a <;> simp only [PoolThreads.step] at hs <;> (repeat' split at hs) <;> cases hs <;>
    refine ⟨?_, ?_, ?_⟩ <;> grind [upd]

theorem inv (hc : c ≤ limit) (h : Reachable c limit late s) : Inv c limit s := by
  induction h with
  | init => exact ⟨hc, Nat.le_refl _, fun i => by simp only [init]; split <;> simp <;> omega⟩
  | step _ hs _ ih => exact ih.step hs

/-- How many of the first `n` threads have been created. -/
def created (s : St) : Nat → Nat
  | 0 => 0
  | n + 1 => created s n + if s.pc n = .none then 0 else 1

theorem created_le (h : ∀ i, s.pc i = .none ↔ s.n ≤ i) : ∀ n, created s n = min n s.n
  | 0 => by simp [created]
  | n + 1 => by
    have := h n
    simp only [created, created_le h n]
    split <;> grind

/-- **C62**, the limit: the pool never has more threads than the limit, and never fewer than the workers. -/
theorem c62_limit (hc : c ≤ limit) (h : Reachable c limit late s) (n : Nat) (hn : limit ≤ n) :
    c ≤ created s n ∧ created s n ≤ limit := by
  have hI := inv hc h
  have := hI.le
  have := hI.co
  rw [created_le hI.nn]
  omega

/-- **C62**, waiters: every expansion thread has a waiter of its own. -/
theorem c62_waiter (hc : c ≤ limit) (h : Reachable c limit late s) (i : Nat) (hi : s.pc i ≠ .none) (hw : c ≤ i) :
    i - c < limit - c := by
  have hI := inv hc h
  have := mt (hI.nn i).2 hi
  have := hI.le
  omega

/-! ## The end of the threads -/

structure JInv (c : Nat) (s : St) : Prop where
  jn : ∀ i, s.joined i = true → s.pc i = .exited
  jj : ∀ k m, s.jp = .join k m → m = s.n ∧ k ≤ m ∧ ∀ i < k, s.joined i = true
  cl : s.jp = .cleared → ∀ i < s.n, s.joined i = true

theorem JInv.step (hI : Inv c limit s) (h : JInv c s) {a : Act} (hs : step c limit s a = .ok s')
    (ha : a = .add → s.jp = .idle) : JInv c s' := by
  obtain ⟨le, co, nn⟩ := hI
  obtain ⟨jn, jj, cl⟩ := h
  cases a with
  | join =>
    simp only [PoolThreads.step] at hs
    split at hs
    case h_3 k m hk =>
      obtain ⟨h1, h2, h3⟩ := jj k m hk
      (repeat' split at hs) <;> cases hs
      · refine ⟨?_, ?_, ?_⟩ <;> grind [upd]
      · refine ⟨?_, ?_, ?_⟩ <;> grind [upd]
    all_goals cases hs
    all_goals refine ⟨?_, ?_, ?_⟩ <;> grind [upd]
  | _ =>
    simp only [PoolThreads.step] at hs
    (repeat' split at hs) <;> cases hs <;> refine ⟨?_, ?_, ?_⟩ <;> grind [upd]

theorem jinv (hc : c ≤ limit) (h : Reachable c limit false s) : JInv c s := by
  induction h with
  | init => exact ⟨fun i hi => (by cases hi), fun k m hk => (by cases hk), fun hk => (by cases hk)⟩
  | step h hs ha ih => exact ih.step (inv hc h) hs (ha rfl)

/-- **C62**, the end: if `add_thread` is not called any more once `join` has been called, then after `join` every thread has
ended and has been joined, and no thread ever uses a queue or a waiter that does not exist.

Missing: that this is so whenever `add_thread` is called, see `c62_join_counterexample`. -/
theorem c62_join_partial (hc : c ≤ limit) (h : Reachable c limit false s) :
    (s.jp = .cleared → ∀ i, s.pc i = .none ∨ (s.pc i = .exited ∧ s.joined i = true)) ∧ ∀ a, step c limit s a ≠ .ub := by
  have hI := inv hc h
  have hJ := jinv hc h
  have h1 : s.jp = .cleared → ∀ i, s.pc i = .none ∨ (s.pc i = .exited ∧ s.joined i = true) := by
    intro hj i
    by_cases hi : i < s.n
    · exact .inr ⟨hJ.jn i (hJ.cl hj i hi), hJ.cl hj i hi⟩
    · exact .inl ((hI.nn i).2 (by omega))
  refine ⟨h1, fun a ha => ?_⟩
  have := hI.le
  have := hI.nn
  cases a <;> simp only [step] at ha <;> (repeat' split at ha) <;> grind

theorem exec_reachable : ∀ {as : List Act} {s s' : St}, Reachable c limit true s → exec c limit s as = .ok s' → Reachable c limit true s'
  | [], _, _, h, he => by simp only [exec, Out.ok.injEq] at he; exact he ▸ h
  | a :: as, s, _, h, he => by
    simp only [exec] at he
    split at he
    · exact exec_reachable (h.step ‹_› (by simp)) he
    · rename_i o ho
      simp_all

/-- The step is allowed if `add_thread` must not be called once `join` has been. -/
def early (s : St) : Act → Bool
  | .add => s.jp = .idle
  | _ => true

def execEarly (c limit : Nat) (s : St) : List Act → Option St
  | [] => some s
  | a :: as => if early s a then match step c limit s a with
      | .ok s' => execEarly c limit s' as
      | _ => none
    else none

theorem execEarly_reachable : ∀ {as : List Act} {s s' : St}, Reachable c limit false s → execEarly c limit s as = some s' →
    Reachable c limit false s'
  | [], _, _, h, he => by simp only [execEarly, Option.some.injEq] at he; exact he ▸ h
  | a :: as, s, _, h, he => by
    simp only [execEarly] at he
    split at he
    · rename_i hea
      split at he
      · exact execEarly_reachable (h.step ‹_› (by rintro - rfl; simpa [early] using hea)) he
      · cases he
    · cases he

/-- A task waits while there is one worker, so a second thread is started; then both end. -/
def orderly : List Act := [.find 0, .add, .wait 1, .join, .join, .exit 1, .finish 0, .wait 0, .exit 0, .join, .join, .join]

/-- `c62_limit`, `c62_waiter`, `c62_join_partial` -/
example : ∃ s, Reachable 1 9 false s ∧ s.n = 2 ∧ s.jp = .cleared ∧ s.joined 1 = true :=
  ⟨((execEarly 1 9 (init 1) orderly).get rfl), execEarly_reachable .init (Option.some_get _).symm, rfl, rfl, rfl⟩

/-- **C62** fails in that all threads have ended after `join` (`_q.clear()` is line 390): a task that is still running when
`join` is called waits for a future, and a thread is added that `join` does not know of. It looks into the queues after they
have been destroyed; and if it ends before that, its `std::thread` is still joinable when the pool is destroyed. -/
theorem c62_join_counterexample :
    (∃ s, Reachable 1 9 true s ∧ s.jp = .cleared ∧ s.pc 1 = .scan ∧ step 1 9 s (.wait 1) = .ub) ∧
    ∃ s, Reachable 1 9 true s ∧ s.jp = .cleared ∧ s.pc 1 = .exited ∧ s.joined 1 = false := by
  refine ⟨⟨_, exec_reachable (as := [.find 0, .join, .join, .add, .finish 0, .wait 0, .exit 0, .join, .join]) .init rfl, rfl, rfl, rfl⟩,
    _, exec_reachable (as := [.find 0, .join, .join, .add, .wait 1, .exit 1, .finish 0, .wait 0, .exit 0, .join, .join]) .init rfl, rfl, rfl, rfl⟩

/-- **C62** fails in that `STLAB_TASK_POOL_MAXIMUM` is the maximum number of threads (README.md line 80): the limit is at least 9
whatever the maximum is, and tasks that wait make the pool grow up to that. -/
theorem c62_maximum_counterexample (max hw h : Nat) (hm : 0 < max) (hm9 : max < 9) (hh : hardwareConcurrency max hw = some h) :
    ∃ s, Reachable (count h) (threadLimit h) false s ∧ max < created s s.n := by
  have hs := c62_sizes max hw h hh
  have key : ∀ k, count h + k ≤ threadLimit h → ∃ s, Reachable (count h) (threadLimit h) false s ∧ s.n = count h + k ∧ s.jp = .idle := by
    intro k
    induction k with
    | zero => exact fun _ => ⟨_, .init, rfl, rfl⟩
    | succ k ih =>
      intro hk
      obtain ⟨s, hr, hn, hj⟩ := ih (by omega)
      refine ⟨{ s with n := s.n + 1, pc := upd s.pc s.n .scan }, hr.step (a := .add) ?_ (fun _ _ => hj), by simp [hn]; omega, hj⟩
      simp only [step]
      rw [if_neg (by omega)]
  obtain ⟨s, hr, hn, -⟩ := key (threadLimit h - count h) (by omega)
  refine ⟨s, hr, ?_⟩
  rw [created_le (inv (by omega) hr).nn]
  have : 9 ≤ threadLimit h := by simp [threadLimit, Nat.max_def]; split <;> omega
  omega

/-- A maximum of one. -/
example : 0 < 1 ∧ 1 < 9 ∧ hardwareConcurrency 1 4 = some 1 := by decide

end Verif.PoolThreads
