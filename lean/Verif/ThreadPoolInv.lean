import Verif.ThreadPool

/-!
# Invariants of the thread pool
-/

namespace Verif.ThreadPool

open Verif.NotificationQueue

@[simp] theorem upd_same {α : Type} (f : Nat → α) (k : Nat) (v : α) : upd f k v k = v := by simp [upd]

theorem upd_other {α : Type} (f : Nat → α) {k i : Nat} (v : α) (h : i ≠ k) : upd f k v i = f i := by
  simp [upd, h]

/-! ## Sums over indices -/

/-- `f 0 + ... + f (n-1)`. -/
def sumTo : Nat → (Nat → Nat) → Nat
  | 0, _ => 0
  | n + 1, f => sumTo n f + f n

theorem sumTo_congr {f g : Nat → Nat} : ∀ {n : Nat}, (∀ i < n, f i = g i) → sumTo n f = sumTo n g
  | 0, _ => rfl
  | n + 1, h => by
    simp only [sumTo]
    rw [sumTo_congr fun i hi => h i (by omega), h n (by omega)]

theorem sumTo_upd {α : Type} (g : α → Nat) (f : Nat → α) (v : α) (k : Nat) : ∀ {n : Nat}, k < n →
    sumTo n (fun i => g (upd f k v i)) + g (f k) = sumTo n (fun i => g (f i)) + g v
  | 0, h => by omega
  | n + 1, h => by
    simp only [sumTo]
    by_cases hk : k = n
    · subst hk
      have : sumTo k (fun i => g (upd f k v i)) = sumTo k fun i => g (f i) :=
        sumTo_congr fun i hi => by rw [upd_other _ _ (by omega)]
      rw [this, upd_same]; omega
    · have := sumTo_upd g f v k (n := n) (by omega)
      rw [upd_other f v (show n ≠ k by omega)]; omega

theorem le_sumTo {f : Nat → Nat} {k : Nat} : ∀ {n : Nat}, k < n → f k ≤ sumTo n f
  | 0, h => by omega
  | n + 1, h => by
    simp only [sumTo]
    by_cases hk : k = n
    · subst hk; omega
    · have := le_sumTo (f := f) (k := k) (n := n) (by omega); omega

theorem sumTo_pos {f : Nat → Nat} : ∀ {n : Nat}, 0 < sumTo n f → ∃ k < n, 0 < f k
  | 0, h => by simp [sumTo] at h
  | n + 1, h => by
    simp only [sumTo] at h
    by_cases h1 : 0 < f n
    · exact ⟨n, by omega, h1⟩
    · obtain ⟨k, hk, hf⟩ := sumTo_pos (f := f) (n := n) (by omega)
      exact ⟨k, by omega, hf⟩

theorem sumTo_zero {f : Nat → Nat} {n : Nat} (h : ∀ i < n, f i = 0) : sumTo n f = 0 := by
  cases hn : sumTo n f with
  | zero => rfl
  | succ m =>
    obtain ⟨k, hk, hf⟩ := sumTo_pos (f := f) (n := n) (by omega)
    have := h k hk; omega

/-! ## Counting -/

/-- Number of times task `t` waits in a queue. -/
def queued (t : Nat) (q : NQ) : Nat := q.items.countP fun e => e.task == t

/-- 1 if the thread is calling task `t`. -/
def calls (t : Nat) (pc : Pc) : Nat := if pc = .calling t then 1 else 0

def isSubmit (t : Nat) : Event → Bool
  | .submit u => u == t
  | _ => false

def isAccept (t : Nat) : Event → Bool
  | .accept u => u == t
  | _ => false

def isStart (t : Nat) : Event → Bool
  | .start _ u => u == t
  | _ => false

def isFinish (t : Nat) : Event → Bool
  | .finish u => u == t
  | _ => false

theorem queued_push (t u p : Nat) (q : NQ) :
    queued t (push u p q) = queued t q + if u = t then 1 else 0 := by
  simp [queued, push, List.countP_append, List.countP_cons]

theorem popNotEmpty_eq {q q' : NQ} {e : Elem} (h : popNotEmpty q = some (e, q')) :
    e ∈ q.items ∧ q' = { q with items := q.items.erase e } := by
  simp only [popNotEmpty] at h
  split at h
  · simp at h
  · rename_i e0 hf
    simp only [Option.some.injEq, Prod.mk.injEq] at h
    obtain ⟨rfl, rfl⟩ := h
    exact ⟨front_mem hf, rfl⟩

theorem queued_pop (t : Nat) {q q' : NQ} {e : Elem} (h : popNotEmpty q = some (e, q')) :
    queued t q = queued t q' + if e.task = t then 1 else 0 := by
  obtain ⟨hm, rfl⟩ := popNotEmpty_eq h
  have := (List.perm_cons_erase hm).countP_eq fun e => e.task == t
  simp only [queued]
  rw [this, List.countP_cons]
  simp

/-- Where every task is. -/
structure Counts (N : Nat) (s : St) : Prop where
  submit : ∀ t, s.trace.countP (isSubmit t) = if t < s.next then 1 else 0
  pushing : ∀ t, s.trace.countP (isSubmit t) =
    s.pushing.countP (fun p => p.task == t) + s.trace.countP (isAccept t)
  queue : ∀ t, s.trace.countP (isAccept t) =
    sumTo N (fun k => queued t (s.q k)) + s.trace.countP (isStart t)
  call : ∀ t, s.trace.countP (isStart t) =
    sumTo s.nth (fun i => calls t (s.th i)) + s.trace.countP (isFinish t)
  nth : N ≤ s.nth

theorem counts_init (N : Nat) : Counts N (init N) := by
  refine ⟨by simp [init], by simp [init], ?_, ?_, Nat.le_refl _⟩
  · intro t
    simp only [init, List.countP_nil, Nat.add_zero]
    exact (sumTo_zero (fun i _ => by simp [queued])).symm
  · intro t
    simp only [init, List.countP_nil, Nat.add_zero]
    exact (sumTo_zero (fun i _ => by simp [calls])).symm

/-- Threads changing state without starting or finishing anything. -/
theorem counts_th {N : Nat} {s : St} (C : Counts N s) {i : Nat} {pc : Pc}
    (h0 : ∀ t, s.th i ≠ .calling t) (h1 : ∀ t, pc ≠ .calling t) : ∀ t,
    s.trace.countP (isStart t) =
      sumTo s.nth (fun j => calls t (upd s.th i pc j)) + s.trace.countP (isFinish t) := by
  intro t
  rw [C.call t]
  congr 1
  apply sumTo_congr
  intro j _
  by_cases hj : j = i
  · subst hj; simp [calls, h0 t, h1 t]
  · rw [upd_other _ _ hj]

theorem counts_q {N : Nat} {s : St} (C : Counts N s) {k : Nat} {v : NQ} (h : v.items = (s.q k).items) : ∀ t,
    s.trace.countP (isAccept t) = sumTo N (fun j => queued t (upd s.q k v j)) + s.trace.countP (isStart t) := by
  intro t
  rw [C.queue t]
  congr 1
  apply sumTo_congr
  intro j _
  by_cases hj : j = k
  · subst hj; simp [queued, h]
  · rw [upd_other _ _ hj]

/-- A thread takes a task from a queue. -/
theorem counts_take {N : Nat} {s : St} (C : Counts N s) {i k : Nat} {v q' : NQ} {e : Elem} (hk : k < N)
    (hi : i < s.nth) (hv : v.items = (s.q k).items) (hp : popNotEmpty v = some (e, q'))
    (h0 : ∀ t, s.th i ≠ .calling t) :
    Counts N { s with q := upd s.q k q', th := upd s.th i (.calling e.task),
                      trace := s.trace ++ [.start i e.task] } := by
  refine ⟨?_, ?_, ?_, ?_, C.nth⟩
  · intro t; simpa [List.countP_append, isSubmit] using C.submit t
  · intro t; simpa [List.countP_append, isSubmit, isAccept] using C.pushing t
  · intro t
    have h1 := C.queue t
    have h2 := sumTo_upd (queued t) s.q q' k hk
    have h3 := queued_pop t hp
    have h4 : queued t v = queued t (s.q k) := by simp [queued, hv]
    simp only [List.countP_append, List.countP_cons, List.countP_nil, isAccept, isStart, beq_iff_eq]
    simp only [Bool.false_eq_true, if_false, Nat.add_zero, Nat.zero_add] at *
    omega
  · intro t
    have h1 := C.call t
    have h2 := sumTo_upd (calls t) s.th (.calling e.task) i hi
    have h3 : calls t (s.th i) = 0 := by simp [calls, h0 t]
    have h4 : calls t (.calling e.task) = if e.task = t then 1 else 0 := by simp [calls]
    simp only [List.countP_append, List.countP_cons, List.countP_nil, isStart, isFinish, beq_iff_eq]
    simp only [Bool.false_eq_true, if_false, Nat.add_zero, Nat.zero_add] at *
    omega

theorem counts_evalPop {N : Nat} {s : St} (C : Counts N s) {i : Nat} (hi : i < N)
    (h0 : ∀ t, s.th i ≠ .calling t) : Counts N (evalPop s i) := by
  have hin : i < s.nth := Nat.lt_of_lt_of_le hi C.nth
  unfold evalPop
  split
  · exact ⟨C.submit, C.pushing, C.queue, counts_th C h0 (by simp), C.nth⟩
  · split
    · refine ⟨C.submit, C.pushing, counts_q C rfl, counts_th C h0 ?_, C.nth⟩
      intro t; split <;> simp
    · rename_i e q' hp
      exact counts_take (v := { s.q i with waiting := false }) C hi hin rfl hp h0

theorem counts_evalWait {N : Nat} {s : St} (C : Counts N s) {i : Nat}
    (h0 : ∀ t, s.th i ≠ .calling t) : Counts N (evalWait N s i) := by
  unfold evalWait
  split
  · exact ⟨C.submit, C.pushing, C.queue, counts_th C h0 (by simp), C.nth⟩
  · refine ⟨C.submit, C.pushing, C.queue, counts_th C h0 ?_, C.nth⟩
    intro t; split <;> simp

theorem countP_eraseIdx {α : Type} (f : α → Bool) : ∀ {l : List α} {j : Nat} {p : α}, l[j]? = some p →
    l.countP f = (l.eraseIdx j).countP f + if f p then 1 else 0
  | [], j, p, h => by simp at h
  | a :: l, 0, p, h => by simp at h; subst h; simp [List.countP_cons]
  | a :: l, j + 1, p, h => by
    simp only [List.getElem?_cons_succ] at h
    simp only [List.eraseIdx_cons_succ, List.countP_cons]
    rw [countP_eraseIdx f h]; omega

theorem counts_pushTo {N : Nat} {s : St} (C : Counts N s) {j k : Nat} {p : Push} (hk : k < N)
    (hj : s.pushing[j]? = some p) : Counts N (pushTo s j p k) := by
  refine ⟨?_, ?_, ?_, ?_, C.nth⟩
  · intro t
    show List.countP (isSubmit t) (s.trace ++ [.accept p.task]) = if t < s.next then 1 else 0
    rw [List.countP_append, C.submit t]; simp [isSubmit]
  · intro t
    have h1 := C.pushing t
    have h2 := countP_eraseIdx (fun p => p.task == t) hj
    simp only [pushTo, List.countP_append, List.countP_cons, List.countP_nil, isAccept, isSubmit, beq_iff_eq]
    simp only [Bool.false_eq_true, if_false, Nat.add_zero, Nat.zero_add, beq_iff_eq] at *
    omega
  · intro t
    have h1 := C.queue t
    have h2 := sumTo_upd (queued t) s.q (push p.task p.prio (s.q k)) k hk
    have h3 := queued_push t p.task p.prio (s.q k)
    simp only [pushTo, List.countP_append, List.countP_cons, List.countP_nil, isAccept, isStart, beq_iff_eq]
    simp only [Bool.false_eq_true, if_false, Nat.add_zero, Nat.zero_add] at *
    omega
  · intro t; simpa [pushTo, List.countP_append, isStart, isFinish] using C.call t

theorem countP_set {α : Type} (f : α → Bool) : ∀ {l : List α} {j : Nat} {p p' : α}, l[j]? = some p →
    f p' = f p → (l.set j p').countP f = l.countP f
  | [], j, p, p', h, hf => by simp at h
  | a :: l, 0, p, p', h, hf => by simp at h; subst h; simp [List.countP_cons, hf]
  | a :: l, j + 1, p, p', h, hf => by
    simp only [List.getElem?_cons_succ] at h
    simp only [List.set_cons_succ, List.countP_cons]
    rw [countP_set f h hf]

theorem counts_step {N limit : Nat} (hN : 0 < N) {s s' : St} (C : Counts N s) {a : Act}
    (h : step N limit s a = some s') : Counts N s' := by
  cases a with
  | submit prio i =>
    simp only [step] at h
    split at h
    · simp only [Option.some.injEq] at h; subst h
      refine ⟨?_, ?_, ?_, ?_, C.nth⟩
      · intro t
        have := C.submit t
        simp only [List.countP_append, List.countP_cons, List.countP_nil, isSubmit, beq_iff_eq]
        rw [this]
        repeat' split
        all_goals omega
      · intro t
        have := C.pushing t
        simp only [List.countP_append, List.countP_cons, List.countP_nil, isSubmit, isAccept, beq_iff_eq] at *
        simp
        omega
      · intro t; simpa [List.countP_append, isAccept, isStart] using C.queue t
      · intro t; simpa [List.countP_append, isStart, isFinish] using C.call t
    · simp at h
  | tryPush j locked =>
    simp only [step] at h
    split at h
    · simp at h
    · rename_i p hj
      split at h
      · simp at h
      · split at h
        · simp only [Option.some.injEq] at h; subst h
          exact counts_pushTo C (Nat.mod_lt _ hN) hj
        · simp only [Option.some.injEq] at h; subst h
          refine ⟨C.submit, ?_, C.queue, C.call, C.nth⟩
          intro t
          have e := countP_set (fun p : Push => p.task == t) (p' := { p with n := p.n + 1 }) hj rfl
          dsimp only
          rw [e]
          exact C.pushing t
  | push j =>
    simp only [step] at h
    split at h
    · simp at h
    · rename_i p hj
      split at h
      · simp only [Option.some.injEq] at h; subst h
        exact counts_pushTo C (Nat.mod_lt _ hN) hj
      · simp at h
  | notify k =>
    simp only [step] at h
    split at h
    · simp only [Option.some.injEq] at h; subst h
      refine ⟨C.submit, C.pushing, C.queue, ?_, C.nth⟩
      dsimp only
      split
      · rename_i ha; exact counts_th C (by simp [ha]) (by simp)
      · exact C.call
    · simp at h
  | tryPop i locked =>
    simp only [step] at h
    split at h
    · rename_i hi
      split at h
      · rename_i n hn
        split at h
        · simp at h
        · split at h
          · split at h
            · simp only [Option.some.injEq] at h; subst h
              exact ⟨C.submit, C.pushing, C.queue, counts_th C (by simp [hn]) (by simp), C.nth⟩
            · rename_i e q' hp
              simp only [Option.some.injEq] at h; subst h
              exact counts_take C (Nat.mod_lt _ hN) hi rfl hp (by simp [hn])
          · simp only [Option.some.injEq] at h; subst h
            exact ⟨C.submit, C.pushing, C.queue, counts_th C (by simp [hn]) (by simp), C.nth⟩
      · simp at h
    · simp at h
  | enter i =>
    simp only [step] at h
    split at h
    · rename_i hi
      split at h
      · rename_i hiN
        simp only [Option.some.injEq] at h; subst h
        refine counts_evalPop (N := N) ?_ hiN (by simp [hi.2])
        exact ⟨C.submit, C.pushing, counts_q C rfl, C.call, C.nth⟩
      · simp only [Option.some.injEq] at h; subst h
        refine counts_evalWait (N := N) ?_ (by simp [hi.2])
        exact ⟨C.submit, C.pushing, C.queue, C.call, C.nth⟩
    · simp at h
  | spurious i =>
    simp only [step] at h
    split at h
    · rename_i hi
      simp only [Option.some.injEq] at h; subst h
      exact ⟨C.submit, C.pushing, C.queue, counts_th C (by simp [hi.2]) (by simp), C.nth⟩
    · simp at h
  | resume i =>
    simp only [step] at h
    split at h
    · rename_i hi
      split at h
      · rename_i hiN
        simp only [Option.some.injEq] at h; subst h
        exact counts_evalPop C hiN (by simp [hi.2])
      · simp only [Option.some.injEq] at h; subst h
        exact counts_evalWait C (by simp [hi.2])
    · simp at h
  | finish i =>
    simp only [step] at h
    split at h
    · rename_i hi
      split at h
      · rename_i u hu
        simp only [Option.some.injEq] at h; subst h
        refine ⟨?_, ?_, ?_, ?_, C.nth⟩
        · intro t; simpa [List.countP_append, isSubmit] using C.submit t
        · intro t; simpa [List.countP_append, isSubmit, isAccept] using C.pushing t
        · intro t; simpa [List.countP_append, isAccept, isStart] using C.queue t
        · intro t
          have h1 := C.call t
          have h2 := sumTo_upd (calls t) s.th (.scan 0) i hi
          have h3 : calls t (s.th i) = if u = t then 1 else 0 := by simp [calls, hu]
          have h4 : calls t (.scan 0) = 0 := by simp [calls]
          simp only [List.countP_append, List.countP_cons, List.countP_nil, isStart, isFinish, beq_iff_eq]
          simp only [Bool.false_eq_true, if_false, Nat.add_zero, Nat.zero_add] at *
          omega
      · simp at h
    · simp at h
  | wakeQ k =>
    simp only [step] at h
    split at h
    · simp only [Option.some.injEq] at h; subst h
      exact ⟨C.submit, C.pushing, counts_q C rfl, C.call, C.nth⟩
    · simp at h
  | wakeW j =>
    simp only [step] at h
    split at h
    · simp only [Option.some.injEq] at h; subst h
      exact ⟨C.submit, C.pushing, C.queue, C.call, C.nth⟩
    · simp at h
  | wNotify j =>
    simp only [step] at h
    split at h
    · simp only [Option.some.injEq] at h; subst h
      refine ⟨C.submit, C.pushing, C.queue, ?_, C.nth⟩
      dsimp only
      split
      · rename_i ha; exact counts_th C (by simp [ha]) (by simp)
      · exact C.call
    · simp at h
  | addThread =>
    simp only [step] at h
    split at h
    · simp only [Option.some.injEq] at h; subst h
      refine ⟨C.submit, C.pushing, C.queue, ?_, Nat.le_succ_of_le C.nth⟩
      intro t
      rw [C.call t]
      simp only [sumTo, upd_same]
      have : sumTo s.nth (fun i => calls t (upd s.th s.nth (.scan 0) i)) = sumTo s.nth fun i => calls t (s.th i) :=
        sumTo_congr fun i hi => by rw [upd_other _ _ (by omega)]
      rw [this]
      simp [calls]
    · simp at h
  | join =>
    simp only [step] at h
    split at h
    · simp at h
    · simp only [Option.some.injEq] at h; subst h
      refine ⟨?_, ?_, ?_, ?_, C.nth⟩
      · intro t; simpa [List.countP_append, isSubmit] using C.submit t
      · intro t; simpa [List.countP_append, isSubmit, isAccept] using C.pushing t
      · intro t; simpa [List.countP_append, isAccept, isStart] using C.queue t
      · intro t; simpa [List.countP_append, isStart, isFinish] using C.call t
  | doneQ k =>
    simp only [step] at h
    split at h
    · simp only [Option.some.injEq] at h; subst h
      exact ⟨C.submit, C.pushing, counts_q C rfl, C.call, C.nth⟩
    · simp at h
  | doneW j =>
    simp only [step] at h
    split at h
    · simp only [Option.some.injEq] at h; subst h
      exact ⟨C.submit, C.pushing, C.queue, C.call, C.nth⟩
    · simp at h

/-! ## Wake-ups -/

/-- No thread sleeps through something it has to do. -/
structure Wake (N : Nat) (s : St) : Prop where
  q : ∀ k < N, s.th k = .asleep →
    ((s.q k).items = [] ∧ (s.q k).done = false ∧ (s.q k).waiting = true) ∨ 0 < s.notif k
  w : ∀ j, s.th (N + j) = .asleep → (s.wWaiting j = true ∧ s.wDone j = false) ∨ 0 < s.wNotif j
  scan : ∀ i n, s.th i = .scan n → n ≤ N
  push : ∀ p ∈ s.pushing, p.n ≤ N

theorem wake_init (N : Nat) : Wake N (init N) :=
  ⟨by simp [init], by simp [init], by simp [init], by simp [init]⟩

/-- A thread moves on to something other than sleeping. -/
theorem wake_th {N : Nat} {s : St} (W : Wake N s) {i : Nat} {pc : Pc} (h : pc ≠ .asleep)
    (hn : ∀ n, pc = .scan n → n ≤ N) : Wake N { s with th := upd s.th i pc } := by
  refine ⟨?_, ?_, ?_, W.push⟩
  · intro k hk ha
    by_cases e : k = i
    · subst e; simp only [upd_same] at ha; exact absurd ha h
    · simp only [upd_other _ _ e] at ha; exact W.q k hk ha
  · intro j ha
    by_cases e : N + j = i
    · subst e; simp only [upd_same] at ha; exact absurd ha h
    · simp only [upd_other _ _ e] at ha; exact W.w j ha
  · intro k n ha
    by_cases e : k = i
    · subst e; simp only [upd_same] at ha; exact hn n ha
    · simp only [upd_other _ _ e] at ha; exact W.scan k n ha

theorem wake_evalPop {N : Nat} {s : St} (W : Wake N s) {i : Nat} (hi : i < N) :
    Wake N (evalPop s i) := by
  unfold evalPop
  split
  · rename_i hc
    refine ⟨?_, ?_, ?_, W.push⟩
    · intro k hk ha
      by_cases e : k = i
      · subst e; exact Or.inl hc
      · simp only [upd_other _ _ e] at ha; exact W.q k hk ha
    · intro j ha
      simp only [upd_other s.th (i := N + j) .asleep (show N + j ≠ i by omega)] at ha
      exact W.w j ha
    · intro k n ha
      by_cases e : k = i
      · subst e; simp at ha
      · simp only [upd_other _ _ e] at ha; exact W.scan k n ha
  · split
    · have h1 := wake_th (N := N) W (i := i) (pc := if (s.q i).done then .exited else .scan 0)
        (by split <;> simp) (by intro n; split <;> simp; omega)
      refine ⟨?_, h1.w, h1.scan, h1.push⟩
      intro k hk ha
      by_cases e : k = i
      · subst e; simp only [upd_same] at ha; split at ha <;> simp at ha
      · simp only [upd_other _ _ e] at ha ⊢; exact W.q k hk ha
    · rename_i e0 q' hp
      have h1 := wake_th (N := N) W (i := i) (pc := .calling e0.task) (by simp) (by simp)
      refine ⟨?_, h1.w, h1.scan, h1.push⟩
      intro k hk ha
      by_cases e : k = i
      · subst e; simp at ha
      · simp only [upd_other _ _ e] at ha ⊢; exact W.q k hk ha

theorem wake_evalWait {N : Nat} {s : St} (W : Wake N s) {i : Nat} (hi : ¬ i < N) :
    Wake N (evalWait N s i) := by
  unfold evalWait
  split
  · rename_i hc
    refine ⟨?_, ?_, ?_, W.push⟩
    · intro k hk ha
      simp only [upd_other s.th (i := k) .asleep (show k ≠ i by omega)] at ha
      exact W.q k hk ha
    · intro j ha
      by_cases e : N + j = i
      · have : j = i - N := by omega
        subst this
        exact Or.inl hc
      · simp only [upd_other _ _ e] at ha; exact W.w j ha
    · intro k n ha
      by_cases e : k = i
      · subst e; simp at ha
      · simp only [upd_other _ _ e] at ha; exact W.scan k n ha
  · have h1 := wake_th (N := N) W (i := i) (pc := if s.wDone (i - N) then .exited else .scan 0)
      (by split <;> simp) (by intro n; split <;> simp; omega)
    refine ⟨h1.q, ?_, h1.scan, h1.push⟩
    intro j ha
    by_cases e : N + j = i
    · subst e; simp only [upd_same] at ha; split at ha <;> simp at ha
    · simp only [upd_other _ _ e] at ha
      have : j ≠ i - N := by omega
      simp only [upd_other _ _ this]
      exact W.w j ha

theorem wake_pushTo {N : Nat} {s : St} (W : Wake N s) {j k : Nat} {p : Push} : Wake N (pushTo s j p k) := by
  refine ⟨?_, W.w, W.scan, ?_⟩
  · intro i hi ha
    by_cases e : i = k
    · subst e; right; simp [pushTo]
    · simp only [pushTo, upd_other _ _ e]; exact W.q i hi ha
  · intro p hp
    exact W.push p (List.mem_of_mem_eraseIdx hp)

theorem wake_step {N limit : Nat} {s s' : St} (W : Wake N s) (hnth : N ≤ s.nth) {a : Act}
    (h : step N limit s a = some s') : Wake N s' := by
  cases a with
  | submit prio i =>
    simp only [step] at h
    split at h
    · simp only [Option.some.injEq] at h; subst h
      refine ⟨W.q, W.w, W.scan, ?_⟩
      intro p hp
      simp only [List.mem_append, List.mem_singleton] at hp
      rcases hp with hp | rfl
      · exact W.push p hp
      · simp
    · simp at h
  | tryPush j locked =>
    simp only [step] at h
    split at h
    · simp at h
    · rename_i p hj
      split at h
      · simp at h
      · rename_i hne
        split at h
        · simp only [Option.some.injEq] at h; subst h
          exact wake_pushTo W
        · simp only [Option.some.injEq] at h; subst h
          refine ⟨W.q, W.w, W.scan, ?_⟩
          intro p' hp'
          have hpm := W.push p (List.mem_of_getElem? hj)
          rcases List.mem_or_eq_of_mem_set hp' with hp' | rfl
          · exact W.push p' hp'
          · dsimp only; omega
  | push j =>
    simp only [step] at h
    split at h
    · simp at h
    · split at h
      · simp only [Option.some.injEq] at h; subst h
        exact wake_pushTo W
      · simp at h
  | notify k =>
    simp only [step] at h
    split at h
    · rename_i hk
      simp only [Option.some.injEq] at h; subst h
      split
      · have h1 := wake_th (N := N) W (i := k) (pc := .awake) (by simp) (by simp)
        refine ⟨?_, h1.w, h1.scan, h1.push⟩
        intro i hi ha
        by_cases e : i = k
        · subst e; simp at ha
        · simp only [upd_other _ _ e] at ha ⊢; exact W.q i hi ha
      · rename_i hna
        refine ⟨?_, W.w, W.scan, W.push⟩
        intro i hi ha
        by_cases e : i = k
        · subst e; exact absurd ha hna
        · simp only [upd_other _ _ e] at ha ⊢; exact W.q i hi ha
    · simp at h
  | tryPop i locked =>
    simp only [step] at h
    split at h
    · split at h
      · rename_i n hn
        have hb := W.scan i n hn
        split at h
        · simp at h
        · rename_i hne
          have h1 : Wake N { s with th := upd s.th i (.scan (n + 1)) } :=
            wake_th W (by simp) (by intro m hm; simp only [Pc.scan.injEq] at hm; omega)
          split at h
          · split at h
            · simp only [Option.some.injEq] at h; subst h; exact h1
            · rename_i e q' hp
              simp only [Option.some.injEq] at h; subst h
              have h2 := wake_th (N := N) W (i := i) (pc := .calling e.task) (by simp) (by simp)
              refine ⟨?_, h2.w, h2.scan, h2.push⟩
              intro k hk ha
              have hq := h2.q k hk ha
              dsimp only at hq ⊢
              by_cases ek : k = (i + n) % N
              · rcases hq with hq | hq
                · exfalso
                  have hm := (popNotEmpty_eq hp).1
                  rw [← ek, hq.1] at hm
                  simp at hm
                · exact Or.inr hq
              · rw [upd_other _ _ ek]; exact hq
          · simp only [Option.some.injEq] at h; subst h; exact h1
      · simp at h
    · simp at h
  | enter i =>
    simp only [step] at h
    split at h
    · rename_i hi
      split at h
      · rename_i hiN
        simp only [Option.some.injEq] at h; subst h
        refine wake_evalPop (N := N) ?_ hiN
        refine ⟨?_, W.w, W.scan, W.push⟩
        intro k hk ha
        by_cases e : k = i
        · subst e; simp only [hi.2] at ha; simp at ha
        · simp only [upd_other _ _ e]; exact W.q k hk ha
      · rename_i hiN
        simp only [Option.some.injEq] at h; subst h
        refine wake_evalWait (N := N) ?_ hiN
        refine ⟨W.q, ?_, W.scan, W.push⟩
        intro j ha
        by_cases e : N + j = i
        · subst e; simp only [hi.2] at ha; simp at ha
        · have : j ≠ i - N := by omega
          simp only [upd_other _ _ this]; exact W.w j ha
    · simp at h
  | spurious i =>
    simp only [step] at h
    split at h
    · simp only [Option.some.injEq] at h; subst h
      exact wake_th W (by simp) (by simp)
    · simp at h
  | resume i =>
    simp only [step] at h
    split at h
    · split at h
      · rename_i hiN
        simp only [Option.some.injEq] at h; subst h
        exact wake_evalPop W hiN
      · rename_i hiN
        simp only [Option.some.injEq] at h; subst h
        exact wake_evalWait W hiN
    · simp at h
  | finish i =>
    simp only [step] at h
    split at h
    · split at h
      · simp only [Option.some.injEq] at h; subst h
        have h1 := wake_th (N := N) W (i := i) (pc := .scan 0) (by simp) (by simp)
        exact ⟨h1.q, h1.w, h1.scan, h1.push⟩
      · simp at h
    · simp at h
  | wakeQ k =>
    simp only [step] at h
    split at h
    · simp only [Option.some.injEq] at h; subst h
      refine ⟨?_, W.w, W.scan, W.push⟩
      intro i hi ha
      by_cases e : i = k
      · subst e; right; simp
      · simp only [upd_other _ _ e]; exact W.q i hi ha
    · simp at h
  | wakeW j =>
    simp only [step] at h
    split at h
    · simp only [Option.some.injEq] at h; subst h
      refine ⟨W.q, ?_, W.scan, W.push⟩
      intro i ha
      by_cases e : i = j
      · subst e; right; simp
      · simp only [upd_other _ _ e]; exact W.w i ha
    · simp at h
  | wNotify j =>
    simp only [step] at h
    split at h
    · simp only [Option.some.injEq] at h; subst h
      split
      · have h1 := wake_th (N := N) W (i := N + j) (pc := .awake) (by simp) (by simp)
        refine ⟨h1.q, ?_, h1.scan, h1.push⟩
        intro i ha
        by_cases e : i = j
        · subst e; simp at ha
        · have hw := h1.w i ha
          simp only [upd_other _ _ e]; exact hw
      · rename_i hna
        refine ⟨W.q, ?_, W.scan, W.push⟩
        intro i ha
        by_cases e : i = j
        · subst e; exact absurd ha hna
        · simp only [upd_other _ _ e]; exact W.w i ha
    · simp at h
  | addThread =>
    simp only [step] at h
    split at h
    · simp only [Option.some.injEq] at h; subst h
      have h1 := wake_th (N := N) W (i := s.nth) (pc := .scan 0) (by simp) (by simp)
      exact ⟨h1.q, h1.w, h1.scan, h1.push⟩
    · simp at h
  | join =>
    simp only [step] at h
    split at h
    · simp at h
    · simp only [Option.some.injEq] at h; subst h
      exact ⟨W.q, W.w, W.scan, W.push⟩
  | doneQ k =>
    simp only [step] at h
    split at h
    · simp only [Option.some.injEq] at h; subst h
      refine ⟨?_, W.w, W.scan, W.push⟩
      intro i hi ha
      by_cases e : i = k
      · subst e; right; simp
      · simp only [upd_other _ _ e]; exact W.q i hi ha
    · simp at h
  | doneW j =>
    simp only [step] at h
    split at h
    · simp only [Option.some.injEq] at h; subst h
      refine ⟨W.q, ?_, W.scan, W.push⟩
      intro i ha
      by_cases e : i = j
      · subst e; right; simp
      · simp only [upd_other _ _ e]; exact W.w i ha
    · simp at h

/-! ## Shutdown -/

/-- Task `t` was accepted before `join` was called. -/
def Early (t : Nat) (tr : List Event) : Prop :=
  ∃ pre post, tr = pre ++ post ∧ Event.accept t ∈ pre ∧ Event.join ∉ pre

/-- Workers exit only once the tasks accepted before `join` have left their queue. -/
structure Shut (N : Nat) (s : St) : Prop where
  idle : s.joining = false → (∀ k, (s.q k).done = false) ∧ (∀ j, s.wDone j = false) ∧
    (∀ i, s.th i ≠ .exited) ∧ Event.join ∉ s.trace
  act : s.joining = true → Event.join ∈ s.trace
  early : ∀ t, Early t s.trace → ∀ k < N, 0 < queued t (s.q k) → s.th k ≠ .exited

theorem shut_init (N : Nat) : Shut N (init N) :=
  ⟨by simp [init], by simp [init], by simp [init]⟩

theorem early_append {t : Nat} {tr : List Event} {e : Event} (h : Early t (tr ++ [e])) :
    Early t tr ∨ (e = .accept t ∧ Event.join ∉ tr) := by
  obtain ⟨pre, post, he, ha, hj⟩ := h
  rcases List.eq_nil_or_concat post with rfl | ⟨post, x, rfl⟩
  · rw [List.append_nil] at he
    subst he
    have hj' : Event.join ∉ tr := fun h => hj (List.mem_append_left _ h)
    rcases List.mem_append.1 ha with ha | ha
    · exact Or.inl ⟨tr, [], by simp, ha, hj'⟩
    · simp only [List.mem_singleton] at ha
      exact Or.inr ⟨ha.symm, hj'⟩
  · rw [List.concat_eq_append, ← List.append_assoc] at he
    exact Or.inl ⟨pre, post, (List.append_inj' he rfl).1, ha, hj⟩

theorem Early.mem {t : Nat} {tr : List Event} (h : Early t tr) : Event.accept t ∈ tr := by
  obtain ⟨pre, post, rfl, ha, -⟩ := h
  exact List.mem_append_left _ ha

/-- Steps which exit no thread, queue nothing and set no flag. -/
theorem shut_frame {N : Nat} {s s' : St} (S : Shut N s) (hj : s'.joining = s.joining)
    (hd : ∀ k, (s'.q k).done = (s.q k).done) (hw : ∀ j, s'.wDone j = s.wDone j)
    (ht : ∀ i, s'.th i = .exited → s.th i = .exited)
    (hq : ∀ t, ∀ k < N, queued t (s'.q k) ≤ queued t (s.q k))
    (htr : s'.trace = s.trace ∨ ∃ e, s'.trace = s.trace ++ [e] ∧ (∀ t, e ≠ .accept t) ∧ e ≠ .join) :
    Shut N s' := by
  have hm : Event.join ∈ s'.trace ↔ Event.join ∈ s.trace := by
    rcases htr with htr | ⟨e, htr, -, hne⟩
    · rw [htr]
    · rw [htr]; simp [hne.symm]
  refine ⟨?_, ?_, ?_⟩
  · intro h
    obtain ⟨a, b, c, d⟩ := S.idle (hj ▸ h)
    exact ⟨fun k => by rw [hd, a], fun j => by rw [hw, b], fun i hi => c i (ht i hi), by rw [hm]; exact d⟩
  · intro h; rw [hm]; exact S.act (hj ▸ h)
  · intro t he k hk hpos hex
    have he' : Early t s.trace := by
      rcases htr with htr | ⟨e, htr, hna, -⟩
      · exact htr ▸ he
      · rw [htr] at he
        rcases early_append he with he | ⟨he, -⟩
        · exact he
        · exact absurd he (hna t)
    exact S.early t he' k hk (Nat.lt_of_lt_of_le hpos (hq t k hk)) (ht k hex)

theorem upd_q_done {s : St} {k : Nat} {v : NQ} (h : v.done = (s.q k).done) (i : Nat) :
    (upd s.q k v i).done = (s.q i).done := by
  by_cases e : i = k
  · subst e; simp [h]
  · rw [upd_other _ _ e]

theorem upd_q_le {s : St} {k : Nat} {v : NQ} (h : ∀ t, queued t v ≤ queued t (s.q k)) (t i : Nat) :
    queued t (upd s.q k v i) ≤ queued t (s.q i) := by
  by_cases e : i = k
  · subst e; simp [h]
  · rw [upd_other _ _ e]; exact Nat.le_refl _

theorem upd_th {s : St} {i : Nat} {pc : Pc} (h : pc ≠ .exited) (j : Nat)
    (hj : upd s.th i pc j = .exited) : s.th j = .exited := by
  by_cases e : j = i
  · subst e; simp only [upd_same] at hj; exact absurd hj h
  · rwa [upd_other _ _ e] at hj

/-- A thread moves on without exiting. -/
theorem shut_th {N : Nat} {s : St} (S : Shut N s) {i : Nat} {pc : Pc} (h : pc ≠ .exited) :
    Shut N { s with th := upd s.th i pc } :=
  shut_frame S rfl (fun _ => rfl) (fun _ => rfl) (upd_th h) (fun _ _ _ => Nat.le_refl _) (Or.inl rfl)

theorem shut_take {N : Nat} {s : St} (S : Shut N s) {i k : Nat} {v q' : NQ} {e : Elem}
    (hv : v.items = (s.q k).items) (hvd : v.done = (s.q k).done) (hp : popNotEmpty v = some (e, q')) :
    Shut N { s with q := upd s.q k q', th := upd s.th i (.calling e.task),
                    trace := s.trace ++ [.start i e.task] } := by
  refine shut_frame S rfl (upd_q_done ?_) (fun _ => rfl) (upd_th (by simp)) (fun t i _ => upd_q_le (k := k) ?_ t i)
    (Or.inr ⟨_, rfl, by simp, by simp⟩)
  · rw [(popNotEmpty_eq hp).2, ← hvd]
  · intro t
    have h1 := queued_pop t hp
    have h2 : queued t v = queued t (s.q k) := by simp [queued, hv]
    omega

theorem shut_evalPop {N : Nat} {s : St} (S : Shut N s) {i : Nat} : Shut N (evalPop s i) := by
  unfold evalPop
  split
  · exact shut_th S (by simp)
  · split
    · rename_i hp
      have hemp : (s.q i).items = [] := (c25_pop_some { s.q i with waiting := false }).1 hp
      refine ⟨?_, S.act, ?_⟩
      · intro h
        obtain ⟨a, b, c, d⟩ := S.idle h
        refine ⟨fun k => (upd_q_done (s := s) (k := i) (v := { s.q i with waiting := false }) rfl k).trans (a k), b, ?_, d⟩
        intro j hj
        refine c j (upd_th ?_ j hj)
        rw [a i]; simp
      · intro t he k hk hpos hex
        by_cases e : k = i
        · subst e
          simp only [upd_same, queued, hemp] at hpos
          simp at hpos
        · simp only [upd_other _ _ e] at hpos hex
          exact S.early t he k hk hpos hex
    · rename_i e q' hp
      exact shut_take (v := { s.q i with waiting := false }) S rfl rfl hp

theorem shut_evalWait {N : Nat} {s : St} (S : Shut N s) {i : Nat} (hi : ¬ i < N) : Shut N (evalWait N s i) := by
  unfold evalWait
  split
  · exact shut_th S (by simp)
  · refine ⟨?_, S.act, ?_⟩
    · intro h
      obtain ⟨a, b, c, d⟩ := S.idle h
      refine ⟨a, b, ?_, d⟩
      intro j hj
      refine c j (upd_th ?_ j hj)
      rw [b (i - N)]; simp
    · intro t he k hk hpos hex
      have e : k ≠ i := by omega
      simp only [upd_other _ _ e] at hex
      exact S.early t he k hk hpos hex

theorem mem_countP_pos {t : Nat} {tr : List Event} (h : Event.accept t ∈ tr) : 0 < tr.countP (isAccept t) :=
  List.countP_pos_iff.2 ⟨_, h, by simp [isAccept]⟩

theorem shut_pushTo {N : Nat} {s : St} (S : Shut N s) (C : Counts N s) {j k : Nat} {p : Push}
    (hj : s.pushing[j]? = some p) : Shut N (pushTo s j p k) := by
  refine ⟨?_, ?_, ?_⟩
  · intro h
    obtain ⟨a, b, c, d⟩ := S.idle h
    exact ⟨fun i => upd_q_done (s := s) (v := push p.task p.prio (s.q k)) rfl i ▸ a i, b, c, by simp [pushTo, d]⟩
  · intro h; simp only [pushTo]; exact List.mem_append_left _ (S.act h)
  · intro t he i hi hpos hex
    simp only [pushTo] at he hpos hex
    cases hjo : s.joining with
    | false => exact (S.idle hjo).2.2.1 i hex
    | true =>
      rcases early_append he with he | ⟨-, he⟩
      · by_cases e : i = k
        · subst e
          rw [upd_same, queued_push] at hpos
          by_cases ht : p.task = t
          · have h1 := C.submit t
            have h2 := C.pushing t
            have h3 := mem_countP_pos he.mem
            have h4 : 0 < s.pushing.countP fun p => p.task == t :=
              List.countP_pos_iff.2 ⟨p, List.mem_of_getElem? hj, by simp [ht]⟩
            split at h1 <;> omega
          · simp only [ht, if_false, Nat.add_zero] at hpos
            exact S.early t he i hi hpos hex
        · rw [upd_other _ _ e] at hpos
          exact S.early t he i hi hpos hex
      · exact he (S.act hjo)

theorem shut_step {N limit : Nat} {s s' : St} (S : Shut N s) (C : Counts N s) {a : Act}
    (h : step N limit s a = some s') : Shut N s' := by
  cases a with
  | submit prio i =>
    simp only [step] at h
    split at h
    · simp only [Option.some.injEq] at h; subst h
      exact shut_frame S rfl (fun _ => rfl) (fun _ => rfl) (fun _ h => h) (fun _ _ _ => Nat.le_refl _)
        (Or.inr ⟨_, rfl, by simp, by simp⟩)
    · simp at h
  | tryPush j locked =>
    simp only [step] at h
    split at h
    · simp at h
    · rename_i p hj
      split at h
      · simp at h
      · split at h
        · simp only [Option.some.injEq] at h; subst h
          exact shut_pushTo S C hj
        · simp only [Option.some.injEq] at h; subst h
          exact ⟨S.idle, S.act, S.early⟩
  | push j =>
    simp only [step] at h
    split at h
    · simp at h
    · rename_i p hj
      split at h
      · simp only [Option.some.injEq] at h; subst h
        exact shut_pushTo S C hj
      · simp at h
  | notify k =>
    simp only [step] at h
    split at h
    · simp only [Option.some.injEq] at h; subst h
      split
      · have h1 := shut_th (N := N) S (i := k) (pc := .awake) (by simp)
        exact ⟨h1.idle, h1.act, h1.early⟩
      · exact ⟨S.idle, S.act, S.early⟩
    · simp at h
  | tryPop i locked =>
    simp only [step] at h
    split at h
    · split at h
      · split at h
        · simp at h
        · split at h
          · split at h
            · simp only [Option.some.injEq] at h; subst h; exact shut_th S (by simp)
            · rename_i e q' hp
              simp only [Option.some.injEq] at h; subst h
              exact shut_take S rfl rfl hp
          · simp only [Option.some.injEq] at h; subst h; exact shut_th S (by simp)
      · simp at h
    · simp at h
  | enter i =>
    simp only [step] at h
    split at h
    · split at h
      · simp only [Option.some.injEq] at h; subst h
        refine shut_evalPop (N := N) ?_
        exact shut_frame S rfl (upd_q_done rfl) (fun _ => rfl) (fun _ h => h)
          (fun t j _ => upd_q_le (s := s) (v := { s.q i with waiting := true }) (fun _ => Nat.le_refl _) t j)
          (Or.inl rfl)
      · rename_i hiN
        simp only [Option.some.injEq] at h; subst h
        refine shut_evalWait (N := N) ?_ hiN
        exact ⟨S.idle, S.act, S.early⟩
    · simp at h
  | spurious i =>
    simp only [step] at h
    split at h
    · simp only [Option.some.injEq] at h; subst h
      exact shut_th S (by simp)
    · simp at h
  | resume i =>
    simp only [step] at h
    split at h
    · split at h
      · simp only [Option.some.injEq] at h; subst h
        exact shut_evalPop S
      · rename_i hiN
        simp only [Option.some.injEq] at h; subst h
        exact shut_evalWait S hiN
    · simp at h
  | finish i =>
    simp only [step] at h
    split at h
    · split at h
      · simp only [Option.some.injEq] at h; subst h
        exact shut_frame S rfl (fun _ => rfl) (fun _ => rfl) (upd_th (by simp)) (fun _ _ _ => Nat.le_refl _)
          (Or.inr ⟨_, rfl, by simp, by simp⟩)
      · simp at h
    · simp at h
  | wakeQ k =>
    simp only [step] at h
    split at h
    · simp only [Option.some.injEq] at h; subst h
      exact shut_frame S rfl (upd_q_done rfl) (fun _ => rfl) (fun _ h => h)
        (fun t j _ => upd_q_le (s := s) (v := { s.q k with waiting := false }) (fun _ => Nat.le_refl _) t j)
        (Or.inl rfl)
    · simp at h
  | wakeW j =>
    simp only [step] at h
    split at h
    · simp only [Option.some.injEq] at h; subst h
      exact ⟨S.idle, S.act, S.early⟩
    · simp at h
  | wNotify j =>
    simp only [step] at h
    split at h
    · simp only [Option.some.injEq] at h; subst h
      split
      · have h1 := shut_th (N := N) S (i := N + j) (pc := .awake) (by simp)
        exact ⟨h1.idle, h1.act, h1.early⟩
      · exact ⟨S.idle, S.act, S.early⟩
    · simp at h
  | addThread =>
    simp only [step] at h
    split at h
    · simp only [Option.some.injEq] at h; subst h
      have h1 := shut_th (N := N) S (i := s.nth) (pc := .scan 0) (by simp)
      exact ⟨h1.idle, h1.act, h1.early⟩
    · simp at h
  | join =>
    simp only [step] at h
    split at h
    · simp at h
    · rename_i hj
      simp only [Option.some.injEq] at h; subst h
      refine ⟨by simp, by simp, ?_⟩
      intro t he k hk hpos
      exact (S.idle (by simpa using hj)).2.2.1 k
  | doneQ k =>
    simp only [step] at h
    split at h
    · rename_i hc
      simp only [Option.some.injEq] at h; subst h
      refine ⟨fun h => ?_, S.act, ?_⟩
      · rw [hc.1] at h; simp at h
      · intro t he i hi hpos
        exact S.early t he i hi (Nat.lt_of_lt_of_le hpos
          (upd_q_le (s := s) (v := { s.q k with done := true }) (fun _ => Nat.le_refl _) t i))
    · simp at h
  | doneW j =>
    simp only [step] at h
    split at h
    · rename_i hc
      simp only [Option.some.injEq] at h; subst h
      refine ⟨fun h => ?_, S.act, S.early⟩
      rw [hc] at h; simp at h
    · simp at h

/-! ## All together -/

structure Inv (N : Nat) (s : St) : Prop where
  counts : Counts N s
  wake : Wake N s
  shut : Shut N s

theorem inv_init (N : Nat) : Inv N (init N) := ⟨counts_init N, wake_init N, shut_init N⟩

theorem inv_step {N limit : Nat} (hN : 0 < N) {s s' : St} (I : Inv N s) {a : Act}
    (h : step N limit s a = some s') : Inv N s' :=
  ⟨counts_step hN I.counts h, wake_step I.wake I.counts.nth h, shut_step I.shut I.counts h⟩

theorem inv_exec {N limit : Nat} (hN : 0 < N) : ∀ {as : List Act} {s s' : St}, Inv N s →
    exec N limit s as = some s' → Inv N s'
  | [], s, s', I, h => by simp only [exec, Option.some.injEq] at h; exact h ▸ I
  | a :: as, s, s', I, h => by
    simp only [exec] at h
    split at h
    · simp at h
    · rename_i s1 h1; exact inv_exec hN (inv_step hN I h1) h

theorem Reachable.inv {N limit : Nat} (hN : 0 < N) {s : St} (h : Reachable N limit s) : Inv N s := by
  obtain ⟨as, h⟩ := h
  exact inv_exec hN (inv_init N) h

end Verif.ThreadPool
